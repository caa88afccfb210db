import Verif.Base.Res
import Mathlib.Probability.CDF
import Mathlib.Probability.Distributions.Gaussian.Real
import Mathlib.Analysis.SpecialFunctions.Log.Basic

/-!
# Model of `src/Family.cpp`, `src/FamilyGivenMean.cpp`, `src/Binomial.cpp`, `src/Link.cpp`,
`src/LogitLink.cpp` and `src/ProbitLink.cpp`

Floating point numbers are real numbers, arrays of `n` numbers are functions on `Fin n`, and all
arithmetic on arrays is elementwise, as in Eigen. The normal distribution and density functions of
Boost (`cdf`, `pdf` in src/ProbitLink.cpp) are the mathematical ones.
-/
namespace Verif.Family

variable {n : ℕ}

/-! ## Links -/

namespace LogitLink

/-- src/LogitLink.cpp:7-10 `computeMean`. -/
noncomputable def computeMean (eta : Fin n → ℝ) : Fin n → ℝ := fun i =>
  Real.exp (eta i) / (1 + Real.exp (eta i))

/-- src/LogitLink.cpp:12-15 `computeMeanDerivative`. -/
noncomputable def computeMeanDerivative (eta : Fin n → ℝ) : Fin n → ℝ := fun i =>
  Real.exp (eta i) / (1 + Real.exp (eta i)) ^ 2

/-- src/LogitLink.cpp:17-20 `computeMeanSecondDerivative`. -/
noncomputable def computeMeanSecondDerivative (eta : Fin n → ℝ) : Fin n → ℝ := fun i =>
  Real.exp (eta i) * (1 - Real.exp (eta i)) / (1 + Real.exp (eta i)) ^ 3

/-- src/LogitLink.cpp:22-29 `computeMeanThirdDerivative`. -/
noncomputable def computeMeanThirdDerivative (eta : Fin n → ℝ) : Fin n → ℝ := fun i =>
  let numerator := Real.exp (eta i) * (-4 * Real.exp (eta i) + Real.exp (2 * eta i) + 1)
  let denominator := (1 + Real.exp (eta i)) ^ 4
  numerator / denominator

/-- src/LogitLink.cpp:31-38 `computeMeanFourthDerivative`. -/
noncomputable def computeMeanFourthDerivative (eta : Fin n → ℝ) : Fin n → ℝ := fun i =>
  let numerator := -Real.exp (eta i) *
    (11 * Real.exp (eta i) - 11 * Real.exp (2 * eta i) + Real.exp (3 * eta i) - 1)
  let denominator := (1 + Real.exp (eta i)) ^ 5
  numerator / denominator

end LogitLink

/-- Boost's `cdf(standardNormal_, x)`. Used for src/ProbitLink.cpp:7-13. -/
noncomputable def normalCdf (x : ℝ) : ℝ :=
  ProbabilityTheory.cdf (ProbabilityTheory.gaussianReal 0 1) x

/-- Boost's `pdf(standardNormal_, x)`. Used for src/ProbitLink.cpp:15-21. -/
noncomputable def normalPdf (x : ℝ) : ℝ := Real.exp (-x ^ 2 / 2) / Real.sqrt (2 * Real.pi)

namespace ProbitLink

/-- src/ProbitLink.cpp:7-13 `computeMean`. -/
noncomputable def computeMean (eta : Fin n → ℝ) : Fin n → ℝ := fun i => normalCdf (eta i)

/-- src/ProbitLink.cpp:15-21 `computeMeanDerivative`. -/
noncomputable def computeMeanDerivative (eta : Fin n → ℝ) : Fin n → ℝ := fun i => normalPdf (eta i)

/-- src/ProbitLink.cpp:23-29 `computeMeanSecondDerivative`. -/
noncomputable def computeMeanSecondDerivative (eta : Fin n → ℝ) : Fin n → ℝ := fun i =>
  -eta i * normalPdf (eta i)

/-- src/ProbitLink.cpp:31-37 `computeMeanThirdDerivative`. -/
noncomputable def computeMeanThirdDerivative (eta : Fin n → ℝ) : Fin n → ℝ := fun i =>
  ((eta i) ^ 2 - 1) * normalPdf (eta i)

/-- src/ProbitLink.cpp:40-46 `computeMeanFourthDerivative`. -/
noncomputable def computeMeanFourthDerivative (eta : Fin n → ℝ) : Fin n → ℝ := fun i =>
  (-(eta i) ^ 3 + 3 * eta i) * normalPdf (eta i)

end ProbitLink

/-- The object behind `Link::link_` (inst/include/Link.h). -/
inductive LinkImpl
  | logit
  | probit
  deriving DecidableEq

/-- inst/include/Link.h: `std::shared_ptr<LinkBase> link_`, null for a default-constructed link. -/
abbrev Link := Option LinkImpl

namespace Link

/-- src/Link.cpp:10-23, constructor from a name (`initialize`). -/
def ofName (type : String) : Res Link :=
  if type = "logit" then Except.ok (some .logit)
  else if type = "probit" then Except.ok (some .probit)
  else Res.raise "constructing a family of unknown type"

/-- src/Link.cpp:25-28; calling through a null pointer is undefined behaviour. -/
noncomputable def computeMean (link : Link) (eta : Fin n → ℝ) : Res (Fin n → ℝ) := match link with
  | none => Res.ub
  | some .logit => Except.ok (LogitLink.computeMean eta)
  | some .probit => Except.ok (ProbitLink.computeMean eta)

/-- src/Link.cpp:30-33. -/
noncomputable def computeMeanDerivative (link : Link) (eta : Fin n → ℝ) : Res (Fin n → ℝ) :=
  match link with
  | none => Res.ub
  | some .logit => Except.ok (LogitLink.computeMeanDerivative eta)
  | some .probit => Except.ok (ProbitLink.computeMeanDerivative eta)

/-- src/Link.cpp:35-38. -/
noncomputable def computeMeanSecondDerivative (link : Link) (eta : Fin n → ℝ) : Res (Fin n → ℝ) :=
  match link with
  | none => Res.ub
  | some .logit => Except.ok (LogitLink.computeMeanSecondDerivative eta)
  | some .probit => Except.ok (ProbitLink.computeMeanSecondDerivative eta)

/-- src/Link.cpp:40-43. -/
noncomputable def computeMeanThirdDerivative (link : Link) (eta : Fin n → ℝ) : Res (Fin n → ℝ) :=
  match link with
  | none => Res.ub
  | some .logit => Except.ok (LogitLink.computeMeanThirdDerivative eta)
  | some .probit => Except.ok (ProbitLink.computeMeanThirdDerivative eta)

/-- src/Link.cpp:45-48. -/
noncomputable def computeMeanFourthDerivative (link : Link) (eta : Fin n → ℝ) : Res (Fin n → ℝ) :=
  match link with
  | none => Res.ub
  | some .logit => Except.ok (LogitLink.computeMeanFourthDerivative eta)
  | some .probit => Except.ok (ProbitLink.computeMeanFourthDerivative eta)

/-- src/Link.cpp:51-54 `getName` (src/LogitLink.cpp:40-43, src/ProbitLink.cpp:49-52). -/
def getName (link : Link) : Res String := match link with
  | none => Res.ub
  | some .logit => Except.ok "logit"
  | some .probit => Except.ok "probit"

end Link

/-! ## Families given the mean -/

namespace Binomial

/-- src/Binomial.cpp:9, the constant `epsilon`. -/
noncomputable def epsilon : ℝ := 1e-8

/-- src/Binomial.cpp:7-16 `checkMean`: each element in turn is replaced. -/
noncomputable def checkMean (mean : Fin n → ℝ) : Fin n → ℝ := fun i =>
  let m := if mean i < epsilon then epsilon else mean i
  if m > 1 - epsilon then 1 - epsilon else m

/-- src/Binomial.cpp:18-24 `evaluate`. -/
noncomputable def evaluate (mean response weights : Fin n → ℝ) : ℝ :=
  ∑ i, weights i * (response i * Real.log (mean i) + (1 - response i) * Real.log (1 - mean i))

/-- src/Binomial.cpp:26-31 `evaluateDerivative`. -/
noncomputable def evaluateDerivative (mean response weights : Fin n → ℝ) : Fin n → ℝ := fun i =>
  weights i * (response i / mean i - (1 - response i) / (1 - mean i))

/-- src/Binomial.cpp:33-38 `evaluateSecondDerivative`. -/
noncomputable def evaluateSecondDerivative (mean response weights : Fin n → ℝ) : Fin n → ℝ :=
  fun i => -weights i *
    (response i * mean i ^ (-2 : ℤ) + (1 - response i) * (1 - mean i) ^ (-2 : ℤ))

/-- src/Binomial.cpp:40-45 `evaluateThirdDerivative`. -/
noncomputable def evaluateThirdDerivative (mean response weights : Fin n → ℝ) : Fin n → ℝ :=
  fun i => 2 * weights i *
    (response i * mean i ^ (-3 : ℤ) - (1 - response i) * (1 - mean i) ^ (-3 : ℤ))

/-- src/Binomial.cpp:47-52 `evaluateFourthDerivative`. -/
noncomputable def evaluateFourthDerivative (mean response weights : Fin n → ℝ) : Fin n → ℝ :=
  fun i => -6 * weights i *
    (response i * mean i ^ (-4 : ℤ) + (1 - response i) * (1 - mean i) ^ (-4 : ℤ))

end Binomial

/-- The object behind `FamilyGivenMean::familyGivenMean_` (inst/include/FamilyGivenMean.h). -/
inductive FamilyImpl
  | binomial
  deriving DecidableEq

/-- inst/include/FamilyGivenMean.h: a shared pointer, null when default-constructed. -/
abbrev FamilyGivenMean := Option FamilyImpl

namespace FamilyGivenMean

/-- src/FamilyGivenMean.cpp:12-23, constructor from a name (`initialize`). -/
def ofName (type : String) : Res FamilyGivenMean :=
  if type = "binomial" then Except.ok (some .binomial) else Res.raise "constructing a family of unknown type"

/-- src/FamilyGivenMean.cpp:25-28 `checkMean`; calling through a null pointer is undefined
behaviour. The mean, changed in place there, is returned here. -/
noncomputable def checkMean (f : FamilyGivenMean) (mean : Fin n → ℝ) : Res (Fin n → ℝ) :=
  match f with
  | none => Res.ub
  | some .binomial => Except.ok (Binomial.checkMean mean)

/-- src/FamilyGivenMean.cpp:30-35 `evaluate`. -/
noncomputable def evaluate (f : FamilyGivenMean) (mean response weights : Fin n → ℝ) : Res ℝ :=
  match f with
  | none => Res.ub
  | some .binomial => Except.ok (Binomial.evaluate mean response weights)

/-- src/FamilyGivenMean.cpp:37-43. -/
noncomputable def evaluateDerivative (f : FamilyGivenMean) (mean response weights : Fin n → ℝ) :
    Res (Fin n → ℝ) := match f with
  | none => Res.ub
  | some .binomial => Except.ok (Binomial.evaluateDerivative mean response weights)

/-- src/FamilyGivenMean.cpp:45-50. -/
noncomputable def evaluateSecondDerivative (f : FamilyGivenMean)
    (mean response weights : Fin n → ℝ) : Res (Fin n → ℝ) := match f with
  | none => Res.ub
  | some .binomial => Except.ok (Binomial.evaluateSecondDerivative mean response weights)

/-- src/FamilyGivenMean.cpp:52-57. -/
noncomputable def evaluateThirdDerivative (f : FamilyGivenMean)
    (mean response weights : Fin n → ℝ) : Res (Fin n → ℝ) := match f with
  | none => Res.ub
  | some .binomial => Except.ok (Binomial.evaluateThirdDerivative mean response weights)

/-- src/FamilyGivenMean.cpp:59-64. -/
noncomputable def evaluateFourthDerivative (f : FamilyGivenMean)
    (mean response weights : Fin n → ℝ) : Res (Fin n → ℝ) := match f with
  | none => Res.ub
  | some .binomial => Except.ok (Binomial.evaluateFourthDerivative mean response weights)

/-- src/FamilyGivenMean.cpp:66-69 `getName` (src/Binomial.cpp:54-57). -/
def getName (f : FamilyGivenMean) : Res String := match f with
  | none => Res.ub
  | some .binomial => Except.ok "binomial"

end FamilyGivenMean

/-! ## `class Family` -/

/-- inst/include/Family.h: private members; `default` is the default constructor,
src/Family.cpp:3-5. -/
structure Family where
  link : Link
  familyGivenMean : FamilyGivenMean

namespace Family

/-- src/Family.cpp:3-5, default constructor. -/
def empty : Family := ⟨none, none⟩

/-- src/Family.cpp:12-16, constructor from names (the members are initialized in the order of their
declaration, link first). -/
def ofNames (familyName linkName : String) : Res Family := do
  let link ← Link.ofName linkName
  let familyGivenMean ← FamilyGivenMean.ofName familyName
  return ⟨link, familyGivenMean⟩

/-- src/Family.cpp:49-56 `evaluate`. -/
noncomputable def evaluate (f : Family) (eta response weights : Fin n → ℝ) : Res ℝ := do
  let mean ← f.link.computeMean eta
  let mean ← f.familyGivenMean.checkMean mean
  f.familyGivenMean.evaluate mean response weights

/-- src/Family.cpp:59-67 `evaluateDerivative`. -/
noncomputable def evaluateDerivative (f : Family) (eta response weights : Fin n → ℝ) :
    Res (Fin n → ℝ) := do
  let mean ← f.link.computeMean eta
  let mean ← f.familyGivenMean.checkMean mean
  let meanDerivative ← f.link.computeMeanDerivative eta
  let familyDerivative ← f.familyGivenMean.evaluateDerivative mean response weights
  return meanDerivative * familyDerivative

/-- src/Family.cpp:70-82 `evaluateSecondDerivative`. -/
noncomputable def evaluateSecondDerivative (f : Family) (eta response weights : Fin n → ℝ) :
    Res (Fin n → ℝ) := do
  let mean ← f.link.computeMean eta
  let mean ← f.familyGivenMean.checkMean mean
  let meanDerivative ← f.link.computeMeanDerivative eta
  let meanSecondDerivative ← f.link.computeMeanSecondDerivative eta
  let familyDerivative ← f.familyGivenMean.evaluateDerivative mean response weights
  let familySecondDerivative ← f.familyGivenMean.evaluateSecondDerivative mean response weights
  return meanDerivative ^ 2 * familySecondDerivative + meanSecondDerivative * familyDerivative

/-- src/Family.cpp:84-99 `evaluateThirdDerivative`. -/
noncomputable def evaluateThirdDerivative (f : Family) (eta response weights : Fin n → ℝ) :
    Res (Fin n → ℝ) := do
  let mean ← f.link.computeMean eta
  let mean ← f.familyGivenMean.checkMean mean
  let meanD1 ← f.link.computeMeanDerivative eta
  let meanD2 ← f.link.computeMeanSecondDerivative eta
  let meanD3 ← f.link.computeMeanThirdDerivative eta
  let familyD1 ← f.familyGivenMean.evaluateDerivative mean response weights
  let familyD2 ← f.familyGivenMean.evaluateSecondDerivative mean response weights
  let familyD3 ← f.familyGivenMean.evaluateThirdDerivative mean response weights
  return meanD1 ^ 3 * familyD3 + 3 * meanD1 * meanD2 * familyD2 + meanD3 * familyD1

/-- src/Family.cpp:101-123 `evaluateFourthDerivative`. -/
noncomputable def evaluateFourthDerivative (f : Family) (eta response weights : Fin n → ℝ) :
    Res (Fin n → ℝ) := do
  let mean ← f.link.computeMean eta
  let mean ← f.familyGivenMean.checkMean mean
  let meanD1 ← f.link.computeMeanDerivative eta
  let meanD2 ← f.link.computeMeanSecondDerivative eta
  let meanD3 ← f.link.computeMeanThirdDerivative eta
  let meanD4 ← f.link.computeMeanFourthDerivative eta
  let familyD1 ← f.familyGivenMean.evaluateDerivative mean response weights
  let familyD2 ← f.familyGivenMean.evaluateSecondDerivative mean response weights
  let familyD3 ← f.familyGivenMean.evaluateThirdDerivative mean response weights
  let familyD4 ← f.familyGivenMean.evaluateFourthDerivative mean response weights
  let t4 := meanD1 ^ 4 * familyD4
  let t3 := 6 * meanD1 ^ 2 * meanD2 * familyD3
  let t2 := (4 * meanD1 * meanD3 + 3 * meanD2 ^ 2) * familyD2
  let t1 := meanD4 * familyD1
  return t4 + t3 + t2 + t1

end Family

end Verif.Family
