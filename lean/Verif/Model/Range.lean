import Verif.Model.Family
import Verif.Model.IS

/-!
# Numbers of limited range

The functions of `src/LogitLink.cpp`, `src/Binomial.cpp`, `src/Family.cpp` and lines 83-84 of `R/IS.R`
once more, with the range of double precision numbers: a result that is too large becomes infinite, and
operations on infinite values follow IEEE 754. Otherwise results are exact: rounding and underflow are
not modelled, and zero is taken as positive when divided by. `exp` is `std::exp` for each element; where
Eigen computes several elements at once its exponential may limit the argument first, which is not
modelled.
-/
namespace Verif.Range

/-! ## Double precision numbers -/

/-- The largest double precision number. Used for src/LogitLink.cpp:7-10. -/
def dblMax : ℝ := (2 ^ 53 - 1) * 2 ^ 971

/-- The smallest real number that is rounded to infinity. Used for src/LogitLink.cpp:7-10. -/
def overflow : ℝ := 2 ^ 1024 - 2 ^ 970

/-- A double precision number, or a special value. Used for src/LogitLink.cpp:7-10. -/
inductive Dbl where
  | num (x : ℝ)
  | inf
  | ninf
  | nan

namespace Dbl

/-- A real number as a result: infinite if too large; between the largest number and the next power of
two it may still be rounded down. Used for src/LogitLink.cpp:7-10. -/
noncomputable def ofReal (x : ℝ) : Dbl :=
  if overflow ≤ x then .inf
  else if x ≤ -overflow then .ninf
  else .num (max (-dblMax) (min x dblMax))

/-- IEEE 754 addition. Used for src/LogitLink.cpp:7-10. -/
noncomputable def add : Dbl → Dbl → Dbl
  | .nan, _ => .nan
  | _, .nan => .nan
  | .num x, .num y => ofReal (x + y)
  | .inf, .ninf => .nan
  | .ninf, .inf => .nan
  | .inf, _ => .inf
  | _, .inf => .inf
  | .ninf, _ => .ninf
  | _, .ninf => .ninf

/-- Change of sign. Used for src/LogitLink.cpp:31-38. -/
def neg : Dbl → Dbl
  | .num x => .num (-x)
  | .inf => .ninf
  | .ninf => .inf
  | .nan => .nan

/-- IEEE 754 subtraction. Used for src/LogitLink.cpp:17-20. -/
noncomputable def sub (a b : Dbl) : Dbl := add a (neg b)

/-- Product of a number and positive infinity. Used for src/LogitLink.cpp:17-20. -/
noncomputable def timesInf (x : ℝ) : Dbl := if 0 < x then .inf else if x < 0 then .ninf else .nan

/-- IEEE 754 multiplication. Used for src/LogitLink.cpp:17-20. -/
noncomputable def mul : Dbl → Dbl → Dbl
  | .nan, _ => .nan
  | _, .nan => .nan
  | .num x, .num y => ofReal (x * y)
  | .num x, .inf => timesInf x
  | .inf, .num x => timesInf x
  | .num x, .ninf => timesInf (-x)
  | .ninf, .num x => timesInf (-x)
  | .inf, .inf => .inf
  | .ninf, .ninf => .inf
  | .inf, .ninf => .ninf
  | .ninf, .inf => .ninf

/-- IEEE 754 division. Used for src/LogitLink.cpp:7-10. -/
noncomputable def div : Dbl → Dbl → Dbl
  | .nan, _ => .nan
  | _, .nan => .nan
  | .num x, .num y => if y = 0 then timesInf x else ofReal (x / y)
  | .num _, _ => .num 0
  | .inf, .num y => if 0 ≤ y then .inf else .ninf
  | .ninf, .num y => if 0 ≤ y then .ninf else .inf
  | _, _ => .nan

/-- `exp`. Used for src/LogitLink.cpp:7-10. -/
noncomputable def exp : Dbl → Dbl
  | .num x => ofReal (Real.exp x)
  | .inf => .inf
  | .ninf => .num 0
  | .nan => .nan

/-- `log`. Used for src/Binomial.cpp:23. -/
noncomputable def log : Dbl → Dbl
  | .num x => if 0 < x then ofReal (Real.log x) else if x = 0 then .ninf else .nan
  | .inf => .inf
  | .ninf => .nan
  | .nan => .nan

/-- `pow(x, k)` for `k > 0`. Used for src/LogitLink.cpp:12-15. -/
noncomputable def pow (k : ℕ) : Dbl → Dbl
  | .num x => ofReal (x ^ k)
  | .inf => .inf
  | .ninf => if Even k then .inf else .ninf
  | .nan => .nan

/-- `a < b`, false if one of them is not a number. Used for src/Binomial.cpp:7-16. -/
def Less : Dbl → Dbl → Prop
  | .nan, _ => False
  | _, .nan => False
  | .num x, .num y => x < y
  | .inf, _ => False
  | _, .inf => True
  | _, .ninf => False
  | .ninf, _ => True

end Dbl

open Dbl

variable {n : ℕ}

/-! ## `src/LogitLink.cpp` -/

/-- src/LogitLink.cpp:7-10 `computeMean`, one element. -/
noncomputable def computeMean (eta : Dbl) : Dbl := div (exp eta) (add (.num 1) (exp eta))

/-- src/LogitLink.cpp:12-15 `computeMeanDerivative`, one element. -/
noncomputable def computeMeanDerivative (eta : Dbl) : Dbl :=
  div (exp eta) (pow 2 (add (.num 1) (exp eta)))

/-- src/LogitLink.cpp:17-20 `computeMeanSecondDerivative`, one element. -/
noncomputable def computeMeanSecondDerivative (eta : Dbl) : Dbl :=
  div (mul (exp eta) (sub (.num 1) (exp eta))) (pow 3 (add (.num 1) (exp eta)))

/-- src/LogitLink.cpp:22-29 `computeMeanThirdDerivative`, one element. -/
noncomputable def computeMeanThirdDerivative (eta : Dbl) : Dbl :=
  let numerator := mul (exp eta)
    (add (add (mul (.num (-4)) (exp eta)) (exp (mul (.num 2) eta))) (.num 1))
  let denominator := pow 4 (add (.num 1) (exp eta))
  div numerator denominator

/-- src/LogitLink.cpp:31-38 `computeMeanFourthDerivative`, one element. -/
noncomputable def computeMeanFourthDerivative (eta : Dbl) : Dbl :=
  let numerator := mul (neg (exp eta))
    (sub (add (sub (mul (.num 11) (exp eta)) (mul (.num 11) (exp (mul (.num 2) eta))))
      (exp (mul (.num 3) eta))) (.num 1))
  let denominator := pow 5 (add (.num 1) (exp eta))
  div numerator denominator

/-! ## `src/Binomial.cpp`, `src/Family.cpp` -/

open Classical in
/-- src/Binomial.cpp:7-16 `checkMean`, one element. -/
noncomputable def checkMean (mean : Dbl) : Dbl :=
  let m := if Less mean (.num Family.Binomial.epsilon) then .num Family.Binomial.epsilon else mean
  if Less (.num (1 - Family.Binomial.epsilon)) m then .num (1 - Family.Binomial.epsilon) else m

/-- src/Binomial.cpp:23, one term. -/
noncomputable def term (mean : Dbl) (response weight : ℝ) : Dbl :=
  mul (.num weight) (add (mul (.num response) (log mean))
    (mul (sub (.num 1) (.num response)) (log (sub (.num 1) mean))))

/-- A sum, from the first term to the last. Used for src/Family.cpp:49-56. -/
noncomputable def sum (l : List Dbl) : Dbl := l.foldl add (.num 0)

/-- src/Family.cpp:49-56 `evaluate` for the binomial family and the logit link
(src/Binomial.cpp:18-24). -/
noncomputable def evaluate (eta : Fin n → Dbl) (response weights : Fin n → ℝ) : Dbl :=
  sum (List.ofFn fun i => term (checkMean (computeMean (eta i))) (response i) (weights i))

/-! ## `R/IS.R` -/

/-- Addition in `long double`, whose range is not reached by sums of double precision numbers.
Used for src/Binomial.cpp:7-16. -/
noncomputable def addLong : Dbl → Dbl → Dbl
  | .num x, .num y => .num (x + y)
  | a, b => add a b

/-- R's `mean(x)`: the sum in `long double`, divided by the length. The second pass, which corrects
rounding, is left out. Used for src/Binomial.cpp:7-16. -/
noncomputable def mean (l : List Dbl) : Dbl := match l.foldl addLong (.num 0) with
  | .num x => ofReal (x / l.length)
  | a => a

/-- R/IS.R:83-84. -/
noncomputable def logMeanExp (log_weights : List Dbl) : Dbl :=
  let b := mean log_weights
  add (log (mean (log_weights.map fun x => exp (sub x b)))) b

/-- R/IS.R:79-85, the closure `lfun`, with the range of numbers in lines 83-84. -/
noncomputable def lfunIS {q n p r : ℕ} (chol : Matrix (Fin q) (Fin q) ℝ → Matrix (Fin q) (Fin q) ℝ)
    (fam : IS.Fam) (M : Split.ModFr q n p) (nTheta : ℕ) (approx : IS.NormalApprox q)
    (z : Matrix (Fin q) (Fin r) ℝ) (pars : List ℝ) : Res Dbl := do
  let log_integrand ← IS.findLogIntegrand fam pars M nTheta
  return logMeanExp (List.ofFn fun s => .num (IS.findLogWeights chol z (log_integrand r) approx s))

end Verif.Range
