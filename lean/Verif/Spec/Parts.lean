import Verif.Spec.Hol

/-!
# Specification of C105: models made of independent parts
-/
namespace Verif.Parts.Spec

open Verif.Split Verif.IS

variable {q₁ q₂ n₁ n₂ p p₁ p₂ : ℕ}

/-- The first observations are those of `M₁`, the others those of `M₂`; the linear predictor of an
observation depends on the random effects of its part only, and is the one there. -/
structure Parts (M : ModFr (q₁ + q₂) (n₁ + n₂) p) (M₁ : ModFr q₁ n₁ p₁) (M₂ : ModFr q₂ n₂ p₂)
    (theta beta theta₁ beta₁ theta₂ beta₂ : List ℝ) : Prop where
  resp₁ : ∀ j, M.resp (Fin.castAdd n₂ j) = M₁.resp j
  resp₂ : ∀ j, M.resp (Fin.natAdd n₁ j) = M₂.resp j
  weight₁ : ∀ j, Split.Spec.weight M (Fin.castAdd n₂ j) = Split.Spec.weight M₁ j
  weight₂ : ∀ j, Split.Spec.weight M (Fin.natAdd n₁ j) = Split.Spec.weight M₂ j
  eta₁ : ∀ u₁ u₂ j, Split.Spec.eta M theta beta (Fin.append u₁ u₂) (Fin.castAdd n₂ j) =
    Split.Spec.eta M₁ theta₁ beta₁ u₁ j
  eta₂ : ∀ u₁ u₂ j, Split.Spec.eta M theta beta (Fin.append u₁ u₂) (Fin.natAdd n₁ j) =
    Split.Spec.eta M₂ theta₂ beta₂ u₂ j

/-- The normal approximation of the whole is that of independent parts. -/
structure Independent (a : NormalApprox (q₁ + q₂)) (a₁ : NormalApprox q₁) (a₂ : NormalApprox q₂) :
    Prop where
  mean : a.mean = Fin.append a₁.mean a₂.mean
  precision₁ : ∀ i j, a.precision (Fin.castAdd q₂ i) (Fin.castAdd q₂ j) = a₁.precision i j
  precision₂ : ∀ i j, a.precision (Fin.natAdd q₁ i) (Fin.natAdd q₁ j) = a₂.precision i j
  cross₁ : ∀ i j, a.precision (Fin.castAdd q₂ i) (Fin.natAdd q₁ j) = 0
  cross₂ : ∀ i j, a.precision (Fin.natAdd q₁ i) (Fin.castAdd q₂ j) = 0

/-- Two model frames with the same parameters, one after the other: the observations and random effects
of `M₁` are followed by those of `M₂`. -/
noncomputable def stack (M₁ : ModFr q₁ n₁ p) (M₂ : ModFr q₂ n₂ p) : ModFr (q₁ + q₂) (n₁ + n₂) p where
  X := Matrix.of fun j k => Fin.addCases (fun j => M₁.X j k) (fun j => M₂.X j k) j
  Zt := Matrix.of fun r j => Fin.addCases
    (fun r => Fin.addCases (fun j => M₁.Zt r j) (fun _ => 0) j)
    (fun r => Fin.addCases (fun _ => 0) (fun j => M₂.Zt r j) j) r
  ztStored := fun r j => Fin.addCases
    (fun r => Fin.addCases (fun j => M₁.ztStored r j) (fun _ => false) j)
    (fun r => Fin.addCases (fun _ => false) (fun j => M₂.ztStored r j) j) r
  lambdat := M₁.lambdat.map (fun e => (Fin.castAdd q₂ e.1, Fin.castAdd q₂ e.2)) ++
    M₂.lambdat.map (fun e => (Fin.natAdd q₁ e.1, Fin.natAdd q₁ e.2))
  Lind := M₁.Lind ++ M₂.Lind
  resp := Fin.append M₁.resp M₂.resp
  weights := some (Fin.append (Split.Spec.weight M₁) (Split.Spec.weight M₂))
  offset := Fin.append M₁.offset M₂.offset

end Verif.Parts.Spec
