import Verif.Model.NormalApprox
import Verif.Proofs.ClusterMsg

/-! Building the cluster graph and passing normal-only messages never store an integral. -/
namespace Verif.Gauss

open Verif.Belief Verif.ClusterGraph Verif.DepGraph

variable {β γ ν : Type}

theorem initializeInternal_congr {ops ops' : Ops β} (hi : ops.items = ops'.items)
    (ho : ops.ofItems = ops'.ofItems) (ar : Arith) : ∀ (fuel : ℕ) (g : Graph) (c : CG β)
    (hanging : List ℕ), initializeInternal ar ops fuel g c hanging =
      initializeInternal ar ops' fuel g c hanging
  | 0, _, _, _ => rfl
  | fuel + 1, g, c, hanging => by
    have ha : ∀ cluster id, attachStep ops cluster id = attachStep ops' cluster id := by
      intro cluster id
      funext s k
      simp only [attachStep, hi]
    have he : eliminate ops g c hanging = eliminate ops' g c hanging := by
      simp only [eliminate, ha, ho]
    have hf : finish ops g c hanging = finish ops' g c hanging := by
      simp only [finish, ho]
    rw [initializeInternal, initializeInternal, he, hf]
    congr 1
    funext b
    split
    · rfl
    · congr 1
      funext s
      exact initializeInternal_congr hi ho ar fuel _ _ _

theorem ofBeliefs_congr {ops ops' : Ops β} (hi : ops.items = ops'.items)
    (ho : ops.ofItems = ops'.ofItems) (hm : ops.mul = ops'.mul) (ar : Arith) (beliefs : List β) :
    ofBeliefs ar ops beliefs = ofBeliefs ar ops' beliefs := by
  have hp : ∀ cs bs, populateClusters ops cs bs = populateClusters ops' cs bs := by
    intro cs
    induction cs with
    | nil => intro bs; rfl
    | cons c cs ih =>
      intro bs
      simp only [populateClusters, mulAll, hi, hm, ih]
  simp only [ofBeliefs, initStructure, populate, hi, hp, initializeInternal_congr hi ho]

/-- The cluster graph does not depend on how integrals are stored. -/
theorem ofBeliefs_store (fo : FactorOps γ) (no : NormalOps ν) (st st' : Store γ ν) (ar : Arith)
    (beliefs : List (Mixed γ ν)) : ofBeliefs ar (Mixed.ops fo no st) beliefs =
      ofBeliefs ar (Mixed.ops fo no st') beliefs :=
  ofBeliefs_congr (ops := Mixed.ops fo no st) (ops' := Mixed.ops fo no st') rfl rfl rfl ar beliefs

theorem passMessage_store (fo : FactorOps γ) (no : NormalOps ν) (st st' : Store γ ν)
    (c : CG (Mixed γ ν)) (k : ℕ) (fw : Bool) : passMessage (Mixed.ops fo no st) c k fw true =
      passMessage (Mixed.ops fo no st') c k fw true := by
  have hm : ∀ b l, (Mixed.ops fo no st).margin b l true = (Mixed.ops fo no st').margin b l true := by
    intro b l
    show Mixed.margin fo no st b l true = Mixed.margin fo no st' b l true
    rw [Mixed.margin, Mixed.margin, if_pos rfl, if_pos rfl]
  simp only [passMessage, hm]
  rfl

theorem setNormalApprox_store (fo : FactorOps γ) (st st' : Store γ NB) {n : ℕ}
    (mean : Fin n → ℝ) (precision : Matrix (Fin n) (Fin n) ℝ) (c : CG (Mixed γ NB)) :
    setNormalApprox fo st mean precision c = setNormalApprox fo st' mean precision c := by
  have hp : ∀ (c : CG (Mixed γ NB)) fw, calibrateInternal (Mixed.ops fo NB.ops st) c fw true =
      calibrateInternal (Mixed.ops fo NB.ops st') c fw true := by
    intro c fw
    simp only [calibrateInternal, passMessage_store fo NB.ops st st']
  simp only [setNormalApprox, hp]

end Verif.Gauss
