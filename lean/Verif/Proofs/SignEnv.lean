import Verif.Proofs.SignFactors
import Verif.Proofs.SignQuad
import Verif.Proofs.SignBasis
import Verif.Props.SRRange

/-!
# The spline basis of the model is symmetric, for 32-bit conversions
-/
namespace Verif.Sign

open Verif.Spec Verif.BasisLevel Verif.SparseGrid Verif.Pars Verif.SR Verif.NormalQuantile Verif.Point

/-- Conversions that answer only with the value. -/
def Sound (ar : Arith) : Prop := ∀ z v, ar z = Except.ok v → v = z

theorem sound_u32 : Sound u32 := by
  intro z v h
  unfold u32 at h
  split at h
  · exact (Except.ok.inj h).symm
  · cases h

theorem sound_exactZ : Sound exactZ := fun _ _ h => (Except.ok.inj h).symm

theorem interval_le {aru : Arith} (hu : Sound aru) (b : Level) (x : ℝ) :
    Le (b.findIntervalId aru x) (b.findIntervalId exactZ x) := by
  unfold Level.findIntervalId
  refine (Le.refl _).bind fun k0 => ?_
  split
  · refine Le.bind ?_ fun _ => Le.refl _
    unfold divToInt
    split
    · exact Le.refl _
    · intro v hv
      rw [hu _ _ hv]
      rfl
  · exact Le.refl _

theorem basis_le {aru : Arith} (hu : Sound aru) (ls : List Level) :
    BLe (basis aru ls) (basis exactZ ls) := by
  refine ⟨fun l p => Le.refl _, fun x l p => ?_, fun x l p => ?_, fun x l p => ?_⟩ <;>
  · refine (Le.refl _).bind fun b => ?_
    exact (interval_le hu b x).bind fun _ => Le.refl _

theorem symBasis {Q : ℝ → ℝ} (hQ : QuantileOk Q) {k : ℕ} (hk : 1 ≤ k) :
    SymBasis k (kap Q k) (phi Q k) (phi' Q k) (phi'' Q k) :=
  ⟨fun _ _ _ hp => kap_mirror hQ hp, fun x _ _ hl hp => (phi_mirror hQ hk hl hp x).1,
    fun x _ _ hl hp => (phi_mirror hQ hk hl hp x).2.1,
    fun x _ _ hl hp => (phi_mirror hQ hk hl hp x).2.2⟩

theorem symEnv {lib : Lib} {pars : Parameters} {Q : ℝ → ℝ} (hQ : IsNormalQuantile Q)
    (haru : lib.aru = u32) {k d : ℕ} (hk : 1 ≤ k) (hk' : k ≤ 25) {ls : List Level}
    (hls : basisLevels i32 Q k = Except.ok ls) (hbas : pars.sparseBasis = ⟨ls, k⟩)
    (har : GridArOk lib.ar d k) : SymEnv (gridEnv lib pars) d := by
  obtain ⟨ls', e, h2, h3, -⟩ := basis_32 hQ hk hk'
  rw [hls] at e
  cases e
  have hok := quantileOk hQ
  have h4 := basis_ok (aru := exactZ) hok hk h2 h3 (by rw [dom_exactZ]; intros; trivial)
  rw [dom_exactZ] at h4
  have hlm : (gridEnv lib pars).levelMax = k := by
    simp only [gridEnv]
    rw [hbas]
    rfl
  refine ⟨⟨basis exactZ ls, kap Q k, phi Q k, phi' Q k, phi'' Q k, ?_, ?_⟩, ?_⟩
  · simp only [gridEnv]
    rw [hbas, haru]
    exact basis_le sound_u32 ls
  · rw [hlm]
    exact ⟨h4.1, h4.2, hierarchical hok hk, symBasis hok hk⟩
  · rw [hlm]
    exact har

end Verif.Sign
