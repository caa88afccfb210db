import Verif.Proofs.SignGraph
import Verif.Proofs.SRRange

/-!
# Tests for improper beliefs under changes of sign

Where nothing but these tests can fail, they fail for both graphs or for neither.
-/
namespace Verif.Sign

open Verif.Gauss Verif.Items Verif.Belief Verif.ClusterGraph Verif.Reorder Verif.Param Verif.SR

/-- A message is the message without test and then the test. -/
theorem untested_inv {β : Type} {ops : Ops β} {c c1 : CG β} {k : ℕ} {fw na : Bool}
    (h : passMessage ops.untested c k fw na = Except.ok c1) :
    ∃ e r, nth c.edges k = Except.ok e ∧ atZ c1.clusters (ends e fw).2 = Except.ok r ∧
      r ∈ c1.clusters ∧ passMessage ops c k fw na = (do
        let proper ← ops.isProper r
        if proper then return c1
        else Res.raise "improper cluster belief after passing message") := by
  unfold passMessage at h ⊢
  obtain ⟨e, e1, h⟩ := inv_bind h
  obtain ⟨ci, e2, h⟩ := inv_bind h
  obtain ⟨b, e3, h⟩ := inv_bind h
  obtain ⟨es, e4, h⟩ := inv_bind h
  obtain ⟨cj, e5, h⟩ := inv_bind h
  obtain ⟨r1, e6, h⟩ := inv_bind h
  obtain ⟨r2, e7, h⟩ := inv_bind h
  obtain ⟨cl, e8, h⟩ := inv_bind h
  cases h
  have hset : atZ cl (ends e fw).2 = Except.ok r2 ∧ r2 ∈ cl := by
    unfold setZ at e8
    unfold atZ at e5 ⊢
    split at e8
    · cases e8
    · rename_i h0
      rw [if_neg h0] at e5 ⊢
      rcases lt_or_ge (ends e fw).2.toNat c.clusters.length with hl | hl
      · rw [setE_ok hl] at e8
        cases e8
        rw [atE_ok (by simpa using hl)]
        simp [List.mem_set hl]
      · rw [atE, List.getElem?_eq_none hl] at e5
        cases e5
  refine ⟨e, r2, e1, hset.1, hset.2, ?_⟩
  change ops.margin _ _ _ = _ at e3
  change ops.mul _ _ = _ at e6
  change ops.div _ _ = _ at e7
  change nth _ _ = _ at e1
  rw [e1]
  simp only [res_ok_bind]
  rw [e2]
  simp only [res_ok_bind]
  rw [show ops.margin ci (ops.items e.belief) na = Except.ok b from e3]
  simp only [res_ok_bind]
  rw [e4]
  simp only [res_ok_bind]
  rw [e5]
  simp only [res_ok_bind]
  rw [e6]
  simp only [res_ok_bind]
  rw [e7]
  simp only [res_ok_bind]
  rw [e8]
  rfl

variable {γ : Type} {s : ℤ → ℝ} {fo fo' : FactorOps γ} {st st' : Store γ NB} {K : ℕ}

/-- One message in both graphs: both tests fail or both messages are sent. -/
theorem passMessage_exact (C : Ctx s K fo fo' st st') {c c' c1 c1' : CG (Mixed γ NB)}
    (hc : GSign s K fo fo' st st' c c') (k : ℕ) (fw na : Bool)
    (h : passMessage (gops fo st).untested c k fw na = Except.ok c1)
    (h' : passMessage (gops fo' st').untested c' k fw na = Except.ok c1')
    (ht : ∀ b ∈ c1.clusters, ∃ t, (gops fo st).isProper b = Except.ok t)
    (ht' : ∀ b ∈ c1'.clusters, ∃ t, (gops fo' st').isProper b = Except.ok t) :
    (passMessage (gops fo st) c k fw na =
        Res.raise "improper cluster belief after passing message" ∧
      passMessage (gops fo' st') c' k fw na =
        Res.raise "improper cluster belief after passing message") ∨
    (passMessage (gops fo st) c k fw na = Except.ok c1 ∧
      passMessage (gops fo' st') c' k fw na = Except.ok c1' ∧ GSign s K fo fo' st st' c1 c1') := by
  obtain ⟨hcl, -⟩ := passMessage_key C hc k fw na (pr := fun _ => Except.ok true)
    (pr' := fun _ => Except.ok true) (fun _ _ _ => RelOk.ok rfl) c1 c1' h h'
  obtain ⟨e, r, e1, e2, hr, e3⟩ := untested_inv h
  obtain ⟨e', r', e1', e2', hr', e3'⟩ := untested_inv h'
  obtain ⟨t, g⟩ := ht r hr
  obtain ⟨t', g'⟩ := ht' r' hr'
  have hk : k < c.edges.length := by
    by_contra h0
    rw [nth, List.getElem?_eq_none (by omega)] at e1
    cases e1
  have hk' : k < c'.edges.length := by rwa [← hc.edges.length_eq]
  rw [nth_ok hk] at e1
  rw [nth_ok hk'] at e1'
  cases e1
  cases e1'
  obtain ⟨he1, he2, -⟩ := forall₂_at hc.edges hk hk'
  have hends : ends c.edges[k] fw = ends c'.edges[k] fw := by
    unfold ClusterGraph.ends
    rw [he1, he2]
  rw [← hends] at e2'
  have hb := atZ_rel hcl _ r r' e2 e2'
  have htt : t = t' := isProper_bel C.sign hb t t' g g'
  rw [g] at e3
  rw [g', ← htt] at e3'
  cases t with
  | false => exact Or.inl ⟨e3, e3'⟩
  | true => exact Or.inr ⟨e3, e3', passMessage_sign C hc k fw na c1 c1' e3 e3'⟩

theorem passAll_exact (C : Ctx s K fo fo' st st') : ∀ {ms : List Msg} {c c' : CG (Mixed γ NB)},
    GSign s K fo fo' st st' c c' → Safe (gops fo st) ms c → Safe (gops fo' st') ms c' →
    (passAll (gops fo st) c ms = Res.raise "improper cluster belief after passing message" ∧
      passAll (gops fo' st') c' ms =
        Res.raise "improper cluster belief after passing message") ∨
    ∃ d d', passAll (gops fo st) c ms = Except.ok d ∧ passAll (gops fo' st') c' ms = Except.ok d' ∧
      GSign s K fo fo' st st' d d'
  | [], c, c', hc, _, _ => Or.inr ⟨c, c', rfl, rfl, hc⟩
  | m :: ms, c, c', hc, ⟨c1, h, t, hs⟩, ⟨c1', h', t', hs'⟩ => by
    have e : ∀ (ops : Ops (Mixed γ NB)) c, passAll ops c (m :: ms) = (do
        let c' ← passMessage ops c m.1 m.2.1 m.2.2
        passAll ops c' ms) := fun _ _ => rfl
    rw [e, e]
    rcases passMessage_exact C hc _ _ _ h h' t t' with ⟨g, g'⟩ | ⟨g, g', hc1⟩
    · rw [g, g']
      exact Or.inl ⟨rfl, rfl⟩
    · rw [g, g']
      simp only [res_ok_bind]
      exact passAll_exact C hc1 hs hs'

theorem calibrate_exact (C : Ctx s K fo fo' st st') {c c' : CG (Mixed γ NB)}
    (hc : GSign s K fo fo' st st' c c') (fw na : Bool)
    (hs : Safe (gops fo st) (sweep c.edges.length fw na) c)
    (hs' : Safe (gops fo' st') (sweep c'.edges.length fw na) c') :
    (calibrateInternal (gops fo st) c fw na =
        Res.raise "improper cluster belief after passing message" ∧
      calibrateInternal (gops fo' st') c' fw na =
        Res.raise "improper cluster belief after passing message") ∨
    ∃ d d', calibrateInternal (gops fo st) c fw na = Except.ok d ∧
      calibrateInternal (gops fo' st') c' fw na = Except.ok d' ∧ GSign s K fo fo' st st' d d' := by
  rw [calibrate_is_passAll, calibrate_is_passAll]
  have := passAll_exact C hc hs (by rw [hc.edges.length_eq]; exact hs')
  rw [sweep, hc.edges.length_eq] at this
  rw [hc.edges.length_eq]
  exact this

/-- The log normalizing constants of two graphs whose beliefs differ in signs: both calls find an
improper belief or both return the same value. -/
theorem value_exact (C : Ctx s K fo fo' st st') {N : ℕ} (mean : Fin N → ℝ)
    (Q : Matrix (Fin N) (Fin N) ℝ) {c c' : CG (Mixed γ NB)} (h : GSign s K fo fo' st st' c c')
    (hr : ∀ b ∈ c.clusters, ∀ x ∈ b.items, 0 ≤ x ∧ x < N) (hs : SafeValue fo st mean Q c)
    (hs' : SafeValue fo' st' (fun i : Fin N => s i * mean i)
      (Matrix.of fun i j : Fin N => s i * Q i j * s j) c') :
    (do let c1 ← setNormalApprox fo st mean Q c
        let c2 ← calibrateForward (gops fo st) c1
        logNormalizingConstant (gops fo st) c2) =
    (do let c1 ← setNormalApprox fo' st' (fun i : Fin N => s i * mean i)
          (Matrix.of fun i j : Fin N => s i * Q i j * s j) c'
        let c2 ← calibrateForward (gops fo' st') c1
        logNormalizingConstant (gops fo' st') c2) := by
  obtain ⟨d, d', e0, e0', g0⟩ := init_sign C mean Q h hr
  have key : (setNormalApprox fo st mean Q c =
        Res.raise "improper cluster belief after passing message" ∧
      setNormalApprox fo' st' (fun i : Fin N => s i * mean i)
        (Matrix.of fun i j : Fin N => s i * Q i j * s j) c' =
        Res.raise "improper cluster belief after passing message") ∨
      ∃ a a', setNormalApprox fo st mean Q c = Except.ok a ∧
        setNormalApprox fo' st' (fun i : Fin N => s i * mean i)
          (Matrix.of fun i j : Fin N => s i * Q i j * s j) c' = Except.ok a' ∧
        GSign s K fo fo' st st' a a' := by
    unfold setNormalApprox
    rw [e0, e0']
    simp only [res_ok_bind]
    rcases calibrate_exact C g0 true true (hs.down d e0) (hs'.down d' e0') with
      ⟨e1, e1'⟩ | ⟨d1, d1', e1, e1', g1⟩
    · rw [e1, e1']
      exact Or.inl ⟨rfl, rfl⟩
    rw [e1, e1']
    simp only [res_ok_bind]
    rcases calibrate_exact C g1 false true (hs.up d d1 e0 e1) (hs'.up d' d1' e0' e1') with
      ⟨e2, e2'⟩ | ⟨d2, d2', e2, e2', g2⟩
    · rw [e2, e2']
      exact Or.inl ⟨rfl, rfl⟩
    rw [e2, e2']
    exact Or.inr ⟨_, _, rfl, rfl, fix_sign g2⟩
  rcases key with ⟨e, e'⟩ | ⟨a, a', e, e', g⟩
  · rw [e, e']
    rfl
  have hf := hs.forward a e
  have hf' := hs'.forward a' e'
  rw [e, e']
  simp only [res_ok_bind]
  rcases calibrate_exact C g true false hf hf' with ⟨e1, e1'⟩ | ⟨b, b', e1, e1', g1⟩
  · rw [calibrateForward, calibrateForward, e1, e1']
    rfl
  obtain ⟨v, hv⟩ := hs.value a b e e1
  obtain ⟨v', hv'⟩ := hs'.value a' b' e' e1'
  rw [calibrateForward, calibrateForward, e1, e1']
  simp only [res_ok_bind]
  rw [hv, hv', logNormalizingConstant_sign C g1 v v' hv hv']

end Verif.Sign
