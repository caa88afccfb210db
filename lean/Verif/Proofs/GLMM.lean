import Verif.Spec.GLMM
import Mathlib.Data.List.GetD

/-! # GLMM factors: the caches -/
namespace Verif.GLMM

open Verif.Family Verif.Pars Matrix

variable {d n p : ℕ}

theorem read_ok {theta : List ℝ} {k : ℤ} (h0 : 0 ≤ k) (h1 : k < theta.length) :
    read theta k = Except.ok (theta.getD k.toNat 0) := by
  have h2 : k.toNat < theta.length := by omega
  rw [read, if_neg (by omega), nth_ok h2, List.getD_eq_getElem _ _ h2]

theorem read_inv {theta : List ℝ} {k : ℤ} {v : ℝ} (h : read theta k = Except.ok v) :
    0 ≤ k ∧ k < theta.length := by
  unfold read at h
  split at h
  · cases h
  · rename_i hk
    by_cases h2 : k.toNat < theta.length
    · omega
    · rw [nth, List.getElem?_eq_none (by omega)] at h
      cases h

theorem nth_inv {α : Type} {l : List α} {k : ℕ} {v : α} (h : nth l k = Except.ok v) :
    k < l.length ∧ ∀ x, v = l.getD k x := by
  by_cases h2 : k < l.length
  · rw [nth_ok h2] at h
    cases h
    exact ⟨h2, fun x => (List.getD_eq_getElem _ _ h2).symm⟩
  · rw [nth, List.getElem?_eq_none (by omega)] at h
    cases h

theorem fill_inv {Lind : List ℤ} {theta : List ℝ} : ∀ {es : List (Fin d × Fin d)} {idx : ℕ}
    {m M : Matrix (Fin d) (Fin d) ℝ}, fill read Lind theta es idx m = Except.ok M →
    ∀ k < es.length, idx + k < Lind.length ∧ 0 ≤ Lind.getD (idx + k) 0 ∧
      Lind.getD (idx + k) 0 < theta.length
  | [], _, _, _, _, k, hk => absurd hk (Nat.not_lt_zero k)
  | (r, c) :: rest, idx, m, M, h, k, hk => by
    rw [fill] at h
    rcases h1 : nth Lind idx with e | z
    · rw [h1] at h; cases h
    rw [h1] at h
    simp only [res_ok_bind] at h
    rcases h2 : read theta z with e | v
    · rw [h2] at h; cases h
    rw [h2] at h
    simp only [res_ok_bind] at h
    obtain ⟨h3, h4⟩ := nth_inv h1
    have h5 := read_inv h2
    rw [h4 0] at h5
    rcases k with _ | k
    · exact ⟨h3, h5⟩
    · have := fill_inv h k (by simpa using hk)
      rwa [show idx + 1 + k = idx + (k + 1) by omega] at this

theorem fill_ok {Lind : List ℤ} {theta : List ℝ} : ∀ (es : List (Fin d × Fin d)) (idx : ℕ)
    (m : Matrix (Fin d) (Fin d) ℝ), es.Nodup →
    (∀ k < es.length, idx + k < Lind.length ∧ 0 ≤ Lind.getD (idx + k) 0 ∧
      Lind.getD (idx + k) 0 < theta.length) →
    ∃ M, fill read Lind theta es idx m = Except.ok M ∧
      (∀ r c, (r, c) ∉ es → M r c = m r c) ∧
      ∀ (k : ℕ) (hk : k < es.length), M es[k].1 es[k].2 =
        theta.getD (Lind.getD (idx + k) 0).toNat 0
  | [], _, m, _, _ => ⟨m, rfl, fun _ _ _ => rfl, fun k hk => absurd hk (Nat.not_lt_zero k)⟩
  | (r, c) :: rest, idx, m, hn, h => by
    obtain ⟨h1, h2, h3⟩ := h 0 (Nat.succ_pos _)
    rw [List.nodup_cons] at hn
    obtain ⟨M, e, hM1, hM2⟩ := fill_ok (Lind := Lind) (theta := theta) rest (idx + 1)
      (m.updateRow r (Function.update (fun j => m r j) c (theta.getD (Lind.getD idx 0).toNat 0))) hn.2
      (fun k hk => by
        have := h (k + 1) (Nat.succ_lt_succ hk)
        rwa [show idx + (k + 1) = idx + 1 + k by omega] at this)
    refine ⟨M, ?_, ?_, ?_⟩
    · have h1' : idx < Lind.length := h1
      rw [Nat.add_zero] at h2 h3
      rw [fill, nth_ok h1']
      simp only [res_ok_bind]
      rw [← List.getD_eq_getElem _ 0 h1', read_ok h2 h3]
      simp only [res_ok_bind]
      exact e
    · intro r' c' hrc
      rw [List.mem_cons, not_or] at hrc
      rw [hM1 r' c' hrc.2]
      by_cases hr : r' = r
      · subst hr
        rw [Matrix.updateRow_self, Function.update_of_ne]
        rintro rfl
        exact hrc.1 rfl
      · rw [Matrix.updateRow_ne hr]
    · intro k hk
      rcases k with _ | k
      · show M r c = _
        rw [hM1 r c hn.1, Matrix.updateRow_self, Function.update_self]
        rfl
      · have := hM2 k (by simpa using hk)
        rw [show idx + (k + 1) = idx + 1 + k by omega]
        exact this

theorem fill_spec {D : Data d n p} {theta : List ℝ} (hn : D.entries.Nodup)
    (h : Spec.Indexed D theta.length) :
    fill read D.Lind theta D.entries 0 0 = Except.ok (Spec.lambdat D theta) := by
  obtain ⟨M, e, h1, h2⟩ := fill_ok (Lind := D.Lind) (theta := theta) D.entries 0 0 hn
    (fun k hk => by rw [Nat.zero_add]; exact h k hk)
  rw [e]
  congr 1
  ext r c
  show _ = ∑ k : Fin D.entries.length, _
  by_cases hm : (r, c) ∈ D.entries
  · obtain ⟨k, hk, hk'⟩ := List.getElem_of_mem hm
    rw [Finset.sum_eq_single (⟨k, hk⟩ : Fin D.entries.length)]
    · have := h2 k hk
      rw [hk'] at this
      rw [if_pos (by exact hk'), this, Nat.zero_add]
    · intro j _ hj
      refine if_neg fun hc => hj (Fin.ext ?_)
      exact (hn.getElem_inj_iff (hi := j.2) (hj := hk)).mp (hc.trans hk'.symm)
    · intro hc
      exact absurd (Finset.mem_univ _) hc
  · rw [h1 r c hm, Finset.sum_eq_zero]
    · rfl
    · intro k _
      refine if_neg fun hc => hm ?_
      rw [← hc]
      exact List.getElem_mem _

/-! ## The invariant of the caches -/

/-- `b` is a factor for the data `D`, and its caches belong to its last parameters whenever those
fit. -/
structure Inv (D : Data d n p) (b : Belief d n p) : Prop where
  data : b.toData = D
  theta : Spec.Indexed D b.theta.length → b.LambdatThetaZt = Spec.design D b.theta
  beta : b.beta.length = p ∧ b.XBeta = D.X *ᵥ fun j => b.beta.getD j 0

theorem createWith_inv {rd : List ℝ → ℤ → Res ℝ} (hrd : ∀ theta k, 0 ≤ k → k < theta.length →
      rd theta k = read theta k) {D : Data d n p} (hn : D.entries.Nodup) {b : Belief d n p}
    (h : createWith rd D = Except.ok b) : Inv D b := by
  unfold createWith initializeParameterDependents setLambdatThetaZtWith at h
  dsimp only at h
  rcases h1 : fill rd D.Lind (List.replicate d 0) D.entries 0 0 with e | M
  · rw [h1] at h; cases h
  rw [h1] at h
  simp only [res_ok_bind, res_pure] at h
  rw [timesX, if_pos (List.length_replicate ..)] at h
  simp only [res_ok_bind] at h
  cases h
  refine ⟨rfl, fun hi => ?_, List.length_replicate .., rfl⟩
  have hi' : Spec.Indexed D (List.replicate d (0 : ℝ)).length := hi
  have e : fill rd D.Lind (List.replicate d 0) D.entries 0 0 =
      fill read D.Lind (List.replicate d 0) D.entries 0 0 := by
    have key : ∀ (es : List (Fin d × Fin d)) (idx : ℕ) (m : Matrix (Fin d) (Fin d) ℝ),
        (∀ k < es.length, idx + k < D.Lind.length ∧ 0 ≤ D.Lind.getD (idx + k) 0 ∧
          D.Lind.getD (idx + k) 0 < (List.replicate d (0 : ℝ)).length) →
        fill rd D.Lind (List.replicate d 0) es idx m =
          fill read D.Lind (List.replicate d 0) es idx m := by
      intro es
      induction es with
      | nil => intro idx m _; rfl
      | cons e es ih =>
        intro idx m hk
        obtain ⟨h2, h3, h4⟩ := hk 0 (Nat.succ_pos _)
        have h2' : idx < D.Lind.length := h2
        have h3' : 0 ≤ D.Lind[idx] := by
          rw [← List.getD_eq_getElem _ 0 h2']; exact h3
        have h4' : D.Lind[idx] < (List.replicate d (0 : ℝ)).length := by
          rw [← List.getD_eq_getElem _ 0 h2']; exact h4
        rw [fill, fill, nth_ok h2']
        simp only [res_ok_bind]
        rw [hrd _ _ h3' h4']
        congr 1
        funext v
        refine ih _ _ fun k hk' => ?_
        have := hk (k + 1) (Nat.succ_lt_succ hk')
        rwa [show idx + (k + 1) = idx + 1 + k by omega] at this
    exact key _ _ _ fun k hk => by rw [Nat.zero_add]; exact hi' k hk
  rw [e, fill_spec hn hi'] at h1
  cases h1
  rfl

theorem setTheta_inv {D : Data d n p} (hn : D.entries.Nodup) {b : Belief d n p} (h : Inv D b)
    {theta : List ℝ} (hf : Spec.Indexed D theta.length) :
    ∃ b', setTheta b theta = Except.ok b' ∧ Inv D b' ∧
      b'.LambdatThetaZt = Spec.design D theta := by
  obtain ⟨h1, h2, h3⟩ := h
  unfold setTheta
  split
  · unfold setLambdatThetaZt setLambdatThetaZtWith
    dsimp only
    rw [h1, fill_spec hn hf]
    simp only [res_ok_bind]
    exact ⟨_, rfl, ⟨rfl, fun _ => rfl, h3⟩, rfl⟩
  · rename_i hc
    rw [not_or, not_not, not_not] at hc
    refine ⟨b, rfl, ⟨h1, h2, h3⟩, ?_⟩
    rw [hc.2] at hf ⊢
    exact h2 hf

theorem setBeta_inv {D : Data d n p} {b : Belief d n p} (h : Inv D b)
    {beta : List ℝ} (hf : beta.length = p) :
    ∃ b', setBeta b beta = Except.ok b' ∧ Inv D b' ∧
      b'.XBeta = (D.X *ᵥ fun j => beta.getD j 0) ∧ b'.LambdatThetaZt = b.LambdatThetaZt := by
  obtain ⟨h1, h2, h3⟩ := h
  unfold setBeta
  split
  · dsimp only
    rw [timesX, if_pos hf]
    simp only [res_ok_bind]
    exact ⟨_, rfl, ⟨h1, h2, hf, by rw [← h1]⟩, by rw [← h1], rfl⟩
  · rename_i hc
    rw [not_or, not_not, not_not] at hc
    refine ⟨b, rfl, ⟨h1, h2, h3⟩, ?_, rfl⟩
    rw [hc.2]
    exact h3.2

theorem predictor_spec {D : Data d n p} {b : Belief d n p} {theta beta : List ℝ}
    (h1 : b.LambdatThetaZt = Spec.design D theta)
    (h2 : b.XBeta = D.X *ᵥ fun j => beta.getD j 0) (u : Fin d → ℝ) :
    computeLinearPredictor b u = Spec.eta D theta beta u := by
  funext i
  rw [computeLinearPredictor, h1, h2]
  rfl

/-- The state before the family is used. -/
theorem set_inv {D : Data d n p} (hn : D.entries.Nodup) {b : Belief d n p} (h : Inv D b)
    {pars : Parameters} (hf : Spec.Fit D pars.theta pars.beta) :
    ∃ b', (∀ {γ : Type} (k : Belief d n p → Res γ),
        (setTheta b pars.theta >>= fun b => setBeta b pars.beta >>= k) = k b') ∧ Inv D b' ∧
      b'.LambdatThetaZt = Spec.design D pars.theta ∧
      ∀ u, computeLinearPredictor b' u = Spec.eta D pars.theta pars.beta u := by
  obtain ⟨b1, e1, i1, l1⟩ := setTheta_inv hn h hf.1
  obtain ⟨b2, e2, i2, x2, l2⟩ := setBeta_inv i1 hf.2
  refine ⟨b2, fun k => ?_, i2, l2.trans l1, predictor_spec (l2.trans l1) x2⟩
  rw [e1]
  simp only [res_ok_bind]
  rw [e2]
  rfl

theorem evaluate_inv {D : Data d n p} (hn : D.entries.Nodup) {b : Belief d n p} (h : Inv D b)
    {pars : Parameters} (hf : Spec.Fit D pars.theta pars.beta) (u : Fin d → ℝ) :
    ∃ b', Inv D b' ∧ evaluate b u pars = (Spec.value D pars u).map fun v => (v, b') := by
  obtain ⟨b', e, i, l, he⟩ := set_inv hn h hf
  refine ⟨b', i, ?_⟩
  rw [evaluate, e, he, Spec.value, i.data]
  dsimp only
  rcases pars.family.evaluate (Spec.eta D pars.theta pars.beta u) D.response D.weights with
    e | v <;> rfl

theorem derivative_inv {D : Data d n p} (hn : D.entries.Nodup) {b : Belief d n p} (h : Inv D b)
    {pars : Parameters} (hf : Spec.Fit D pars.theta pars.beta) (u : Fin d → ℝ) :
    ∃ b', Inv D b' ∧
      evaluateDerivative b u pars = (Spec.gradient D pars u).map fun v => (v, b') := by
  obtain ⟨b', e, i, l, he⟩ := set_inv hn h hf
  refine ⟨b', i, ?_⟩
  rw [evaluateDerivative, e, he, Spec.gradient, i.data]
  dsimp only
  rcases pars.family.evaluateDerivative (Spec.eta D pars.theta pars.beta u) D.response D.weights with
    e | v
  · rfl
  · simp only [res_ok_bind, res_pure]
    rw [l]
    rfl

theorem second_inv {D : Data d n p} (hn : D.entries.Nodup) {b : Belief d n p} (h : Inv D b)
    {pars : Parameters} (hf : Spec.Fit D pars.theta pars.beta) (u : Fin d → ℝ) :
    ∃ b', Inv D b' ∧
      evaluateSecondDerivative b u pars = (Spec.hessian D pars u).map fun v => (v, b') := by
  obtain ⟨b', e, i, l, he⟩ := set_inv hn h hf
  refine ⟨b', i, ?_⟩
  rw [evaluateSecondDerivative, e, he, Spec.hessian, i.data]
  dsimp only
  rcases pars.family.evaluateSecondDerivative (Spec.eta D pars.theta pars.beta u) D.response D.weights with
    e | v
  · rfl
  · simp only [res_ok_bind, res_pure]
    rw [l]
    show Except.ok (_, b') = Except.ok (_, b')
    congr 2
    ext r s
    rw [Matrix.mul_apply]
    simp only [Matrix.mul_diagonal, Matrix.transpose_apply]
    rfl

end Verif.GLMM
