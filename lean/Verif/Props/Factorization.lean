import Verif.Props.Split
import Verif.Props.Gauss

/-!
# C41: the factorization reproduces the integrand of the model
-/
namespace Verif.Split

open Verif.Split.Spec Verif.GLMM Verif.Family Verif.Pars Verif.Gauss

variable {q n p : ℕ}

/-! ## Evaluating the factors -/

/-- src/NormalBelief.cpp:34-41, constructor from items, mean and precision, for one item. -/
noncomputable def normalFactor (i : Fin q) (mean precision : ℝ) : NB :=
  { items := [(i : ℤ)], normal := MN.ofMeanPrecision (fun _ => mean) (Matrix.of fun _ _ => precision),
    logNC := 0 }

/-- The value of a factor at the random effects `u`: an evaluation gives it, whatever the history
of the object. -/
def Evaluates (pars : Parameters) (u : Fin q → ℝ) : Term q p → ℝ → Prop
  | .glmm C _ D, v => (∃ b, Reachable D b) ∧ ∀ b, Reachable D b → ∃ b',
      GLMM.evaluate b (fun r => u (C.get r)) pars = Except.ok (v, b')
  | .normal i mean precision, v => (normalFactor i mean precision).evaluate [u i] =
      Except.ok (some v)

/-! ## The relative covariance factor of a local term -/

theorem sum_fin_list {α : Type} (l : List α) (f : α → ℝ) :
    ∑ k : Fin l.length, f (l.get k) = (l.map f).sum := by
  simp [← List.sum_ofFn]

theorem lambdat_list {d m : ℕ} (D : Data d m p) (L : List ((Fin d × Fin d) × ℤ))
    (h1 : D.entries = L.map Prod.fst) (h2 : D.Lind = L.map Prod.snd) (theta : List ℝ)
    (r c : Fin d) : GLMM.Spec.lambdat D theta r c =
      (L.map fun e => if e.1 = (r, c) then theta.getD e.2.toNat 0 else 0).sum := by
  rw [← sum_fin_list]
  unfold GLMM.Spec.lambdat
  rw [Matrix.of_apply]
  have hlen : D.entries.length = L.length := by rw [h1, List.length_map]
  refine Fintype.sum_equiv (finCongr hlen) _ _ fun k => ?_
  have e1 : D.entries[k] = (L.get (finCongr hlen k)).1 := by
    simp [h1]
  have e2 : D.Lind.getD k 0 = (L.get (finCongr hlen k)).2 := by
    have : (k : ℕ) < L.length := hlen ▸ k.2
    rw [h2, List.getD_eq_getElem _ _ (by simpa using this)]
    simp
  rw [e1, e2]

theorem sum_key_mem {α : Type} [DecidableEq α] (f : ℤ → ℝ) {L : List (α × ℤ)} {k : α} {v : ℤ}
    (hn : (L.map Prod.fst).Nodup) (h : (k, v) ∈ L) :
    (L.map fun e => if e.1 = k then f e.2 else 0).sum = f v := by
  induction L with
  | nil => cases h
  | cons a L ih =>
    rw [List.map_cons, List.nodup_cons] at hn
    rw [List.map_cons, List.sum_cons]
    rcases List.mem_cons.1 h with rfl | h
    · rw [if_pos rfl, List.sum_eq_zero, add_zero]
      intro x hx
      obtain ⟨e, he, rfl⟩ := List.mem_map.1 hx
      rw [if_neg]
      intro hk
      have := List.mem_map_of_mem (f := Prod.fst) he
      rw [hk] at this
      exact hn.1 this
    · rw [if_neg, ih hn.2 h, zero_add]
      intro hk
      exact hn.1 (hk ▸ List.mem_map_of_mem (f := Prod.fst) h)

theorem sum_key_not_mem {α : Type} [DecidableEq α] (f : ℤ → ℝ) {L : List (α × ℤ)} {k : α}
    (h : ∀ v, (k, v) ∉ L) : (L.map fun e => if e.1 = k then f e.2 else 0).sum = 0 := by
  apply List.sum_eq_zero
  intro x hx
  obtain ⟨e, he, rfl⟩ := List.mem_map.1 hx
  rw [if_neg]
  rintro rfl
  exact h e.2 he

theorem lindAt_some {M : ModFr q n p} {size : ℕ} (h : WellFormed M size) {r c : Fin q} {l : ℤ} :
    lindAt M r c = some l ↔ ((r, c), l) ∈ M.lambdat.zip M.Lind := by
  have hn : ((M.lambdat.zip M.Lind).map Prod.fst).Nodup := by
    rw [List.map_fst_zip (by rw [h.length])]
    exact h.nodup
  unfold lindAt
  generalize M.lambdat.zip M.Lind = L at hn
  induction L with
  | nil => simp
  | cons a L ih =>
    obtain ⟨a, b⟩ := a
    rw [List.map_cons, List.nodup_cons] at hn
    rw [List.find?_cons]
    by_cases ha : a = (r, c)
    · subst ha
      simp only [decide_true, Option.map_some, Option.some.injEq, List.mem_cons, Prod.mk.injEq,
        true_and]
      constructor
      · rintro rfl
        exact Or.inl rfl
      · rintro (rfl | hm)
        · rfl
        · exact absurd (List.mem_map_of_mem hm) hn.1
    · simp only [ha, decide_false]
      refine (ih hn.2).trans ?_
      rw [List.mem_cons]
      constructor
      · exact Or.inr
      · rintro (h1 | h1)
        · exact absurd (congrArg Prod.fst h1).symm ha
        · exact h1

theorem mem_subLambdat {M : ModFr q n p} {C : List (Fin q)} {r c : Fin C.length} {v : ℤ} :
    ((r, c), v) ∈ subLambdat M C ↔ ∃ l, lindAt M (C.get r) (C.get c) = some l ∧ v = l - 1 := by
  unfold subLambdat
  simp only [List.mem_flatMap, List.mem_finRange, true_and, List.mem_filterMap,
    Option.map_eq_some_iff, Prod.mk.injEq]
  constructor
  · rintro ⟨c', r', l, h, ⟨rfl, rfl⟩, rfl⟩
    exact ⟨l, h, rfl⟩
  · rintro ⟨l, h, rfl⟩
    exact ⟨c, r, l, h, ⟨rfl, rfl⟩, rfl⟩

theorem subLambdat_nodup (M : ModFr q n p) (C : List (Fin q)) :
    ((subLambdat M C).map Prod.fst).Nodup := by
  have : (subLambdat M C).map Prod.fst = (List.finRange C.length).flatMap fun c =>
      (List.finRange C.length).filterMap fun r =>
        (lindAt M (C.get r) (C.get c)).map fun _ => (r, c) := by
    unfold subLambdat
    rw [List.map_flatMap]
    congr 1
    funext c
    rw [List.map_filterMap]
    congr 1
    funext r
    rw [Option.map_map]
    rfl
  rw [this, List.nodup_flatMap]
  constructor
  · intro c _
    refine List.Nodup.filterMap ?_ (List.nodup_finRange _)
    intro a a' b h1 h2
    simp only [Option.mem_def, Option.map_eq_some_iff] at h1 h2
    obtain ⟨_, _, rfl⟩ := h1
    obtain ⟨_, _, h⟩ := h2
    exact (congrArg Prod.fst h).symm
  · refine (List.nodup_finRange _).imp ?_
    intro a b hab
    rw [Function.onFun, List.disjoint_left]
    intro x h1 h2
    simp only [List.mem_filterMap, Option.map_eq_some_iff] at h1 h2
    obtain ⟨_, _, _, _, rfl⟩ := h1
    obtain ⟨_, _, _, _, h⟩ := h2
    exact hab (congrArg Prod.snd h).symm

/-- The whole model as one factor. -/
def whole (M : ModFr q n p) : Data q n p where
  X := M.X
  Zt := M.Zt
  entries := M.lambdat
  Lind := M.Lind.map (· - 1)
  response := M.resp
  weights := weight M

theorem whole_lambdat {M : ModFr q n p} {size : ℕ} (h : WellFormed M size) (theta : List ℝ)
    (r c : Fin q) : Spec.lambdat M theta r c =
      match lindAt M r c with
      | some l => theta.getD (l - 1).toNat 0
      | none => 0 := by
  have hn : ((M.lambdat.zip M.Lind).map Prod.fst).Nodup := by
    rw [List.map_fst_zip (by rw [h.length])]
    exact h.nodup
  have e : Spec.lambdat M theta r c = ((M.lambdat.zip M.Lind).map fun e =>
      if e.1 = (r, c) then theta.getD (e.2 - 1).toNat 0 else 0).sum := by
    rw [← sum_fin_list]
    unfold Spec.lambdat
    have hlen : M.lambdat.length = (M.lambdat.zip M.Lind).length := by simp [h.length]
    refine Fintype.sum_equiv (finCongr hlen) _ _ fun k => ?_
    have hk : (k : ℕ) < M.Lind.length := by
      rw [h.length]
      exact k.2
    have e1 : M.lambdat.get k = ((M.lambdat.zip M.Lind).get (finCongr hlen k)).1 := by simp
    have e2 : M.Lind.getD k 0 = ((M.lambdat.zip M.Lind).get (finCongr hlen k)).2 := by
      rw [List.getD_eq_getElem _ _ hk]
      simp
    rw [e1, e2]
  rw [e]
  rcases hl : lindAt M r c with _ | l
  · refine sum_key_not_mem (fun l => theta.getD (l - 1).toNat 0) fun v hv => ?_
    rw [(lindAt_some h).2 hv] at hl
    cases hl
  · exact sum_key_mem (fun l => theta.getD (l - 1).toNat 0) hn ((lindAt_some h).1 hl)

theorem local_lambdat {M : ModFr q n p} {size : ℕ} (h : WellFormed M size) (C : List (Fin q))
    (obs : List (Fin n)) (theta : List ℝ) (r c : Fin C.length) :
    GLMM.Spec.lambdat (findLocalTerm C obs M) theta r c =
      Spec.lambdat M theta (C.get r) (C.get c) := by
  rw [lambdat_list (findLocalTerm C obs M) (subLambdat M C) rfl rfl, whole_lambdat h]
  rcases hl : lindAt M (C.get r) (C.get c) with _ | l
  · refine sum_key_not_mem (fun l => theta.getD l.toNat 0) fun v hv => ?_
    obtain ⟨l, h1, -⟩ := mem_subLambdat.1 hv
    rw [h1] at hl
    cases hl
  · exact sum_key_mem (fun l => theta.getD l.toNat 0) (subLambdat_nodup M C)
      (mem_subLambdat.2 ⟨l, hl, rfl⟩)

theorem lambdat_stored {M : ModFr q n p} {size : ℕ} (h : WellFormed M size) {theta : List ℝ}
    {r c : Fin q} (h0 : Spec.lambdat M theta r c ≠ 0) : (r, c) ∈ M.lambdat := by
  rw [whole_lambdat h] at h0
  rcases hl : lindAt M r c with _ | l
  · rw [hl] at h0
    exact absurd rfl h0
  · exact (List.of_mem_zip ((lindAt_some h).1 hl)).1

/-! ## The linear predictor of a local term -/

theorem sum_clique {C : List (Fin q)} (hC : C.Nodup) {g : Fin q → ℝ} (h : ∀ x, x ∉ C → g x = 0) :
    ∑ r : Fin C.length, g (C.get r) = ∑ x, g x := by
  rw [sum_fin_list, ← List.sum_toFinset _ hC]
  refine Finset.sum_subset (Finset.subset_univ _) fun x _ hx => h x ?_
  rwa [List.mem_toFinset] at hx

theorem local_eta {M : ModFr q n p} {size : ℕ} (h : WellFormed M size) {C : List (Fin q)}
    (hC : C.Nodup) {obs : List (Fin n)} (i : Fin obs.length)
    (hi : ∀ r ∈ Active M (obs.get i), r ∈ C) (theta beta : List ℝ) (u : Fin q → ℝ) :
    GLMM.Spec.eta (findLocalTerm C obs M) theta beta (fun r => u (C.get r)) i =
      Spec.eta M theta beta u (obs.get i) := by
  unfold GLMM.Spec.eta Spec.eta
  congr 1
  have h1 : ∀ r : Fin C.length, GLMM.Spec.design (findLocalTerm C obs M) theta r i =
      ∑ c, Spec.lambdat M theta (C.get r) c * M.Zt c (obs.get i) := by
    intro r
    unfold GLMM.Spec.design
    rw [Matrix.mul_apply]
    rw [← sum_clique hC (g := fun c => Spec.lambdat M theta (C.get r) c * M.Zt c (obs.get i))]
    · refine Finset.sum_congr rfl fun c _ => ?_
      rw [local_lambdat h]
      rfl
    · intro c hc
      by_contra h0
      have hz := h.zt c (obs.get i) (right_ne_zero_of_mul h0)
      exact hc (hi c ⟨c, h.diag c, hz⟩)
  simp only [h1]
  refine sum_clique hC
    (g := fun r => (∑ c, Spec.lambdat M theta r c * M.Zt c (obs.get i)) * u r) fun r hr => ?_
  rw [Finset.sum_eq_zero, zero_mul]
  intro c _
  by_contra h0
  exact hr (hi r ⟨c, lambdat_stored h (left_ne_zero_of_mul h0),
    h.zt c _ (right_ne_zero_of_mul h0)⟩)

theorem local_fit {M : ModFr q n p} {theta beta : List ℝ} (h : WellFormed M theta.length)
    (hb : beta.length = p) (C : List (Fin q)) (obs : List (Fin n)) :
    GLMM.Spec.Fit (findLocalTerm C obs M) theta beta := by
  refine ⟨fun k hk => ?_, hb⟩
  have hk' : k < (subLambdat M C).length := by simpa [findLocalTerm] using hk
  have e : (findLocalTerm C obs M).Lind.getD k 0 = ((subLambdat M C)[k]).2 := by
    unfold findLocalTerm
    dsimp only
    rw [List.getD_eq_getElem _ _ (by simpa using hk')]
    simp
  refine ⟨by simpa [findLocalTerm] using hk', ?_⟩
  rw [e]
  obtain ⟨l, h1, h2⟩ := mem_subLambdat.1
    (show (((subLambdat M C)[k].1.1, (subLambdat M C)[k].1.2), (subLambdat M C)[k].2) ∈ _ from
      List.getElem_mem hk')
  have := h.lind l (List.of_mem_zip ((lindAt_some h).1 h1)).2
  rw [h2]
  omega

/-- Whatever out-of-range reads give, there is a factor object. -/
theorem exists_reachable {d m : ℕ} (D : Data d m p) (h : D.entries.length ≤ D.Lind.length) :
    ∃ b, Reachable D b := by
  have hfill : ∀ (es : List (Fin d × Fin d)) (idx : ℕ) (m : Matrix (Fin d) (Fin d) ℝ),
      idx + es.length ≤ D.Lind.length → ∃ m', fill (fun theta k => match read theta k with
        | Except.ok v => Except.ok v
        | Except.error _ => Except.ok 0) D.Lind (List.replicate d 0) es idx m = Except.ok m' := by
    intro es
    induction es with
    | nil => exact fun idx m _ => ⟨m, rfl⟩
    | cons e es ih =>
      intro idx m hl
      rw [List.length_cons] at hl
      obtain ⟨r, c⟩ := e
      rw [fill, nth_ok (by omega), res_ok_bind]
      rcases hv : read (List.replicate d 0) D.Lind[idx] with err | v
      · rw [res_ok_bind]
        exact ih _ _ (by omega)
      · rw [res_ok_bind]
        exact ih _ _ (by omega)
  obtain ⟨m', hm⟩ := hfill D.entries 0 0 (by omega)
  let b : Belief d m p := ⟨D, List.replicate d 0, List.replicate p 0, m' * D.Zt,
    D.X.mulVec fun j => (List.replicate p (0 : ℝ)).getD j 0⟩
  refine ⟨b, Reachable.create (rd := fun theta k => match read theta k with
        | Except.ok v => Except.ok v
        | Except.error _ => Except.ok 0) ?_ ?_⟩
  · intro theta k h0 h1
    rw [read_ok h0 h1]
  · unfold createWith initializeParameterDependents setLambdatThetaZtWith
    dsimp only
    rw [hm]
    simp only [res_ok_bind, timesX, List.length_replicate, if_true, res_pure]
    rfl

/-! ## Sums over the factors -/

theorem family_sum {link : String} {μ : ℝ → ℝ} (hl : IsLink link μ) {f : Family}
    (hf : Family.ofNames "binomial" link = Except.ok f) :
    ∃ g : ℝ → ℝ → ℝ → ℝ, ∀ (m : ℕ) (eta y w : Fin m → ℝ),
      f.evaluate eta y w = Except.ok (∑ i, g (eta i) (y i) (w i)) := by
  rcases hl with _ | _
  · have hf := Except.ok.inj hf
    subst hf
    refine ⟨fun e y w => w * (y * Real.log (Binomial.checkMean (LogitLink.computeMean (n := 1) fun _ => e) 0) +
      (1 - y) * Real.log (1 - Binomial.checkMean (LogitLink.computeMean (n := 1) fun _ => e) 0)), fun m eta y w => rfl⟩
  · have hf := Except.ok.inj hf
    subst hf
    refine ⟨fun e y w => w * (y * Real.log (Binomial.checkMean (ProbitLink.computeMean (n := 1) fun _ => e) 0) +
      (1 - y) * Real.log (1 - Binomial.checkMean (ProbitLink.computeMean (n := 1) fun _ => e) 0)), fun m eta y w => rfl⟩

theorem sum_partition {ext : List (List (Fin q) × List (Fin n))} (h : Partition ext)
    (G : Fin n → ℝ) : (ext.map fun e => (e.2.map G).sum).sum = ∑ j, G j := by
  have h1 : (ext.flatMap fun e => e.2).Perm (List.finRange n) := by
    rw [List.perm_iff_count]
    intro j
    rw [List.count_eq_one_of_mem (List.nodup_finRange n) (List.mem_finRange j), ← h j,
      List.count_flatMap]
    rfl
  have h2 : (ext.map fun e => (e.2.map G).sum).sum = ((ext.flatMap fun e => e.2).map G).sum := by
    clear h h1
    induction ext with
    | nil => rfl
    | cons e ext ih => simp [ih]
  rw [h2, (h1.map G).sum_eq, ← List.sum_ofFn, List.ofFn_eq_map]

/-- Error of the literal of the code for `log √(2π)`. -/
noncomputable def literalError : ℝ := Real.log √(2 * Real.pi) - logSqrtTwoPi

theorem literalError_small : |literalError| ≤ 2 / 10 ^ 12 := by
  have h := abs_le.1 literal_close
  have hs : 0 < √(2 * Real.pi) := Real.sqrt_pos.2 (by positivity)
  have e : literalError = Real.log (√(2 * Real.pi) / Real.exp logSqrtTwoPi) := by
    rw [Real.log_div hs.ne' (Real.exp_pos _).ne', Real.log_exp]
    rfl
  have hp : 0 < √(2 * Real.pi) / Real.exp logSqrtTwoPi := div_pos hs (Real.exp_pos _)
  rw [e, abs_le]
  constructor
  · have := Real.one_sub_inv_le_log_of_pos hp
    have h2 : (√(2 * Real.pi) / Real.exp logSqrtTwoPi)⁻¹ ≤ 1 + 2 / 10 ^ 12 := by
      rw [inv_le_comm₀ hp (by norm_num)]
      refine le_trans ?_ (by linarith [h.1] : (1 : ℝ) - 1 / 10 ^ 12 ≤ _)
      norm_num
    linarith
  · have := Real.log_le_sub_one_of_pos hp
    have h2 : (1 : ℝ) / 10 ^ 12 ≤ 2 / 10 ^ 12 := by norm_num
    linarith [h.2]

theorem normal_value (u : Fin q → ℝ) (i : Fin q) (pars : Parameters) :
    Evaluates (p := p) pars u (.normal i 0 1)
      (Real.log (ProbabilityTheory.gaussianPDFReal 0 1 (u i)) + literalError) := by
  show (normalFactor i 0 1).evaluate [u i] = _
  unfold NB.evaluate NB.vec
  rw [dif_pos (by rfl)]
  rw [res_ok_bind, res_pure]
  congr 1
  unfold normalFactor MN.ofMeanPrecision MN.setPrecision MN.evaluate normalizerOf
  dsimp only
  have hd : (Matrix.of fun _ _ : Fin [(i : ℤ)].length => (1 : ℝ)).det = 1 := by
    rw [show (Matrix.of fun _ _ : Fin [(i : ℤ)].length => (1 : ℝ)) = 1 from ?_, Matrix.det_one]
    ext a b
    have ha : a = 0 := Subsingleton.elim (α := Fin 1) a 0
    have hb : b = 0 := Subsingleton.elim (α := Fin 1) b 0
    rw [ha, hb]
    rfl
  rw [hd, if_pos one_pos, Option.map_some, Option.map_some, Option.some.injEq]
  rw [log_gaussian]
  have h0 : Real.log (ProbabilityTheory.gaussianPDFReal 0 1 0) = -Real.log √(2 * Real.pi) := by
    rw [← Real.log_inv]
    simp [ProbabilityTheory.gaussianPDFReal, mul_comm]
  rw [h0]
  unfold literalError
  have hq : ∀ x : ℝ, Matrix.vecMul ((fun k : Fin [(i : ℤ)].length => [x].get (k.cast (by rfl))) - fun _ => 0)
      (Matrix.of fun _ _ => (1 : ℝ)) ⬝ᵥ
      ((fun k : Fin [(i : ℤ)].length => [x].get (k.cast (by rfl))) - fun _ => 0) = x * x := by
    intro x
    simp [Matrix.vecMul, dotProduct]
  rw [hq]
  simp
  ring

theorem term_value {M : ModFr q n p} {pars : Parameters} (hM : WellFormed M pars.theta.length)
    (hb : pars.beta.length = p) {g : ℝ → ℝ → ℝ → ℝ}
    (hg : ∀ (m : ℕ) (eta y w : Fin m → ℝ),
      pars.family.evaluate eta y w = Except.ok (∑ i, g (eta i) (y i) (w i)))
    (u : Fin q → ℝ) (C : List (Fin q)) (obs : List (Fin n)) :
    Evaluates pars u (.glmm C obs.length (findLocalTerm C obs M))
      (∑ i, g (GLMM.Spec.eta (findLocalTerm C obs M) pars.theta pars.beta
        (fun r => u (C.get r)) i) (M.resp (obs.get i)) (weight M (obs.get i))) := by
  refine ⟨exists_reachable _ (by simp [findLocalTerm]), fun b hb' => ?_⟩
  have hnod : (findLocalTerm C obs M).entries.Nodup := subLambdat_nodup M C
  obtain ⟨b', -, h⟩ := evaluate_inv hnod (hb'.inv hnod) (local_fit hM hb C obs)
    (fun r => u (C.get r))
  refine ⟨b', ?_⟩
  rw [h]
  unfold GLMM.Spec.value
  rw [hg]
  have : ∀ i, (findLocalTerm C obs M).weights i = weight M (obs.get i) := by
    intro i
    unfold findLocalTerm weight
    dsimp only
    rcases M.weights with _ | w <;> rfl
  simp only [this]
  rfl

/-- C41. The factors can be evaluated whatever their history, and their logs add up to the
log-likelihood of all observations, as the code computes it, plus the standard normal log-density (up
to the error of the literal for `log √(2π)`, at most 2e-12 for each random effect). -/
theorem c41_coded {link : String} {μ : ℝ → ℝ} (hl : IsLink link μ) {M : ModFr q n p}
    {pars : Parameters} (hfam : Family.ofNames "binomial" link = Except.ok pars.family)
    (hM : WellFormed M pars.theta.length) (hc : Covered M) (hb : pars.beta.length = p)
    (u : Fin q → ℝ) :
    ∃ terms vs L, findFactorizationTerms M = Except.ok terms ∧
      List.Forall₂ (Evaluates pars u) terms vs ∧
      pars.family.evaluate (Spec.eta M pars.theta pars.beta u) M.resp (weight M) = Except.ok L ∧
      vs.sum = L + ∑ r, Real.log (ProbabilityTheory.gaussianPDFReal 0 1 (u r)) +
        q * literalError := by
  obtain ⟨ext, terms, h1, rfl, hp, hcont, hcl⟩ := c40_own hc
  obtain ⟨g, hg⟩ := family_sum hl hfam
  refine ⟨_, (ext.map fun e => (e.2.map fun j =>
    g (Spec.eta M pars.theta pars.beta u j) (M.resp j) (weight M j)).sum) ++
    (List.finRange q).map fun i => Real.log (ProbabilityTheory.gaussianPDFReal 0 1 (u i)) + literalError,
    _, h1, ?_, hg _ _ _ _, ?_⟩
  · refine List.rel_append ?_ ?_
    · rw [List.forall₂_map_left_iff, List.forall₂_map_right_iff, List.forall₂_same]
      intro e he
      obtain ⟨hn, -⟩ := hcl e he
      have h := term_value hM hb hg u e.1 e.2
      have h0 : ∑ i, g (GLMM.Spec.eta (findLocalTerm e.1 e.2 M) pars.theta pars.beta
          (fun r => u (e.1.get r)) i) (M.resp (e.2.get i)) (weight M (e.2.get i)) =
          (e.2.map fun j => g (Spec.eta M pars.theta pars.beta u j) (M.resp j) (weight M j)).sum := by
        rw [← sum_fin_list]
        refine Finset.sum_congr rfl fun i _ => ?_
        rw [local_eta hM hn i (hcont e he _ (List.get_mem _ _))]
      rw [h0] at h
      exact h
    · rw [List.forall₂_map_left_iff, List.forall₂_map_right_iff, List.forall₂_same]
      intro i _
      exact normal_value u i pars
  · rw [List.sum_append, sum_partition hp, add_assoc]
    congr 1
    rw [← List.ofFn_eq_map, List.sum_ofFn, Finset.sum_add_distrib]
    simp

/-- C41, for random effects with unclamped means: the sum is the log-integrand of the model. -/
theorem c41_integrand {link : String} {μ : ℝ → ℝ} (hl : IsLink link μ) {M : ModFr q n p}
    {pars : Parameters} (hfam : Family.ofNames "binomial" link = Except.ok pars.family)
    (hM : WellFormed M pars.theta.length) (hc : Covered M) (hb : pars.beta.length = p)
    (u : Fin q → ℝ) (hu : ∀ j, 1e-8 ≤ μ (Spec.eta M pars.theta pars.beta u j) ∧
      μ (Spec.eta M pars.theta pars.beta u j) ≤ 1 - 1e-8) :
    ∃ terms vs, findFactorizationTerms M = Except.ok terms ∧
      List.Forall₂ (Evaluates pars u) terms vs ∧
      vs.sum = logIntegrand M μ pars.theta pars.beta u + q * literalError := by
  obtain ⟨terms, vs, L, h1, h2, h3, h4⟩ := c41_coded hl hfam hM hc hb u
  obtain ⟨f, hf1, hf2⟩ := family_facts hl
  rw [hfam] at hf1
  have hf1 := Except.ok.inj hf1
  subst hf1
  rw [(hf2 n _ M.resp (weight M) hu).1] at h3
  have h3 := Except.ok.inj h3
  subst h3
  exact ⟨terms, vs, h1, h2, h4⟩

/-! ## A case meeting the hypotheses -/

/-- Two crossed random effects with their own variance parameters and two observations, the second
with both effects. -/
noncomputable def crossed : ModFr 2 2 1 where
  X := Matrix.of fun _ _ => 1
  Zt := Matrix.of fun r j => if r ≤ j then 1 else 0
  ztStored r j := r ≤ j
  lambdat := [(0, 0), (1, 1)]
  Lind := [1, 2]
  resp j := if j = 0 then 1 else 0
  weights := none
  offset := 0

theorem crossed_wf : WellFormed crossed 2 where
  nodup := by decide
  diag c := by
    unfold crossed
    revert c
    decide
  length := rfl
  lind := by
    unfold crossed
    decide
  zt c j h := by
    unfold crossed at h ⊢
    simpa using h

theorem crossed_covered : Covered crossed := fun j => ⟨0, 0, by simp [crossed], by simp [crossed]⟩

/-- The two observations are in different cliques: the factors are two local terms and two normal
terms. -/
example : ∃ D1 D2, findFactorizationTerms crossed = Except.ok
    [.glmm [0] 1 D1, .glmm [0, 1] 1 D2, .normal 0 0 1, .normal 1 0 1] := ⟨_, _, rfl⟩

/-- Parameters for `crossed`. -/
noncomputable def crossedPars : Parameters :=
  { logitPars 1 0 with theta := [1, 2], beta := [0.5] }

example (u : Fin 2 → ℝ) : ∃ terms vs L, findFactorizationTerms crossed = Except.ok terms ∧
    List.Forall₂ (Evaluates crossedPars u) terms vs ∧
    crossedPars.family.evaluate (Spec.eta crossed [1, 2] [0.5] u) crossed.resp (weight crossed) =
      Except.ok L ∧
    vs.sum = L + ∑ r, Real.log (ProbabilityTheory.gaussianPDFReal 0 1 (u r)) +
      (2 : ℕ) * literalError :=
  c41_coded .logit (pars := crossedPars) rfl crossed_wf crossed_covered rfl u

/-! ## Offsets -/

/-- Log-integrand of the model with its offset. -/
noncomputable def Spec.logIntegrandOffset (M : ModFr q n p) (μ : ℝ → ℝ) (theta beta : List ℝ)
    (u : Fin q → ℝ) : ℝ :=
  (∑ j, logLik μ (M.resp j) (weight M j) (Spec.eta M theta beta u j + M.offset j)) +
    ∑ r, Real.log (ProbabilityTheory.gaussianPDFReal 0 1 (u r))

/-- C63, the part that holds: without offset the factors give the integrand. Missing: models with an
offset (`c63_violated`). -/
theorem c63_partial {link : String} {μ : ℝ → ℝ} (hl : IsLink link μ) {M : ModFr q n p}
    {pars : Parameters} (hfam : Family.ofNames "binomial" link = Except.ok pars.family)
    (hM : WellFormed M pars.theta.length) (hc : Covered M) (hb : pars.beta.length = p)
    (ho : ∀ j, M.offset j = 0)
    (u : Fin q → ℝ) (hu : ∀ j, 1e-8 ≤ μ (Spec.eta M pars.theta pars.beta u j) ∧
      μ (Spec.eta M pars.theta pars.beta u j) ≤ 1 - 1e-8) :
    ∃ terms vs, findFactorizationTerms M = Except.ok terms ∧
      List.Forall₂ (Evaluates pars u) terms vs ∧
      vs.sum = logIntegrandOffset M μ pars.theta pars.beta u + q * literalError := by
  obtain ⟨terms, vs, h1, h2, h3⟩ := c41_integrand hl hfam hM hc hb u hu
  refine ⟨terms, vs, h1, h2, ?_⟩
  rw [h3]
  unfold logIntegrand logIntegrandOffset
  simp only [ho, add_zero]

theorem evaluates_unique {pars : Parameters} {u : Fin q → ℝ} : ∀ {t : Term q p} {v w : ℝ},
    Evaluates pars u t v → Evaluates pars u t w → v = w
  | .glmm _ _ _, v, w, ⟨⟨b, hb⟩, h1⟩, ⟨_, h2⟩ => by
    obtain ⟨b1, e1⟩ := h1 b hb
    obtain ⟨b2, e2⟩ := h2 b hb
    rw [e1] at e2
    exact congrArg Prod.fst (Except.ok.inj e2)
  | .normal _ _ _, v, w, h1, h2 => by
    have h : _ = _ := h1
    rw [show _ = _ from h2] at h
    exact (Option.some.inj (Except.ok.inj h)).symm

theorem forall₂_unique {pars : Parameters} {u : Fin q → ℝ} {ts : List (Term q p)} {vs ws : List ℝ}
    (h1 : List.Forall₂ (Evaluates pars u) ts vs) (h2 : List.Forall₂ (Evaluates pars u) ts ws) :
    vs = ws := by
  induction h1 generalizing ws with
  | nil =>
    cases h2
    rfl
  | cons a _ ih =>
    cases h2 with
    | cons b h => rw [evaluates_unique a b, ih h]

/-- One observation with response 1, one random effect, the given offset. -/
noncomputable def offsetModel (o : ℝ) : ModFr 1 1 1 where
  X := Matrix.of fun _ _ => 1
  Zt := Matrix.of fun _ _ => 1
  ztStored _ _ := true
  lambdat := [(0, 0)]
  Lind := [1]
  resp _ := 1
  weights := none
  offset _ := o

/-- C63 is violated by every offset other than 0: the factors are those of the model without it. -/
theorem c63_violated {o : ℝ} (ho : o ≠ 0) : ∃ (pars : Parameters) (u : Fin 1 → ℝ)
    (terms : List (Term 1 1)) (vs : List ℝ),
    findFactorizationTerms (offsetModel o) = Except.ok terms ∧
    List.Forall₂ (Evaluates pars u) terms vs ∧
    Family.ofNames "binomial" "logit" = Except.ok pars.family ∧
    vs.sum ≠ logIntegrandOffset (offsetModel o) expit pars.theta pars.beta u +
      (1 : ℕ) * literalError := by
  have hw : WellFormed (offsetModel o) 1 := by
    refine ⟨by simp [offsetModel], fun c => ?_, rfl, by simp [offsetModel], fun _ _ _ => rfl⟩
    rw [Subsingleton.elim c 0]
    simp [offsetModel]
  have hc : Covered (offsetModel o) := fun j => ⟨0, 0, by simp [offsetModel], rfl⟩
  have he : ∀ j, Spec.eta (offsetModel o) [0] [0] 0 j = 0 := by
    intro j
    simp [Spec.eta]
  obtain ⟨terms, vs, h1, h2, h3⟩ := c41_integrand .logit (pars := logitPars 0 0) rfl hw hc rfl 0 (by
    intro j
    show 1e-8 ≤ expit (Spec.eta (offsetModel o) [0] [0] 0 j) ∧
      expit (Spec.eta (offsetModel o) [0] [0] 0 j) ≤ 1 - 1e-8
    rw [he]
    norm_num [expit])
  refine ⟨logitPars 0 0, 0, terms, vs, h1, h2, rfl, ?_⟩
  rw [h3]
  intro h
  have h := add_right_cancel (add_right_cancel h)
  have hm : StrictMono expit := lo0_eq ▸ mu_mono logit_ok
  have e : ∀ x, logLik expit 1 1 x = Real.log (expit x) := by
    intro x
    simp [logLik]
  simp only [Finset.univ_unique, Finset.sum_singleton] at h
  have h : logLik expit 1 1 (Spec.eta (offsetModel o) [0] [0] 0 default) =
    logLik expit 1 1 (Spec.eta (offsetModel o) [0] [0] 0 default + o) := h
  rw [he, zero_add, e, e] at h
  have hp : ∀ x, 0 < expit x := fun x => by
    have := logit_ok.pos x
    rwa [lo0_eq] at this
  exact ho (hm.injective (Real.log_injOn_pos (hp 0) (hp o) h)).symm

/-! ## Observations without active random effects -/

/-- Without `Covered` C41 is violated: the factors of `shifted` do not see the random effects. -/
theorem c41_violated : ∃ (pars : Parameters) (u : Fin 2 → ℝ) (terms : List (Term 2 1))
    (vs : List ℝ) (L : ℝ), WellFormed shifted pars.theta.length ∧
    findFactorizationTerms shifted = Except.ok terms ∧
    List.Forall₂ (Evaluates pars u) terms vs ∧
    pars.family.evaluate (Spec.eta shifted pars.theta pars.beta u) shifted.resp (weight shifted) =
      Except.ok L ∧
    vs.sum ≠ L + ∑ r, Real.log (ProbabilityTheory.gaussianPDFReal 0 1 (u r)) +
      (2 : ℕ) * literalError := by
  have hw : WellFormed shifted 1 := by
    refine ⟨by decide, ?_, rfl, by simp [shifted], ?_⟩
    · unfold shifted
      decide
    · intro c j h
      unfold shifted at h ⊢
      simpa using h
  let pars := logitPars 1 0
  let u : Fin 2 → ℝ := fun r => if r = 0 then 1 else 0
  obtain ⟨f, hf, hev⟩ := family_facts .logit
  have hf : f = pars.family := (Except.ok.inj hf).symm
  subst hf
  obtain ⟨g, hg⟩ := family_sum .logit (f := pars.family) rfl
  have hterms : findFactorizationTerms shifted = Except.ok
      ([.glmm [0] 2 (findLocalTerm [0] [0, 2] shifted),
        .glmm [1] 1 (findLocalTerm [1] [1] shifted)] ++
        (List.finRange 2).map fun i => .normal i 0 1) := by
    have : addObs (findActive shifted).eraseDups (findActive shifted) (List.finRange 3) =
      Except.ok [([0], [0, 2]), ([1], [1])] := by decide
    unfold findFactorizationTerms
    dsimp only
    rw [this]
    rfl
  have v1 := term_value (pars := pars) hw rfl hg u [0] [0, 2]
  have v2 := term_value (pars := pars) hw rfl hg u [1] [1]
  have hz : ∀ (C : List (Fin 2)) (obs : List (Fin 3)) (i : Fin obs.length),
      (∀ r : Fin C.length, (obs.get i : ℕ) ≠ (C.get r : ℕ) + 1) →
      GLMM.Spec.eta (findLocalTerm C obs shifted) pars.theta pars.beta (fun r => u (C.get r)) i =
        0 := by
    intro C obs i h
    unfold GLMM.Spec.eta GLMM.Spec.design
    have h1 : ∀ c, (findLocalTerm C obs shifted).Zt c i = 0 := by
      intro c
      show (if ((obs.get i : Fin 3) : ℕ) = (C.get c : ℕ) + 1 then (1 : ℝ) else 0) = 0
      rw [if_neg (h c)]
    have h2 : ∀ k, (findLocalTerm C obs shifted).X i k = 0 := fun k => rfl
    simp [Matrix.mul_apply, h1, h2]
  have e1 : ∀ i, GLMM.Spec.eta (findLocalTerm [0] [0, 2] shifted) pars.theta pars.beta
      (fun r => u ([(0 : Fin 2)].get r)) i = 0 := fun i => hz _ _ i (by
    intro r
    fin_cases i <;> fin_cases r <;> decide)
  have e2 : ∀ i, GLMM.Spec.eta (findLocalTerm [1] [1] shifted) pars.theta pars.beta
      (fun r => u ([(1 : Fin 2)].get r)) i = 0 := fun i => hz _ _ i (by
    intro r
    fin_cases i; fin_cases r; decide)
  have hgl : ∀ x y, 1e-8 ≤ expit x → expit x ≤ 1 - 1e-8 → g x y 1 = logLik expit y 1 x := by
    intro x y h1 h2
    have := (hev 1 (fun _ => x) (fun _ => y) (fun _ => 1) fun _ => ⟨h1, h2⟩).1
    rw [hg] at this
    simpa using Except.ok.inj this
  have g0 : g 0 0 1 = logLik expit 0 1 0 := hgl 0 0 (by norm_num [expit]) (by norm_num [expit])
  have eta1 : ∀ j, Spec.eta shifted pars.theta pars.beta u j = if j = 1 then 1 else 0 := by
    intro j
    have hX : ∀ k, shifted.X j k = 0 := fun k => rfl
    have hl : ∀ r c, Spec.lambdat shifted pars.theta r c = if r = c then 1 else 0 := by
      intro r c
      rw [whole_lambdat hw]
      fin_cases r <;> fin_cases c <;> simp [lindAt, shifted, pars, logitPars]
    unfold Spec.eta
    simp only [hX, hl, zero_mul, Finset.sum_const_zero, zero_add, ite_mul, one_mul,
      Finset.sum_ite_eq, Finset.mem_univ, if_true, Fin.sum_univ_two]
    show (if (j : ℕ) = ((0 : Fin 2) : ℕ) + 1 then (1 : ℝ) else 0) * u 0 +
      (if (j : ℕ) = ((1 : Fin 2) : ℕ) + 1 then (1 : ℝ) else 0) * u 1 = _
    fin_cases j <;> simp [u]
  refine ⟨pars, u, _, [_, _] ++ (List.finRange 2).map fun i =>
    Real.log (ProbabilityTheory.gaussianPDFReal 0 1 (u i)) + literalError, _, hw, hterms,
    List.rel_append (.cons v1 (.cons v2 .nil)) ?_, hg _ _ _ _, ?_⟩
  · rw [List.forall₂_map_left_iff, List.forall₂_map_right_iff, List.forall₂_same]
    intro i _
    exact normal_value u i pars
  · simp only [e1, e2, eta1]
    have hr : ∀ j, shifted.resp j = 0 := fun _ => rfl
    have hwt : ∀ j, weight shifted j = 1 := fun _ => rfl
    simp only [hr, hwt]
    rw [List.sum_append, List.sum_map_add]
    intro h
    have h5 : g 0 0 1 = g 1 0 1 := by
      simp [Fin.sum_univ_three, List.finRange_succ] at h
      linarith
    have hm : StrictMono expit := lo0_eq ▸ mu_mono logit_ok
    have h01 : expit 0 < expit 1 := hm one_pos
    have hh : expit 0 = 1 / 2 := by norm_num [expit]
    have h1 : expit 1 ≤ 1 - 1e-8 := by
      unfold expit
      have := Real.exp_one_lt_d9
      have h2 := Real.exp_pos 1
      rw [Real.exp_neg]
      have h3 : (0.3 : ℝ) ≤ (Real.exp 1)⁻¹ := by
        rw [le_inv_comm₀ (by norm_num) h2]
        norm_num at this ⊢
        linarith
      have h4 : (1 + (Real.exp 1)⁻¹)⁻¹ ≤ (1.3 : ℝ)⁻¹ := inv_anti₀ (by norm_num) (by linarith)
      refine h4.trans ?_
      norm_num
    rw [g0, hgl 1 0 (by rw [hh] at h01; norm_num at h01 ⊢; linarith) h1] at h5
    simp only [logLik, zero_mul, sub_zero, one_mul, zero_add] at h5
    have := Real.log_injOn_pos (by rw [hh]; norm_num) (by
      rw [Set.mem_Ioi]
      norm_num at h1 ⊢
      linarith) h5
    linarith

end Verif.Split
