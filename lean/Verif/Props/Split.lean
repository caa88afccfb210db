import Verif.Spec.Split

/-!
# C40: observations are partitioned among the factors
-/
namespace Verif.Split

open Verif.Split.Spec Verif.GLMM Verif.Family Verif.Pars

variable {q n p : ℕ}

theorem mem_columnItems {M : ModFr q n p} {j : Fin n} {r : Fin q} :
    r ∈ columnItems M j ↔ r ∈ Active M j := by
  unfold columnItems Active
  rw [List.mem_filter, Set.mem_setOf_eq]
  simp only [List.mem_finRange, true_and, List.any_eq_true, Bool.and_eq_true, decide_eq_true_eq]
  constructor
  · rintro ⟨⟨a, c⟩, h1, rfl, h2⟩
    exact ⟨c, h1, h2⟩
  · rintro ⟨c, h1, h2⟩
    exact ⟨(r, c), h1, rfl, h2⟩

theorem findActive_covered {M : ModFr q n p} (h : Covered M) :
    findActive M = (List.finRange n).map (columnItems M) := by
  unfold findActive
  rw [List.filter_eq_self]
  intro items hi
  obtain ⟨j, -, rfl⟩ := List.mem_map.1 hi
  obtain ⟨r, hr⟩ := h j
  rw [decide_eq_true_eq]
  intro h0
  have := mem_columnItems.2 hr
  rw [h0] at this
  cases this

theorem findActive_at {M : ModFr q n p} (h : Covered M) (j : Fin n) :
    (findActive M).getD j [] = columnItems M j := by
  rw [findActive_covered h, List.getD_eq_getElem _ _ (by simp)]
  simp

/-- The loop: the cliques are kept, the observations are distributed or remain, each goes to a
clique with all its items, and remains only if there is none. -/
theorem addObsLoop_spec {act : List (List (Fin q))} : ∀ (cliques : List (List (Fin q)))
    (obs : List (Fin n)),
    (addObsLoop act cliques obs).1.map Prod.fst = cliques ∧
    (∀ j, ((addObsLoop act cliques obs).1.map fun e => e.2.count j).sum +
      (addObsLoop act cliques obs).2.count j = obs.count j) ∧
    (∀ e ∈ (addObsLoop act cliques obs).1, ∀ j ∈ e.2, ∀ r ∈ act.getD j [], r ∈ e.1) ∧
    ∀ j, j ∈ (addObsLoop act cliques obs).2 ↔
      j ∈ obs ∧ ∀ C ∈ cliques, ¬ ∀ r ∈ act.getD j [], r ∈ C
  | [], obs => by simp [addObsLoop]
  | C :: rest, obs => by
    have hmem : ∀ j, j ∈ addObsC C act obs ↔ j ∈ obs ∧ ∀ r ∈ act.getD j [], r ∈ C := by
      intro j
      unfold addObsC
      rw [List.mem_filter]
      simp only [List.all_eq_true, List.contains_iff_mem]
    obtain ⟨i1, i2, i3, i4⟩ := addObsLoop_spec (act := act) rest
      (obs.filter fun k => ¬ (addObsC C act obs).contains k)
    rw [addObsLoop]
    refine ⟨?_, ?_, ?_, ?_⟩
    · simp only [List.map_cons]
      rw [i1]
    · intro j
      simp only [List.map_cons, List.sum_cons]
      rw [add_assoc, i2]
      by_cases hj : j ∈ addObsC C act obs
      · have h1 : (addObsC C act obs).count j = obs.count j := by
          unfold addObsC
          rw [List.count_filter]
          have := ((hmem j).1 hj).2
          simp only [List.all_eq_true, List.contains_iff_mem]
          exact this
        have h2 : (obs.filter fun k => ¬ (addObsC C act obs).contains k).count j = 0 := by
          rw [List.count_eq_zero, List.mem_filter]
          simp [hj]
        rw [h1, h2]
        rfl
      · have h1 : (addObsC C act obs).count j = 0 := List.count_eq_zero.2 hj
        have h2 : (obs.filter fun k => ¬ (addObsC C act obs).contains k).count j = obs.count j := by
          rw [List.count_filter]
          simp [hj]
        rw [h1, h2, zero_add]
    · intro e he j hj
      rcases List.mem_cons.1 he with rfl | he
      · exact ((hmem j).1 hj).2
      · exact i3 e he j hj
    · intro j
      rw [i4, List.mem_filter]
      simp only [List.contains_iff_mem, decide_eq_true_eq, hmem, List.mem_cons, forall_eq_or_imp]
      tauto

/-- C40. For all cliques: either the observations are partitioned among them, each in a clique
with all its active random effects, or there is an error; the error occurs exactly when an
observation fits in no clique. -/
theorem c40_partition {M : ModFr q n p} (h : Covered M) (cliques : List (List (Fin q))) :
    (∀ ext, addObs cliques (findActive M) (List.finRange n) = Except.ok ext →
      ext.map Prod.fst = cliques ∧ Partition ext ∧ Contained M ext) ∧
    ((∃ ext, addObs cliques (findActive M) (List.finRange n) = Except.ok ext) ↔
      ∀ j, ∃ C ∈ cliques, ∀ r ∈ Active M j, r ∈ C) := by
  obtain ⟨h1, h2, h3, h4⟩ := addObsLoop_spec (act := findActive M) cliques (List.finRange n)
  simp only [findActive_at h, mem_columnItems, List.mem_finRange, true_and] at h3 h4
  unfold addObs
  dsimp only
  constructor
  · intro ext he
    split at he
    · cases he
    rename_i h0
    have h0 : (addObsLoop (findActive M) cliques (List.finRange n)).2 = [] :=
      List.length_eq_zero_iff.1 (not_not.1 h0)
    have he := Except.ok.inj he
    subst he
    refine ⟨h1, fun j => ?_, h3⟩
    have := h2 j
    rw [h0, List.count_nil, add_zero,
      List.count_eq_one_of_mem (List.nodup_finRange n) (List.mem_finRange j)] at this
    exact this
  · constructor
    · rintro ⟨ext, he⟩ j
      split at he
      · cases he
      rename_i h0
      have h0 : (addObsLoop (findActive M) cliques (List.finRange n)).2 = [] :=
        List.length_eq_zero_iff.1 (not_not.1 h0)
      by_contra hj
      push Not at hj
      have := (h4 j).2 (by
        intro C hC hr
        obtain ⟨r, hr1, hr2⟩ := hj C hC
        exact hr2 (hr r hr1))
      rw [h0] at this
      cases this
    · intro hj
      have h0 : (addObsLoop (findActive M) cliques (List.finRange n)).2 = [] := by
        rw [List.eq_nil_iff_forall_not_mem]
        intro j hm
        obtain ⟨C, hC, hr⟩ := hj j
        exact (h4 j).1 hm C hC hr
      rw [h0]
      exact ⟨_, rfl⟩

/-- C40: the splitting of a model never stops, and the cliques are sets of active random effects. -/
theorem c40_own {M : ModFr q n p} (h : Covered M) :
    ∃ ext terms, findFactorizationTerms M = Except.ok terms ∧
      terms = (ext.map fun e => Term.glmm e.1 e.2.length (findLocalTerm e.1 e.2 M)) ++
        (List.finRange q).map (fun i => Term.normal i 0 1) ∧
      Partition ext ∧ Contained M ext ∧
      ∀ e ∈ ext, e.1.Nodup ∧ ∃ j, ∀ r, r ∈ e.1 ↔ r ∈ Active M j := by
  obtain ⟨h1, h2⟩ := c40_partition h (findActive M).eraseDups
  have hmem : ∀ C, C ∈ (findActive M).eraseDups ↔ ∃ j, columnItems M j = C := by
    intro C
    rw [List.mem_eraseDups, findActive_covered h, List.mem_map]
    simp
  obtain ⟨ext, he⟩ := h2.2 fun j => ⟨columnItems M j, (hmem _).2 ⟨j, rfl⟩, fun r hr =>
    mem_columnItems.2 hr⟩
  obtain ⟨a1, a2, a3⟩ := h1 ext he
  refine ⟨ext, _, ?_, rfl, a2, a3, ?_⟩
  · unfold findFactorizationTerms
    dsimp only
    rw [he]
    rfl
  · intro e hm
    have : e.1 ∈ (findActive M).eraseDups := a1 ▸ List.mem_map_of_mem hm
    obtain ⟨j, hj⟩ := (hmem _).1 this
    refine ⟨hj ▸ (List.nodup_finRange q).filter _, j, fun r => hj ▸ mem_columnItems⟩

/-! ## A case meeting the hypotheses -/

/-- Three random effects and three observations: the first two share the third random effect, which is
the only one of the last observation. -/
def shared : ModFr 3 3 1 where
  X := 0
  Zt := Matrix.of fun r j => if r = j ∨ r = 2 then 1 else 0
  ztStored r j := r = j ∨ r = 2
  lambdat := [(0, 0), (1, 1), (2, 2)]
  Lind := [1, 1, 2]
  resp := 0
  weights := none
  offset := 0

theorem shared_covered : Covered shared := fun j => ⟨2, 2, by simp [shared], by simp [shared]⟩

/-- The last observation is taken by the first clique with its random effect; the own clique of that
observation is left empty. -/
example : addObs (findActive shared).eraseDups (findActive shared) (List.finRange 3) =
      Except.ok [([0, 2], [0, 2]), ([1, 2], [1]), ([2], [])] ∧
    Partition [(([0, 2] : List (Fin 3)), ([0, 2] : List (Fin 3))), ([1, 2], [1]), ([2], [])] ∧
    Contained shared [([0, 2], [0, 2]), ([1, 2], [1]), ([2], [])] := by
  have h : addObs (findActive shared).eraseDups (findActive shared) (List.finRange 3) =
      Except.ok [([0, 2], [0, 2]), ([1, 2], [1]), ([2], [])] := by decide
  exact ⟨h, ((c40_partition shared_covered _).1 _ h).2⟩

/-- An observation fits in none of these cliques: the error occurs. -/
example : ¬ ∃ ext, addObs [[0, 2], [1]] (findActive shared) (List.finRange 3) = Except.ok ext := by
  rw [(c40_partition shared_covered _).2]
  intro h
  obtain ⟨C, hC, hr⟩ := h 1
  have h1 := hr 1 ⟨1, by simp [shared], by simp [shared]⟩
  have h2 := hr 2 ⟨2, by simp [shared], by simp [shared]⟩
  simp only [List.mem_cons, List.not_mem_nil, or_false] at hC
  rcases hC with rfl | rfl <;> revert h1 h2 <;> decide

/-! ## An observation without active random effects -/

/-- Three observations: the first without random effect, the others with one each. -/
def shifted : ModFr 2 3 1 where
  X := 0
  Zt := Matrix.of fun r j => if (j : ℕ) = r + 1 then 1 else 0
  ztStored r j := (j : ℕ) = r + 1
  lambdat := [(0, 0), (1, 1)]
  Lind := [1, 1]
  resp := 0
  weights := none
  offset := 0

/-- Without `Covered` C40 is violated: the positions of the active sets are shifted, and the
observations are assigned to cliques without their random effects, without an error. -/
theorem c40_violated : ∃ ext, addObs (findActive shifted).eraseDups (findActive shifted)
    (List.finRange 3) = Except.ok ext ∧ ¬ Contained shifted ext := by
  refine ⟨[([0], [0, 2]), ([1], [1])], by decide, fun h => ?_⟩
  have := h ([0], [0, 2]) (by simp) 2 (by simp) 1 ⟨1, by simp [shifted], by decide⟩
  revert this
  decide

end Verif.Split
