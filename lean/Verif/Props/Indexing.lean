import Verif.Model.Indexing
import Verif.Props.Frames
import Mathlib.Data.Set.Function
import Mathlib.Order.Interval.Set.Basic
import Mathlib.Tactic.Push

/-!
# C46: multi-index flattening matches the expanded grid
-/
namespace Verif.Indexing

open Verif.Frames Finset

/-! ## Specification -/

/-- The rows of `expand.grid` of the index vectors `1..l`: the first index varies fastest. -/
def Spec.grid : List ℕ → List (List ℕ)
  | [] => [[]]
  | l :: ls => (Spec.grid ls).flatMap fun t => (List.range l).map fun a => (a + 1) :: t

/-- Tuples of index values: one number from 1 to the length of its index for every index. -/
def Spec.IsTuple (t ls : List ℕ) : Prop := List.Forall₂ (fun a l => 1 ≤ a ∧ a ≤ l) t ls

/-- A matrix whose column number `j` is the tuple `t`. -/
def Spec.HasColumn (m : Mat) (j : ℕ) (t : List ℕ) : Prop :=
  m.nrow = t.length ∧ j < m.ncol ∧ ∀ k < t.length, m.e k j = (t.getD k 0 : ℕ)

/-- Flat number, from 0. -/
def rank : List ℕ → List ℕ → ℕ
  | l :: ls, a :: t => (a - 1) + l * rank ls t
  | _, _ => 0

theorem block_get {β γ : Type} {l : ℕ} {f : β → List γ} (hf : ∀ b, (f b).length = l) {a : ℕ}
    (ha : a < l) : ∀ (L : List β) (i : ℕ),
    (L.flatMap f)[a + l * i]? = L[i]?.bind fun b => (f b)[a]?
  | [], i => by simp
  | b :: L, 0 => by
    rw [List.flatMap_cons, mul_zero, add_zero, List.getElem?_append_left (by rw [hf]; exact ha)]
    rfl
  | b :: L, i + 1 => by
    rw [List.flatMap_cons, List.getElem?_append_right (by rw [hf, mul_add]; omega), hf,
      show a + l * (i + 1) - l = a + l * i by rw [mul_add]; omega, block_get hf ha L i]
    rfl

theorem grid_length : ∀ ls : List ℕ, (Spec.grid ls).length = ls.prod
  | [] => rfl
  | l :: ls => by
    rw [Spec.grid, List.length_flatMap, List.prod_cons]
    simp only [List.length_map, List.length_range]
    rw [List.map_const', List.sum_replicate, grid_length ls, smul_eq_mul, mul_comm]

/-- The tuple is in the row of its rank. -/
theorem grid_rank : ∀ {t ls : List ℕ}, Spec.IsTuple t ls → (Spec.grid ls)[rank ls t]? = some t
  | _, _, List.Forall₂.nil => rfl
  | a :: t, l :: ls, List.Forall₂.cons h hs => by
    rw [Spec.grid, rank, block_get (l := l) (fun b => by simp) (by omega), grid_rank hs]
    simp only [Option.bind_some, List.getElem?_map]
    rw [List.getElem?_range (by omega)]
    simp only [Option.map_some]
    congr 2
    omega

/-- Every row of the grid is a tuple. -/
theorem grid_tuple : ∀ {ls t : List ℕ}, t ∈ Spec.grid ls → Spec.IsTuple t ls
  | [], t, h => by
    rw [Spec.grid, List.mem_singleton] at h
    subst h
    exact List.Forall₂.nil
  | l :: ls, t, h => by
    rw [Spec.grid, List.mem_flatMap] at h
    obtain ⟨t', ht', h⟩ := h
    obtain ⟨a, ha, rfl⟩ := List.mem_map.1 h
    have := List.mem_range.1 ha
    exact List.Forall₂.cons ⟨by omega, by omega⟩ (grid_tuple ht')

theorem mem_grid {t ls : List ℕ} : t ∈ Spec.grid ls ↔ Spec.IsTuple t ls :=
  ⟨grid_tuple, fun h => List.mem_of_getElem? (grid_rank h)⟩

theorem rank_lt {t ls : List ℕ} (h : Spec.IsTuple t ls) : rank ls t < ls.prod := by
  have := grid_rank h
  by_contra hlt
  rw [List.getElem?_eq_none (by rw [grid_length]; omega)] at this
  cases this

theorem grid_get_rank : ∀ (ls : List ℕ) (i : ℕ) {t : List ℕ}, (Spec.grid ls)[i]? = some t →
    rank ls t = i
  | [], 0, t, h => by
    have h : some [] = some t := h
    cases h
    rfl
  | [], i + 1, t, h => by
    have h : (none : Option (List ℕ)) = some t := h
    cases h
  | l :: ls, i, t, h => by
    rcases Nat.eq_zero_or_pos l with rfl | hl
    · simp [Spec.grid] at h
    have hm := Nat.mod_lt i hl
    rw [Spec.grid, ← Nat.mod_add_div i l, block_get (l := l) (fun b => by simp) hm] at h
    rcases ht : (Spec.grid ls)[i / l]? with _ | t'
    · rw [ht] at h
      cases h
    · rw [ht] at h
      simp only [Option.bind_some, List.getElem?_map] at h
      rw [List.getElem?_range hm] at h
      simp only [Option.map_some, Option.some.injEq] at h
      subst h
      rw [rank, grid_get_rank ls (i / l) ht, Nat.add_sub_cancel, Nat.mod_add_div]

/-! ## The code computes the rank -/

theorem strides_length {l : List ℕ} (h : l ≠ []) : (strides l).length = l.length := by
  have : ∀ (ls : List ℕ) (acc : ℕ), (cumprod acc ls).length = ls.length := by
    intro ls
    induction ls with
    | nil => exact fun _ => rfl
    | cons a ls ih =>
      intro acc
      rw [cumprod, List.length_cons, ih, List.length_cons]
  rw [strides, List.length_cons, List.length_dropLast, this]
  have := List.length_pos_of_ne_nil h
  omega

theorem strides_rank : ∀ (ls t : List ℕ) (acc : ℕ), Spec.IsTuple t ls → ls ≠ [] →
    (∑ k ∈ range t.length, ((t.getD k 0 : ℕ) - 1 : ℝ) *
      (((acc :: (cumprod acc ls).dropLast).getD k 0 : ℕ) : ℝ)) = acc * rank ls t
  | [l], [a], acc, h, _ => by
    have h1 : 1 ≤ a := (List.forall₂_cons.1 h).1.1
    simp only [List.length_cons, List.length_nil, zero_add, sum_range_one, List.getD_cons_zero,
      rank, mul_zero, add_zero]
    rw [mul_comm, Nat.cast_sub h1, Nat.cast_one]
  | l :: l' :: ls, a :: t, acc, h, _ => by
    obtain ⟨h1, h2⟩ := List.forall₂_cons.1 h
    rw [List.length_cons, sum_range_succ']
    simp only [List.getD_cons_zero, List.getD_cons_succ]
    have e : (cumprod acc (l :: l' :: ls)).dropLast =
        acc * l :: (cumprod (acc * l) (l' :: ls)).dropLast := rfl
    rw [e, strides_rank (l' :: ls) t (acc * l) h2 (by simp), rank]
    push_cast
    rw [Nat.cast_sub h1.1]
    push_cast
    ring
  | [], _, _, _, h => absurd rfl h
  | _ :: _, [], _, h, _ => by cases h
  | [l], a :: b :: t, _, h, _ => by
    have := (List.forall₂_cons.1 h).2
    cases this

/-- C46: for every matrix of index values, the flat number of a column holding the tuple `t` is the
number of the row of the expanded grid holding `t`. -/
theorem c46_row {m : Mat} {ls : List ℕ} {r : List ℝ} (hls : ls ≠ [])
    (h : multiToFlat m ls = Except.ok r) {j : ℕ} {t : List ℕ} (ht : Spec.IsTuple t ls)
    (hc : Spec.HasColumn m j t) :
    ∃ k : ℕ, r.getD j 0 = k + 1 ∧ (Spec.grid ls)[k]? = some t := by
  refine ⟨rank ls t, ?_, grid_rank ht⟩
  unfold multiToFlat at h
  rcases hs : Mat.scale ⟨m.nrow, m.ncol, fun i j => m.e i j - 1⟩
    ((strides ls).map fun x : ℕ => (x : ℝ)) with err | s
  · rw [hs] at h
    cases h
  rw [hs] at h
  have h := Except.ok.inj h
  subst h
  obtain ⟨h1, h2, h3⟩ := hc
  obtain ⟨s1, s2, s3⟩ := scale_spec hs
  rw [List.getD_eq_getElem _ _ (by simpa using h2), List.getElem_map, List.getElem_range, add_comm]
  congr 1
  have hlen : t.length = ls.length := ht.length_eq
  have := strides_rank ls t 1 ht hls
  rw [Nat.cast_one, one_mul] at this
  rw [← this, h1]
  refine sum_congr rfl fun k hk => ?_
  have hk := mem_range.1 hk
  have e := s3 k (by show k < m.nrow; omega) j h2
  rw [e]
  dsimp only
  rw [h3 k hk]
  congr 1
  rw [List.length_map, strides_length hls, h1, hlen, Nat.add_mul_mod_self_left,
    Nat.mod_eq_of_lt (by omega), List.getD_eq_getElem _ _ (by
      rw [List.length_map, strides_length hls]; omega), List.getElem_map]
  show _ = (((strides ls).getD k 0 : ℕ) : ℝ)
  rw [List.getD_eq_getElem _ _ (by rw [strides_length hls]; omega)]

/-- C46: the tuples of index values and the numbers `1..prod(lengths)` correspond one to one. -/
theorem c46_bijection (ls : List ℕ) :
    Set.BijOn (fun t => (Spec.grid ls).idxOf t + 1) {t | Spec.IsTuple t ls}
      (Set.Icc 1 ls.prod) ∧
    ∀ t, Spec.IsTuple t ls → (Spec.grid ls)[(Spec.grid ls).idxOf t]? = some t := by
  have e : ∀ t, Spec.IsTuple t ls → (Spec.grid ls).idxOf t = rank ls t := by
    intro t ht
    have h1 := List.idxOf_lt_length_of_mem (mem_grid.2 ht)
    exact (grid_get_rank ls _ (by rw [List.getElem?_eq_getElem h1, List.getElem_idxOf])).symm
  refine ⟨⟨?_, ?_, ?_⟩, ?_⟩
  · intro t ht
    show 1 ≤ _ ∧ _ ≤ _
    dsimp only
    rw [e t ht]
    have := rank_lt ht
    omega
  · intro t ht t' ht' h
    dsimp only at h
    rw [e t ht, e t' ht'] at h
    have h1 := grid_rank ht
    rw [Nat.add_right_cancel h, grid_rank ht'] at h1
    exact (Option.some.inj h1).symm
  · intro k hk
    have hlt : k - 1 < (Spec.grid ls).length := by
      rw [grid_length]
      have := hk.1
      have := hk.2
      omega
    have hm : (Spec.grid ls)[k - 1]? = some (Spec.grid ls)[k - 1] := List.getElem?_eq_getElem hlt
    refine ⟨_, grid_tuple (List.getElem_mem hlt), ?_⟩
    dsimp only
    rw [e _ (grid_tuple (List.getElem_mem hlt)), grid_get_rank ls _ hm]
    have := hk.1
    omega
  · intro t ht
    rw [e t ht]
    exact grid_rank ht

/-- C46 for whole variables, as `flatten_vars` is used: when the variables of observation `j` form a
tuple, the flat number selects the row of the grid holding it. -/
theorem c46_vars {vs : List (List ℝ)} {ls : List ℕ} {r : List ℝ} {n : ℕ} (hls : ls ≠ [])
    (hn : ∀ v ∈ vs, v.length = n) (h : flattenVars vs ls = Except.ok r) :
    r.length = n ∧ ∀ j < n, ∀ t, Spec.IsTuple t ls → vs.map (fun v => v.getD j 0) = t.map (fun a : ℕ => (a : ℝ)) →
      ∃ k : ℕ, r.getD j 0 = k + 1 ∧ (Spec.grid ls)[k]? = some t := by
  unfold flattenVars at h
  rcases hm : rbindVectors vs with err | m
  · rw [hm] at h
    cases h
  rw [hm] at h
  simp only [res_ok_bind] at h
  have hmm : m.nrow = vs.length ∧ m.ncol = n ∧ ∀ i j, m.e i j = (vs.getD i []).getD j 0 := by
    unfold rbindVectors at hm
    split at hm
    · split at hm
      · have hm := Except.ok.inj hm
        subst hm
        exact ⟨rfl, hn _ (List.mem_cons_self ..), fun _ _ => rfl⟩
      · cases hm
    · cases hm
  refine ⟨?_, fun j hj t ht e => c46_row hls h ht ⟨?_, ?_, ?_⟩⟩
  · unfold multiToFlat at h
    rcases hs : Mat.scale ⟨m.nrow, m.ncol, fun i j => m.e i j - 1⟩
      ((strides ls).map fun x : ℕ => (x : ℝ)) with err | s
    · rw [hs] at h
      cases h
    rw [hs] at h
    have h := Except.ok.inj h
    subst h
    rw [List.length_map, List.length_range, hmm.2.1]
  · have := congrArg List.length e
    rw [List.length_map, List.length_map] at this
    rw [hmm.1, this]
  · rw [hmm.2.1]
    exact hj
  · intro k hk
    have hl := congrArg List.length e
    rw [List.length_map, List.length_map] at hl
    rw [hmm.2.2, List.getD_eq_getElem vs _ (by omega), List.getD_eq_getElem t _ hk]
    have e1 : (vs.map (fun v => v.getD j 0))[k]'(by rw [List.length_map]; omega) =
      (t.map (fun a : ℕ => (a : ℝ)))[k]'(by rw [List.length_map]; omega) := by
      simp only [e]
    rw [List.getElem_map, List.getElem_map] at e1
    exact e1

/-- Flattening works for at least two variables of one positive length, one for each index. -/
theorem c46_runs {vs : List (List ℝ)} {ls : List ℕ} {n : ℕ} (h2 : 2 ≤ vs.length)
    (hl : vs.length = ls.length) (hn : ∀ v ∈ vs, v.length = n) :
    ∃ r, flattenVars vs ls = Except.ok r := by
  have hls : ls ≠ [] := by
    rintro rfl
    simp only [List.length_nil] at hl
    omega
  rcases vs with _ | ⟨v, _ | ⟨w, rest⟩⟩
  · simp at h2
  · simp at h2
  unfold flattenVars rbindVectors
  dsimp only
  rw [if_pos (by
    rw [List.all_eq_true]
    intro x hx
    rw [hn x (List.mem_cons_of_mem _ hx), hn v (List.mem_cons_self ..)]
    simp)]
  simp only [res_ok_bind]
  unfold multiToFlat
  obtain ⟨s, hs⟩ := scale_runs (m := ⟨(v :: w :: rest).length, v.length,
    fun i j => ((v :: w :: rest).getD i []).getD j 0 - 1⟩)
    (a := (strides ls).map fun x : ℕ => (x : ℝ)) (by
      rcases Nat.eq_zero_or_pos v.length with h0 | h0
      · left
        show _ * v.length = 0
        rw [h0, mul_zero]
      · right
        rw [List.length_map, strides_length hls, ← hl]
        refine ⟨by simp, ?_⟩
        exact Nat.le_mul_of_pos_right _ h0)
  rw [hs]
  exact ⟨_, rfl⟩

/-- Outside the ranges the flat number can be that of another tuple: `(3, 1)` and `(1, 2)` for two
indices of length 2. -/
theorem c46_outside : flattenVars [[3, 1], [1, 2]] [2, 2] = Except.ok [3, 3] := by
  unfold flattenVars rbindVectors
  dsimp only
  rw [if_pos (by simp)]
  simp only [res_ok_bind]
  unfold multiToFlat Mat.scale
  rw [if_neg (by norm_num), if_neg (by norm_num [strides, cumprod])]
  simp only [res_ok_bind]
  show Except.ok _ = _
  congr 1
  simp [strides, cumprod, sum_range_succ, List.range_succ]
  norm_num

/-- A concrete case: three indices of lengths 2, 3 and 4. -/
example : ∃ r, flattenVars [[2, 1], [3, 1], [1, 4]] [2, 3, 4] = Except.ok r ∧
    ∃ k : ℕ, r.getD 0 0 = k + 1 ∧ (Spec.grid [2, 3, 4])[k]? = some [2, 3, 1] := by
  obtain ⟨r, h⟩ := c46_runs (vs := [[2, 1], [3, 1], [1, 4]]) (ls := [2, 3, 4]) (n := 2) (by simp)
    (by simp) (by simp)
  refine ⟨r, h, (c46_vars (by simp) (n := 2) (by simp) h).2 0 (by norm_num) [2, 3, 1] ?_ (by simp)⟩
  exact List.Forall₂.cons (by norm_num) (List.Forall₂.cons (by norm_num)
    (List.Forall₂.cons (by norm_num) List.Forall₂.nil))

end Verif.Indexing
