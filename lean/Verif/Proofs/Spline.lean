import Verif.Model.Basis
import Mathlib.Tactic.Linarith
import Mathlib.Tactic.LinearCombination
import Mathlib.Tactic.FieldSimp
import Mathlib.LinearAlgebra.Matrix.ToLinearEquiv
import Mathlib.LinearAlgebra.Vandermonde
import Mathlib.Data.Finset.Max

/-! The spline system: what its rows say, and that it is nonsingular. -/
namespace Verif.BasisLevel

open Finset

theorem assign_append (l l' : List ((ℕ × ℕ) × ℝ)) (m : ℕ × ℕ → ℝ) :
    assign (l ++ l') m = assign l' (assign l m) := by
  simp [assign, List.foldl_append]

theorem assign_not_mem (l : List ((ℕ × ℕ) × ℝ)) (m : ℕ × ℕ → ℝ) (key : ℕ × ℕ)
    (h : ∀ v, (key, v) ∉ l) : assign l m key = m key := by
  induction l generalizing m with
  | nil => rfl
  | cons a l ih =>
    have : assign (a :: l) m = assign l (fun key => if key = a.1 then a.2 else m key) := rfl
    rw [this, ih _ (fun v hv => h v (List.mem_cons_of_mem _ hv)), if_neg]
    intro e
    apply h a.2
    rw [e]
    exact List.mem_cons_self

theorem assign_mem (l : List ((ℕ × ℕ) × ℝ)) (m : ℕ × ℕ → ℝ) (key : ℕ × ℕ) (v : ℝ)
    (hmem : (key, v) ∈ l) (huniq : ∀ v', (key, v') ∈ l → v' = v) : assign l m key = v := by
  induction l generalizing m with
  | nil => simp at hmem
  | cons a l ih =>
    have e : assign (a :: l) m = assign l (fun key => if key = a.1 then a.2 else m key) := rfl
    rw [e]
    by_cases hl : ∃ v', (key, v') ∈ l
    · obtain ⟨v', hv'⟩ := hl
      have := huniq v' (List.mem_cons_of_mem _ hv')
      subst this
      exact ih _ hv' (fun w hw => huniq w (List.mem_cons_of_mem _ hw))
    · rw [assign_not_mem l _ key (fun w hw => hl ⟨w, hw⟩)]
      rcases List.mem_cons.mp hmem with h | h
      · rw [← h, if_pos rfl]
      · exact absurd ⟨v, h⟩ hl

theorem mem_interpA {k : ℕ → ℝ} {n r c : ℕ} {v : ℝ} :
    ((r, c), v) ∈ assignInterpA k n ↔ ∃ i < n - 1, ∃ j < 4, c = 4 * i + j ∧
      ((r = 2 * i ∧ v = k i ^ j) ∨ (r = 2 * i + 1 ∧ v = k (i + 1) ^ j)) := by
  simp only [assignInterpA, List.mem_flatMap, List.mem_range, List.mem_cons, Prod.mk.injEq,
    List.not_mem_nil, or_false]
  constructor
  · rintro ⟨i, hi, j, hj, (⟨⟨h1, h2⟩, h3⟩ | ⟨⟨h1, h2⟩, h3⟩)⟩
    · exact ⟨i, hi, j, hj, h2, Or.inl ⟨h1, h3⟩⟩
    · exact ⟨i, hi, j, hj, h2, Or.inr ⟨h1, h3⟩⟩
  · rintro ⟨i, hi, j, hj, h2, (⟨h1, h3⟩ | ⟨h1, h3⟩)⟩
    · exact ⟨i, hi, j, hj, Or.inl ⟨⟨h1, h2⟩, h3⟩⟩
    · exact ⟨i, hi, j, hj, Or.inr ⟨⟨h1, h2⟩, h3⟩⟩

theorem mem_interpB {n r c : ℕ} {v : ℝ} :
    ((r, c), v) ∈ assignInterpB n ↔ ∃ i < n - 1,
      ((r = 2 * i ∧ c = i) ∨ (r = 2 * i + 1 ∧ c = i + 1)) ∧ v = 1 := by
  simp only [assignInterpB, List.mem_flatMap, List.mem_range, List.mem_cons, Prod.mk.injEq,
    List.not_mem_nil, or_false]
  constructor
  · rintro ⟨i, hi, (⟨⟨h1, h2⟩, h3⟩ | ⟨⟨h1, h2⟩, h3⟩)⟩
    · exact ⟨i, hi, Or.inl ⟨h1, h2⟩, h3⟩
    · exact ⟨i, hi, Or.inr ⟨h1, h2⟩, h3⟩
  · rintro ⟨i, hi, (⟨h1, h2⟩ | ⟨h1, h2⟩), h3⟩
    · exact ⟨i, hi, Or.inl ⟨⟨h1, h2⟩, h3⟩⟩
    · exact ⟨i, hi, Or.inr ⟨⟨h1, h2⟩, h3⟩⟩

theorem mem_derivA {k : ℕ → ℝ} {n r c : ℕ} {v : ℝ} :
    ((r, c), v) ∈ assignDerivA k n ↔ ∃ i, 1 ≤ i ∧ i < 1 + (n - 2) ∧ ∃ j, 1 ≤ j ∧ j < 1 + 3 ∧
      ((r = 2 * (n - 1) + i - 1 ∧ c = 4 * (i - 1) + j ∧ v = j * k i ^ (j - 1)) ∨
       (r = 2 * (n - 1) + i - 1 ∧ c = 4 * i + j ∧ v = -(j * k i ^ (j - 1))) ∨
       (1 < j ∧ r = 2 * (n - 1) + i - 1 + n - 2 ∧ c = 4 * (i - 1) + j ∧
          v = j * ((j : ℝ) - 1) * k i ^ (j - 2)) ∨
       (1 < j ∧ r = 2 * (n - 1) + i - 1 + n - 2 ∧ c = 4 * i + j ∧
          v = -(j * ((j : ℝ) - 1) * k i ^ (j - 2)))) := by
  simp only [assignDerivA, List.mem_flatMap, List.mem_range'_1]
  constructor
  · rintro ⟨i, ⟨hi1, hi2⟩, j, ⟨hj1, hj2⟩, h⟩
    refine ⟨i, hi1, hi2, j, hj1, hj2, ?_⟩
    simp only [List.mem_append, List.mem_cons, Prod.mk.injEq, List.not_mem_nil, or_false] at h
    rcases h with (⟨⟨h1, h2⟩, h3⟩ | ⟨⟨h1, h2⟩, h3⟩) | h
    · exact Or.inl ⟨h1, h2, h3⟩
    · exact Or.inr (Or.inl ⟨h1, h2, h3⟩)
    · split at h
      · rename_i hj
        simp only [List.mem_cons, Prod.mk.injEq, List.not_mem_nil, or_false] at h
        rcases h with (⟨⟨h1, h2⟩, h3⟩ | ⟨⟨h1, h2⟩, h3⟩)
        · exact Or.inr (Or.inr (Or.inl ⟨hj, h1, h2, h3⟩))
        · exact Or.inr (Or.inr (Or.inr ⟨hj, h1, h2, h3⟩))
      · simp at h
  · rintro ⟨i, hi1, hi2, j, hj1, hj2, h⟩
    refine ⟨i, ⟨hi1, hi2⟩, j, ⟨hj1, hj2⟩, ?_⟩
    simp only [List.mem_append, List.mem_cons, Prod.mk.injEq, List.not_mem_nil, or_false]
    rcases h with ⟨h1, h2, h3⟩ | ⟨h1, h2, h3⟩ | ⟨hj, h1, h2, h3⟩ | ⟨hj, h1, h2, h3⟩
    · exact Or.inl (Or.inl ⟨⟨h1, h2⟩, h3⟩)
    · exact Or.inl (Or.inr ⟨⟨h1, h2⟩, h3⟩)
    · right
      rw [if_pos hj]
      simp only [List.mem_cons, Prod.mk.injEq, List.not_mem_nil, or_false]
      exact Or.inl ⟨⟨h1, h2⟩, h3⟩
    · right
      rw [if_pos hj]
      simp only [List.mem_cons, Prod.mk.injEq, List.not_mem_nil, or_false]
      exact Or.inr ⟨⟨h1, h2⟩, h3⟩

theorem mem_endA {n r c : ℕ} {v : ℝ} : ((r, c), v) ∈ assignEndA n ↔
    ((r = 4 * n - 6 ∧ c = 3) ∨ (r = 4 * n - 5 ∧ c = 4 * (n - 2) + 3)) ∧ v = 6 := by
  simp only [assignEndA, List.mem_cons, Prod.mk.injEq, List.not_mem_nil, or_false]
  tauto

/-- Entries of the interpolation rows. -/
theorem splineA_left {k : ℕ → ℝ} {n i j : ℕ} (hi : i + 1 < n) (hj : j < 4) :
    splineA k n (2 * i, 4 * i + j) = k i ^ j := by
  apply assign_mem
  · exact List.mem_append_left _ (mem_interpA.mpr ⟨i, by omega, j, hj, rfl, Or.inl ⟨rfl, rfl⟩⟩)
  · intro v' hv'
    rcases List.mem_append.mp hv' with h | h
    · obtain ⟨i', _, j', _, h1, (⟨h2, h3⟩ | ⟨h2, h3⟩)⟩ := mem_interpA.mp h
      · have : i' = i := by omega
        subst this
        have : j' = j := by omega
        subst this
        exact h3
      · omega
    · rcases List.mem_append.mp h with h | h
      · obtain ⟨i', _, _, j', _, _, h⟩ := mem_derivA.mp h
        omega
      · have := mem_endA.mp h
        omega

theorem splineA_right {k : ℕ → ℝ} {n i j : ℕ} (hi : i + 1 < n) (hj : j < 4) :
    splineA k n (2 * i + 1, 4 * i + j) = k (i + 1) ^ j := by
  apply assign_mem
  · exact List.mem_append_left _ (mem_interpA.mpr ⟨i, by omega, j, hj, rfl, Or.inr ⟨rfl, rfl⟩⟩)
  · intro v' hv'
    rcases List.mem_append.mp hv' with h | h
    · obtain ⟨i', _, j', _, h1, (⟨h2, h3⟩ | ⟨h2, h3⟩)⟩ := mem_interpA.mp h
      · omega
      · have : i' = i := by omega
        subst this
        have : j' = j := by omega
        subst this
        exact h3
    · rcases List.mem_append.mp h with h | h
      · obtain ⟨i', _, _, j', _, _, h⟩ := mem_derivA.mp h
        omega
      · have := mem_endA.mp h
        omega

theorem splineA_interp_zero {k : ℕ → ℝ} {n i r c : ℕ} (hi : i + 1 < n)
    (hr : r = 2 * i ∨ r = 2 * i + 1) (hc : c < 4 * i ∨ 4 * i + 4 ≤ c) : splineA k n (r, c) = 0 := by
  apply assign_not_mem
  intro v hv
  rcases List.mem_append.mp hv with h | h
  · obtain ⟨i', _, j', _, h1, (⟨h2, h3⟩ | ⟨h2, h3⟩)⟩ := mem_interpA.mp h
    · omega
    · omega
  · rcases List.mem_append.mp h with h | h
    · obtain ⟨i', _, _, j', _, _, h⟩ := mem_derivA.mp h
      omega
    · have := mem_endA.mp h
      omega

theorem splineA_first_above {k : ℕ → ℝ} {n i j : ℕ} (hi : 1 ≤ i) (hi' : i + 1 < n) (hj : 1 ≤ j)
    (hj' : j < 4) : splineA k n (2 * (n - 1) + i - 1, 4 * (i - 1) + j) = j * k i ^ (j - 1) := by
  apply assign_mem
  · exact List.mem_append_right _ (List.mem_append_left _
      (mem_derivA.mpr ⟨i, hi, by omega, j, hj, by omega, Or.inl ⟨rfl, rfl, rfl⟩⟩))
  · intro v' hv'
    rcases List.mem_append.mp hv' with h | h
    · obtain ⟨i', _, j', _, h1, h2⟩ := mem_interpA.mp h
      omega
    · rcases List.mem_append.mp h with h | h
      · obtain ⟨i', _, _, j', _, _, h⟩ := mem_derivA.mp h
        rcases h with ⟨h1, h2, h3⟩ | ⟨h1, h2, h3⟩ | ⟨_, h1, h2, h3⟩ | ⟨_, h1, h2, h3⟩
        · have : i' = i := by omega
          subst this
          have : j' = j := by omega
          subst this
          exact h3
        · omega
        · omega
        · omega
      · have := mem_endA.mp h
        omega

theorem splineA_first_below {k : ℕ → ℝ} {n i j : ℕ} (hi : 1 ≤ i) (hi' : i + 1 < n) (hj : 1 ≤ j)
    (hj' : j < 4) : splineA k n (2 * (n - 1) + i - 1, 4 * i + j) = -(j * k i ^ (j - 1)) := by
  apply assign_mem
  · exact List.mem_append_right _ (List.mem_append_left _
      (mem_derivA.mpr ⟨i, hi, by omega, j, hj, by omega, Or.inr (Or.inl ⟨rfl, rfl, rfl⟩)⟩))
  · intro v' hv'
    rcases List.mem_append.mp hv' with h | h
    · obtain ⟨i', _, j', _, h1, h2⟩ := mem_interpA.mp h
      omega
    · rcases List.mem_append.mp h with h | h
      · obtain ⟨i', _, _, j', _, _, h⟩ := mem_derivA.mp h
        rcases h with ⟨h1, h2, h3⟩ | ⟨h1, h2, h3⟩ | ⟨_, h1, h2, h3⟩ | ⟨_, h1, h2, h3⟩
        · omega
        · have : i' = i := by omega
          subst this
          have : j' = j := by omega
          subst this
          exact h3
        · omega
        · omega
      · have := mem_endA.mp h
        omega

theorem splineA_first_zero {k : ℕ → ℝ} {n i c : ℕ} (hi : 1 ≤ i) (hi' : i + 1 < n)
    (hc : c ≤ 4 * (i - 1) ∨ 4 * i + 4 ≤ c ∨ c = 4 * i) :
    splineA k n (2 * (n - 1) + i - 1, c) = 0 := by
  apply assign_not_mem
  intro v hv
  rcases List.mem_append.mp hv with h | h
  · obtain ⟨i', _, j', _, h1, h2⟩ := mem_interpA.mp h
    omega
  · rcases List.mem_append.mp h with h | h
    · obtain ⟨i', _, _, j', _, _, h⟩ := mem_derivA.mp h
      omega
    · have := mem_endA.mp h
      omega

theorem splineA_second_above {k : ℕ → ℝ} {n i j : ℕ} (hi : 1 ≤ i) (hi' : i + 1 < n) (hj : 1 < j)
    (hj' : j < 4) : splineA k n (2 * (n - 1) + i - 1 + n - 2, 4 * (i - 1) + j)
      = j * ((j : ℝ) - 1) * k i ^ (j - 2) := by
  apply assign_mem
  · exact List.mem_append_right _ (List.mem_append_left _
      (mem_derivA.mpr ⟨i, hi, by omega, j, by omega, by omega,
        Or.inr (Or.inr (Or.inl ⟨hj, rfl, rfl, rfl⟩))⟩))
  · intro v' hv'
    rcases List.mem_append.mp hv' with h | h
    · obtain ⟨i', _, j', _, h1, h2⟩ := mem_interpA.mp h
      omega
    · rcases List.mem_append.mp h with h | h
      · obtain ⟨i', _, _, j', _, _, h⟩ := mem_derivA.mp h
        rcases h with ⟨h1, h2, h3⟩ | ⟨h1, h2, h3⟩ | ⟨_, h1, h2, h3⟩ | ⟨_, h1, h2, h3⟩
        · omega
        · omega
        · have : i' = i := by omega
          subst this
          have : j' = j := by omega
          subst this
          exact h3
        · omega
      · have := mem_endA.mp h
        omega

theorem splineA_second_below {k : ℕ → ℝ} {n i j : ℕ} (hi : 1 ≤ i) (hi' : i + 1 < n) (hj : 1 < j)
    (hj' : j < 4) : splineA k n (2 * (n - 1) + i - 1 + n - 2, 4 * i + j)
      = -(j * ((j : ℝ) - 1) * k i ^ (j - 2)) := by
  apply assign_mem
  · exact List.mem_append_right _ (List.mem_append_left _
      (mem_derivA.mpr ⟨i, hi, by omega, j, by omega, by omega,
        Or.inr (Or.inr (Or.inr ⟨hj, rfl, rfl, rfl⟩))⟩))
  · intro v' hv'
    rcases List.mem_append.mp hv' with h | h
    · obtain ⟨i', _, j', _, h1, h2⟩ := mem_interpA.mp h
      omega
    · rcases List.mem_append.mp h with h | h
      · obtain ⟨i', _, _, j', _, _, h⟩ := mem_derivA.mp h
        rcases h with ⟨h1, h2, h3⟩ | ⟨h1, h2, h3⟩ | ⟨_, h1, h2, h3⟩ | ⟨_, h1, h2, h3⟩
        · omega
        · omega
        · omega
        · have : i' = i := by omega
          subst this
          have : j' = j := by omega
          subst this
          exact h3
      · have := mem_endA.mp h
        omega

theorem splineA_second_zero {k : ℕ → ℝ} {n i c : ℕ} (hi : 1 ≤ i) (hi' : i + 1 < n)
    (hc : c < 4 * (i - 1) + 2 ∨ 4 * i + 4 ≤ c ∨ c = 4 * i ∨ c = 4 * i + 1) :
    splineA k n (2 * (n - 1) + i - 1 + n - 2, c) = 0 := by
  apply assign_not_mem
  intro v hv
  rcases List.mem_append.mp hv with h | h
  · obtain ⟨i', _, j', _, h1, h2⟩ := mem_interpA.mp h
    omega
  · rcases List.mem_append.mp h with h | h
    · obtain ⟨i', _, _, j', _, _, h⟩ := mem_derivA.mp h
      omega
    · have := mem_endA.mp h
      omega

theorem splineA_end {k : ℕ → ℝ} {n c : ℕ} (hn : 3 ≤ n) :
    splineA k n (4 * n - 6, c) = (if c = 3 then 6 else 0) ∧
    splineA k n (4 * n - 5, c) = (if c = 4 * (n - 2) + 3 then 6 else 0) := by
  have key : ∀ r, (r = 4 * n - 6 ∨ r = 4 * n - 5) → ∀ v,
      (((r, c), v) ∈ assignInterpA k n ++ (assignDerivA k n ++ assignEndA n) ↔
        ((r = 4 * n - 6 ∧ c = 3) ∨ (r = 4 * n - 5 ∧ c = 4 * (n - 2) + 3)) ∧ v = 6) := by
    intro r hr v
    rw [List.mem_append, List.mem_append, mem_endA]
    constructor
    · rintro (h | h | h)
      · obtain ⟨i', _, j', _, h1, h2⟩ := mem_interpA.mp h
        omega
      · obtain ⟨i', _, _, j', _, _, h⟩ := mem_derivA.mp h
        omega
      · exact h
    · intro h
      exact Or.inr (Or.inr h)
  constructor
  · split
    · apply assign_mem
      · exact (key _ (Or.inl rfl) 6).mpr ⟨Or.inl ⟨rfl, ‹_›⟩, rfl⟩
      · intro v' hv'
        exact ((key _ (Or.inl rfl) v').mp hv').2
    · apply assign_not_mem
      intro v hv
      have := ((key _ (Or.inl rfl) v).mp hv).1
      omega
  · split
    · apply assign_mem
      · exact (key _ (Or.inr rfl) 6).mpr ⟨Or.inr ⟨rfl, ‹_›⟩, rfl⟩
      · intro v' hv'
        exact ((key _ (Or.inr rfl) v').mp hv').2
    · apply assign_not_mem
      intro v hv
      have := ((key _ (Or.inr rfl) v).mp hv).1
      omega

/-! ### Rows as equations -/

theorem sum_window (f : ℕ → ℝ) {m b w : ℕ} (hb : b + w ≤ m)
    (h : ∀ c < m, (c < b ∨ b + w ≤ c) → f c = 0) :
    ∑ c ∈ range m, f c = ∑ j ∈ range w, f (b + j) := by
  rw [← sum_subset (s₁ := Ico b (b + w))]
  · rw [sum_Ico_eq_sum_range]
    simp
  · intro c hc
    rw [mem_Ico] at hc
    rw [mem_range]
    omega
  · intro c hc hnot
    rw [mem_range] at hc
    rw [mem_Ico] at hnot
    exact h c hc (by omega)

/-- Polynomial piece `i` of the coefficient vector `X`, and its derivatives. -/
def piece (X : ℕ → ℝ) (i : ℕ) (x : ℝ) : ℝ :=
  X (4 * i) + X (4 * i + 1) * x + X (4 * i + 2) * x ^ 2 + X (4 * i + 3) * x ^ 3

def piece' (X : ℕ → ℝ) (i : ℕ) (x : ℝ) : ℝ :=
  X (4 * i + 1) + 2 * X (4 * i + 2) * x + 3 * X (4 * i + 3) * x ^ 2

def piece'' (X : ℕ → ℝ) (i : ℕ) (x : ℝ) : ℝ := 2 * X (4 * i + 2) + 6 * X (4 * i + 3) * x

theorem row_left {k : ℕ → ℝ} {n i : ℕ} (hi : i + 1 < n) (X : ℕ → ℝ) :
    ∑ c ∈ range (4 * (n - 1)), splineA k n (2 * i, c) * X c = piece X i (k i) := by
  rw [sum_window _ (b := 4 * i) (w := 4) (by omega)
    (fun c _ hc => by rw [splineA_interp_zero hi (Or.inl rfl) hc, zero_mul])]
  simp only [sum_range_succ, range_zero, sum_empty]
  rw [splineA_left hi (by norm_num), splineA_left hi (by norm_num), splineA_left hi (by norm_num),
    splineA_left hi (by norm_num), piece]
  simp
  ring

theorem row_right {k : ℕ → ℝ} {n i : ℕ} (hi : i + 1 < n) (X : ℕ → ℝ) :
    ∑ c ∈ range (4 * (n - 1)), splineA k n (2 * i + 1, c) * X c = piece X i (k (i + 1)) := by
  rw [sum_window _ (b := 4 * i) (w := 4) (by omega)
    (fun c _ hc => by rw [splineA_interp_zero hi (Or.inr rfl) hc, zero_mul])]
  simp only [sum_range_succ, range_zero, sum_empty]
  rw [splineA_right hi (by norm_num), splineA_right hi (by norm_num),
    splineA_right hi (by norm_num), splineA_right hi (by norm_num), piece]
  simp
  ring

theorem row_first {k : ℕ → ℝ} {n i : ℕ} (hi : 1 ≤ i) (hi' : i + 1 < n) (X : ℕ → ℝ) :
    ∑ c ∈ range (4 * (n - 1)), splineA k n (2 * (n - 1) + i - 1, c) * X c
      = piece' X (i - 1) (k i) - piece' X i (k i) := by
  rw [sum_window _ (b := 4 * (i - 1)) (w := 8) (by omega)
    (fun c _ hc => by rw [splineA_first_zero hi hi' (by omega), zero_mul])]
  simp only [sum_range_succ, range_zero, sum_empty]
  have e4 : 4 * (i - 1) + 4 = 4 * i := by omega
  have e5 : 4 * (i - 1) + 5 = 4 * i + 1 := by omega
  have e6 : 4 * (i - 1) + 6 = 4 * i + 2 := by omega
  have e7 : 4 * (i - 1) + 7 = 4 * i + 3 := by omega
  rw [e4, e5, e6, e7, splineA_first_zero hi hi' (by omega),
    splineA_first_zero (c := 4 * i) hi hi' (by omega),
    splineA_first_above hi hi' (by norm_num) (by norm_num),
    splineA_first_above hi hi' (by norm_num) (by norm_num),
    splineA_first_above hi hi' (by norm_num) (by norm_num),
    splineA_first_below hi hi' (by norm_num) (by norm_num),
    splineA_first_below hi hi' (by norm_num) (by norm_num),
    splineA_first_below hi hi' (by norm_num) (by norm_num), piece', piece']
  simp
  ring

theorem row_second {k : ℕ → ℝ} {n i : ℕ} (hi : 1 ≤ i) (hi' : i + 1 < n) (X : ℕ → ℝ) :
    ∑ c ∈ range (4 * (n - 1)), splineA k n (2 * (n - 1) + i - 1 + n - 2, c) * X c
      = piece'' X (i - 1) (k i) - piece'' X i (k i) := by
  rw [sum_window _ (b := 4 * (i - 1)) (w := 8) (by omega)
    (fun c _ hc => by rw [splineA_second_zero hi hi' (by omega), zero_mul])]
  simp only [sum_range_succ, range_zero, sum_empty]
  have e4 : 4 * (i - 1) + 4 = 4 * i := by omega
  have e5 : 4 * (i - 1) + 5 = 4 * i + 1 := by omega
  have e6 : 4 * (i - 1) + 6 = 4 * i + 2 := by omega
  have e7 : 4 * (i - 1) + 7 = 4 * i + 3 := by omega
  rw [e4, e5, e6, e7, splineA_second_zero (c := 4 * (i - 1) + 0) hi hi' (by omega),
    splineA_second_zero (c := 4 * (i - 1) + 1) hi hi' (by omega),
    splineA_second_zero (c := 4 * i) hi hi' (by omega),
    splineA_second_zero (c := 4 * i + 1) hi hi' (by omega),
    splineA_second_above hi hi' (by norm_num) (by norm_num),
    splineA_second_above hi hi' (by norm_num) (by norm_num),
    splineA_second_below hi hi' (by norm_num) (by norm_num),
    splineA_second_below hi hi' (by norm_num) (by norm_num), piece'', piece'']
  simp
  ring

theorem row_end {k : ℕ → ℝ} {n : ℕ} (hn : 3 ≤ n) (X : ℕ → ℝ) :
    ∑ c ∈ range (4 * (n - 1)), splineA k n (4 * n - 6, c) * X c = 6 * X 3 ∧
    ∑ c ∈ range (4 * (n - 1)), splineA k n (4 * n - 5, c) * X c = 6 * X (4 * (n - 2) + 3) := by
  constructor
  · simp only [(splineA_end hn).1, ite_mul, zero_mul]
    rw [sum_ite_eq' (range (4 * (n - 1))) 3, if_pos (by rw [mem_range]; omega)]
  · simp only [(splineA_end hn).2, ite_mul, zero_mul]
    rw [sum_ite_eq' (range (4 * (n - 1))), if_pos (by rw [mem_range]; omega)]

/-! ### Nonsingularity -/

/-- A cubic that vanishes at `a` and `b`: its first derivatives there in terms of the second. -/
theorem cubic_deriv (x0 x1 x2 x3 a b : ℝ) (hab : a < b)
    (ha : x0 + x1 * a + x2 * a ^ 2 + x3 * a ^ 3 = 0)
    (hb : x0 + x1 * b + x2 * b ^ 2 + x3 * b ^ 3 = 0) :
    6 * (x1 + 2 * x2 * a + 3 * x3 * a ^ 2)
      = -(b - a) * (2 * (2 * x2 + 6 * x3 * a) + (2 * x2 + 6 * x3 * b)) ∧
    6 * (x1 + 2 * x2 * b + 3 * x3 * b ^ 2)
      = (b - a) * ((2 * x2 + 6 * x3 * a) + 2 * (2 * x2 + 6 * x3 * b)) := by
  have hne : b - a ≠ 0 := by intro h; linarith
  have h1 : (b - a) * (x1 + x2 * (a + b) + x3 * (a ^ 2 + a * b + b ^ 2)) = 0 := by
    linear_combination hb - ha
  have h2 : x1 + x2 * (a + b) + x3 * (a ^ 2 + a * b + b ^ 2) = 0 :=
    (mul_eq_zero.mp h1).resolve_left hne
  constructor
  · linear_combination 6 * h2
  · linear_combination 6 * h2

/-- A solution of the homogeneous system is zero. -/
theorem spline_kernel {k : ℕ → ℝ} {n : ℕ} (hn : 3 ≤ n) (hk : ∀ i, i + 1 < n → k i < k (i + 1))
    (X : ℕ → ℝ)
    (hX : ∀ r < 4 * (n - 1), ∑ c ∈ range (4 * (n - 1)), splineA k n (r, c) * X c = 0) :
    ∀ c < 4 * (n - 1), X c = 0 := by
  have hL : ∀ i, i + 1 < n → piece X i (k i) = 0 := fun i hi => by
    rw [← row_left hi]; exact hX _ (by omega)
  have hR : ∀ i, i + 1 < n → piece X i (k (i + 1)) = 0 := fun i hi => by
    rw [← row_right hi]; exact hX _ (by omega)
  have h1 : ∀ i, 1 ≤ i → i + 1 < n → piece' X (i - 1) (k i) = piece' X i (k i) :=
    fun i hi hi' => by
      have := hX (2 * (n - 1) + i - 1) (by omega)
      rw [row_first hi hi'] at this
      linarith
  have h2 : ∀ i, 1 ≤ i → i + 1 < n → piece'' X (i - 1) (k i) = piece'' X i (k i) :=
    fun i hi hi' => by
      have := hX (2 * (n - 1) + i - 1 + n - 2) (by omega)
      rw [row_second hi hi'] at this
      linarith
  have hE1 : X 3 = 0 := by
    have := hX (4 * n - 6) (by omega)
    rw [(row_end hn X).1] at this
    linarith
  have hE2 : X (4 * (n - 2) + 3) = 0 := by
    have := hX (4 * n - 5) (by omega)
    rw [(row_end hn X).2] at this
    linarith
  -- second derivatives at the knots
  let M : ℕ → ℝ := fun i => if i + 1 < n then piece'' X i (k i) else piece'' X (n - 2) (k (n - 1))
  have hM0 : ∀ i, i + 1 < n → M i = piece'' X i (k i) := fun i hi => by simp [M, hi]
  have hM1 : ∀ i, i + 1 < n → M (i + 1) = piece'' X i (k (i + 1)) := by
    intro i hi
    by_cases h : i + 1 + 1 < n
    · rw [hM0 _ h]
      exact (h2 (i + 1) (by omega) h).symm
    · have e : i = n - 2 := by omega
      have e' : i + 1 = n - 1 := by omega
      simp only [M, if_neg h]
      rw [← e, ← e']
  have hd : ∀ i, i + 1 < n →
      6 * piece' X i (k i) = -(k (i + 1) - k i) * (2 * M i + M (i + 1)) ∧
      6 * piece' X i (k (i + 1)) = (k (i + 1) - k i) * (M i + 2 * M (i + 1)) := by
    intro i hi
    rw [hM0 i hi, hM1 i hi]
    exact cubic_deriv _ _ _ _ _ _ (hk i hi) (hL i hi) (hR i hi)
  have htri : ∀ i, i + 2 < n → (k (i + 1) - k i) * (M i + 2 * M (i + 1))
      + (k (i + 2) - k (i + 1)) * (2 * M (i + 1) + M (i + 2)) = 0 := by
    intro i hi
    have a := (hd i (by omega)).2
    have b := (hd (i + 1) (by omega)).1
    have c := h1 (i + 1) (by omega) (by omega)
    simp only [Nat.add_sub_cancel] at c
    rw [show i + 1 + 1 = i + 2 from rfl] at b
    linarith
  have hend1 : M 0 = M 1 := by
    rw [hM0 0 (by omega), hM1 0 (by omega), piece'', piece'']
    simp [hE1]
  have hend2 : M (n - 2) = M (n - 1) := by
    have := hM1 (n - 2) (by omega)
    rw [show n - 2 + 1 = n - 1 by omega] at this
    rw [this, hM0 (n - 2) (by omega), piece'', piece'', hE2]
    ring
  -- maximum principle
  obtain ⟨i0, hi0, hmax⟩ := exists_max_image (range n) (fun i => |M i|) ⟨0, by simp; omega⟩
  rw [mem_range] at hi0
  have hmax' : ∀ i < n, |M i| ≤ |M i0| := fun i hi => hmax i (mem_range.mpr hi)
  obtain ⟨j, hj, hMj⟩ : ∃ j, j + 2 < n ∧ |M (j + 1)| = |M i0| := by
    rcases Nat.eq_zero_or_pos i0 with h | h
    · exact ⟨0, by omega, by rw [h, hend1]⟩
    · by_cases h' : i0 + 1 < n
      · exact ⟨i0 - 1, by omega, by rw [Nat.sub_add_cancel h]⟩
      · refine ⟨n - 3, by omega, ?_⟩
        rw [show n - 3 + 1 = n - 2 by omega, hend2, show n - 1 = i0 by omega]
  have hzero : |M i0| = 0 := by
    have ht := htri j hj
    have p1 := hk j (by omega)
    have p2 := hk (j + 1) (by omega)
    rw [show j + 1 + 1 = j + 2 from rfl] at p2
    have b1 := hmax' j (by omega)
    have b2 := hmax' (j + 2) (by omega)
    rw [← hMj] at b1 b2 ⊢
    have e : 2 * ((k (j + 2) - k j) * M (j + 1))
        = -((k (j + 1) - k j) * M j + (k (j + 2) - k (j + 1)) * M (j + 2)) := by
      linear_combination ht
    have e' : 2 * ((k (j + 2) - k j) * |M (j + 1)|)
        ≤ (k (j + 1) - k j) * |M j| + (k (j + 2) - k (j + 1)) * |M (j + 2)| := by
      have l : |2 * ((k (j + 2) - k j) * M (j + 1))| = 2 * ((k (j + 2) - k j) * |M (j + 1)|) := by
        rw [abs_mul, abs_mul, abs_two, abs_of_pos (by linarith : 0 < k (j + 2) - k j)]
      rw [← l, e, abs_neg]
      refine (abs_add_le _ _).trans ?_
      rw [abs_mul, abs_mul, abs_of_pos (by linarith : 0 < k (j + 1) - k j),
        abs_of_pos (by linarith : 0 < k (j + 2) - k (j + 1))]
    have m1 := mul_le_mul_of_nonneg_left b1 (by linarith : 0 ≤ k (j + 1) - k j)
    have m2 := mul_le_mul_of_nonneg_left b2 (by linarith : 0 ≤ k (j + 2) - k (j + 1))
    have m3 : (k (j + 2) - k j) * |M (j + 1)| ≤ 0 := by nlinarith
    have m4 := abs_nonneg (M (j + 1))
    by_contra hne
    have m5 : 0 < |M (j + 1)| := lt_of_le_of_ne m4 (Ne.symm hne)
    have := mul_pos (by linarith : 0 < k (j + 2) - k j) m5
    linarith
  have hMz : ∀ i < n, M i = 0 := by
    intro i hi
    have := hmax' i hi
    rw [hzero] at this
    exact abs_eq_zero.mp (le_antisymm this (abs_nonneg _))
  intro c hc
  have hi : c / 4 + 1 < n := by omega
  have hpos := hk (c / 4) hi
  have q1 := hM0 (c / 4) hi
  have q2 := hM1 (c / 4) hi
  rw [hMz _ (by omega), piece''] at q1 q2
  have hne : k (c / 4 + 1) - k (c / 4) ≠ 0 := by intro h; linarith
  have x3 : X (4 * (c / 4) + 3) = 0 := by
    have : (k (c / 4 + 1) - k (c / 4)) * X (4 * (c / 4) + 3) = 0 := by linarith
    exact (mul_eq_zero.mp this).resolve_left hne
  have x2 : X (4 * (c / 4) + 2) = 0 := by rw [x3] at q1; linarith
  have l := hL _ hi
  have r := hR _ hi
  rw [piece, x3, x2] at l r
  have x1 : X (4 * (c / 4) + 1) = 0 := by
    have : (k (c / 4 + 1) - k (c / 4)) * X (4 * (c / 4) + 1) = 0 := by linarith
    exact (mul_eq_zero.mp this).resolve_left hne
  have x0 : X (4 * (c / 4)) = 0 := by rw [x1] at l; linarith
  have hc4 : c = 4 * (c / 4) ∨ c = 4 * (c / 4) + 1 ∨ c = 4 * (c / 4) + 2 ∨ c = 4 * (c / 4) + 3 := by
    omega
  rcases hc4 with h | h | h | h
  · rw [h]; exact x0
  · rw [h]; exact x1
  · rw [h]; exact x2
  · rw [h]; exact x3

theorem spline_det {k : ℕ → ℝ} {n : ℕ} (hn : 3 ≤ n) (hk : ∀ i, i + 1 < n → k i < k (i + 1)) :
    (toMatrix (splineA k n) (4 * (n - 1)) (4 * (n - 1))).det ≠ 0 := by
  intro hdet
  obtain ⟨v, hv, hAv⟩ := Matrix.exists_mulVec_eq_zero_iff.mpr hdet
  apply hv
  have := spline_kernel hn hk (fun c => if h : c < 4 * (n - 1) then v ⟨c, h⟩ else 0) (by
    intro r hr
    have h := congrFun hAv ⟨r, hr⟩
    rw [Finset.sum_range]
    simp only [Matrix.mulVec, dotProduct, toMatrix, Matrix.of_apply, Pi.zero_apply] at h
    rw [← h]
    refine sum_congr rfl fun c _ => ?_
    simp)
  funext c
  have h := this c c.2
  simpa using h

/-- The computed coefficients solve the system. -/
theorem solve_eq {k : ℕ → ℝ} {n : ℕ} (hn : 3 ≤ n) (hk : ∀ i, i + 1 < n → k i < k (i + 1))
    (B : ℕ × ℕ → ℝ) (r c : ℕ) (hr : r < 4 * (n - 1)) (hc : c < n) :
    ∑ j ∈ range (4 * (n - 1)), splineA k n (r, j)
      * solveExact (splineA k n) B (4 * (n - 1)) n j c = B (r, c) := by
  have hu : IsUnit (toMatrix (splineA k n) (4 * (n - 1)) (4 * (n - 1))).det :=
    isUnit_iff_ne_zero.mpr (spline_det hn hk)
  have h : toMatrix (splineA k n) (4 * (n - 1)) (4 * (n - 1))
      * ((toMatrix (splineA k n) (4 * (n - 1)) (4 * (n - 1)))⁻¹ * toMatrix B (4 * (n - 1)) n)
      = toMatrix B (4 * (n - 1)) n := Matrix.mul_nonsing_inv_cancel_left _ _ hu
  have h' := congrFun (congrFun h ⟨r, hr⟩) ⟨c, hc⟩
  rw [Matrix.mul_apply] at h'
  rw [Finset.sum_range]
  simp only [toMatrix, Matrix.of_apply] at h'
  rw [← h']
  refine sum_congr rfl fun j _ => ?_
  rw [solveExact, dif_pos ⟨j.2, hc⟩]
  rfl

theorem splineB_left {k : ℕ → ℝ} {n i c : ℕ} (hi : i + 1 < n) :
    splineB k n (2 * i, c) = if c = i then 1 else 0 := by
  have hend : ∀ v, ((2 * i, c), v) ∉ assignEndB k n := by
    intro v hv
    simp only [assignEndB, List.mem_flatMap, List.mem_cons, Prod.mk.injEq, List.not_mem_nil,
      or_false] at hv
    obtain ⟨j, _, h⟩ := hv
    omega
  rw [splineB, assign_append, assign_not_mem _ _ _ hend]
  split
  · rename_i h
    rw [h]
    rw [h] at hend
    apply assign_mem
    · exact mem_interpB.mpr ⟨i, by omega, Or.inl ⟨rfl, rfl⟩, rfl⟩
    · intro v' hv'
      obtain ⟨_, _, _, h⟩ := mem_interpB.mp hv'
      exact h
  · apply assign_not_mem
    intro v hv
    obtain ⟨_, _, h, _⟩ := mem_interpB.mp hv
    omega

theorem splineB_right {k : ℕ → ℝ} {n i c : ℕ} (hi : i + 1 < n) :
    splineB k n (2 * i + 1, c) = if c = i + 1 then 1 else 0 := by
  have hend : ∀ v, ((2 * i + 1, c), v) ∉ assignEndB k n := by
    intro v hv
    simp only [assignEndB, List.mem_flatMap, List.mem_cons, Prod.mk.injEq, List.not_mem_nil,
      or_false] at hv
    obtain ⟨j, _, h⟩ := hv
    omega
  rw [splineB, assign_append, assign_not_mem _ _ _ hend]
  split
  · rename_i h
    rw [h]
    rw [h] at hend
    apply assign_mem
    · exact mem_interpB.mpr ⟨i, by omega, Or.inr ⟨rfl, rfl⟩, rfl⟩
    · intro v' hv'
      obtain ⟨_, _, _, h⟩ := mem_interpB.mp hv'
      exact h
  · apply assign_not_mem
    intro v hv
    obtain ⟨_, _, h, _⟩ := mem_interpB.mp hv
    omega

theorem splineB_mid {k : ℕ → ℝ} {n r c : ℕ} (hr : 2 * (n - 1) ≤ r) (hr' : r < 4 * n - 6) :
    splineB k n (r, c) = 0 := by
  apply assign_not_mem
  intro v hv
  rcases List.mem_append.mp hv with h | h
  · obtain ⟨_, _, h, _⟩ := mem_interpB.mp h
    omega
  · simp only [assignEndB, List.mem_flatMap, List.mem_cons, Prod.mk.injEq, List.not_mem_nil,
      or_false] at h
    obtain ⟨j, _, h⟩ := h
    omega

/-- The spline through the columns of `B`: values, and continuity of two derivatives. -/
theorem spline_spec {k : ℕ → ℝ} {n : ℕ} (hn : 3 ≤ n) (hk : ∀ i, i + 1 < n → k i < k (i + 1))
    (c : ℕ) (hc : c < n) :
    let X := fun j => solveExact (splineA k n) (splineB k n) (4 * (n - 1)) n j c
    (∀ i, i + 1 < n → piece X i (k i) = (if c = i then 1 else 0) ∧
      piece X i (k (i + 1)) = (if c = i + 1 then 1 else 0)) ∧
    (∀ i, i + 2 < n → piece' X i (k (i + 1)) = piece' X (i + 1) (k (i + 1)) ∧
      piece'' X i (k (i + 1)) = piece'' X (i + 1) (k (i + 1))) := by
  intro X
  constructor
  · intro i hi
    constructor
    · rw [← row_left hi X, solve_eq hn hk _ _ _ (by omega) hc, splineB_left hi]
    · rw [← row_right hi X, solve_eq hn hk _ _ _ (by omega) hc, splineB_right hi]
  · intro i hi
    constructor
    · have := row_first (k := k) (i := i + 1) (by omega) (show i + 1 + 1 < n by omega) X
      rw [solve_eq hn hk _ _ _ (by omega) hc, splineB_mid (by omega) (by omega)] at this
      simp only [Nat.add_sub_cancel] at this
      linarith
    · have := row_second (k := k) (i := i + 1) (by omega) (show i + 1 + 1 < n by omega) X
      rw [solve_eq hn hk _ _ _ (by omega) hc, splineB_mid (by omega) (by omega)] at this
      simp only [Nat.add_sub_cancel] at this
      linarith

end Verif.BasisLevel
