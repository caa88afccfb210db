import Verif.Proofs.BasisEval

/-! The splines reproduce cubic polynomials, the functions of level 1 quadratic ones. -/
namespace Verif.BasisLevel

open Finset

variable {k : ℕ → ℝ} {n : ℕ}

/-- The polynomial with coefficients `a`. -/
def cubic (a : ℕ → ℝ) (x : ℝ) : ℝ := a 0 + a 1 * x + a 2 * x ^ 2 + a 3 * x ^ 3

theorem mem_endB {r c : ℕ} {v : ℝ} : ((r, c), v) ∈ assignEndB k n ↔
    ∃ i : Fin 4, (r = 4 * n - 6 ∧ c = i ∧ v = 6 * (knotPowers4 k 0)⁻¹ 3 i) ∨
      (r = 4 * n - 5 ∧ c = n - 4 + i ∧ v = 6 * (knotPowers4 k (n - 4))⁻¹ 3 i) := by
  simp only [assignEndB, List.mem_flatMap, List.mem_cons, Prod.mk.injEq, List.not_mem_nil, or_false]
  constructor
  · rintro ⟨i, -, ⟨⟨h1, h2⟩, h3⟩ | ⟨⟨h1, h2⟩, h3⟩⟩
    · exact ⟨i, Or.inl ⟨h1, h2, h3⟩⟩
    · exact ⟨i, Or.inr ⟨h1, h2, h3⟩⟩
  · rintro ⟨i, ⟨h1, h2, h3⟩ | ⟨h1, h2, h3⟩⟩
    · exact ⟨i, by fin_cases i <;> simp, Or.inl ⟨⟨h1, h2⟩, h3⟩⟩
    · exact ⟨i, by fin_cases i <;> simp, Or.inr ⟨⟨h1, h2⟩, h3⟩⟩

theorem splineB_end (hn : 4 ≤ n) (c : ℕ) :
    splineB k n (4 * n - 6, c) = (if h : c < 4 then 6 * (knotPowers4 k 0)⁻¹ 3 ⟨c, h⟩ else 0) ∧
    splineB k n (4 * n - 5, c) = (if h : n - 4 ≤ c ∧ c < n then
      6 * (knotPowers4 k (n - 4))⁻¹ 3 ⟨c - (n - 4), by omega⟩ else 0) := by
  have hi : ∀ r v, 4 * n - 6 ≤ r → ((r, c), v) ∉ assignInterpB n := by
    intro r v hr hv
    obtain ⟨_, _, h, _⟩ := mem_interpB.mp hv
    omega
  constructor
  · split
    · rename_i h
      apply assign_mem
      · exact List.mem_append_right _ (mem_endB.mpr ⟨⟨c, h⟩, Or.inl ⟨rfl, rfl, rfl⟩⟩)
      · intro v' hv'
        rcases List.mem_append.mp hv' with h' | h'
        · exact absurd h' (hi _ _ le_rfl)
        · obtain ⟨i, ⟨-, h2, h3⟩ | ⟨h1, -⟩⟩ := mem_endB.mp h'
          · rw [h3, show i = ⟨c, h⟩ from Fin.ext h2.symm]
          · omega
    · rename_i h
      apply assign_not_mem
      intro v hv
      rcases List.mem_append.mp hv with h' | h'
      · exact hi _ _ le_rfl h'
      · obtain ⟨i, ⟨-, h2, -⟩ | ⟨h1, -⟩⟩ := mem_endB.mp h' <;> omega
  · split
    · rename_i h
      apply assign_mem
      · exact List.mem_append_right _ (mem_endB.mpr ⟨⟨c - (n - 4), by omega⟩,
          Or.inr ⟨rfl, by show c = n - 4 + (c - (n - 4)); omega, rfl⟩⟩)
      · intro v' hv'
        rcases List.mem_append.mp hv' with h' | h'
        · exact absurd h' (hi _ _ (by omega))
        · obtain ⟨i, ⟨h1, -⟩ | ⟨-, h2, h3⟩⟩ := mem_endB.mp h'
          · omega
          · rw [h3, show i = ⟨c - (n - 4), by omega⟩ from Fin.ext (by show (i : ℕ) = c - (n - 4); omega)]
    · rename_i h
      apply assign_not_mem
      intro v hv
      rcases List.mem_append.mp hv with h' | h'
      · exact hi _ _ (by omega) h'
      · obtain ⟨i, ⟨h1, -⟩ | ⟨-, h2, -⟩⟩ := mem_endB.mp h' <;> omega

/-- The leading coefficient of the cubic through four values of a cubic. -/
theorem knotPowers4_poly (a : ℕ → ℝ) {s : ℕ} (hk : ∀ i j, i < j → j < 4 → k (s + i) < k (s + j)) :
    ∑ i : Fin 4, cubic a (k (s + i)) * (6 * (knotPowers4 k s)⁻¹ 3 i) = 6 * a 3 := by
  have hdet : IsUnit (knotPowers4 k s).det := by
    rw [isUnit_iff_ne_zero]
    have : knotPowers4 k s = Matrix.vandermonde (fun i : Fin 4 => k (s + i)) := by
      ext i j; simp [knotPowers4, Matrix.vandermonde_apply]
    rw [this, Matrix.det_vandermonde_ne_zero_iff]
    intro i j hij
    have hij' : k (s + i) = k (s + j) := hij
    rcases lt_trichotomy (i : ℕ) j with h | h | h
    · exact absurd hij' (hk _ _ h j.2).ne
    · exact Fin.ext h
    · exact absurd hij' (hk _ _ h i.2).ne'
  have h1 : (knotPowers4 k s).mulVec (fun j : Fin 4 => a j) = fun i : Fin 4 => cubic a (k (s + i)) := by
    funext i
    simp [Matrix.mulVec, dotProduct, knotPowers4, Fin.sum_univ_four, cubic]
    ring
  have h2 : (knotPowers4 k s)⁻¹.mulVec (fun i : Fin 4 => cubic a (k (s + i))) = fun j : Fin 4 => a j := by
    rw [← h1, Matrix.mulVec_mulVec, Matrix.nonsing_inv_mul _ hdet, Matrix.one_mulVec]
  have h3 := congrFun h2 3
  simp only [Matrix.mulVec, dotProduct] at h3
  rw [show a 3 = a ((3 : Fin 4) : ℕ) from rfl, ← h3, mul_sum]
  exact sum_congr rfl fun i _ => by ring

/-- The splines through unit data, combined with the values of a cubic, give the cubic. -/
theorem spline_poly (hn : 4 ≤ n) (hk : ∀ i j, i < j → j < n → k i < k j) (a : ℕ → ℝ) {i : ℕ}
    (hi : i + 1 < n) (x : ℝ) :
    ∑ c ∈ range n, cubic a (k c) *
      piece (fun j => solveExact (splineA k n) (splineB k n) (4 * (n - 1)) n j c) i x = cubic a x := by
  have hk' : ∀ i, i + 1 < n → k i < k (i + 1) := fun i hi => hk _ _ (Nat.lt_succ_self i) hi
  set S : ℕ → ℕ → ℝ := fun j c => solveExact (splineA k n) (splineB k n) (4 * (n - 1)) n j c with hS
  let A : ℕ → ℝ := fun j => a (j % 4)
  let Y : ℕ → ℝ := fun j => ∑ c ∈ range n, cubic a (k c) * S j c - A j
  have e0 : ∀ i, A (4 * i) = a 0 := fun i => by show a ((4 * i) % 4) = _; congr 1; omega
  have e1 : ∀ i, A (4 * i + 1) = a 1 := fun i => by show a ((4 * i + 1) % 4) = _; congr 1; omega
  have e2 : ∀ i, A (4 * i + 2) = a 2 := fun i => by show a ((4 * i + 2) % 4) = _; congr 1; omega
  have e3 : ∀ i, A (4 * i + 3) = a 3 := fun i => by show a ((4 * i + 3) % 4) = _; congr 1; omega
  have hp : ∀ i x, piece A i x = cubic a x := fun i x => by rw [piece, e0, e1, e2, e3, cubic]
  have hp' : ∀ i j x, piece' A i x = piece' A j x := fun i j x => by
    rw [piece', piece', e1, e2, e3, e1, e2, e3]
  have hp'' : ∀ i j x, piece'' A i x = piece'' A j x := fun i j x => by
    rw [piece'', piece'', e2, e3, e2, e3]
  have hrow : ∀ r < 4 * (n - 1), ∑ j ∈ range (4 * (n - 1)), splineA k n (r, j) * Y j =
      ∑ c ∈ range n, cubic a (k c) * splineB k n (r, c) -
        ∑ j ∈ range (4 * (n - 1)), splineA k n (r, j) * A j := by
    intro r hr
    simp only [Y, mul_sub, sum_sub_distrib, mul_sum]
    rw [sum_comm]
    congr 1
    refine sum_congr rfl fun c hc => ?_
    rw [← solve_eq (by omega) hk' (splineB k n) r c hr (mem_range.mp hc), mul_sum]
    exact sum_congr rfl fun j _ => by ring
  have hY := spline_kernel (by omega) hk' Y (by
    intro r hr
    rw [hrow r hr, sub_eq_zero]
    rcases Nat.lt_or_ge r (2 * (n - 1)) with h | h
    · rcases Nat.even_or_odd' r with ⟨q, rfl | rfl⟩
      · rw [row_left (by omega), hp]
        simp only [splineB_left (show q + 1 < n by omega), mul_ite, mul_one, mul_zero]
        rw [sum_ite_eq' (range n), if_pos (mem_range.mpr (by omega))]
      · rw [row_right (by omega), hp]
        simp only [splineB_right (show q + 1 < n by omega), mul_ite, mul_one, mul_zero]
        rw [sum_ite_eq' (range n), if_pos (mem_range.mpr (by omega))]
    · rcases Nat.lt_or_ge r (4 * n - 6) with h' | h'
      · rw [sum_eq_zero fun c _ => by rw [splineB_mid h h', mul_zero]]
        rcases Nat.lt_or_ge r (2 * (n - 1) + (n - 2)) with h'' | h''
        · obtain ⟨q, hq, rfl⟩ : ∃ q, 1 ≤ q ∧ r = 2 * (n - 1) + q - 1 :=
            ⟨r + 1 - 2 * (n - 1), by omega, by omega⟩
          rw [row_first hq (by omega), hp' (q - 1) q, sub_self]
        · obtain ⟨q, hq, rfl⟩ : ∃ q, 1 ≤ q ∧ r = 2 * (n - 1) + q - 1 + n - 2 :=
            ⟨r + 1 + 2 - n - 2 * (n - 1), by omega, by omega⟩
          rw [row_second hq (by omega), hp'' (q - 1) q, sub_self]
      · rcases (show r = 4 * n - 6 ∨ r = 4 * n - 5 by omega) with rfl | rfl
        · rw [(row_end (by omega) A).1, show A 3 = a 3 from rfl]
          simp only [(splineB_end hn _).1]
          rw [← knotPowers4_poly a (s := 0) (k := k) (fun i j h1 h2 => by
            rw [zero_add, zero_add]; exact hk _ _ h1 (by omega))]
          obtain ⟨m, rfl⟩ : ∃ m, n = 4 + m := ⟨n - 4, by omega⟩
          rw [sum_range_add, Finset.sum_range, sum_eq_zero (s := range m) (fun c _ => by
            rw [dif_neg (by omega), mul_zero]), add_zero]
          refine sum_congr rfl fun i _ => ?_
          rw [dif_pos i.2, zero_add]
        · rw [(row_end (by omega) A).2, e3]
          simp only [(splineB_end hn _).2]
          rw [← knotPowers4_poly a (s := n - 4) (k := k) (fun i j h1 h2 => hk _ _ (by omega) (by omega))]
          obtain ⟨m, rfl⟩ : ∃ m, n = m + 4 := ⟨n - 4, by omega⟩
          rw [sum_range_add, Finset.sum_range (n := 4), sum_eq_zero (s := range m) (fun c hc => by
            have := mem_range.mp hc
            rw [dif_neg (by omega), mul_zero]), zero_add]
          refine sum_congr rfl fun i _ => ?_
          have hi4 := i.2
          rw [dif_pos ⟨by omega, by omega⟩]
          simp only [Nat.add_sub_cancel, Nat.add_sub_cancel_left])
  have hval : ∀ j < 4 * (n - 1), ∑ c ∈ range n, cubic a (k c) * S j c = A j := fun j hj => by
    have := hY j hj
    simp only [Y] at this
    linarith
  have : ∑ c ∈ range n, cubic a (k c) * piece (fun j => S j c) i x = piece A i x := by
    simp only [piece]
    rw [← hval _ (show 4 * i < 4 * (n - 1) by omega), ← hval _ (show 4 * i + 1 < 4 * (n - 1) by omega),
      ← hval _ (show 4 * i + 2 < 4 * (n - 1) by omega), ← hval _ (show 4 * i + 3 < 4 * (n - 1) by omega),
      sum_mul, sum_mul, sum_mul, ← sum_add_distrib, ← sum_add_distrib, ← sum_add_distrib]
    exact sum_congr rfl fun c _ => by ring
  rw [this, hp]

/-- The same for the quadratic functions of level 1. -/
theorem quad_poly (hk : ∀ i j, i < j → j < 3 → k i < k j) (a : ℕ → ℝ) (ha : a 3 = 0) (i : ℕ) (x : ℝ) :
    ∑ c ∈ range 3, cubic a (k c) * piece (fun r => if h : r % 4 < 3 ∧ c < 3 then
      (Matrix.of fun i j : Fin 3 => k i ^ (j : ℕ))⁻¹ ⟨r % 4, h.1⟩ ⟨c, h.2⟩ else 0) i x = cubic a x := by
  set V : Matrix (Fin 3) (Fin 3) ℝ := Matrix.of fun i j : Fin 3 => k i ^ (j : ℕ) with hV
  have hdet : IsUnit V.det := by
    rw [isUnit_iff_ne_zero]
    have : V = Matrix.vandermonde (fun i : Fin 3 => k i) := by
      ext i j; simp [hV, Matrix.vandermonde_apply]
    rw [this, Matrix.det_vandermonde_ne_zero_iff]
    intro i j hij
    have hij' : k i = k j := hij
    rcases lt_trichotomy (i : ℕ) j with h | h | h
    · exact absurd hij' (hk _ _ h j.2).ne
    · exact Fin.ext h
    · exact absurd hij' (hk _ _ h i.2).ne'
  have h1 : V.mulVec (fun j : Fin 3 => a j) = fun i : Fin 3 => cubic a (k i) := by
    funext i
    simp [Matrix.mulVec, dotProduct, hV, Fin.sum_univ_three, cubic, ha]
    ring
  have h2 : V⁻¹.mulVec (fun i : Fin 3 => cubic a (k i)) = fun j : Fin 3 => a j := by
    rw [← h1, Matrix.mulVec_mulVec, Matrix.nonsing_inv_mul _ hdet, Matrix.one_mulVec]
  have m0 : (4 * i) % 4 = 0 := by omega
  have m1 : (4 * i + 1) % 4 = 1 := by omega
  have m2 : (4 * i + 2) % 4 = 2 := by omega
  have m3 : (4 * i + 3) % 4 = 3 := by omega
  have q0 := congrFun h2 0
  have q1 := congrFun h2 1
  have q2 := congrFun h2 2
  simp only [Matrix.mulVec, dotProduct, Fin.sum_univ_three] at q0 q1 q2
  have hpc : ∀ c : Fin 3, piece (fun r => if h : r % 4 < 3 ∧ (c : ℕ) < 3 then
      V⁻¹ ⟨r % 4, h.1⟩ ⟨c, h.2⟩ else 0) i x = V⁻¹ 0 c + V⁻¹ 1 c * x + V⁻¹ 2 c * x ^ 2 := by
    intro c
    simp only [piece, m0, m1, m2, m3, c.2, and_true]
    norm_num
    exact Or.inl rfl
  rw [Finset.sum_range, Fin.sum_univ_three, hpc, hpc, hpc]
  have hc : cubic a x = a 0 + a 1 * x + a 2 * x ^ 2 := by rw [cubic, ha]; ring
  have q0' : _ = a 0 := q0
  have q1' : _ = a 1 := q1
  have q2' : _ = a 2 := q2
  rw [hc, ← q0', ← q1', ← q2']
  ring

/-- Both cases: the functions of level `l` reproduce cubic polynomials, for `l = 1` quadratic ones. -/
theorem solX_poly {l : ℕ} (hl : 1 ≤ l) (hk : ∀ i j, i < j → j < nTot l → k i < k j) (a : ℕ → ℝ)
    (ha : l = 1 → a 3 = 0) {i : ℕ} (hi : i + 1 < nTot l) (x : ℝ) :
    ∑ c ∈ range (nTot l), cubic a (k c) * piece (solX l k (nTot l) c) i x = cubic a x := by
  by_cases h : 1 < l
  · have hn : 4 ≤ nTot l := by
      have h1 := nTot_add_one l
      have : 2 ^ 3 ≤ 2 ^ (l + 1) := Nat.pow_le_pow_right (by norm_num) (by omega)
      omega
    simp only [solX, if_pos h]
    exact spline_poly hn hk a hi x
  · have : l = 1 := by omega
    subst this
    simp only [solX, if_neg (show ¬ 1 < 1 by omega)]
    exact quad_poly hk a (ha rfl) i x

end Verif.BasisLevel
