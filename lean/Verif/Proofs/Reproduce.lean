import Verif.Proofs.SplinePoly
import Verif.Props.Basis
import Verif.Spec.SparsePoly
import Mathlib.Algebra.MvPolynomial.Funext
import Mathlib.Topology.Algebra.MvPolynomial
import Mathlib.LinearAlgebra.Matrix.ToLin
import Mathlib.LinearAlgebra.FiniteDimensional.Basic

/-! Polynomials as combinations of the functions of the sparse grid. -/
namespace Verif.Reproduce

open Finset Verif.Spec Verif.SparseGrid Verif.BasisLevel Verif.Point

/-! ### One direction -/

theorem sum_even_odd (F : ℕ → ℝ) (m : ℕ) : ∑ c ∈ range (2 * m + 1), F c =
    ∑ p ∈ range (m + 1), F (2 * p) + ∑ p ∈ range m, F (2 * p + 1) := by
  induction m with
  | zero => simp
  | succ m ih =>
    rw [show 2 * (m + 1) + 1 = 2 * m + 1 + 1 + 1 by ring, sum_range_succ, sum_range_succ, ih,
      sum_range_succ _ (m + 1), sum_range_succ (fun p => F (2 * p + 1)) m,
      show 2 * (m + 1) = 2 * m + 1 + 1 by ring]
    ring

theorem dec_sum (F : ℕ → ℕ → ℝ) (M : ℕ) : ∑ n ∈ range (2 ^ M - 1), F (dec n).1 (dec n).2 =
    ∑ l ∈ range M, ∑ p ∈ range (2 ^ l), F l p := by
  induction M with
  | zero => simp
  | succ M ih =>
    have h : 0 < 2 ^ M := by positivity
    rw [show 2 ^ (M + 1) - 1 = (2 ^ M - 1) + 2 ^ M by rw [pow_succ]; omega, sum_range_add, ih,
      sum_range_succ]
    congr 1
    refine sum_congr rfl fun p hp => ?_
    rw [dec_eq M p (mem_range.mp hp)]

section
variable {Q : ℝ → ℝ} {L : ℕ}

/-- The odd knots of a level are the knots of the level below. -/
theorem tk_odd (l j : ℕ) : tk Q L (l + 1) (2 * j + 1) = tk Q L l j := by
  have : prob (l + 1) (2 * j + 1) = prob l j := by
    unfold prob
    push_cast
    rw [pow_succ (2 : ℝ) (l + 1), div_eq_div_iff (by positivity) (by positivity)]
    ring
  rw [tk, tk, this]

/-- A polynomial that vanishes at the knots of lower levels is a combination of the functions of one
level. -/
theorem level_poly (hQ : QuantileOk Q) {l : ℕ} (h1 : 1 ≤ l) (hl : l ≤ L) (a : ℕ → ℝ)
    (ha : l = 1 → a 3 = 0) (h0 : ∀ j < nTot (l - 1), cubic a (tk Q L (l - 1) j) = 0) (x : ℝ) :
    ∑ p ∈ range (2 ^ l), cubic a (kap Q L l p) * phi Q L x l p = cubic a x := by
  have hn := nTot_ge h1
  have hk : ∀ i j, i < j → j < nTot l → kfun Q L l i < kfun Q L l j :=
    fun i j a b => kfun_lt hQ hl (by omega) a b
  have hpos : 0 < 2 ^ l := by positivity
  have key := solX_poly h1 hk a ha (pidx_spec (k := kfun Q L l) (n := nTot l) (by omega) x).1 x
  rw [← key, show range (nTot l) = range (2 * (2 ^ l - 1) + 1) by
      congr 1; rw [nTot]; omega, sum_even_odd,
    sum_eq_zero (s := range (2 ^ l - 1)), add_zero, show 2 ^ l - 1 + 1 = 2 ^ l by omega]
  · refine sum_congr rfl fun p hp => ?_
    rw [phi, if_neg (by omega), kfun, if_pos (own_lt (mem_range.mp hp)), kap]
  · intro p hp
    have hp' := mem_range.mp hp
    have e : l = l - 1 + 1 := by omega
    have hlt : 2 * p + 1 < nTot l := by rw [nTot]; omega
    have hlt' : p < nTot (l - 1) := by
      have := nTot_add_one (l - 1)
      rw [← e] at this
      omega
    rw [kfun, if_pos hlt]
    have : tk Q L l (2 * p + 1) = tk Q L (l - 1) p := by
      conv_lhs => rw [e]
      exact tk_odd (l - 1) p
    rw [this, h0 p hlt', zero_mul]

/-- Each power up to the third is a combination of the functions of the levels up to `powerLevel a`. -/
theorem power_rep (hQ : QuantileOk Q) (hL : 1 ≤ L) {a : ℕ} (ha : a ≤ 3) (hle : powerLevel a ≤ L) :
    ∃ C : ℕ → ℕ → ℝ, (∀ l p, powerLevel a < l → C l p = 0) ∧
      ∀ x, ∑ l ∈ range (powerLevel a + 1), ∑ p ∈ range (2 ^ l), C l p * phi Q L x l p = x ^ a := by
  have quad : ∀ a : ℕ → ℝ, a 3 = 0 → ∀ x, cubic a (tk Q L 0 0) +
      ∑ p ∈ range (2 ^ 1), (cubic a (kap Q L 1 p) - cubic a (tk Q L 0 0)) * phi Q L x 1 p
        = cubic a x := by
    intro a ha x
    let b : ℕ → ℝ := fun i => if i = 0 then a 0 - cubic a (tk Q L 0 0) else a i
    have hb : ∀ y, cubic b y = cubic a y - cubic a (tk Q L 0 0) := by
      intro y
      simp only [cubic, b, if_true, if_neg (show ¬ (1 : ℕ) = 0 by omega),
        if_neg (show ¬ (2 : ℕ) = 0 by omega), if_neg (show ¬ (3 : ℕ) = 0 by omega)]
      ring
    have := level_poly hQ le_rfl hL b (fun _ => by simpa [b] using ha) (by
      intro j hj
      have : j = 0 := by
        have : nTot (1 - 1) = 1 := rfl
        omega
      rw [this, hb]
      simp) x
    simp only [hb] at this
    linarith
  rcases Nat.eq_zero_or_pos a with rfl | hpos
  · refine ⟨fun l _ => if l = 0 then 1 else 0, ?_, ?_⟩
    · intro l p h
      simp only [powerLevel, if_true] at h
      exact if_neg (by omega)
    · intro x
      simp [powerLevel, phi]
  · by_cases h2 : a ≤ 2
    · have hlev : powerLevel a = 1 := by rw [powerLevel, if_neg (by omega), if_pos h2]
      have hc : ∀ y : ℝ, cubic (fun i => if i = a then 1 else 0) y = y ^ a := by
        intro y
        rcases (show a = 1 ∨ a = 2 by omega) with rfl | rfl <;> simp [cubic]
      refine ⟨fun l p => if l = 0 then (tk Q L 0 0) ^ a else if l = 1 then
        (kap Q L 1 p) ^ a - (tk Q L 0 0) ^ a else 0, ?_, ?_⟩
      · intro l p h
        rw [hlev] at h
        exact (if_neg (by omega)).trans (if_neg (by omega))
      · intro x
        have := quad (fun i => if i = a then 1 else 0) (if_neg (by omega)) x
        simp only [hc] at this
        rw [hlev, sum_range_succ, sum_range_one, ← this]
        simp [phi]
    · have h3 : a = 3 := by omega
      subst h3
      have hlev : powerLevel 3 = 2 := rfl
      rw [hlev] at hle
      set t0 := tk Q L 1 0
      set t1 := tk Q L 1 1
      set t2 := tk Q L 1 2
      let r : ℕ → ℝ := fun i => if i = 0 then -(t0 * t1 * t2) else
        if i = 1 then t0 * t1 + t0 * t2 + t1 * t2 else if i = 2 then -(t0 + t1 + t2) else 1
      have hr : ∀ y, cubic r y = (y - t0) * (y - t1) * (y - t2) := by
        intro y
        simp [cubic, r]
        ring
      let q : ℕ → ℝ := fun i => if i = 3 then 0 else - r i
      have hq : ∀ y, cubic q y = y ^ 3 - cubic r y := by
        intro y
        simp [cubic, q, r]
        ring
      refine ⟨fun l p => if l = 0 then cubic q (tk Q L 0 0) else if l = 1 then
        cubic q (kap Q L 1 p) - cubic q (tk Q L 0 0) else if l = 2 then
        cubic r (kap Q L 2 p) else 0, ?_, ?_⟩
      · intro l p h
        rw [hlev] at h
        exact (if_neg (by omega)).trans ((if_neg (by omega)).trans (if_neg (by omega)))
      · intro x
        have e1 := quad q rfl x
        have e2 := level_poly hQ (l := 2) (by omega) hle r (by omega) (by
          intro j hj
          have h3 : nTot (2 - 1) = 3 := rfl
          rw [hr]
          rcases (show j = 0 ∨ j = 1 ∨ j = 2 by omega) with rfl | rfl | rfl <;> simp [t0, t1, t2]) x
        rw [hlev, sum_range_succ, sum_range_succ, sum_range_one]
        have e0 : ∑ p ∈ range (2 ^ 0), cubic q (tk Q L 0 0) * phi Q L x 0 p
            = cubic q (tk Q L 0 0) := by simp [phi]
        simp only [if_true, if_neg (show ¬ (1 : ℕ) = 0 by omega),
          if_neg (show ¬ (2 : ℕ) = 0 by omega), if_neg (show ¬ (2 : ℕ) = 1 by omega)]
        rw [e0, e1, e2, hq]
        ring

end

/-! ### Several directions -/

/-- A product of combinations of basis functions, with levels that sum to at most `k`, is a
combination of the functions of the sparse grid. -/
theorem gsum_prod (φ : ℝ → ℕ → ℕ → ℝ) (d : ℕ) : ∀ (k : ℕ) (m : ℕ → ℕ) (C : ℕ → ℕ → ℕ → ℝ)
    (u : ℕ → ℝ) (x : List ℝ), x.length = d → ∑ t ∈ range d, m t ≤ k →
    (∀ t < d, ∀ l p, m t < l → C t l p = 0) →
    (∀ t < d, ∑ l ∈ range (m t + 1), ∑ p ∈ range (2 ^ l), C t l p * φ (x.getD t 0) l p = u t) →
    gsum d k (fun ls ps => (∏ t ∈ range d, C t (ls.getD t 0) (ps.getD t 0)) * tprod φ d x ls ps)
      = ∏ t ∈ range d, u t := by
  induction d with
  | zero => intro k m C u x _ _ _ _; simp [gsum, SparseGrid.tprod]
  | succ d ih =>
    intro k m C u x hx hm hC hu
    rcases x with _ | ⟨x, xs⟩
    · simp at hx
    have hxs : xs.length = d := by simpa using hx
    rw [sum_range_succ'] at hm
    rw [gsum, prod_range_succ' u]
    have hterm : ∀ n, gsum d (k - (dec n).1) (fun ls ps =>
        (∏ t ∈ range (d + 1), C t (((dec n).1 :: ls).getD t 0) (((dec n).2 :: ps).getD t 0)) *
          tprod φ (d + 1) (x :: xs) ((dec n).1 :: ls) ((dec n).2 :: ps)) =
        C 0 (dec n).1 (dec n).2 * φ x (dec n).1 (dec n).2 * ∏ t ∈ range d, u (t + 1) := by
      intro n
      by_cases h : m 0 < (dec n).1
      · rw [hC 0 (by omega) _ _ h, zero_mul, zero_mul]
        rw [gsum_congr d _ _ (fun _ _ => 0 * 0)]
        · rw [gsum_mul, mul_zero]
        · intro ls ps
          rw [prod_range_succ']
          simp [hC 0 (by omega) _ _ h]
      · rw [← ih (k - (dec n).1) (fun t => m (t + 1)) (fun t => C (t + 1)) (fun t => u (t + 1)) xs hxs
          (by omega) (fun t ht => hC (t + 1) (by omega)) (fun t ht => by
            have := hu (t + 1) (by omega)
            simpa using this), mul_comm, ← gsum_mul]
        apply gsum_congr
        intro ls ps
        rw [prod_range_succ', tprod_cons]
        simp
        ring
    rw [sum_congr rfl fun n _ => hterm n, ← sum_mul, mul_comm]
    congr 1
    rw [dec_sum (fun l p => C 0 l p * φ x l p) (k + 1), ← hu 0 (by omega)]
    symm
    refine sum_subset (range_mono (by omega)) ?_
    intro l _ hl
    refine sum_eq_zero fun p _ => ?_
    rw [hC 0 (by omega) l p (by simpa using hl), zero_mul]

/-- The coefficients are determined by the values at the grid points. -/
theorem coef_unique {ar : Arith} {b : BasisI} {k : ℕ} {D : Set ℝ} {κ : ℕ → ℕ → ℝ}
    {φ : ℝ → ℕ → ℕ → ℝ} (hb : BasisOk b k D κ φ) (hh : Hierarchical k κ φ) {d : ℕ}
    (ha : ArOk ar d k) (c c' : ℕ → ℝ)
    (h : ∀ n < numPts d k, ∑ j ∈ range (numPts d k), c j
          * tprod φ d (List.zipWith κ (pt d n).1 (pt d n).2) (pt d j).1 (pt d j).2
        = ∑ j ∈ range (numPts d k), c' j
          * tprod φ d (List.zipWith κ (pt d n).1 (pt d n).2) (pt d j).1 (pt d j).2) :
    ∀ j < numPts d k, c j = c' j := by
  set N := numPts d k
  let M : Matrix (Fin N) (Fin N) ℝ := Matrix.of fun n j =>
    tprod φ d (List.zipWith κ (pt d n).1 (pt d n).2) (pt d j).1 (pt d j).2
  have hsurj : Function.Surjective M.mulVecLin := by
    intro v
    obtain ⟨cs, -, -, h3⟩ := hierarchize_ok hb hh ha (List.ofFn v) (by simp [N])
    refine ⟨fun j => cs.getD j 0, ?_⟩
    funext n
    have := h3 n n.2
    rw [Finset.sum_range] at this
    simp only [Matrix.mulVecLin_apply, Matrix.mulVec, dotProduct, M, Matrix.of_apply]
    rw [show v n = (List.ofFn v).getD n 0 by simp, ← this]
    exact sum_congr rfl fun j _ => mul_comm _ _
  have hinj := LinearMap.injective_iff_surjective.mpr hsurj
  have : (fun j : Fin N => c j) = fun j : Fin N => c' j := by
    apply hinj
    funext n
    have := h n n.2
    rw [Finset.sum_range, Finset.sum_range] at this
    simp only [Matrix.mulVecLin_apply, Matrix.mulVec, dotProduct, M, Matrix.of_apply]
    simpa only [mul_comm] using this
  intro j hj
  exact congrFun this ⟨j, hj⟩

/-! ### Polynomials -/

theorem tprod_ofFn (φ : ℝ → ℕ → ℕ → ℝ) {d : ℕ} (x : Fin d → ℝ) (ls ps : List ℕ) :
    SparseGrid.tprod φ d (List.ofFn x) ls ps = ∏ t : Fin d, φ (x t) (ls.getD t 0) (ps.getD t 0) := by
  rw [SparseGrid.tprod, Finset.prod_range]
  refine prod_congr rfl fun t _ => ?_
  congr 1
  simp

section
variable {Q : ℝ → ℝ} {k d : ℕ}

/-- A polynomial with reproduced monomials is a combination of the functions of the grid. -/
theorem poly_rep (hQ : QuantileOk Q) (hk : 1 ≤ k) (P : MvPolynomial (Fin d) ℝ)
    (hP : ∀ m ∈ P.support, Reproduced k m) :
    ∃ c : ℕ → ℝ, ∀ x : Fin d → ℝ, ∑ j ∈ range (numPts d k), c j *
      SparseGrid.tprod (phi Q k) d (List.ofFn x) (pt d j).1 (pt d j).2 = MvPolynomial.eval x P := by
  have hex : ∀ a, ∃ C : ℕ → ℕ → ℝ, a ≤ 3 → powerLevel a ≤ k →
      (∀ l p, powerLevel a < l → C l p = 0) ∧ ∀ x, ∑ l ∈ range (powerLevel a + 1),
        ∑ p ∈ range (2 ^ l), C l p * phi Q k x l p = x ^ a := by
    intro a
    by_cases h : a ≤ 3 ∧ powerLevel a ≤ k
    · obtain ⟨C, hC⟩ := power_rep hQ hk h.1 h.2
      exact ⟨C, fun _ _ => hC⟩
    · exact ⟨fun _ _ => 0, fun h1 h2 => absurd ⟨h1, h2⟩ h⟩
  choose C hC using hex
  let e : (Fin d →₀ ℕ) → ℕ → ℕ := fun m t => if h : t < d then m ⟨t, h⟩ else 0
  have he : ∀ m (t : Fin d), e m t = m t := fun m t => dif_pos t.2
  refine ⟨fun j => ∑ m ∈ P.support, P.coeff m *
    ∏ t ∈ range d, C (e m t) ((pt d j).1.getD t 0) ((pt d j).2.getD t 0), ?_⟩
  intro x
  rw [MvPolynomial.eval_eq']
  simp only [sum_mul]
  rw [sum_comm]
  refine sum_congr rfl fun m hm => ?_
  obtain ⟨h3, hs⟩ := hP m hm
  have hle : ∀ t, powerLevel (m t) ≤ k := fun t =>
    le_trans (single_le_sum (f := fun t => powerLevel (m t)) (fun _ _ => Nat.zero_le _) (mem_univ t)) hs
  have key := gsum_prod (phi Q k) d k (fun t => powerLevel (e m t)) (fun t => C (e m t))
    (fun t => (List.ofFn x).getD t 0 ^ e m t) (List.ofFn x) (by simp)
    (by rw [Finset.sum_range]; simpa only [he] using hs)
    (fun t ht => by
      have := he m ⟨t, ht⟩
      simp only at this
      exact (hC _ (by rw [this]; exact h3 _) (by rw [this]; exact hle _)).1)
    (fun t ht => by
      have := he m ⟨t, ht⟩
      simp only at this
      exact (hC _ (by rw [this]; exact h3 _) (by rw [this]; exact hle _)).2 _)
  rw [← sum_pt] at key
  simp only [mul_assoc]
  rw [← mul_sum, key, Finset.prod_range]
  congr 1
  refine prod_congr rfl fun t _ => ?_
  rw [he]
  simp

/-- Coefficients of the piece of a basis function. -/
noncomputable def pieceCoef (Q : ℝ → ℝ) (k q l p i : ℕ) : ℝ :=
  if l = 0 then (if i = 0 then 1 else 0) else solX l (kfun Q k l) (nTot l) (2 * p) (4 * q + i)

theorem pieceCoef_level {q l p i : ℕ} (hi : i < 4) (h : pieceCoef Q k q l p i ≠ 0) :
    powerLevel i ≤ l := by
  rcases Nat.eq_zero_or_pos l with rfl | hl
  · rw [pieceCoef, if_pos rfl] at h
    by_cases h0 : i = 0
    · simp [powerLevel, h0]
    · exact absurd (if_neg h0) h
  · by_cases h1 : 1 < l
    · unfold powerLevel
      split
      · omega
      · split <;> omega
    · rw [pieceCoef, if_neg (by omega), solX, if_neg h1] at h
      by_cases h3 : i = 3
      · subst h3
        exact absurd (dif_neg (by omega)) h
      · unfold powerLevel
        split
        · omega
        · split <;> omega

theorem phi_piece {q l : ℕ} {x : ℝ} (h : l ≠ 0 → pidx (kfun Q k l) (nTot l) x = q) (p : ℕ) :
    phi Q k x l p = ∑ i ∈ range 4, pieceCoef Q k q l p i * x ^ i := by
  by_cases h0 : l = 0
  · simp [phi, pieceCoef, h0]
  · rw [phi, if_neg h0, h h0]
    simp only [pieceCoef, if_neg h0, sum_range_succ, sum_range_zero, piece]
    simp

/-- The piece does not change just to the right of a point. -/
theorem pidx_right {kn : ℕ → ℝ} {n : ℕ} (hn : 2 ≤ n) (hk : ∀ i j, i < j → j < n → kn i < kn j)
    (x : ℝ) : ∃ ε > 0, ∀ y, x ≤ y → y < x + ε → pidx kn n y = pidx kn n x := by
  obtain ⟨h1, h2, h3⟩ := pidx_spec (k := kn) hn x
  rcases h3 with h3 | h3
  · exact ⟨1, one_pos, fun y hy _ => pidx_eq hk h1 (h2.imp id fun h => h.trans hy) (Or.inl h3)⟩
  · exact ⟨kn (pidx kn n x + 1) - x, by linarith, fun y hy hy' =>
      pidx_eq hk h1 (h2.imp id fun h => h.trans hy) (Or.inr (by linarith))⟩

theorem pidx_right_all (hQ : QuantileOk Q) (hk : 1 ≤ k) (x : ℝ) : ∃ ε > 0, ∀ y, x ≤ y → y < x + ε →
    ∀ l, l ≠ 0 → l ≤ k → pidx (kfun Q k l) (nTot l) y = pidx (kfun Q k l) (nTot l) x := by
  have hex : ∀ l, ∃ ε > 0, ∀ y, x ≤ y → y < x + ε → l ≠ 0 → l ≤ k →
      pidx (kfun Q k l) (nTot l) y = pidx (kfun Q k l) (nTot l) x := by
    intro l
    by_cases h : l ≠ 0 ∧ l ≤ k
    · have hn := nTot_ge (l := l) (by omega)
      obtain ⟨ε, h1, h2⟩ := pidx_right (kn := kfun Q k l) (n := nTot l) (by omega)
        (fun i j a b => kfun_lt hQ h.2 hk a b) x
      exact ⟨ε, h1, fun y a b _ _ => h2 y a b⟩
    · exact ⟨1, one_pos, fun y _ _ a b => absurd ⟨a, b⟩ h⟩
  choose ε h1 h2 using hex
  refine ⟨(range (k + 1)).inf' ⟨0, by simp⟩ ε, ?_, ?_⟩
  · exact (lt_inf'_iff _).mpr fun l _ => h1 l
  · intro y a b l hl hlk
    have := inf'_le ε (mem_range.mpr (show l < k + 1 by omega))
    exact h2 l y a (by linarith) hl hlk

/-- Near a point, on its right, a combination of the functions of the grid is a polynomial with
reproduced monomials. -/
theorem local_poly (c : ℕ → ℝ) (q : Fin d → ℕ → ℕ) : ∃ G : MvPolynomial (Fin d) ℝ,
    (∀ m ∈ G.support, Reproduced k m) ∧
    ∀ x : Fin d → ℝ, (∀ t l, l ≠ 0 → l ≤ k → pidx (kfun Q k l) (nTot l) (x t) = q t l) →
      ∑ j ∈ range (numPts d k), c j *
        SparseGrid.tprod (phi Q k) d (List.ofFn x) (pt d j).1 (pt d j).2 = MvPolynomial.eval x G := by
  let A : ℕ → Fin d → ℕ → ℝ := fun j t i => pieceCoef Q k (q t ((pt d j).1.getD t 0))
    ((pt d j).1.getD t 0) ((pt d j).2.getD t 0) i
  let E : (Fin d → ℕ) → (Fin d →₀ ℕ) := fun e => Finsupp.equivFunOnFinite.symm e
  let G : MvPolynomial (Fin d) ℝ := ∑ j ∈ range (numPts d k),
    ∑ e ∈ Fintype.piFinset (fun _ : Fin d => range 4), MvPolynomial.monomial (E e) (c j * ∏ t, A j t (e t))
  refine ⟨G, ?_, ?_⟩
  · intro m hm
    by_contra hcon
    rw [MvPolynomial.mem_support_iff] at hm
    apply hm
    simp only [G, MvPolynomial.coeff_sum, MvPolynomial.coeff_monomial]
    refine sum_eq_zero fun j hj => sum_eq_zero fun e he => ?_
    split
    · rename_i heq
      by_contra hne
      have hA : ∀ t, A j t (e t) ≠ 0 := fun t h0 => hne (by
        rw [prod_eq_zero (mem_univ t) h0, mul_zero])
      have he' : ∀ t, e t < 4 := fun t => mem_range.mp (Fintype.mem_piFinset.mp he t)
      apply hcon
      rw [← heq]
      have hg : IsGridPoint d k (pt d j).1 (pt d j).2 := pt_isGridPoint (mem_range.mp hj)
      refine ⟨fun t => by have := he' t; show e t ≤ 3; omega, ?_⟩
      calc ∑ t, powerLevel (E e t) ≤ ∑ t : Fin d, (pt d j).1.getD t 0 :=
            sum_le_sum fun t _ => pieceCoef_level (he' t) (hA t)
        _ = (pt d j).1.sum := by
            obtain ⟨ls, hls⟩ : ∃ ls, ls = (pt d j).1 := ⟨_, rfl⟩
            have hlen := hg.levels_length
            rw [← hls] at hlen ⊢
            subst hlen
            rw [← Fin.sum_univ_getElem]
            exact sum_congr rfl fun t _ => by simp
        _ ≤ k := hg.sum_le
    · rfl
  · intro x hx
    simp only [G, map_sum, MvPolynomial.eval_monomial]
    refine sum_congr rfl fun j hj => ?_
    have hg : IsGridPoint d k (pt d j).1 (pt d j).2 := pt_isGridPoint (mem_range.mp hj)
    rw [tprod_ofFn]
    have : ∀ t : Fin d, phi Q k (x t) ((pt d j).1.getD t 0) ((pt d j).2.getD t 0)
        = ∑ i ∈ range 4, A j t i * x t ^ i := fun t =>
      phi_piece (fun h0 => hx t _ h0 (gp_bounds hg t.2).1) _
    rw [prod_congr rfl fun t _ => this t, prod_univ_sum, mul_sum]
    refine sum_congr rfl fun e _ => ?_
    rw [prod_mul_distrib, Finsupp.prod_fintype _ _ (fun _ => pow_zero _), mul_assoc]
    rfl

end

end Verif.Reproduce
