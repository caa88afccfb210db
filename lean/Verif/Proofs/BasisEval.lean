import Verif.Proofs.BasisKnots
import Verif.Proofs.GridDeriv
import Mathlib.Analysis.Calculus.Deriv.Add
import Mathlib.Analysis.Calculus.Deriv.Mul
import Mathlib.Analysis.Calculus.Deriv.Pow
import Mathlib.LinearAlgebra.Vandermonde
import Mathlib.Topology.Order.OrderClosed

/-! Evaluation of basis functions and of their derivatives. -/
namespace Verif.BasisLevel

open Finset Verif.Spec Verif.SparseGrid Filter Topology

/-- A piecewise cubic through unit data `c` at the knots, twice continuously differentiable at
internal knots. -/
def SplineFn (k : ℕ → ℝ) (n c : ℕ) (X : ℕ → ℝ) : Prop :=
  (∀ i, i + 1 < n → piece X i (k i) = (if c = i then 1 else 0) ∧
    piece X i (k (i + 1)) = (if c = i + 1 then 1 else 0)) ∧
  (∀ i, i + 2 < n → piece' X i (k (i + 1)) = piece' X (i + 1) (k (i + 1)) ∧
    piece'' X i (k (i + 1)) = piece'' X (i + 1) (k (i + 1)))

/-- The piece used at `x`: the last one whose left knot is at most `x`. -/
noncomputable def pidx (k : ℕ → ℝ) (n : ℕ) (x : ℝ) : ℕ :=
  Nat.findGreatest (fun q => k q ≤ x) (n - 2)

theorem pidx_eq {k : ℕ → ℝ} {n q : ℕ} {x : ℝ}
    (hk : ∀ i j, i < j → j < n → k i < k j) (hq : q + 1 < n)
    (h1 : q = 0 ∨ k q ≤ x) (h2 : q = n - 2 ∨ x < k (q + 1)) : pidx k n x = q := by
  rw [pidx, Nat.findGreatest_eq_iff]
  refine ⟨by omega, fun h => by tauto, ?_⟩
  intro m hm hmn
  rcases h2 with h2 | h2
  · omega
  · rw [not_le]
    rcases Nat.lt_or_ge (q + 1) m with h | h
    · exact lt_trans h2 (hk _ _ h (by omega))
    · have : m = q + 1 := by omega
      rw [this]; exact h2

theorem pidx_spec {k : ℕ → ℝ} {n : ℕ} (hn : 2 ≤ n) (x : ℝ) :
    pidx k n x + 1 < n ∧ (pidx k n x = 0 ∨ k (pidx k n x) ≤ x) ∧
      (pidx k n x = n - 2 ∨ x < k (pidx k n x + 1)) := by
  obtain ⟨h1, h2, h3⟩ := (Nat.findGreatest_eq_iff (P := fun q => k q ≤ x) (k := n - 2)).mp
    (rfl : _ = pidx k n x)
  refine ⟨by omega, ?_, ?_⟩
  · by_cases h : pidx k n x = 0
    · exact Or.inl h
    · exact Or.inr (h2 h)
  · by_cases h : pidx k n x = n - 2
    · exact Or.inl h
    · exact Or.inr (not_le.mp (h3 (Nat.lt_succ_self _) (by omega)))

section
variable {k : ℕ → ℝ} {n : ℕ}

/-- Gluing: a function given by pieces that match, with derivatives, at internal knots. -/
theorem glue (hk : ∀ i j, i < j → j < n → k i < k j) (hn : 2 ≤ n) (P P' : ℕ → ℝ → ℝ)
    (hd : ∀ i x, HasDerivAt (P i) (P' i x) x)
    (hm : ∀ i, i + 2 < n → P i (k (i + 1)) = P (i + 1) (k (i + 1)) ∧
      P' i (k (i + 1)) = P' (i + 1) (k (i + 1))) (x : ℝ) :
    HasDerivAt (fun y => P (pidx k n y) y) (P' (pidx k n x) x) x := by
  obtain ⟨hq, h1, h2⟩ := pidx_spec (k := k) hn x
  generalize hqe : pidx k n x = q at *
  have hup : ∀ᶠ y in 𝓝 x, q = n - 2 ∨ y < k (q + 1) := by
    rcases h2 with h2 | h2
    · exact Eventually.of_forall fun _ => Or.inl h2
    · filter_upwards [gt_mem_nhds h2] with y hy
      exact Or.inr hy
  by_cases hcase : q = 0 ∨ k q < x
  · have hlo : ∀ᶠ y in 𝓝 x, q = 0 ∨ k q ≤ y := by
      rcases hcase with h | h
      · exact Eventually.of_forall fun _ => Or.inl h
      · filter_upwards [lt_mem_nhds h] with y hy
        exact Or.inr (le_of_lt hy)
    refine (hd q x).congr_of_eventuallyEq ?_
    filter_upwards [hlo, hup] with y a b
    rw [pidx_eq hk hq a b]
  · rw [not_or] at hcase
    have hx : x = k q := le_antisymm (not_lt.mp hcase.2) (by tauto)
    obtain ⟨r, rfl⟩ : ∃ r, q = r + 1 := ⟨q - 1, by omega⟩
    obtain ⟨m1, m2⟩ := hm r (by omega)
    have hr : HasDerivWithinAt (fun y => P (pidx k n y) y) (P' (r + 1) x) (Set.Ici x) x := by
      refine (hd (r + 1) x).hasDerivWithinAt.congr_of_eventuallyEq ?_ (by rw [hqe])
      filter_upwards [nhdsWithin_le_nhds hup, self_mem_nhdsWithin] with y a b
      rw [pidx_eq hk hq (Or.inr (by rw [← hx]; exact b)) a]
    have hl : HasDerivWithinAt (fun y => P (pidx k n y) y) (P' (r + 1) x) (Set.Iio x) x := by
      have hb := (hd r x).hasDerivWithinAt (s := Set.Iio x)
      rw [show P' r x = P' (r + 1) x by rw [hx]; exact m2] at hb
      refine hb.congr_of_eventuallyEq ?_ (by rw [hqe, hx]; exact m1.symm)
      have hlo : ∀ᶠ y in 𝓝 x, k r ≤ y := by
        filter_upwards [lt_mem_nhds (show k r < x by rw [hx]; exact hk _ _ (by omega) (by omega))]
          with y hy
        exact le_of_lt hy
      filter_upwards [nhdsWithin_le_nhds hlo, self_mem_nhdsWithin] with y a b
      rw [pidx_eq (q := r) hk (by omega) (Or.inr a) (Or.inr (by rw [← hx]; exact b))]
    have := hl.union hr
    rwa [Set.Iio_union_Ici, hasDerivWithinAt_univ] at this

theorem piece_hasDerivAt (X : ℕ → ℝ) (i : ℕ) (x : ℝ) : HasDerivAt (piece X i) (piece' X i x) x := by
  have h := ((((hasDerivAt_id' x).const_mul (X (4 * i + 1))).const_add (X (4 * i))).add
    ((hasDerivAt_pow 2 x).const_mul (X (4 * i + 2)))).add
    ((hasDerivAt_pow 3 x).const_mul (X (4 * i + 3)))
  refine h.congr_deriv ?_
  unfold piece'
  push_cast
  ring

theorem piece'_hasDerivAt (X : ℕ → ℝ) (i : ℕ) (x : ℝ) :
    HasDerivAt (piece' X i) (piece'' X i x) x := by
  have h := (((hasDerivAt_id' x).const_mul (2 * X (4 * i + 2))).const_add (X (4 * i + 1))).add
    ((hasDerivAt_pow 2 x).const_mul (3 * X (4 * i + 3)))
  refine h.congr_deriv ?_
  unfold piece''
  push_cast
  ring

theorem splineFn_deriv (hk : ∀ i j, i < j → j < n → k i < k j) (hn : 2 ≤ n) {c : ℕ} {X : ℕ → ℝ}
    (h : SplineFn k n c X) (x : ℝ) :
    HasDerivAt (fun y => piece X (pidx k n y) y) (piece' X (pidx k n x) x) x :=
  glue hk hn (piece X) (piece' X) (piece_hasDerivAt X) (fun i hi => ⟨by
    rw [(h.1 i (by omega)).2, (h.1 (i + 1) (by omega)).1], (h.2 i hi).1⟩) x

theorem splineFn_deriv2 (hk : ∀ i j, i < j → j < n → k i < k j) (hn : 2 ≤ n) {c : ℕ} {X : ℕ → ℝ}
    (h : SplineFn k n c X) (x : ℝ) :
    HasDerivAt (fun y => piece' X (pidx k n y) y) (piece'' X (pidx k n x) x) x :=
  glue hk hn (piece' X) (piece'' X) (piece'_hasDerivAt X) (fun i hi => h.2 i hi) x

/-- Value at a knot. -/
theorem splineFn_knot (hk : ∀ i j, i < j → j < n → k i < k j) (hn : 2 ≤ n) {c : ℕ} {X : ℕ → ℝ}
    (h : SplineFn k n c X) {j : ℕ} (hj : j < n) :
    piece X (pidx k n (k j)) (k j) = if c = j then 1 else 0 := by
  rcases Nat.lt_or_ge (j + 1) n with hlt | hge
  · rw [pidx_eq hk hlt (Or.inr le_rfl) (Or.inr (hk _ _ (Nat.lt_succ_self j) hlt))]
    exact (h.1 j hlt).1
  · obtain ⟨r, rfl⟩ : ∃ r, j = r + 1 := ⟨j - 1, by omega⟩
    rw [pidx_eq (q := r) hk (by omega) (Or.inr (hk _ _ (Nat.lt_succ_self r) hj).le)
      (Or.inl (by omega))]
    exact (h.1 r hj).2

/-- The coefficients of a single quadratic through unit data at three knots. -/
theorem quad_spec (hk : ∀ i j, i < j → j < 3 → k i < k j) {c : ℕ} (hc : c < 3) :
    SplineFn k 3 c (fun r => if h : r % 4 < 3 ∧ c < 3 then
      (Matrix.of fun i j : Fin 3 => k i ^ (j : ℕ))⁻¹ ⟨r % 4, h.1⟩ ⟨c, h.2⟩ else 0) := by
  set V : Matrix (Fin 3) (Fin 3) ℝ := Matrix.of fun i j : Fin 3 => k i ^ (j : ℕ) with hV
  have hdet : IsUnit V.det := by
    rw [isUnit_iff_ne_zero]
    have : V = Matrix.vandermonde (fun i : Fin 3 => k i) := by
      ext i j; simp [hV, Matrix.vandermonde_apply]
    rw [this, Matrix.det_vandermonde_ne_zero_iff]
    intro i j hij
    have hij' : k i = k j := hij
    rcases lt_trichotomy (i : ℕ) j with h | h | h
    · exact absurd hij' (hk _ _ h j.2).ne
    · exact Fin.ext h
    · exact absurd hij' (hk _ _ h i.2).ne'
  have hmul := Matrix.mul_nonsing_inv V hdet
  have hrow : ∀ i : Fin 3, V⁻¹ 0 ⟨c, hc⟩ + k i * V⁻¹ 1 ⟨c, hc⟩ + k i ^ 2 * V⁻¹ 2 ⟨c, hc⟩
      = if c = i then 1 else 0 := by
    intro i
    have := congrFun (congrFun hmul i) ⟨c, hc⟩
    rw [Matrix.mul_apply, Fin.sum_univ_three, Matrix.one_apply] at this
    simp only [hV, Matrix.of_apply] at this ⊢
    have e : (i = (⟨c, hc⟩ : Fin 3)) ↔ c = i := by
      rw [Fin.ext_iff]; exact eq_comm
    simp only [e] at this
    rw [← this]
    simp
  set X : ℕ → ℝ := fun r => if h : r % 4 < 3 ∧ c < 3 then
      V⁻¹ ⟨r % 4, h.1⟩ ⟨c, h.2⟩ else 0 with hX
  have x0 : ∀ i, X (4 * i) = V⁻¹ 0 ⟨c, hc⟩ := by
    intro i
    have h : (4 * i) % 4 = 0 := by omega
    simp only [hX, h, hc]; rfl
  have x1 : ∀ i, X (4 * i + 1) = V⁻¹ 1 ⟨c, hc⟩ := by
    intro i
    have h : (4 * i + 1) % 4 = 1 := by omega
    simp only [hX, h, hc]; rfl
  have x2 : ∀ i, X (4 * i + 2) = V⁻¹ 2 ⟨c, hc⟩ := by
    intro i
    have h : (4 * i + 2) % 4 = 2 := by omega
    simp only [hX, h, hc]; rfl
  have x3 : ∀ i, X (4 * i + 3) = 0 := by
    intro i
    have h : (4 * i + 3) % 4 = 3 := by omega
    simp [hX, h]
  refine ⟨?_, ?_⟩
  · intro i hi
    constructor
    · have := hrow ⟨i, by omega⟩
      unfold piece
      rw [x0, x1, x2, x3]
      rw [← this]
      ring
    · have := hrow ⟨i + 1, hi⟩
      unfold piece
      rw [x0, x1, x2, x3]
      rw [← this]
      ring
  · intro i _
    unfold piece' piece''
    simp only [x1, x2, x3]
    exact ⟨trivial, trivial⟩

end

/-- Solution vector used by level `l` for total knot `c`. -/
noncomputable def solX (l : ℕ) (k : ℕ → ℝ) (n c : ℕ) : ℕ → ℝ :=
  if 1 < l then fun r => solveExact (splineA k n) (splineB k n) (4 * (n - 1)) n r c
  else fun r => if h : r % 4 < 3 ∧ c < 3 then
      (Matrix.of fun i j : Fin 3 => k i ^ (j : ℕ))⁻¹ ⟨r % 4, h.1⟩ ⟨c, h.2⟩ else 0

theorem nTot_one : nTot 1 = 3 := rfl

theorem nTot_ge {l : ℕ} (hl : 1 ≤ l) : 3 ≤ nTot l := by
  have h1 := nTot_add_one l
  have : 2 ^ 2 ≤ 2 ^ (l + 1) := Nat.pow_le_pow_right (by norm_num) (by omega)
  omega

theorem solX_spec {l : ℕ} (hl : 1 ≤ l) {k : ℕ → ℝ}
    (hk : ∀ i j, i < j → j < nTot l → k i < k j) {c : ℕ} (hc : c < nTot l) :
    SplineFn k (nTot l) c (solX l k (nTot l) c) := by
  by_cases h : 1 < l
  · rw [solX, if_pos h]
    exact spline_spec (nTot_ge hl) (fun i hi => hk _ _ (Nat.lt_succ_self i) hi) c hc
  · have : l = 1 := by omega
    subst this
    rw [solX, if_neg (by omega)]
    exact quad_spec hk hc

/-- Piece number for an interval number. -/
def pieceOf (n j : ℕ) : ℕ := min (j - 1) (n - 2)

theorem coef_eq {l : ℕ} (hl : 1 ≤ l) (k : ℕ → ℝ) {j i : ℕ} (hj : j ≤ nTot l) (hi : i < 4) (c : ℕ) :
    coefficientsAllKnots l k (nTot l) (4 * j + i) c
      = solX l k (nTot l) c (4 * pieceOf (nTot l) j + i) := by
  have hn := nTot_ge hl
  generalize nTot l = n at *
  unfold coefficientsAllKnots solX
  by_cases h : 1 < l
  · simp only [h, if_true, gt_iff_lt]
    unfold pieceOf
    split
    · rw [show min (j - 1) (n - 2) = 0 by omega, show j = 0 by omega]
    · split
      · rw [show min (j - 1) (n - 2) = j - 1 by omega]
        congr 1; omega
      · rw [show min (j - 1) (n - 2) = n - 2 by omega]
        congr 1; omega
  · have h0 : l ≠ 0 := by omega
    simp only [gt_iff_lt, h, h0, if_false]
    have e : (4 * j + i) % 4 = i := by omega
    have e' : (4 * pieceOf n j + i) % 4 = i := by omega
    simp only [e, e']

section
variable {Q : ℝ → ℝ}

/-- What the constructor establishes. -/
structure LevelOk (Q : ℝ → ℝ) (L l : ℕ) (b : Level) : Prop where
  level : b.level = l
  knots : b.knots = (List.range (2 ^ l)).map fun i => tk Q L l (2 * i)
  bandwidth : b.bandwidth = bandwidth Q L
  ids : IdsOk Q L l (nTot l) b.gridIds
  coefs : ∀ r c, b.splineCoefficients r c
    = coefficientsAllKnots l (fun i => if i < nTot l then tk Q L l i else 0) (nTot l) r (2 * c)

theorem construct_ok {ar : Arith} (hQ : QuantileOk Q) {L l : ℕ} (hl : l ≤ L) (hL : 1 ≤ L)
    (hf : KnotFits ar Q L l) : ∃ b, construct ar Q l L = Except.ok b ∧ LevelOk Q L l b := by
  obtain ⟨ids, h1, h2⟩ := initializeGridIds_ok hQ hl hL hf
  unfold construct
  rw [initializeKnots_ok hQ hL hf]
  simp only [res_ok_bind]
  rw [h1]
  simp only [res_ok_bind]
  rw [findKnotsTotal_ok hQ hL hf]
  simp only [res_ok_bind]
  refine ⟨_, rfl, ⟨rfl, rfl, rfl, h2, ?_⟩⟩
  intro r c
  simp only [List.length_map, List.length_range]
  congr 1
  funext i
  split
  · rename_i h; simp [h]
  · rename_i h
    simp [h]

/-- The knots of the level as a total function. -/
noncomputable def kfun (Q : ℝ → ℝ) (L l : ℕ) : ℕ → ℝ := fun i => if i < nTot l then tk Q L l i else 0

theorem kfun_lt (hQ : QuantileOk Q) {l L : ℕ} (hl : l ≤ L) (hL : 1 ≤ L) {i j : ℕ} (hij : i < j)
    (hj : j < nTot l) : kfun Q L l i < kfun Q L l j := by
  rw [kfun, if_pos (by omega), kfun, if_pos hj]
  exact (tk_strictMono hQ hl hL hij hj).2

/-- Arguments whose grid number is converted exactly, at every level up to `L`. -/
def Dom (aru : Arith) (Q : ℝ → ℝ) (L : ℕ) : Set ℝ :=
  {x | ∀ l ≤ L, tk Q L l 0 < x →
    aru ⌊(x - tk Q L l 0) / bandwidth Q L⌋ = Except.ok ⌊(x - tk Q L l 0) / bandwidth Q L⌋}

/-- Position of `x` among the total knots of the level: interval 0 is below the first knot, interval
`n` above the last one. -/
def InInterval (Q : ℝ → ℝ) (L l : ℕ) (x : ℝ) (j : ℕ) : Prop :=
  (j = 0 ∧ x ≤ tk Q L l 0) ∨
  (0 < j ∧ j < nTot l ∧ tk Q L l 0 < x ∧ tk Q L l (j - 1) ≤ x ∧ x < tk Q L l j) ∨
  (j = nTot l ∧ tk Q L l 0 < x ∧ tk Q L l (nTot l - 1) ≤ x)

theorem findIntervalId_ok {aru : Arith} (hQ : QuantileOk Q) {L l : ℕ} (hl : l ≤ L) (hL : 1 ≤ L)
    {b : Level} (hb : LevelOk Q L l b) {x : ℝ} (hx : x ∈ Dom aru Q L) :
    ∃ j, b.findIntervalId aru x = Except.ok j ∧ InInterval Q L l x j := by
  have hbw := bandwidth_pos hQ hL
  unfold Level.findIntervalId
  have hk0 : atE b.knots 0 = Except.ok (tk Q L l 0) := by
    rw [hb.knots, atE_getD _ 0 (by simp)]
    simp
  rw [hk0]
  simp only [res_ok_bind]
  by_cases hgt : tk Q L l 0 < x
  · rw [if_pos hgt]
    have hpos : 0 < (x - tk Q L l 0) / bandwidth Q L := div_pos (by linarith) hbw
    have hdiv : divToInt aru (x - tk Q L l 0) b.bandwidth
        = Except.ok ⌊(x - tk Q L l 0) / bandwidth Q L⌋ := by
      unfold divToInt
      rw [hb.bandwidth, if_neg hbw.ne', trunc, if_pos hpos.le]
      exact hx l hl hgt
    rw [hdiv]
    simp only [res_ok_bind]
    obtain ⟨e, he⟩ : ∃ e : ℕ, (e : ℤ) = ⌊(x - tk Q L l 0) / bandwidth Q L⌋ :=
      ⟨⌊(x - tk Q L l 0) / bandwidth Q L⌋.toNat, Int.toNat_of_nonneg (Int.floor_nonneg.mpr hpos.le)⟩
    have hlow : ∀ i, kid Q L (prob l i) - kid Q L (prob l 0) ≤ e → tk Q L l i ≤ x := by
      intro i hi
      rw [he, Int.le_floor, le_div_iff₀ hbw] at hi
      unfold tk at hi ⊢
      push_cast at hi
      linarith
    have hup : ∀ i, (e : ℤ) < kid Q L (prob l i) - kid Q L (prob l 0) → x < tk Q L l i := by
      intro i hi
      rw [he, Int.floor_lt, div_lt_iff₀ hbw] at hi
      unfold tk at hi ⊢
      push_cast at hi
      linarith
    rw [← he]
    obtain ⟨hlen, hids⟩ := hb.ids
    by_cases hlt : e < b.gridIds.length
    · rw [if_pos (by exact_mod_cast hlt), Int.toNat_natCast, nth_getD _ 0 hlt]
      obtain ⟨g1, g2, g3, g4⟩ := hids e hlt
      refine ⟨_, rfl, Or.inr (Or.inl ?_)⟩
      have e1 : b.gridIds.getD e 0 = b.gridIds[e] := by simp [hlt]
      rw [e1]
      exact ⟨g1, g2, hgt, hlow _ g3, hup _ g4⟩
    · rw [if_neg (by exact_mod_cast hlt), hb.level]
      refine ⟨_, rfl, Or.inr (Or.inr ⟨rfl, hgt, hlow _ ?_⟩)⟩
      omega
  · rw [if_neg hgt]
    exact ⟨0, rfl, Or.inl ⟨rfl, not_lt.mp hgt⟩⟩

theorem inInterval_le {L l j : ℕ} {x : ℝ} (h : InInterval Q L l x j) : j ≤ nTot l := by
  rcases h with h | h | h <;> omega

theorem pieceOf_inInterval (hQ : QuantileOk Q) {L l : ℕ} (hl : l ≤ L) (h1 : 1 ≤ l) {x : ℝ} {j : ℕ}
    (h : InInterval Q L l x j) : pieceOf (nTot l) j = pidx (kfun Q L l) (nTot l) x := by
  have hn := nTot_ge h1
  have hk : ∀ i j, i < j → j < nTot l → kfun Q L l i < kfun Q L l j :=
    fun i j a b => kfun_lt hQ hl (by omega) a b
  have hkf : ∀ i, i < nTot l → kfun Q L l i = tk Q L l i := fun i hi => by rw [kfun, if_pos hi]
  symm
  unfold pieceOf
  rcases h with ⟨rfl, h⟩ | ⟨a, b, c, d, e⟩ | ⟨rfl, c, d⟩
  · rw [show min (0 - 1) (nTot l - 2) = 0 by omega]
    refine pidx_eq hk (by omega) (Or.inl rfl) (Or.inr ?_)
    rw [hkf _ (by omega)]
    exact lt_of_le_of_lt h (tk_strictMono hQ hl (by omega) (by omega) (by omega)).2
  · rw [show min (j - 1) (nTot l - 2) = j - 1 by omega]
    refine pidx_eq hk (by omega) (Or.inr ?_) (Or.inr ?_)
    · rw [hkf _ (by omega)]; exact d
    · rw [hkf _ (by omega), show j - 1 + 1 = j by omega]; exact e
  · rw [show min (nTot l - 1) (nTot l - 2) = nTot l - 2 by omega]
    refine pidx_eq hk (by omega) (Or.inr ?_) (Or.inl rfl)
    rw [hkf _ (by omega)]
    exact le_trans (tk_strictMono hQ hl (by omega) (by omega) (by omega)).2.le d

/-- Basis function. -/
noncomputable def phi (Q : ℝ → ℝ) (L : ℕ) (x : ℝ) (l p : ℕ) : ℝ :=
  if l = 0 then 1 else
    piece (solX l (kfun Q L l) (nTot l) (2 * p)) (pidx (kfun Q L l) (nTot l) x) x

/-- Its derivative. -/
noncomputable def phi' (Q : ℝ → ℝ) (L : ℕ) (x : ℝ) (l p : ℕ) : ℝ :=
  if l = 0 then 0 else
    piece' (solX l (kfun Q L l) (nTot l) (2 * p)) (pidx (kfun Q L l) (nTot l) x) x

/-- Its second derivative. -/
noncomputable def phi'' (Q : ℝ → ℝ) (L : ℕ) (x : ℝ) (l p : ℕ) : ℝ :=
  if l = 0 then 0 else
    piece'' (solX l (kfun Q L l) (nTot l) (2 * p)) (pidx (kfun Q L l) (nTot l) x) x

theorem coef_ok {L l : ℕ} (h1 : 1 ≤ l) {b : Level} (hb : LevelOk Q L l b) {j i p : ℕ}
    (hj : j ≤ nTot l) (hi : i < 4) (hp : p < 2 ^ l) :
    b.coef (4 * j + i) p
      = Except.ok (solX l (kfun Q L l) (nTot l) (2 * p) (4 * pieceOf (nTot l) j + i)) := by
  unfold Level.coef
  have hn := nTot_add_one l
  rw [hb.level, if_pos ⟨by rw [show 1 + l = l + 1 by ring]; omega, hp⟩, hb.coefs]
  change Except.ok _ = _
  congr 1
  exact coef_eq h1 (kfun Q L l) hj hi (2 * p)

theorem evaluate_ok {aru : Arith} (hQ : QuantileOk Q) {L l : ℕ} (hl : l ≤ L) (hL : 1 ≤ L)
    {b : Level} (hb : LevelOk Q L l b) {x : ℝ} (hx : x ∈ Dom aru Q L) {p : ℕ} (hp : p < 2 ^ l) :
    b.evaluate aru x p = Except.ok (phi Q L x l p) ∧
    b.evaluateDerivative aru x p = Except.ok (phi' Q L x l p) ∧
    b.evaluateSecondDerivative aru x p = Except.ok (phi'' Q L x l p) := by
  obtain ⟨j, h1, h2⟩ := findIntervalId_ok hQ hl hL hb hx
  unfold Level.evaluate Level.evaluateDerivative Level.evaluateSecondDerivative
  rw [h1]
  simp only [res_ok_bind, hb.level]
  by_cases h0 : l = 0
  · subst h0
    simp [phi, phi', phi'']
  · have hj := inInterval_le h2
    have hpi := pieceOf_inInterval hQ hl (by omega) h2
    have hc : ∀ i, i < 4 → b.coef (4 * j + i) p = Except.ok (solX l (kfun Q L l) (nTot l) (2 * p)
        (4 * pidx (kfun Q L l) (nTot l) x + i)) := by
      intro i hi
      rw [coef_ok (by omega) hb hj hi hp, hpi]
    simp only [show l > 0 by omega, if_true, Level.polyLoop, hc 0 (by omega), hc 1 (by omega),
      hc 2 (by omega), hc 3 (by omega), res_ok_bind, res_pure]
    refine ⟨?_, ?_, ?_⟩ <;> congr 1 <;> simp only [phi, phi', phi'', h0, if_false, piece, piece',
      piece''] <;> push_cast <;> ring

/-- Own knots. -/
noncomputable def kap (Q : ℝ → ℝ) (L l p : ℕ) : ℝ := tk Q L l (2 * p)

theorem kap_eq {Q : ℝ → ℝ} {L l l' p : ℕ} (h : l ≤ l') :
    kap Q L l p = tk Q L l' ((2 * p + 1) * 2 ^ (l' - l) - 1) := by
  unfold kap tk
  rw [prob_embed h]

theorem embed_lt {l l' p : ℕ} (h : l ≤ l') (hp : p < 2 ^ l) :
    (2 * p + 1) * 2 ^ (l' - l) - 1 < nTot l' := by
  have hn := nTot_add_one l'
  have h1 : (2 * p + 1) * 2 ^ (l' - l) ≤ (2 ^ (l + 1) - 1) * 2 ^ (l' - l) := by
    apply Nat.mul_le_mul_right
    rw [pow_succ]
    omega
  have h2 : 2 ^ (l + 1) * 2 ^ (l' - l) = 2 ^ (l' + 1) := by
    rw [← pow_add]; congr 1; omega
  rw [Nat.sub_mul, h2, one_mul] at h1
  have h3 : 0 < 2 ^ (l' - l) := by positivity
  have h4 : 0 < (2 * p + 1) * 2 ^ (l' - l) := by positivity
  omega

theorem phi_knot (hQ : QuantileOk Q) {L l : ℕ} (hl : l ≤ L) (h1 : 1 ≤ l) {p j : ℕ} (hp : p < 2 ^ l)
    (hj : j < nTot l) : phi Q L (tk Q L l j) l p = if 2 * p = j then 1 else 0 := by
  have hn := nTot_ge h1
  have hk : ∀ i j, i < j → j < nTot l → kfun Q L l i < kfun Q L l j :=
    fun i j a b => kfun_lt hQ hl (by omega) a b
  have := splineFn_knot hk (by omega) (solX_spec h1 hk (own_lt hp)) hj
  rw [show kfun Q L l j = tk Q L l j by rw [kfun, if_pos hj]] at this
  rw [phi, if_neg (by omega)]
  exact this

theorem hierarchical (hQ : QuantileOk Q) {L : ℕ} (hL : 1 ≤ L) :
    Hierarchical L (kap Q L) (phi Q L) := by
  constructor
  · intro l p hl hp
    by_cases h0 : l = 0
    · simp [phi, h0]
    · rw [kap, phi_knot hQ hl (by omega) hp (own_lt hp), if_pos rfl]
  · intro l p l' p' hl' hp' hle hp hne
    have h0 : l' ≠ 0 := by
      rintro rfl
      have : l = 0 := by omega
      subst this
      simp at hp hp'
      subst hp hp'
      exact hne rfl
    rw [kap_eq hle, phi_knot hQ hl' (by omega) hp' (embed_lt hle hp), if_neg]
    intro he
    rcases Nat.eq_or_lt_of_le hle with rfl | hlt
    · simp at he
      exact hne (by rw [he])
    · obtain ⟨m, hm⟩ : ∃ m, l' - l = m + 1 := ⟨l' - l - 1, by omega⟩
      rw [hm, pow_succ, ← mul_assoc] at he
      have : 0 < (2 * p + 1) * 2 ^ m := by positivity
      omega

theorem phi_deriv (hQ : QuantileOk Q) {L : ℕ} (hL : 1 ≤ L) {l p : ℕ} (hl : l ≤ L) (hp : p < 2 ^ l)
    (x : ℝ) : HasDerivAt (fun y => phi Q L y l p) (phi' Q L x l p) x ∧
      HasDerivAt (fun y => phi' Q L y l p) (phi'' Q L x l p) x := by
  by_cases h0 : l = 0
  · simp only [phi, phi', phi'', h0, if_true]
    exact ⟨hasDerivAt_const _ _, hasDerivAt_const _ _⟩
  · have hn := nTot_ge (l := l) (by omega)
    have hk : ∀ i j, i < j → j < nTot l → kfun Q L l i < kfun Q L l j :=
      fun i j a b => kfun_lt hQ hl hL a b
    have hs := solX_spec (by omega) hk (own_lt hp)
    simp only [phi, phi', phi'', h0, if_false]
    exact ⟨splineFn_deriv hk (by omega) hs x, splineFn_deriv2 hk (by omega) hs x⟩

/-- The whole basis. -/
theorem basisLevels_ok {ar : Arith} (hQ : QuantileOk Q) {L : ℕ} (hL : 1 ≤ L)
    (hf : ∀ l ≤ L, KnotFits ar Q L l) :
    ∃ ls, basisLevels ar Q L = Except.ok ls ∧ ls.length = L + 1 ∧
      ∀ l (h : l < ls.length), LevelOk Q L l ls[l] := by
  have hex : ∀ l, ∃ b, l ≤ L → construct ar Q l L = Except.ok b ∧ LevelOk Q L l b := by
    intro l
    by_cases h : l ≤ L
    · obtain ⟨b, hb⟩ := construct_ok hQ h hL (hf l h)
      exact ⟨b, fun _ => hb⟩
    · exact ⟨⟨0, [], fun _ _ => 0, 0, []⟩, fun h' => absurd h' h⟩
  choose bs hbs using hex
  refine ⟨(List.range (L + 1)).map bs, ?_, by simp, ?_⟩
  · unfold basisLevels
    apply mapM_ok
    intro l hl
    rw [List.mem_range] at hl
    exact (hbs l (by omega)).1
  · intro l h
    have h' : l ≤ L := by simpa [Nat.lt_succ_iff] using h
    simpa using (hbs l h').2

theorem basis_ok {aru : Arith} (hQ : QuantileOk Q) {L : ℕ} (hL : 1 ≤ L) {ls : List Level}
    (hlen : ls.length = L + 1) (hls : ∀ l (h : l < ls.length), LevelOk Q L l ls[l])
    (hdom : ∀ l p, l ≤ L → p < 2 ^ l → kap Q L l p ∈ Dom aru Q L) :
    BasisOk (basis aru ls) L (Dom aru Q L) (kap Q L) (phi Q L) ∧
    BasisDerivOk (basis aru ls) L (Dom aru Q L) (phi' Q L) (phi'' Q L) := by
  have hnth : ∀ l (h : l < ls.length), nth ls l = Except.ok ls[l] := fun l h => by
    simp [nth, h]
  have hev := fun x (hx : x ∈ Dom aru Q L) l p (hl : l ≤ L) (hp : p < 2 ^ l) =>
    evaluate_ok hQ hl hL (hls l (by omega)) hx hp
  refine ⟨⟨?_, hdom, ?_⟩, ⟨?_, ?_⟩⟩
  · intro l p hl hp
    have hl' : l < ls.length := by omega
    simp only [basis, hnth l hl', res_ok_bind, Level.getKnot]
    rw [(hls l hl').knots, nth_getD _ 0 (by simpa using hp)]
    simp [hp, kap]
  · intro x hx l p hl hp
    simp only [basis, hnth l (show l < ls.length by omega), res_ok_bind]
    exact (hev x hx l p hl hp).1
  · intro x hx l p hl hp
    simp only [basis, hnth l (show l < ls.length by omega), res_ok_bind]
    exact (hev x hx l p hl hp).2.1
  · intro x hx l p hl hp
    simp only [basis, hnth l (show l < ls.length by omega), res_ok_bind]
    exact (hev x hx l p hl hp).2.2

end

end Verif.BasisLevel
