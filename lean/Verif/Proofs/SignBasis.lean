import Verif.Proofs.SplinePoly

/-! The basis is symmetric about 0: knot `p` of a level is minus knot `2 ^ l - 1 - p`, and its basis
function is the mirror image. -/
namespace Verif.BasisLevel

open Finset Verif.Spec Verif.SparseGrid

variable {k : ℕ → ℝ} {n : ℕ}

/-- The coefficients of the mirror image. -/
noncomputable def mirror (n : ℕ) (X : ℕ → ℝ) : ℕ → ℝ :=
  fun r => (-1) ^ (r % 4) * X (4 * (n - 2 - r / 4) + r % 4)

theorem mirror_at (X : ℕ → ℝ) (i : ℕ) {j : ℕ} (hj : j < 4) :
    mirror n X (4 * i + j) = (-1) ^ j * X (4 * (n - 2 - i) + j) := by
  unfold mirror
  rw [show (4 * i + j) % 4 = j by omega, show (4 * i + j) / 4 = i by omega]

theorem piece_mirror (X : ℕ → ℝ) (i : ℕ) (x : ℝ) :
    piece (mirror n X) i x = piece X (n - 2 - i) (-x) := by
  have h0 := mirror_at (n := n) X i (j := 0) (by norm_num)
  rw [add_zero, add_zero] at h0
  unfold piece
  rw [h0, mirror_at X i (by norm_num : 1 < 4), mirror_at X i (by norm_num : 2 < 4),
    mirror_at X i (by norm_num : 3 < 4)]
  ring

theorem piece'_mirror (X : ℕ → ℝ) (i : ℕ) (x : ℝ) :
    piece' (mirror n X) i x = -piece' X (n - 2 - i) (-x) := by
  unfold piece'
  rw [mirror_at X i (by norm_num : 1 < 4), mirror_at X i (by norm_num : 2 < 4),
    mirror_at X i (by norm_num : 3 < 4)]
  ring

theorem piece''_mirror (X : ℕ → ℝ) (i : ℕ) (x : ℝ) :
    piece'' (mirror n X) i x = piece'' X (n - 2 - i) (-x) := by
  unfold piece''
  rw [mirror_at X i (by norm_num : 2 < 4), mirror_at X i (by norm_num : 3 < 4)]
  ring

theorem splineFn_mirror (hs : ∀ i < n, k (n - 1 - i) = -k i) {c : ℕ} (hc : c < n) {X : ℕ → ℝ}
    (h : SplineFn k n (n - 1 - c) X) : SplineFn k n c (mirror n X) := by
  refine ⟨fun i hi => ⟨?_, ?_⟩, fun i hi => ⟨?_, ?_⟩⟩
  · rw [piece_mirror, ← hs i (by omega), show n - 1 - i = n - 2 - i + 1 by omega,
      (h.1 (n - 2 - i) (by omega)).2]
    exact if_congr (by omega) rfl rfl
  · rw [piece_mirror, ← hs (i + 1) (by omega), show n - 1 - (i + 1) = n - 2 - i by omega,
      (h.1 (n - 2 - i) (by omega)).1]
    exact if_congr (by omega) rfl rfl
  · rw [piece'_mirror, piece'_mirror, ← hs (i + 1) (by omega),
      show n - 1 - (i + 1) = n - 2 - (i + 1) + 1 by omega, (h.2 (n - 2 - (i + 1)) (by omega)).1,
      show n - 2 - (i + 1) + 1 = n - 2 - i by omega]
  · rw [piece''_mirror, piece''_mirror, ← hs (i + 1) (by omega),
      show n - 1 - (i + 1) = n - 2 - (i + 1) + 1 by omega, (h.2 (n - 2 - (i + 1)) (by omega)).2,
      show n - 2 - (i + 1) + 1 = n - 2 - i by omega]

/-- A spline is determined by its values and the leading coefficients of its first and last piece. -/
theorem splineFn_unique (hn : 3 ≤ n) (hk : ∀ i j, i < j → j < n → k i < k j) {c : ℕ}
    {X Y : ℕ → ℝ} (hX : SplineFn k n c X) (hY : SplineFn k n c Y) (h3 : X 3 = Y 3)
    (hl : X (4 * (n - 2) + 3) = Y (4 * (n - 2) + 3)) : ∀ r < 4 * (n - 1), X r = Y r := by
  have hsub : ∀ i x, piece (fun r => X r - Y r) i x = piece X i x - piece Y i x := fun i x => by
    unfold piece; ring
  have hsub' : ∀ i x, piece' (fun r => X r - Y r) i x = piece' X i x - piece' Y i x := fun i x => by
    unfold piece'; ring
  have hsub'' : ∀ i x, piece'' (fun r => X r - Y r) i x = piece'' X i x - piece'' Y i x :=
    fun i x => by unfold piece''; ring
  have := spline_kernel hn (fun i hi => hk _ _ (Nat.lt_succ_self i) hi) (fun r => X r - Y r) (by
    intro r hr
    rcases Nat.lt_or_ge r (2 * (n - 1)) with h | h
    · rcases Nat.even_or_odd' r with ⟨q, rfl | rfl⟩
      · rw [row_left (by omega), hsub, (hX.1 q (by omega)).1, (hY.1 q (by omega)).1, sub_self]
      · rw [row_right (by omega), hsub, (hX.1 q (by omega)).2, (hY.1 q (by omega)).2, sub_self]
    · rcases Nat.lt_or_ge r (4 * n - 6) with h' | h'
      · rcases Nat.lt_or_ge r (2 * (n - 1) + (n - 2)) with h'' | h''
        · obtain ⟨q, rfl⟩ : ∃ q, r = 2 * (n - 1) + (q + 1) - 1 := ⟨r - 2 * (n - 1), by omega⟩
          rw [row_first (by omega) (by omega), hsub', hsub', Nat.add_sub_cancel,
            (hX.2 q (by omega)).1, (hY.2 q (by omega)).1, sub_self]
        · obtain ⟨q, rfl⟩ : ∃ q, r = 2 * (n - 1) + (q + 1) - 1 + n - 2 :=
            ⟨r + 2 - n - 2 * (n - 1), by omega⟩
          rw [row_second (by omega) (by omega), hsub'', hsub'', Nat.add_sub_cancel,
            (hX.2 q (by omega)).2, (hY.2 q (by omega)).2, sub_self]
      · rcases (show r = 4 * n - 6 ∨ r = 4 * n - 5 by omega) with rfl | rfl
        · rw [(row_end hn _).1, h3, sub_self, mul_zero]
        · rw [(row_end hn _).2, hl, sub_self, mul_zero])
  intro r hr
  have := this r hr
  linarith

/-- The leading coefficients of the cubics through unit data at mirrored knots. -/
theorem knotPowers4_mirror (hn : 4 ≤ n) (hs : ∀ i < n, k (n - 1 - i) = -k i) (c : Fin 4) :
    (knotPowers4 k (n - 4))⁻¹ 3 (Fin.rev c) = -(knotPowers4 k 0)⁻¹ 3 c := by
  set S : Matrix (Fin 4) (Fin 4) ℝ := Matrix.diagonal fun j : Fin 4 => (-1) ^ (j : ℕ) with hS
  have hSS : S * S = 1 := by
    rw [hS, Matrix.diagonal_mul_diagonal, ← Matrix.diagonal_one]
    congr 1
    funext j
    rw [← mul_pow]; norm_num
  have h : knotPowers4 k (n - 4) = ((knotPowers4 k 0 * S).submatrix Fin.revPerm (Equiv.refl _)) := by
    ext i j
    have hi := i.2
    rw [Matrix.submatrix_apply, hS, Matrix.mul_diagonal]
    simp only [knotPowers4, Matrix.of_apply, Fin.revPerm_apply, Equiv.refl_apply, zero_add]
    have := hs (Fin.rev i : Fin 4) (by have := (Fin.rev i).2; omega)
    rw [Fin.val_rev, show n - 1 - (4 - ((i : ℕ) + 1)) = n - 4 + i by omega] at this
    rw [Fin.val_rev, this, neg_pow]
    ring
  have hinv : S⁻¹ = S := Matrix.inv_eq_left_inv hSS
  rw [h, Matrix.inv_submatrix_equiv, Matrix.mul_inv_rev, hinv, Matrix.submatrix_apply, hS,
    Matrix.diagonal_mul]
  simp [Fin.rev_rev]
  norm_num

/-- The coefficients of the mirrored knot are the mirrored coefficients. -/
theorem solX_mirror {l : ℕ} (hl : 1 ≤ l) (hk : ∀ i j, i < j → j < nTot l → k i < k j)
    (hs : ∀ i < nTot l, k (nTot l - 1 - i) = -k i) {c : ℕ} (hc : c < nTot l) :
    ∀ r < 4 * (nTot l - 1),
      solX l k (nTot l) c r = mirror (nTot l) (solX l k (nTot l) (nTot l - 1 - c)) r := by
  have hn := nTot_ge hl
  have hc' : nTot l - 1 - c < nTot l := by omega
  have hX := solX_spec hl hk hc
  have hX' := solX_spec hl hk hc'
  have key : ∀ c < nTot l, solX l k (nTot l) c 3
      = -solX l k (nTot l) (nTot l - 1 - c) (4 * (nTot l - 2) + 3) := by
    intro c hc
    have hc' : nTot l - 1 - c < nTot l := by omega
    by_cases h1 : 1 < l
    · have h4 : 4 ≤ nTot l := by
        have h1' := nTot_add_one l
        have : 2 ^ 3 ≤ 2 ^ (l + 1) := Nat.pow_le_pow_right (by norm_num) (by omega)
        omega
      have hk' : ∀ i, i + 1 < nTot l → k i < k (i + 1) := fun i hi => hk _ _ (Nat.lt_succ_self i) hi
      simp only [solX, if_pos h1]
      have e1 := (row_end (k := k) hn (fun r => solveExact (splineA k (nTot l)) (splineB k (nTot l))
        (4 * (nTot l - 1)) (nTot l) r c)).1
      have e2 := (row_end (k := k) hn (fun r => solveExact (splineA k (nTot l)) (splineB k (nTot l))
        (4 * (nTot l - 1)) (nTot l) r (nTot l - 1 - c))).2
      rw [solve_eq hn hk' _ _ _ (by omega) hc, (splineB_end h4 c).1] at e1
      rw [solve_eq hn hk' _ _ _ (by omega) hc', (splineB_end h4 _).2] at e2
      by_cases hc4 : c < 4
      · rw [dif_pos hc4] at e1
        rw [dif_pos ⟨by omega, by omega⟩] at e2
        have hm := knotPowers4_mirror h4 hs ⟨c, hc4⟩
        rw [show Fin.rev (⟨c, hc4⟩ : Fin 4) = ⟨nTot l - 1 - c - (nTot l - 4), by omega⟩ from
          Fin.ext (by rw [Fin.val_rev]; simp only; omega)] at hm
        rw [hm] at e2
        linarith
      · rw [dif_neg hc4] at e1
        rw [dif_neg (by omega)] at e2
        linarith
    · simp only [solX, if_neg h1]
      rw [dif_neg (by omega), dif_neg (by omega), neg_zero]
  apply splineFn_unique hn hk hX (splineFn_mirror hs hc hX')
  · have := mirror_at (n := nTot l) (solX l k (nTot l) (nTot l - 1 - c)) 0 (j := 3) (by norm_num)
    rw [show 4 * 0 + 3 = 3 from rfl] at this
    rw [this, key c hc, Nat.sub_zero]
    norm_num
  · rw [mirror_at _ _ (by norm_num), Nat.sub_self, mul_zero, zero_add]
    have := key _ hc'
    rw [show nTot l - 1 - (nTot l - 1 - c) = c by omega] at this
    rw [this]
    norm_num

/-- The piece used at `-x`: the mirrored one, except that at a knot the other adjacent one is used. -/
theorem pidx_neg (hn : 2 ≤ n) (hk : ∀ i j, i < j → j < n → k i < k j)
    (hs : ∀ i < n, k (n - 1 - i) = -k i) (x : ℝ) :
    pidx k n (-x) = n - 2 - pidx k n x ∨
      ∃ q, pidx k n (-x) = q + 1 ∧ n - 2 - pidx k n x = q ∧ q + 2 < n ∧ -x = k (q + 1) := by
  obtain ⟨hq, h1, h2⟩ := pidx_spec (k := k) hn x
  generalize pidx k n x = p at *
  by_cases hx : p ≠ 0 ∧ x = k p
  · right
    refine ⟨n - 2 - p, ?_, rfl, by omega, ?_⟩
    · apply pidx_eq hk (by omega)
      · right
        rw [hx.2, ← hs p (by omega)]
        exact le_of_eq (congrArg k (by omega))
      · by_cases h : n - 2 - p + 1 = n - 2
        · exact Or.inl h
        · right
          rw [hx.2, ← hs p (by omega)]
          exact hk _ _ (by omega) (by omega)
    · rw [hx.2, ← hs p (by omega)]
      exact congrArg k (by omega)
  · left
    apply pidx_eq hk (by omega)
    · rcases h2 with h2 | h2
      · left; omega
      · right
        have := hs (p + 1) (by omega)
        rw [show n - 1 - (p + 1) = n - 2 - p by omega] at this
        rw [this]; linarith
    · rcases Nat.eq_zero_or_pos p with h | h
      · left; omega
      · right
        have hne : x ≠ k p := fun e => hx ⟨by omega, e⟩
        have hlt : k p < x := lt_of_le_of_ne (by rcases h1 with h1 | h1; omega; exact h1) hne.symm
        have := hs p (by omega)
        rw [show n - 1 - p = n - 2 - p + 1 by omega] at this
        rw [this]; linarith

/-- The mirror image of a spline, and of its derivatives. -/
theorem splineFn_neg (hn : 3 ≤ n) (hk : ∀ i j, i < j → j < n → k i < k j)
    (hs : ∀ i < n, k (n - 1 - i) = -k i) {c : ℕ} {X Y : ℕ → ℝ} (hY : SplineFn k n c Y)
    (h : ∀ r < 4 * (n - 1), X r = mirror n Y r) (x : ℝ) :
    piece X (pidx k n x) x = piece Y (pidx k n (-x)) (-x) ∧
    piece' X (pidx k n x) x = -piece' Y (pidx k n (-x)) (-x) ∧
    piece'' X (pidx k n x) x = piece'' Y (pidx k n (-x)) (-x) := by
  obtain ⟨hq, -, -⟩ := pidx_spec (k := k) (by omega : 2 ≤ n) x
  have e0 : piece X (pidx k n x) x = piece (mirror n Y) (pidx k n x) x := by
    unfold piece
    rw [h _ (by omega), h _ (by omega), h _ (by omega), h _ (by omega)]
  have e1 : piece' X (pidx k n x) x = piece' (mirror n Y) (pidx k n x) x := by
    unfold piece'
    rw [h _ (by omega), h _ (by omega), h _ (by omega)]
  have e2 : piece'' X (pidx k n x) x = piece'' (mirror n Y) (pidx k n x) x := by
    unfold piece''
    rw [h _ (by omega), h _ (by omega)]
  rw [e0, e1, e2, piece_mirror, piece'_mirror, piece''_mirror]
  rcases pidx_neg (by omega : 2 ≤ n) hk hs x with e | ⟨q, h1, h2, h3, h4⟩
  · rw [e]; exact ⟨rfl, rfl, rfl⟩
  · rw [h1, h2, h4, (hY.2 q h3).1, (hY.2 q h3).2, (hY.1 q (by omega)).2, (hY.1 (q + 1) (by omega)).1]
    exact ⟨rfl, rfl, rfl⟩

section
variable {Q : ℝ → ℝ}

theorem trunc_neg (y : ℝ) : trunc (-y) = -trunc y := by
  unfold trunc
  rcases lt_trichotomy y 0 with h | h | h
  · rw [if_pos (by linarith), if_neg (by linarith), Int.floor_neg]
  · subst h; simp
  · rw [if_neg (by linarith), if_pos (by linarith), Int.ceil_neg]

theorem prob_mirror {l i : ℕ} (hi : i < nTot l) : prob l (nTot l - 1 - i) = 1 - prob l i := by
  have hn := nTot_add_one l
  unfold prob
  have h2 : ((2 : ℝ) ^ (l + 1)) = ((nTot l : ℕ) : ℝ) + 1 := by exact_mod_cast hn.symm
  rw [h2, Nat.sub_sub, Nat.cast_sub (by omega)]
  have : ((nTot l : ℕ) : ℝ) + 1 ≠ 0 := by positivity
  field_simp
  push_cast
  ring

theorem tk_mirror (hQ : QuantileOk Q) {L l i : ℕ} (hi : i < nTot l) :
    tk Q L l (nTot l - 1 - i) = -tk Q L l i := by
  have hn := nTot_add_one l
  unfold tk kid
  rw [prob_mirror hi, hQ.symm _ (prob_pos l i) (prob_lt_one (by omega)),
    show scale L * -Q (prob l i) / bandwidth Q L = -(scale L * Q (prob l i) / bandwidth Q L) by ring,
    trunc_neg]
  push_cast
  ring

theorem kfun_mirror (hQ : QuantileOk Q) {L l : ℕ} : ∀ i < nTot l,
    kfun Q L l (nTot l - 1 - i) = -kfun Q L l i := by
  intro i hi
  rw [kfun, if_pos (by omega), kfun, if_pos hi, tk_mirror hQ hi]

theorem mirror_index {l p : ℕ} (hp : p < 2 ^ l) : nTot l - 1 - 2 * p = 2 * (2 ^ l - 1 - p) := by
  have hn := nTot_add_one l
  rw [pow_succ] at hn
  omega

theorem kap_mirror (hQ : QuantileOk Q) {L l p : ℕ} (hp : p < 2 ^ l) :
    kap Q L l (2 ^ l - 1 - p) = -kap Q L l p := by
  have hn := nTot_add_one l
  rw [pow_succ] at hn
  unfold kap
  rw [← mirror_index hp, tk_mirror hQ (by omega)]

/-- The basis functions of mirrored knots are mirror images. -/
theorem phi_mirror (hQ : QuantileOk Q) {L l p : ℕ} (hL : 1 ≤ L) (hl : l ≤ L) (hp : p < 2 ^ l)
    (x : ℝ) :
    phi Q L (-x) l (2 ^ l - 1 - p) = phi Q L x l p ∧
    phi' Q L (-x) l (2 ^ l - 1 - p) = -phi' Q L x l p ∧
    phi'' Q L (-x) l (2 ^ l - 1 - p) = phi'' Q L x l p := by
  unfold phi phi' phi''
  by_cases h0 : l = 0
  · simp [h0]
  · simp only [if_neg h0]
    have hn := nTot_add_one l
    rw [pow_succ] at hn
    have hk : ∀ i j, i < j → j < nTot l → kfun Q L l i < kfun Q L l j := fun i j h1 h2 =>
      kfun_lt hQ hl hL h1 h2
    have h1 : 1 ≤ l := by omega
    obtain ⟨e0, e1, e2⟩ := splineFn_neg (nTot_ge h1) hk (kfun_mirror hQ)
      (solX_spec h1 hk (c := nTot l - 1 - 2 * p) (by omega))
      (solX_mirror h1 hk (kfun_mirror hQ) (c := 2 * p) (by omega)) x
    rw [e0, e1, e2, mirror_index hp, neg_neg]
    exact ⟨rfl, rfl, rfl⟩

end

end Verif.BasisLevel
