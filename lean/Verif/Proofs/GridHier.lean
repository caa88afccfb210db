import Verif.Proofs.GridTraverse
import Mathlib.Algebra.BigOperators.Ring.Finset
import Mathlib.Algebra.BigOperators.Group.Finset.Sigma

/-! What the hierarchization passes compute, and that the interpolant reproduces the stored
values. -/
namespace Verif.SparseGrid

open Finset Verif.Point Verif.Counting Verif.Spec

/-- Coefficient of the point with these levels and positions. -/
noncomputable def coef (cs : List ℝ) (ls ps : List ℕ) : ℝ := cs.getD (rank ls ps).toNat 0

/-- One hierarchization pass in direction `t` relates the old to the new coefficients. -/
def PassRel (κ : ℕ → ℕ → ℝ) (φ : ℝ → ℕ → ℕ → ℝ) (d k t : ℕ) (cs cs' : List ℝ) : Prop :=
  ∀ lpre ls ppre ps L p, IsGridPoint d k (lpre ++ L :: ls) (ppre ++ p :: ps) →
    lpre.length = t → ppre.length = t →
    coef cs (lpre ++ L :: ls) (ppre ++ p :: ps)
      = coef cs' (lpre ++ L :: ls) (ppre ++ p :: ps)
        + ∑ n ∈ range (2 ^ L - 1),
            coef cs' (lpre ++ (dec n).1 :: ls) (ppre ++ (dec n).2 :: ps)
              * φ (κ L p) (dec n).1 (dec n).2

/-- A parent has a smaller index. -/
theorem parent_rank_lt {d k i : ℕ} {lpre ls ppre ps : List ℕ} {L p : ℕ}
    (h : pt d i = (lpre ++ L :: ls, ppre ++ p :: ps)) (hi : i < gridCount d k) (hd : 0 < d)
    (hl : lpre.length = ppre.length) {x : ℕ × ℕ} (hx : x.1 < L) (hx2 : x.2 < 2 ^ x.1) :
    IsGridPoint d k (lpre ++ x.1 :: ls) (ppre ++ x.2 :: ps) ∧
    ((rank (lpre ++ x.1 :: ls) (ppre ++ x.2 :: ps)).toNat : ℤ)
      = rank (lpre ++ x.1 :: ls) (ppre ++ x.2 :: ps) ∧
    (rank (lpre ++ x.1 :: ls) (ppre ++ x.2 :: ps)).toNat < i := by
  obtain ⟨h1, h2, h3⟩ := pt_spec hd i
  have h4 := pt_sum_le hd hi
  rw [h] at h1 h2 h3 h4
  simp only at h1 h2 h3 h4
  obtain ⟨hp1, hp2, hp3⟩ := (posOk_append hl).mp h2
  have hp : PosOk (lpre ++ x.1 :: ls) (ppre ++ x.2 :: ps) := (posOk_append hl).mpr ⟨hp1, hx2, hp3⟩
  have hlen : (lpre ++ x.1 :: ls).length = d := by simpa using h1
  have hsum : (lpre ++ x.1 :: ls).sum + 1 ≤ (lpre ++ L :: ls).sum := by
    rw [sum_append_cons, sum_append_cons]; omega
  have hb1 := rank_bounds (by simp) hp
  have hb2 := rank_bounds (by simp) h2
  rw [hlen] at hb1
  rw [h1, h3] at hb2
  have := below_mono d hsum
  refine ⟨isGridPoint_iff.mpr ⟨hlen, by omega, hp⟩, by omega, by omega⟩

theorem hierarchizeLoop_ok {ar : Arith} {b : BasisI} {k : ℕ} {D : Set ℝ} {κ : ℕ → ℕ → ℝ}
    {φ : ℝ → ℕ → ℕ → ℝ} (hb : BasisOk b k D κ φ) {d : ℕ} (hd : 0 < d) (ha : ArOk ar d k) {t : ℕ}
    (ht : t < d) (m : ℕ) :
    ∀ (i : ℕ) (cs : List ℝ), i + m = gridCount d k → cs.length = gridCount d k →
    ∃ cs', hierarchizeLoop ar b t m i cs (st d i) = Except.ok cs' ∧
      cs'.length = gridCount d k ∧ (∀ j < i, cs'.getD j 0 = cs.getD j 0) ∧
      ∀ j, i ≤ j → j < gridCount d k → ∀ lpre ls ppre ps L p,
        pt d j = (lpre ++ L :: ls, ppre ++ p :: ps) → lpre.length = t → ppre.length = t →
        cs.getD j 0 = cs'.getD j 0
          + ∑ n ∈ range (2 ^ L - 1),
              coef cs' (lpre ++ (dec n).1 :: ls) (ppre ++ (dec n).2 :: ps)
                * φ (κ L p) (dec n).1 (dec n).2 := by
  induction m with
  | zero =>
    intro i cs hi hl
    exact ⟨cs, rfl, hl, fun _ _ => rfl, fun j h1 h2 => by omega⟩
  | succ m ih =>
    intro i cs hi hl
    have hin : i < gridCount d k := by omega
    obtain ⟨h1, h2, h3⟩ := pt_spec hd i
    have h4 := pt_sum_le hd hin
    have hg : IsGridPoint d k (pt d i).1 (pt d i).2 := isGridPoint_iff.mpr ⟨h1, h4, h2⟩
    obtain ⟨lpre, L, ls, ppre, p, ps, e1, e2, e3, e4⟩ := split_at
      (ls := (pt d i).1) (ps := (pt d i).2) (t := t)
      (hg.levels_length.trans hg.positions_length.symm) (by omega)
    have e : pt d i = (lpre ++ L :: ls, ppre ++ p :: ps) := Prod.ext e1 e2
    have hll : lpre.length = ppre.length := by omega
    obtain ⟨B, hf, hB⟩ := ha
    rw [e1] at h1 h4
    rw [e1, e2] at h2
    have hlen : lpre.length + 1 + ls.length = d := by simp at h1; omega
    obtain ⟨hp1, hp2, hp3⟩ := (posOk_append hll).mp h2
    have hneed : need (lpre.length + 1 + ls.length) (lpre ++ L :: ls).sum ≤ B := by
      rw [hlen]; exact le_trans (need_mono d h4) hB
    have hLk : L ≤ k := by rw [sum_append_cons] at h4; omega
    have hpar : ∀ n, (dec n).1 < L →
        IsGridPoint d k (lpre ++ (dec n).1 :: ls) (ppre ++ (dec n).2 :: ps) ∧
        ((rank (lpre ++ (dec n).1 :: ls) (ppre ++ (dec n).2 :: ps)).toNat : ℤ)
          = rank (lpre ++ (dec n).1 :: ls) (ppre ++ (dec n).2 :: ps) ∧
        (rank (lpre ++ (dec n).1 :: ls) (ppre ++ (dec n).2 :: ps)).toNat < i :=
      fun n hn => parent_rank_lt e hin hd hll hn (dec_lt n)
    have hpos : 0 < 2 ^ L := by positivity
    have hloop := parentLoop_ok hb hf hll hp1 hp3 L hLk hneed i (κ L p) (hb.knot_mem _ _ hLk hp2)
      (fun n => (rank (lpre ++ (dec n).1 :: ls) (ppre ++ (dec n).2 :: ps)).toNat)
      (fun n hn => ⟨(hpar n hn).2.1.symm, (hpar n hn).2.2⟩) (2 ^ L - 1) 0 (2 ^ L) cs
      (by omega) (by omega) (by omega)
    simp only [Nat.zero_add] at hloop
    set v : ℝ := cs.getD i 0 - ∑ j ∈ range (2 ^ L - 1),
      cs.getD (rank (lpre ++ (dec j).1 :: ls) (ppre ++ (dec j).2 :: ps)).toNat 0
        * φ (κ L p) (dec j).1 (dec j).2 with hv
    obtain ⟨cs', g1, g2, g3, g4⟩ := ih (i + 1) (cs.set i v) (by omega) (by simpa using hl)
    refine ⟨cs', ?_, g2, ?_, ?_⟩
    · rw [hierarchizeLoop]
      have hk : getGridPointInDirection b (st d i) t = Except.ok (κ L p) := by
        rw [st, getGridPointInDirection_ok hb hg ht, e1, e2]
        congr 2
        · rw [← e3]; simp
        · rw [← e4]; simp
      rw [hk]
      simp only [res_ok_bind]
      have hfp : firstParent ar (st d i) t = Except.ok (mkPt lpre ls ppre ps (dec 0)) := by
        rw [st, e1, e2, ← e4]
        exact firstParent_ok hf lpre ls ppre ps L p hll h2
          (le_trans (need_mono _ (by rw [sum_append_cons, sum_append_cons]; omega)) hneed)
      rw [hfp]
      simp only [res_ok_bind]
      have hlev : atE (st d i).levels t = Except.ok L := by
        rw [st]
        simp only
        rw [e1, ← e3, atE_append]
      rw [hlev]
      simp only [res_ok_bind]
      rw [← e4, hloop]
      simp only [res_ok_bind]
      rw [advance_st hf hB hd hin]
      simp only [res_ok_bind]
      rw [e4]
      exact g1
    · intro j hj
      rw [g3 j (by omega), getD_set (by omega), if_neg (by omega)]
    · intro j hj1 hj2 lpre' ls' ppre' ps' L' p' hpt hl1 hl2
      rcases Nat.lt_or_ge i j with hij | hij
      · have := g4 j hij hj2 lpre' ls' ppre' ps' L' p' hpt hl1 hl2
        rwa [getD_set (by omega), if_neg (by omega)] at this
      · have hij : j = i := by omega
        subst hij
        rw [e, Prod.mk.injEq] at hpt
        obtain ⟨q1, q2⟩ := List.append_inj hpt.1 (by omega)
        obtain ⟨q3, q4⟩ := List.append_inj hpt.2 (by omega)
        rw [List.cons.injEq] at q2 q4
        obtain ⟨q2, q5⟩ := q2
        obtain ⟨q4, q6⟩ := q4
        subst q1 q2 q3 q4 q5 q6
        rw [g3 j (by omega), getD_set (by omega), if_pos rfl, hv]
        have : ∑ n ∈ range (2 ^ L - 1), coef cs' (lpre ++ (dec n).1 :: ls)
              (ppre ++ (dec n).2 :: ps) * φ (κ L p) (dec n).1 (dec n).2
            = ∑ n ∈ range (2 ^ L - 1),
              cs.getD (rank (lpre ++ (dec n).1 :: ls) (ppre ++ (dec n).2 :: ps)).toNat 0
                * φ (κ L p) (dec n).1 (dec n).2 := by
          refine sum_congr rfl fun n hn => ?_
          rw [mem_range] at hn
          have hn' : (dec n).1 < L := by rw [dec_level_lt_iff]; omega
          have hlt := (hpar n hn').2.2
          rw [coef, g3 _ (by omega), getD_set (by omega), if_neg (by omega)]
        rw [this]
        ring

theorem hierarchize_pass {ar : Arith} {b : BasisI} {k : ℕ} {D : Set ℝ} {κ : ℕ → ℕ → ℝ}
    {φ : ℝ → ℕ → ℕ → ℝ} (hb : BasisOk b k D κ φ) {d : ℕ} (hd : 0 < d) (ha : ArOk ar d k) {t : ℕ}
    (ht : t < d) (cs : List ℝ) (hl : cs.length = gridCount d k) :
    ∃ cs', hierarchizeLoop ar b t cs.length 0 cs (center d) = Except.ok cs' ∧
      cs'.length = gridCount d k ∧ PassRel κ φ d k t cs cs' := by
  obtain ⟨cs', h1, h2, -, h4⟩ := hierarchizeLoop_ok hb hd ha ht cs.length 0 cs (by omega) hl
  refine ⟨cs', ?_, h2, ?_⟩
  · rw [← h1]
    congr 1
    simp [st, center, pt]
  · intro lpre ls ppre ps L p hg hl1 hl2
    obtain ⟨n, hn, hr, hpt⟩ := rank_lt_numPts hd hg
    have := h4 n (by omega) hn lpre ls ppre ps L p hpt hl1 hl2
    rw [coef, coef, hr, Int.toNat_natCast]
    exact this

/-- Sum over the box of coarser points below `(ls, ps)`. -/
noncomputable def boxSum (κ : ℕ → ℕ → ℝ) (φ : ℝ → ℕ → ℕ → ℝ) (C : List ℕ → List ℕ → ℝ) :
    List ℕ → List ℕ → List ℕ → List ℕ → ℝ
  | lpre, ppre, l :: ls, p :: ps =>
      boxSum κ φ C (lpre ++ [l]) (ppre ++ [p]) ls ps
        + ∑ n ∈ range (2 ^ l - 1),
          boxSum κ φ C (lpre ++ [(dec n).1]) (ppre ++ [(dec n).2]) ls ps
            * φ (κ l p) (dec n).1 (dec n).2
  | lpre, ppre, _, _ => C lpre ppre

theorem hierarchize_from {ar : Arith} {b : BasisI} {k : ℕ} {D : Set ℝ} {κ : ℕ → ℕ → ℝ}
    {φ : ℝ → ℕ → ℕ → ℝ} (hb : BasisOk b k D κ φ) {d : ℕ} (hd : 0 < d) (ha : ArOk ar d k) (m : ℕ) :
    ∀ (t : ℕ) (cs : List ℝ), t + m = d → cs.length = gridCount d k →
    ∃ cs', (List.range' t m).foldlM
        (fun cs t => hierarchizeLoop ar b t cs.length 0 cs (center d)) cs = Except.ok cs' ∧
      cs'.length = gridCount d k ∧
      ∀ lpre ppre ls ps, lpre.length = t → ppre.length = t →
        IsGridPoint d k (lpre ++ ls) (ppre ++ ps) →
        coef cs (lpre ++ ls) (ppre ++ ps) = boxSum κ φ (coef cs') lpre ppre ls ps := by
  induction m with
  | zero =>
    intro t cs ht hl
    refine ⟨cs, rfl, hl, ?_⟩
    intro lpre ppre ls ps h1 h2 hg
    have h3 := hg.levels_length
    have h4 := hg.positions_length
    have e1 : ls = [] := by
      apply List.eq_nil_of_length_eq_zero; simp at h3; omega
    have e2 : ps = [] := by
      apply List.eq_nil_of_length_eq_zero; simp at h4; omega
    subst e1 e2
    simp [boxSum]
  | succ m ih =>
    intro t cs ht hl
    obtain ⟨cs1, g1, g2, g3⟩ := hierarchize_pass hb hd ha (t := t) (by omega) cs hl
    obtain ⟨cs', k1, k2, k3⟩ := ih (t + 1) cs1 (by omega) g2
    refine ⟨cs', ?_, k2, ?_⟩
    · rw [List.range'_succ, List.foldlM_cons, g1]
      simp only [res_ok_bind]
      exact k1
    · intro lpre ppre ls ps h1 h2 hg
      have h3 := hg.levels_length
      have h4 := hg.positions_length
      rcases ls with _ | ⟨l, ls⟩
      · simp at h3; omega
      rcases ps with _ | ⟨p, ps⟩
      · simp at h4; omega
      rw [g3 lpre ls ppre ps l p hg h1 h2, boxSum]
      have hcons : ∀ (x : ℕ × ℕ), IsGridPoint d k (lpre ++ x.1 :: ls) (ppre ++ x.2 :: ps) →
          coef cs1 (lpre ++ x.1 :: ls) (ppre ++ x.2 :: ps)
            = boxSum κ φ (coef cs') (lpre ++ [x.1]) (ppre ++ [x.2]) ls ps := by
        intro x hx
        have := k3 (lpre ++ [x.1]) (ppre ++ [x.2]) ls ps (by simp [h1]) (by simp [h2])
          (by simpa using hx)
        simpa using this
      rw [hcons (l, p) hg]
      congr 1
      refine sum_congr rfl fun n hn => ?_
      rw [mem_range] at hn
      have hn' : (dec n).1 < l := by rw [dec_level_lt_iff]; omega
      rw [hcons (dec n)]
      obtain ⟨i, hi, -, hpt⟩ := rank_lt_numPts hd hg
      exact (parent_rank_lt hpt hi hd (by omega) hn' (dec_lt n)).1

/-- Sum of `F` over all grid points, direction by direction. -/
noncomputable def gsum : ℕ → ℕ → (List ℕ → List ℕ → ℝ) → ℝ
  | 0, _, F => F [] []
  | d + 1, k, F => ∑ n ∈ range (2 ^ (k + 1) - 1),
      gsum d (k - (dec n).1) fun ls ps => F ((dec n).1 :: ls) ((dec n).2 :: ps)

theorem isGridPoint_cons {d k l p : ℕ} {ls ps : List ℕ} :
    IsGridPoint (d + 1) k (l :: ls) (p :: ps) ↔
      l ≤ k ∧ p < 2 ^ l ∧ IsGridPoint d (k - l) ls ps := by
  rw [isGridPoint_iff, isGridPoint_iff]
  unfold PosOk
  simp only [List.length_cons, Nat.add_right_cancel_iff, List.sum_cons, List.forall₂_cons]
  constructor
  · rintro ⟨h1, h2, h3, h4⟩
    exact ⟨by omega, h3, h1, by omega, h4⟩
  · rintro ⟨h1, h2, h3, h4, h5⟩
    exact ⟨h3, by omega, h2, h5⟩

theorem gsum_eq (d : ℕ) : ∀ (k : ℕ) (F : List ℕ → List ℕ → ℝ),
    ∑ x ∈ (gridPoints_finite d k).toFinset, F x.1 x.2 = gsum d k F := by
  induction d with
  | zero =>
    intro k F
    have : (gridPoints_finite 0 k).toFinset = {([], [])} := by
      ext ⟨ls, ps⟩
      simp only [Set.Finite.mem_toFinset, mem_singleton, Prod.mk.injEq]
      constructor
      · intro h
        exact ⟨List.eq_nil_of_length_eq_zero h.levels_length,
          List.eq_nil_of_length_eq_zero h.positions_length⟩
      · rintro ⟨rfl, rfl⟩
        exact ⟨rfl, rfl, by simp, by simp⟩
    rw [this, sum_singleton, gsum]
  | succ d ih =>
    intro k F
    rw [gsum]
    simp only [← ih]
    rw [sum_sigma']
    symm
    refine sum_bij (fun y _ => ((dec y.1).1 :: y.2.1, (dec y.1).2 :: y.2.2)) ?_ ?_ ?_ ?_
    · rintro ⟨n, ls, ps⟩ h
      simp only [mem_sigma, mem_range, Set.Finite.mem_toFinset] at h ⊢
      have hk : (dec n).1 < k + 1 := by rw [dec_level_lt_iff]; omega
      exact isGridPoint_cons.mpr ⟨by omega, dec_lt n, h.2⟩
    · rintro ⟨n, ls, ps⟩ _ ⟨n', ls', ps'⟩ _ h
      simp only [Prod.mk.injEq, List.cons.injEq] at h
      obtain ⟨⟨h1, rfl⟩, h3, rfl⟩ := h
      have e1 := enc_dec n
      have e2 := enc_dec n'
      rw [h1, h3] at e1
      have : n = n' := by omega
      subst this
      rfl
    · rintro ⟨ls, ps⟩ h
      simp only [Set.Finite.mem_toFinset] at h
      have h' : IsGridPoint (d + 1) k ls ps := h
      rcases ls with _ | ⟨l, ls⟩
      · have := h'.levels_length; simp at this
      rcases ps with _ | ⟨p, ps⟩
      · have := h'.positions_length; simp at this
      obtain ⟨h1, h2, h3⟩ := isGridPoint_cons.mp h'
      have hd : dec (2 ^ l - 1 + p) = (l, p) := dec_eq l p h2
      refine ⟨⟨2 ^ l - 1 + p, ls, ps⟩, ?_, ?_⟩
      · simp only [mem_sigma, mem_range, Set.Finite.mem_toFinset]
        refine ⟨?_, ?_⟩
        · have := (dec_level_lt_iff (2 ^ l - 1 + p) (k + 1)).mp (by rw [hd]; simp; omega)
          omega
        · rw [hd]; exact h3
      · simp [hd]
    · rintro ⟨n, ls, ps⟩ _
      rfl

theorem sum_pt (d k : ℕ) (F : List ℕ → List ℕ → ℝ) :
    ∑ n ∈ range (numPts d k), F (pt d n).1 (pt d n).2 = gsum d k F := by
  rw [← gsum_eq]
  refine sum_bij (fun n _ => pt d n) ?_ ?_ ?_ ?_
  · intro n hn
    simp only [Set.Finite.mem_toFinset]
    exact pt_isGridPoint (mem_range.mp hn)
  · intro a ha b hb h
    rcases Nat.eq_zero_or_pos d with rfl | hd
    · simp [numPts] at ha hb
      omega
    · have h1 := (pt_spec hd a).2.2
      have h2 := (pt_spec hd b).2.2
      rw [h] at h1
      omega
  · rintro ⟨ls, ps⟩ h
    simp only [Set.Finite.mem_toFinset] at h
    obtain ⟨n, hn, e⟩ := exists_pt (d := d) (k := k) h
    exact ⟨n, mem_range.mpr hn, e⟩
  · intro n _
    rfl

theorem gsum_mul (d : ℕ) : ∀ (k : ℕ) (F : List ℕ → List ℕ → ℝ) (c : ℝ),
    gsum d k (fun ls ps => F ls ps * c) = gsum d k F * c := by
  induction d with
  | zero => intro k F c; rfl
  | succ d ih =>
    intro k F c
    rw [gsum, gsum, sum_mul]
    refine sum_congr rfl fun n _ => ?_
    exact ih _ _ c

theorem tprod_cons (φ : ℝ → ℕ → ℕ → ℝ) (d : ℕ) (x : ℝ) (xs : List ℝ) (l p : ℕ)
    (ls ps : List ℕ) :
    tprod φ (d + 1) (x :: xs) (l :: ls) (p :: ps) = φ x l p * tprod φ d xs ls ps := by
  unfold tprod
  rw [prod_range_succ']
  simp [mul_comm]

theorem gsum_congr (d : ℕ) : ∀ (k : ℕ) (F G : List ℕ → List ℕ → ℝ),
    (∀ ls ps, F ls ps = G ls ps) → gsum d k F = gsum d k G := by
  intro k F G h
  congr 1
  funext ls ps
  exact h ls ps

/-- The value at a grid point: only the box below it contributes. -/
theorem gsum_box {K : ℕ} {κ : ℕ → ℕ → ℝ} {φ : ℝ → ℕ → ℕ → ℝ} (hh : Hierarchical K κ φ)
    (C : List ℕ → List ℕ → ℝ) (d : ℕ) :
    ∀ (k : ℕ) (ls ps lpre ppre : List ℕ), k ≤ K → IsGridPoint d k ls ps →
    gsum d k (fun ls' ps' => C (lpre ++ ls') (ppre ++ ps')
        * tprod φ d (List.zipWith κ ls ps) ls' ps')
      = boxSum κ φ C lpre ppre ls ps := by
  induction d with
  | zero =>
    intro k ls ps lpre ppre _ hg
    have h1 := List.eq_nil_of_length_eq_zero hg.levels_length
    have h2 := List.eq_nil_of_length_eq_zero hg.positions_length
    subst h1 h2
    simp [gsum, boxSum, tprod]
  | succ d ih =>
    intro k ls ps lpre ppre hkK hg
    rcases ls with _ | ⟨l, ls⟩
    · have := hg.levels_length; simp at this
    rcases ps with _ | ⟨p, ps⟩
    · have := hg.positions_length; simp at this
    obtain ⟨h1, h2, h3⟩ := isGridPoint_cons.mp hg
    rw [gsum, boxSum]
    have hterm : ∀ n, gsum d (k - (dec n).1) (fun ls' ps' =>
          C (lpre ++ (dec n).1 :: ls') (ppre ++ (dec n).2 :: ps')
          * tprod φ (d + 1) (List.zipWith κ (l :: ls) (p :: ps)) ((dec n).1 :: ls')
              ((dec n).2 :: ps'))
        = gsum d (k - (dec n).1) (fun ls' ps' =>
          C ((lpre ++ [(dec n).1]) ++ ls') ((ppre ++ [(dec n).2]) ++ ps')
          * tprod φ d (List.zipWith κ ls ps) ls' ps') * φ (κ l p) (dec n).1 (dec n).2 := by
      intro n
      rw [← gsum_mul]
      apply gsum_congr
      intro ls' ps'
      rw [List.zipWith_cons_cons, tprod_cons]
      simp only [List.append_assoc, List.singleton_append]
      ring
    rw [sum_congr rfl fun n _ => hterm n]
    have hpos : 0 < 2 ^ l := by positivity
    have hdec : dec (2 ^ l - 1 + p) = (l, p) := dec_eq l p h2
    have hsub : range (2 ^ l - 1) ∪ {2 ^ l - 1 + p} ⊆ range (2 ^ (k + 1) - 1) := by
      intro n hn
      have hlt : (dec n).1 < k + 1 := by
        rcases mem_union.mp hn with h | h
        · have : (dec n).1 < l := by rw [dec_level_lt_iff]; have := mem_range.mp h; omega
          omega
        · rw [mem_singleton.mp h, hdec]; simp; omega
      rw [dec_level_lt_iff] at hlt
      rw [mem_range]
      omega
    rw [← sum_subset hsub, sum_union (by simp), sum_singleton, hdec]
    · simp only
      rw [hh.own l p (by omega) h2, mul_one, ih (k - l) ls ps _ _ (by omega) h3, add_comm]
      congr 1
      refine sum_congr rfl fun n hn => ?_
      have hn' : (dec n).1 < l := by rw [dec_level_lt_iff]; have := mem_range.mp hn; omega
      rw [ih (k - (dec n).1) ls ps _ _ (by omega)]
      exact ⟨h3.levels_length, h3.positions_length, by have := h3.sum_le; omega, h3.pos_lt⟩
    · intro n hn hnot
      rw [mem_range] at hn
      rw [mem_union, mem_range, mem_singleton, not_or] at hnot
      have hlt : (dec n).1 < k + 1 := by rw [dec_level_lt_iff]; omega
      have hge : l ≤ (dec n).1 := by
        by_contra hcon
        have := (dec_level_lt_iff n l).mp (by omega)
        omega
      rw [hh.other l p (dec n).1 (dec n).2 (by omega) (dec_lt n) hge h2, mul_zero]
      intro heq
      have e := enc_dec n
      rw [Prod.mk.injEq] at heq
      rw [← heq.1, ← heq.2] at e
      omega

/-- Hierarchization makes the unbounded interpolant reproduce the stored values. -/
theorem hierarchize_ok {ar : Arith} {b : BasisI} {k : ℕ} {D : Set ℝ} {κ : ℕ → ℕ → ℝ}
    {φ : ℝ → ℕ → ℕ → ℝ} (hb : BasisOk b k D κ φ) (hh : Hierarchical k κ φ) {d : ℕ}
    (ha : ArOk ar d k) (cs : List ℝ) (hl : cs.length = numPts d k) :
    ∃ cs', hierarchize ar b d cs = Except.ok cs' ∧ cs'.length = numPts d k ∧
      ∀ n < numPts d k, ∑ j ∈ range (numPts d k), cs'.getD j 0
          * tprod φ d (List.zipWith κ (pt d n).1 (pt d n).2) (pt d j).1 (pt d j).2
        = cs.getD n 0 := by
  rcases Nat.eq_zero_or_pos d with rfl | hd
  · refine ⟨cs, rfl, hl, ?_⟩
    intro n hn
    have : n = 0 := by simpa [numPts] using hn
    subst this
    simp [numPts, tprod]
  · have hN : numPts d k = gridCount d k := by rw [numPts, if_neg (by omega)]
    rw [hN] at hl
    obtain ⟨cs', h1, h2, h3⟩ := hierarchize_from hb hd ha d 0 cs (by omega) hl
    refine ⟨cs', ?_, by omega, ?_⟩
    · unfold hierarchize
      rw [List.range_eq_range']
      exact h1
    · intro n hn
      have hg := pt_isGridPoint hn
      have hrank : ∀ j, coef cs' (pt d j).1 (pt d j).2 = cs'.getD j 0 := by
        intro j
        rw [coef, (pt_spec hd j).2.2, Int.toNat_natCast]
      have hcs : cs.getD n 0 = coef cs (pt d n).1 (pt d n).2 := by
        rw [coef, (pt_spec hd n).2.2, Int.toNat_natCast]
      have hbox := h3 [] [] (pt d n).1 (pt d n).2 rfl rfl hg
      simp only [List.nil_append] at hbox
      rw [hcs, hbox, ← gsum_box hh (coef cs') d k _ _ [] [] le_rfl hg, ← sum_pt]
      simp only [List.nil_append]
      exact sum_congr rfl fun j _ => by rw [hrank]

end Verif.SparseGrid
