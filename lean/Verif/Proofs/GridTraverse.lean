import Verif.Model.SparseGrid
import Verif.Spec.Basis
import Verif.Props.PointParents
import Mathlib.Algebra.BigOperators.Group.Finset.Basic

/-! Pure description of the traversal states and of the loops of `SparseGrid`. -/
namespace Verif.SparseGrid

open Finset Verif.Point Verif.Counting Verif.Spec

/-- Pure traversal. -/
def pt (d : ℕ) : ℕ → List ℕ × List ℕ
  | 0 => (List.replicate d 0, List.replicate d 0)
  | n + 1 => next (pt d n).1 (pt d n).2

/-- Traversal state. -/
def st (d n : ℕ) : Pt := ⟨n, (pt d n).1, (pt d n).2, (pt d n).1.sum⟩

/-- Number of points. -/
def numPts (d k : ℕ) : ℕ := if d = 0 then 1 else gridCount d k

theorem pt_spec {d : ℕ} (hd : 0 < d) (n : ℕ) :
    (pt d n).1.length = d ∧ PosOk (pt d n).1 (pt d n).2 ∧ rank (pt d n).1 (pt d n).2 = n := by
  induction n with
  | zero =>
    refine ⟨by simp [pt], ?_, ?_⟩
    · have := posOk_zeros (List.replicate d 0)
      simpa [pt] using this
    · have : r2 0 0 (List.replicate d 0) = 0 := r2_all_zeros 0 0 d
      simp [pt, rank, r1_zeros, this, below]
  | succ n ih =>
    obtain ⟨h1, h2, h3⟩ := ih
    have hne : (pt d n).1 ≠ [] := by
      intro h
      rw [h] at h1
      simp at h1
      omega
    obtain ⟨g1, g2, g3⟩ := next_spec hne h2
    refine ⟨g2.trans h1, g1, ?_⟩
    change rank (next (pt d n).1 (pt d n).2).1 (next (pt d n).1 (pt d n).2).2 = _
    rw [g3, h3]
    push_cast
    ring

theorem pt_ne_nil {d : ℕ} (hd : 0 < d) (n : ℕ) : (pt d n).1 ≠ [] := by
  intro h
  have := (pt_spec hd n).1
  rw [h] at this
  simp at this
  omega

theorem pt_sum_le {d k n : ℕ} (hd : 0 < d) (hn : n < gridCount d k) : (pt d n).1.sum ≤ k := by
  obtain ⟨h1, h2, h3⟩ := pt_spec hd n
  have hb := rank_bounds (pt_ne_nil hd n) h2
  rw [h3, h1] at hb
  by_contra hcon
  have := below_mono d (show k + 1 ≤ (pt d n).1.sum by omega)
  rw [below_eq_gridCount] at this
  omega

theorem pt_isGridPoint {d k n : ℕ} (hn : n < numPts d k) :
    IsGridPoint d k (pt d n).1 (pt d n).2 := by
  rcases Nat.eq_zero_or_pos d with rfl | hd
  · have : n = 0 := by simpa [numPts] using hn
    subst this
    exact ⟨by simp [pt], by simp [pt], by simp [pt], by simp [pt]⟩
  · rw [numPts, if_neg (by omega)] at hn
    rw [isGridPoint_iff]
    obtain ⟨h1, h2, h3⟩ := pt_spec hd n
    exact ⟨h1, pt_sum_le hd hn, h2⟩

theorem advance_st {ar : Arith} {B d k : ℕ} (hf : Fits ar B) (hB : need d k ≤ B) (hd : 0 < d)
    {n : ℕ} (hn : n < gridCount d k) : advance ar (st d n) = Except.ok (st d (n + 1)) := by
  obtain ⟨h1, h2, h3⟩ := pt_spec hd n
  have hb := rank_bounds (pt_ne_nil hd n) h2
  rw [h3, h1] at hb
  have hneed := le_trans (need_mono d (pt_sum_le hd hn)) hB
  have hge := below_ge d (pt d n).1.sum
  unfold need at hneed
  have := advance_ok hf (i := n) (pt_ne_nil hd n) h2 (by omega) (by omega) (by omega)
  rw [st, this]
  simp [st, pt]

/-- Every grid point is visited. -/
theorem exists_pt {d k : ℕ} {ls ps : List ℕ} (h : IsGridPoint d k ls ps) :
    ∃ n, n < numPts d k ∧ pt d n = (ls, ps) := by
  rcases Nat.eq_zero_or_pos d with rfl | hd
  · refine ⟨0, by simp [numPts], ?_⟩
    rw [List.eq_nil_of_length_eq_zero h.levels_length,
      List.eq_nil_of_length_eq_zero h.positions_length]
    simp [pt]
  · rw [numPts, if_neg (by omega)]
    have hfin := gridPoints_finite d k
    have hinj : Set.InjOn (pt d) (range (gridCount d k) : Set ℕ) := by
      intro a _ b _ hab
      have ha := (pt_spec hd a).2.2
      have hb := (pt_spec hd b).2.2
      rw [hab] at ha
      omega
    have hsub : pt d '' (range (gridCount d k) : Set ℕ) ⊆ gridPoints d k := by
      rintro x ⟨n, hn, rfl⟩
      exact pt_isGridPoint (by rw [numPts, if_neg (by omega)]; simpa using hn)
    have hcard : (pt d '' (range (gridCount d k) : Set ℕ)).ncard = gridCount d k := by
      rw [hinj.ncard_image, Set.ncard_coe_finset, card_range]
    have heq := Set.eq_of_subset_of_ncard_le hsub
      (by rw [hcard, ncard_gridPoints d k hd]) hfin
    have hmem : (ls, ps) ∈ gridPoints d k := h
    rw [← heq] at hmem
    obtain ⟨n, hn, e⟩ := hmem
    exact ⟨n, by simpa using hn, e⟩

theorem rank_lt_numPts {d k : ℕ} (hd : 0 < d) {ls ps : List ℕ} (h : IsGridPoint d k ls ps) :
    ∃ n, n < gridCount d k ∧ rank ls ps = (n : ℤ) ∧ pt d n = (ls, ps) := by
  obtain ⟨n, hn, e⟩ := exists_pt h
  rw [numPts, if_neg (by omega)] at hn
  refine ⟨n, hn, ?_, e⟩
  have := (pt_spec hd n).2.2
  rwa [e] at this

theorem ncard_numPts (d k : ℕ) : (gridPoints d k).ncard = numPts d k := by
  rcases Nat.eq_zero_or_pos d with rfl | hd
  · have : gridPoints 0 k = {([], [])} := by
      ext ⟨ls, ps⟩
      simp only [Set.mem_singleton_iff, Prod.mk.injEq]
      constructor
      · intro h
        exact ⟨List.eq_nil_of_length_eq_zero h.levels_length,
          List.eq_nil_of_length_eq_zero h.positions_length⟩
      · rintro ⟨rfl, rfl⟩
        exact ⟨rfl, rfl, by simp, by simp⟩
    rw [this, Set.ncard_singleton, numPts, if_pos rfl]
  · rw [ncard_gridPoints d k hd, numPts, if_neg (by omega)]

/-- The basis answers for all levels up to `k`, at all arguments in `D` (which includes the knots). -/
structure BasisOk (b : BasisI) (k : ℕ) (D : Set ℝ) (κ : ℕ → ℕ → ℝ) (φ : ℝ → ℕ → ℕ → ℝ) :
    Prop where
  knot_ok : ∀ l p, l ≤ k → p < 2 ^ l → b.getKnot l p = Except.ok (κ l p)
  knot_mem : ∀ l p, l ≤ k → p < 2 ^ l → κ l p ∈ D
  eval_ok : ∀ x ∈ D, ∀ l p, l ≤ k → p < 2 ^ l → b.evaluate x l p = Except.ok (φ x l p)

/-- A point of dimension `d` with all coordinates in `D`. -/
def XOk (D : Set ℝ) (d : ℕ) (x : List ℝ) : Prop := x.length = d ∧ ∀ y ∈ x, y ∈ D

theorem XOk.mem {D : Set ℝ} {d : ℕ} {x : List ℝ} (h : XOk D d x) {t : ℕ} (ht : t < d) :
    x.getD t 0 ∈ D := by
  have ht' : t < x.length := by rw [h.1]; exact ht
  have e : x.getD t 0 = x[t] := by simp [ht']
  rw [e]
  exact h.2 _ (List.getElem_mem ht')

theorem mapM_ok {α β : Type _} (l : List α) (g : α → Res β) (v : α → β)
    (h : ∀ a ∈ l, g a = Except.ok (v a)) : l.mapM g = Except.ok (l.map v) := by
  induction l with
  | nil => rfl
  | cons a l ih =>
    rw [List.mapM_cons, h a (by simp), ih (fun a ha => h a (by simp [ha]))]
    rfl

theorem foldlM_ok {α β : Type _} (l : List α) (g : β → α → Res β) (v : β → α → β)
    (h : ∀ a ∈ l, ∀ x, g x a = Except.ok (v x a)) (x : β) :
    l.foldlM g x = Except.ok (l.foldl v x) := by
  induction l generalizing x with
  | nil => rfl
  | cons a l ih =>
    rw [List.foldlM_cons, h a (by simp)]
    simp only [res_ok_bind, List.foldl_cons]
    exact ih (fun a ha => h a (by simp [ha])) _

theorem nth_getD {α : Type _} (l : List α) (d : α) {t : ℕ} (h : t < l.length) :
    nth l t = Except.ok (l.getD t d) := by
  simp [nth, h]

theorem atE_getD {α : Type _} (l : List α) (d : α) {t : ℕ} (h : t < l.length) :
    atE l t = Except.ok (l.getD t d) := by
  simp [atE, h]

theorem gp_bounds {d k : ℕ} {ls ps : List ℕ} (h : IsGridPoint d k ls ps) {t : ℕ} (ht : t < d) :
    ls.getD t 0 ≤ k ∧ ps.getD t 0 < 2 ^ ls.getD t 0 ∧ t < ls.length ∧ t < ps.length := by
  have h1 : t < ls.length := by rw [h.levels_length]; exact ht
  have h2 : t < ps.length := by rw [h.positions_length]; exact ht
  have h3 := h.pos_lt t h1 h2
  have h4 : ls[t] ≤ ls.sum := List.le_sum_of_mem (List.getElem_mem h1)
  have h5 := h.sum_le
  have e1 : ls.getD t 0 = ls[t] := by simp [h1]
  have e2 : ps.getD t 0 = ps[t] := by simp [h2]
  rw [e1, e2]
  exact ⟨by omega, h3, h1, h2⟩

theorem getGridPointInDirection_ok {b : BasisI} {k : ℕ} {D : Set ℝ} {κ : ℕ → ℕ → ℝ} {φ : ℝ → ℕ → ℕ → ℝ}
    (hb : BasisOk b k D κ φ) {d : ℕ} {ls ps : List ℕ} {i : ℤ} {s : ℕ} (h : IsGridPoint d k ls ps)
    {t : ℕ} (ht : t < d) :
    getGridPointInDirection b ⟨i, ls, ps, s⟩ t = Except.ok (κ (ls.getD t 0) (ps.getD t 0)) := by
  obtain ⟨h1, h2, h3, h4⟩ := gp_bounds h ht
  unfold getGridPointInDirection
  simp only
  rw [nth_getD _ 0 h3]
  simp only [res_ok_bind]
  rw [nth_getD _ 0 h4]
  simp only [res_ok_bind]
  rw [hb.knot_ok _ _ h1 h2]

theorem getGridPoint_ok {b : BasisI} {k : ℕ} {D : Set ℝ} {κ : ℕ → ℕ → ℝ} {φ : ℝ → ℕ → ℕ → ℝ}
    (hb : BasisOk b k D κ φ) {d : ℕ} {ls ps : List ℕ} {i : ℤ} {s : ℕ} (h : IsGridPoint d k ls ps) :
    getGridPoint b ⟨i, ls, ps, s⟩ = Except.ok (List.zipWith κ ls ps) := by
  unfold getGridPoint
  simp only
  rw [h.levels_length, mapM_ok _ _ (fun t => κ (ls.getD t 0) (ps.getD t 0))
    (fun t ht => getGridPointInDirection_ok hb h (List.mem_range.mp ht))]
  congr 1
  apply List.ext_getElem
  · simp [h.levels_length, h.positions_length]
  · intro t h1 h2
    have h1' : t < d := by simpa using h1
    obtain ⟨_, _, h3, h4⟩ := gp_bounds h h1'
    simp [h3, h4]

/-- Value of the tensor-product basis function. -/
noncomputable def tprod (φ : ℝ → ℕ → ℕ → ℝ) (d : ℕ) (x : List ℝ) (ls ps : List ℕ) : ℝ :=
  ∏ t ∈ range d, φ (x.getD t 0) (ls.getD t 0) (ps.getD t 0)

theorem foldl_mul_range (v : ℕ → ℝ) (n : ℕ) (a : ℝ) :
    (List.range n).foldl (fun r t => r * v t) a = a * ∏ t ∈ range n, v t := by
  induction n with
  | zero => simp
  | succ n ih => rw [List.range_succ, List.foldl_append, ih, prod_range_succ]; simp; ring

theorem computeBasis_ok {b : BasisI} {k : ℕ} {D : Set ℝ} {κ : ℕ → ℕ → ℝ} {φ : ℝ → ℕ → ℕ → ℝ}
    (hb : BasisOk b k D κ φ) {d : ℕ} {ls ps : List ℕ} {i : ℤ} {s : ℕ} (h : IsGridPoint d k ls ps)
    {x : List ℝ} (hx : XOk D d x) :
    computeBasis b ⟨i, ls, ps, s⟩ x = Except.ok (tprod φ d x ls ps) := by
  unfold computeBasis
  simp only
  rw [h.levels_length, foldlM_ok _ _
    (fun ret t => ret * φ (x.getD t 0) (ls.getD t 0) (ps.getD t 0)), foldl_mul_range, one_mul]
  · rfl
  · intro t ht r
    rw [List.mem_range] at ht
    obtain ⟨h1, h2, h3, h4⟩ := gp_bounds h ht
    rw [nth_getD x 0 (by rw [hx.1]; exact ht)]
    simp only [res_ok_bind]
    rw [nth_getD _ 0 h3]
    simp only [res_ok_bind]
    rw [nth_getD _ 0 h4]
    simp only [res_ok_bind]
    rw [hb.eval_ok _ (hx.mem ht) _ _ h1 h2]
    simp

/-- The arithmetic is exact on everything a grid of dimension `d` and level `k` needs. -/
def ArOk (ar : Arith) (d k : ℕ) : Prop := ∃ B : ℕ, Fits ar B ∧ need d k ≤ B

theorem arOk_exactZ (d k : ℕ) : ArOk exactZ d k := ⟨need d k, fits_exactZ _, le_rfl⟩

theorem advance_st' {ar : Arith} {d k : ℕ} (ha : ArOk ar d k) {i N : ℕ} (hN : N = numPts d k)
    (h : (i : ℤ) < N - 1) : advance ar (st d i) = Except.ok (st d (i + 1)) := by
  obtain ⟨B, hf, hB⟩ := ha
  rcases Nat.eq_zero_or_pos d with rfl | hd
  · rw [numPts, if_pos rfl] at hN
    subst hN
    exfalso
    omega
  · rw [numPts, if_neg (by omega)] at hN
    exact advance_st hf hB hd (by omega)

theorem interpolateLoop_ok {ar : Arith} {b : BasisI} {k : ℕ} {D : Set ℝ} {κ : ℕ → ℕ → ℝ}
    {φ : ℝ → ℕ → ℕ → ℝ} (hb : BasisOk b k D κ φ) {d : ℕ} (ha : ArOk ar d k) {g : Grid}
    (hg : g.coefficients.length = numPts d k) {x : List ℝ} (hx : XOk D d x) (m : ℕ) :
    ∀ (i : ℕ) (ret : ℝ), i + m = numPts d k →
    ∀ p, (m = 0 ∨ p = st d i) →
    interpolateLoop ar b g x m i ret p
      = Except.ok (ret + ∑ j ∈ range m, g.coefficients.getD (i + j) 0
          * tprod φ d x (pt d (i + j)).1 (pt d (i + j)).2) := by
  induction m with
  | zero => intro i ret _ p _; simp [interpolateLoop]
  | succ m ih =>
    intro i ret hi p hp
    have hp' : p = st d i := by simpa using hp
    subst hp'
    rw [interpolateLoop, nth_getD _ 0 (by omega)]
    simp only [res_ok_bind]
    rw [st, computeBasis_ok hb (pt_isGridPoint (by omega)) hx]
    simp only [res_ok_bind]
    rw [sum_range_succ']
    have hsum : ∑ j ∈ range m, g.coefficients.getD (i + (j + 1)) 0
          * tprod φ d x (pt d (i + (j + 1))).1 (pt d (i + (j + 1))).2
        = ∑ j ∈ range m, g.coefficients.getD (i + 1 + j) 0
          * tprod φ d x (pt d (i + 1 + j)).1 (pt d (i + 1 + j)).2 :=
      sum_congr rfl (fun j _ => by rw [show i + (j + 1) = i + 1 + j by ring])
    rw [hsum, Nat.add_zero i]
    by_cases h : (i : ℤ) < g.coefficients.length - 1
    · rw [if_pos h]
      change (advance ar (st d i) >>= _) = _
      rw [advance_st' ha hg h]
      simp only [res_ok_bind]
      rw [ih (i + 1) _ (by omega) _ (Or.inr rfl)]
      congr 1
      ring
    · rw [if_neg h]
      rw [ih (i + 1) _ (by omega) _ (Or.inl (by omega))]
      congr 1
      ring

theorem interpolate_ok {ar : Arith} {b : BasisI} {k : ℕ} {D : Set ℝ} {κ : ℕ → ℕ → ℝ}
    {φ : ℝ → ℕ → ℕ → ℝ} (hb : BasisOk b k D κ φ) {d : ℕ} (ha : ArOk ar d k) {g : Grid}
    (hgd : g.d = d) (hg : g.coefficients.length = numPts d k) {x : List ℝ} (hx : XOk D d x) :
    interpolate ar b g x
      = Except.ok (min (∑ j ∈ range (numPts d k), g.coefficients.getD j 0
          * tprod φ d x (pt d j).1 (pt d j).2) g.bound) := by
  unfold interpolate
  rw [hgd, hg, interpolateLoop_ok hb ha hg hx (numPts d k) 0 0 (by omega) (center d)
    (Or.inr (by simp [st, center, pt]))]
  simp

/-! ### Storage -/

/-- The running maximum after `i` values of `F`. -/
def MaxOk (F : ℕ → ℝ) (i : ℕ) (mx : Option ℝ) : Prop :=
  0 < i → ∃ y, mx = some y ∧ (∀ j < i, F j ≤ y) ∧ ∃ j < i, y = F j

theorem maxOk_step {F : ℕ → ℝ} {i : ℕ} {mx : Option ℝ} (h : MaxOk F i mx) :
    ∃ mx', updateMax i mx (F i) = Except.ok mx' ∧ MaxOk F (i + 1) mx' := by
  unfold updateMax
  rcases Nat.eq_zero_or_pos i with rfl | hi
  · refine ⟨some (F 0), by simp, ?_⟩
    intro _
    refine ⟨F 0, rfl, ?_, 0, by omega, rfl⟩
    intro j hj
    have : j = 0 := by omega
    subst this
    exact le_rfl
  · obtain ⟨y, rfl, h1, j, hj, h2⟩ := h hi
    rw [if_neg (by omega)]
    refine ⟨_, rfl, ?_⟩
    intro _
    refine ⟨_, rfl, ?_, ?_⟩
    · intro j hj
      split
      · rename_i hgt
        rcases Nat.lt_or_ge j i with hji | hji
        · exact le_trans (h1 j hji) hgt.le
        · have : j = i := by omega
          rw [this]
      · rename_i hgt
        rcases Nat.lt_or_ge j i with hji | hji
        · exact h1 j hji
        · have : j = i := by omega
          rw [this]
          exact not_lt.mp hgt
    · split
      · exact ⟨i, by omega, rfl⟩
      · exact ⟨j, by omega, h2⟩

theorem getD_set {cs : List ℝ} {i j : ℕ} {v : ℝ} (hi : i < cs.length) :
    (cs.set i v).getD j 0 = if j = i then v else cs.getD j 0 := by
  split
  · rename_i h
    subst h
    simp [hi]
  · rename_i h
    simp [List.getElem?_set, Ne.symm h]

theorem storageLoop_ok {ar : Arith} {b : BasisI} {k : ℕ} {D : Set ℝ} {κ : ℕ → ℕ → ℝ}
    {φ : ℝ → ℕ → ℕ → ℝ} (hb : BasisOk b k D κ φ) {d : ℕ} (ha : ArOk ar d k) (f : List ℝ → ℝ)
    {fr : List ℝ → Res ℝ}
    (hfr : ∀ ls ps, IsGridPoint d k ls ps →
      fr (List.zipWith κ ls ps) = Except.ok (f (List.zipWith κ ls ps))) {F : ℕ → ℝ} (hF : ∀ j, F j = f (List.zipWith κ (pt d j).1 (pt d j).2)) (m : ℕ) :
    ∀ (i : ℕ) (cs : List ℝ) (mx : Option ℝ), i + m = numPts d k → cs.length = numPts d k →
    (∀ j < i, cs.getD j 0 = F j) → MaxOk F i mx →
    ∀ p, (m = 0 ∨ p = st d i) →
    ∃ cs' mx', storageLoop ar b fr m i cs mx p = Except.ok (cs', mx') ∧
      cs'.length = numPts d k ∧ (∀ j < numPts d k, cs'.getD j 0 = F j) ∧
      MaxOk F (numPts d k) mx' := by
  induction m with
  | zero =>
    intro i cs mx hi hl hcs hmx p _
    rw [Nat.add_zero] at hi
    subst hi
    exact ⟨cs, mx, rfl, hl, hcs, hmx⟩
  | succ m ih =>
    intro i cs mx hi hl hcs hmx p hp
    have hp' : p = st d i := by simpa using hp
    subst hp'
    obtain ⟨mx', h1, h2⟩ := maxOk_step hmx
    have hset : ∀ j < i + 1, (cs.set i (F i)).getD j 0 = F j := by
      intro j hj
      rw [getD_set (by omega)]
      split
      · rename_i h; rw [h]
      · exact hcs j (by omega)
    have hlen : (cs.set i (F i)).length = numPts d k := by simp [hl]
    rw [storageLoop, st, getGridPoint_ok hb (pt_isGridPoint (by omega))]
    simp only [res_ok_bind]
    rw [hfr _ _ (pt_isGridPoint (by omega))]
    simp only [res_ok_bind]
    rw [← hF, setE_ok (by omega)]
    simp only [res_ok_bind]
    rw [atE_getD _ 0 (by omega), hset i (by omega)]
    simp only [res_ok_bind]
    rw [h1]
    simp only [res_ok_bind]
    by_cases h : (i : ℤ) < (cs.set i (F i)).length - 1
    · rw [if_pos h]
      change ∃ cs' mx'', (advance ar (st d i) >>= _) = _ ∧ _
      rw [advance_st' ha hlen h]
      simp only [res_ok_bind]
      exact ih (i + 1) _ _ (by omega) hlen hset h2 _ (Or.inr rfl)
    · rw [if_neg h]
      exact ih (i + 1) _ _ (by omega) hlen hset h2 _ (Or.inl (by omega))

theorem numPts_pos (d k : ℕ) : 0 < numPts d k := by
  unfold numPts
  split
  · norm_num
  · unfold gridCount
    rw [sum_range_succ']
    have : 0 < Nat.choose (d - 1 + 0) 0 * 2 ^ 0 := by simp
    omega

theorem initializeStorage_ok {ar : Arith} {b : BasisI} {k : ℕ} {D : Set ℝ} {κ : ℕ → ℕ → ℝ}
    {φ : ℝ → ℕ → ℕ → ℝ} (hb : BasisOk b k D κ φ) {d : ℕ} (ha : ArOk ar d k) (f : List ℝ → ℝ)
    {fr : List ℝ → Res ℝ} (hfr : ∀ ls ps, IsGridPoint d k ls ps →
      fr (List.zipWith κ ls ps) = Except.ok (f (List.zipWith κ ls ps))) :
    ∃ cs y, initializeStorage ar b fr d (numPts d k) = Except.ok (cs, y) ∧
      cs.length = numPts d k ∧
      (∀ j < numPts d k, cs.getD j 0 = f (List.zipWith κ (pt d j).1 (pt d j).2)) ∧
      (∀ j < numPts d k, f (List.zipWith κ (pt d j).1 (pt d j).2) ≤ y) ∧
      ∃ j < numPts d k, y = f (List.zipWith κ (pt d j).1 (pt d j).2) := by
  obtain ⟨cs, mx, h1, h2, h3, h4⟩ := storageLoop_ok hb ha f hfr (fun _ => rfl) (numPts d k) 0
    (List.replicate (numPts d k) 0) none (by omega) (by simp) (by simp) (by simp [MaxOk])
    (center d) (Or.inr (by simp [st, center, pt]))
  obtain ⟨y, rfl, h5, h6⟩ := h4 (numPts_pos d k)
  refine ⟨cs, y, ?_, h2, h3, h5, h6⟩
  unfold initializeStorage
  rw [h1]
  rfl

/-! ### Hierarchization -/

theorem parentLoop_ok {ar : Arith} {b : BasisI} {k : ℕ} {D : Set ℝ} {κ : ℕ → ℕ → ℝ}
    {φ : ℝ → ℕ → ℕ → ℝ} (hb : BasisOk b k D κ φ) {B : ℕ} (hf : Fits ar B)
    {lpre ls ppre ps : List ℕ} (hl : lpre.length = ppre.length)
    (hp1 : PosOk lpre ppre) (hp3 : PosOk ls ps) (L : ℕ) (hL : L ≤ k)
    (hB : need (lpre.length + 1 + ls.length) (lpre ++ L :: ls).sum ≤ B) (i : ℕ) (knot : ℝ)
    (hknot : knot ∈ D) (r : ℕ → ℕ)
    (hr : ∀ n, (dec n).1 < L → rank (lpre ++ (dec n).1 :: ls) (ppre ++ (dec n).2 :: ps) = r n ∧
      r n < i) :
    ∀ (m n fuel : ℕ) (cs : List ℝ), n + m + 1 = 2 ^ L → m < fuel → i < cs.length →
    parentLoop ar b ppre.length i knot L fuel cs (mkPt lpre ls ppre ps (dec n))
      = Except.ok (cs.set i (cs.getD i 0 - ∑ j ∈ range m, cs.getD (r (n + j)) 0
          * φ knot (dec (n + j)).1 (dec (n + j)).2)) := by
  intro m
  induction m with
  | zero =>
    intro n fuel cs hn hfuel hi
    obtain ⟨fuel, rfl⟩ : ∃ f, fuel = f + 1 := ⟨fuel - 1, by omega⟩
    have : ¬ (dec n).1 < L := by rw [dec_level_lt_iff]; omega
    rw [parentLoop, show (mkPt lpre ls ppre ps (dec n)).levels = lpre ++ (dec n).1 :: ls from rfl,
      ← hl, atE_append]
    simp only [res_ok_bind, this, if_false, res_pure, range_zero, sum_empty, sub_zero]
    congr 1
    simp [hi]
  | succ m ih =>
    intro n fuel cs hn hfuel hi
    obtain ⟨fuel, rfl⟩ : ∃ f, fuel = f + 1 := ⟨fuel - 1, by omega⟩
    have hlt : (dec n).1 < L := by rw [dec_level_lt_iff]; omega
    obtain ⟨hr1, hr2⟩ := hr n hlt
    rw [parentLoop, show (mkPt lpre ls ppre ps (dec n)).levels = lpre ++ (dec n).1 :: ls from rfl]
    conv_lhs => enter [1]; rw [← hl, atE_append]
    simp only [res_ok_bind, hlt, if_true]
    rw [show (mkPt lpre ls ppre ps (dec n)).index = (r n : ℤ) from hr1,
      if_neg (by omega), Int.toNat_natCast, atE_getD _ 0 (by omega)]
    simp only [res_ok_bind]
    rw [show (mkPt lpre ls ppre ps (dec n)).positions = ppre ++ (dec n).2 :: ps from rfl,
      atE_append]
    simp only [res_ok_bind]
    rw [hb.eval_ok _ hknot _ _ (by omega) (dec_lt n)]
    simp only [res_ok_bind]
    rw [atE_getD _ 0 hi]
    simp only [res_ok_bind]
    rw [setE_ok hi]
    simp only [res_ok_bind]
    rw [advance_mkPt hf hl hp1 hp3 L hB n hlt]
    simp only [res_ok_bind]
    rw [ih (n + 1) fuel _ (by omega) (by omega) (by simpa using hi), List.set_set]
    congr 2
    rw [getD_set hi, if_pos rfl, sum_range_succ']
    have hsum : ∑ j ∈ range m, (cs.set i (cs.getD i 0 - cs.getD (r n) 0
          * φ knot (dec n).1 (dec n).2)).getD (r (n + 1 + j)) 0
          * φ knot (dec (n + 1 + j)).1 (dec (n + 1 + j)).2
        = ∑ j ∈ range m, cs.getD (r (n + (j + 1))) 0
          * φ knot (dec (n + (j + 1))).1 (dec (n + (j + 1))).2 := by
      refine sum_congr rfl fun j hj => ?_
      rw [mem_range] at hj
      have hlt' : (dec (n + 1 + j)).1 < L := by rw [dec_level_lt_iff]; omega
      have := (hr _ hlt').2
      rw [getD_set hi, if_neg (by omega), show n + 1 + j = n + (j + 1) by ring]
    rw [hsum, Nat.add_zero n]
    ring

end Verif.SparseGrid
