import Verif.Proofs.BasisFits
import Verif.Props.GridDeriv
import Mathlib.Data.Set.Card

/-!
# C09, C10: the basis functions as coded
-/
namespace Verif.BasisLevel

open Verif.Spec Verif.SparseGrid Verif.NormalQuantile Verif.Point Verif.Counting

/-- The knots of levels up to `l` of a basis. -/
def KnotsUpTo (b : BasisI) (l : ℕ) : Set ℝ :=
  {y | ∃ l' p, l' ≤ l ∧ p < 2 ^ l' ∧ b.getKnot l' p = Except.ok y}

/-- `j` is a correct interval number for `x` among a finite set of knots: exactly `j` knots are to
the left (a knot equal to `x` may be counted or not). -/
def IsInterval (K : Set ℝ) (x : ℝ) (j : ℕ) : Prop :=
  {y ∈ K | y < x}.ncard ≤ j ∧ j ≤ {y ∈ K | y ≤ x}.ncard

/-- Each basis function is 1 at its own knot and 0 at all other knots of the same or a lower
level; all the calls involved return normally. -/
def IsHierarchical (b : BasisI) (L : ℕ) : Prop :=
  ∀ l p, l ≤ L → p < 2 ^ l → ∃ x, b.getKnot l p = Except.ok x ∧
    b.evaluate x l p = Except.ok 1 ∧
    ∀ l' p', l ≤ l' → l' ≤ L → p' < 2 ^ l' → (l, p) ≠ (l', p') → b.evaluate x l' p' = Except.ok 0

section
variable {ar aru : Arith} {Q : ℝ → ℝ} {L : ℕ}

theorem isHierarchical_of {b : BasisI} {D : Set ℝ} {κ : ℕ → ℕ → ℝ} {φ : ℝ → ℕ → ℕ → ℝ}
    (hb : BasisOk b L D κ φ) (hh : Hierarchical L κ φ) : IsHierarchical b L := by
  intro l p hl hp
  refine ⟨κ l p, hb.knot_ok l p hl hp, ?_, ?_⟩
  · rw [hb.eval_ok _ (hb.knot_mem l p hl hp) l p hl hp, hh.own l p hl hp]
  · intro l' p' h1 h2 h3 h4
    rw [hb.eval_ok _ (hb.knot_mem l p hl hp) l' p' h2 h3, hh.other l p l' p' h2 h3 h1 hp h4]

/-- Every total knot is a knot of some level. -/
theorem exists_own {l i : ℕ} (hi : i < nTot l) :
    ∃ l' p, l' ≤ l ∧ p < 2 ^ l' ∧ tk Q L l i = kap Q L l' p := by
  obtain ⟨m, q, hq, he⟩ := Nat.exists_eq_two_pow_mul_odd (n := i + 1) (by omega)
  obtain ⟨p, rfl⟩ := hq
  have hn := nTot_add_one l
  have hml : m ≤ l := by
    by_contra hcon
    have h1 : 2 ^ (l + 1) ≤ 2 ^ m := Nat.pow_le_pow_right (by norm_num) (by omega)
    have h2 : 2 ^ m * 1 ≤ 2 ^ m * (2 * p + 1) := Nat.mul_le_mul_left _ (by omega)
    omega
  have hp : p < 2 ^ (l - m) := by
    by_contra hcon
    have h1 : 2 ^ m * (2 * 2 ^ (l - m)) ≤ 2 ^ m * (2 * p + 1) := Nat.mul_le_mul_left _ (by omega)
    have h2 : 2 ^ m * (2 * 2 ^ (l - m)) = 2 ^ (l + 1) := by
      rw [← pow_succ', ← pow_add]; congr 1; omega
    omega
  refine ⟨l - m, p, by omega, hp, ?_⟩
  rw [kap_eq (show l - m ≤ l by omega), show l - (l - m) = m by omega, mul_comm (2 * p + 1), ← he]
  rfl

theorem knotsUpTo_eq {b : BasisI} {D : Set ℝ} {φ : ℝ → ℕ → ℕ → ℝ}
    (hb : BasisOk b L D (kap Q L) φ) {l : ℕ} (hl : l ≤ L) :
    KnotsUpTo b l = tk Q L l '' {i | i < nTot l} := by
  ext y
  constructor
  · rintro ⟨l', p, h1, h2, h3⟩
    rw [hb.knot_ok l' p (by omega) h2] at h3
    injection h3 with h3
    exact ⟨_, embed_lt h1 h2, by rw [← h3, kap_eq h1]⟩
  · rintro ⟨i, hi, rfl⟩
    obtain ⟨l', p, h1, h2, h3⟩ := exists_own (Q := Q) (L := L) hi
    exact ⟨l', p, h1, h2, by rw [hb.knot_ok l' p (by omega) h2, h3]⟩

theorem isInterval_of (hQ : QuantileOk Q) {b : BasisI} {D : Set ℝ} {φ : ℝ → ℕ → ℕ → ℝ}
    (hb : BasisOk b L D (kap Q L) φ) {l : ℕ} (hl : l ≤ L) (hL : 1 ≤ L) {x : ℝ} {j : ℕ}
    (h : InInterval Q L l x j) : IsInterval (KnotsUpTo b l) x j := by
  rw [knotsUpTo_eq hb hl]
  have hn : 1 ≤ nTot l := by
    have := nTot_add_one l
    have h2 : 2 ^ 1 ≤ 2 ^ (l + 1) := Nat.pow_le_pow_right (by norm_num) (by omega)
    omega
  have hmono : ∀ i j, i ≤ j → j < nTot l → tk Q L l i ≤ tk Q L l j := by
    intro i j h1 h2
    rcases Nat.eq_or_lt_of_le h1 with e | e
    · rw [e]
    · exact (tk_strictMono hQ hl hL e h2).2.le
  have hinj : Set.InjOn (tk Q L l) {i | i < nTot l} := by
    intro i hi i' hi' he
    rcases lt_trichotomy i i' with e | e | e
    · exact absurd he (tk_strictMono hQ hl hL e hi').2.ne
    · exact e
    · exact absurd he (tk_strictMono hQ hl hL e hi).2.ne'
  have hjn := inInterval_le h
  have hleft : ∀ i < j, tk Q L l i ≤ x := by
    intro i hi
    rcases h with ⟨rfl, h⟩ | ⟨a, b, c, d, e⟩ | ⟨rfl, c, d⟩
    · omega
    · exact le_trans (hmono i (j - 1) (by omega) (by omega)) d
    · exact le_trans (hmono i (nTot l - 1) (by omega) (by omega)) d
  have hright : ∀ i, j ≤ i → i < nTot l → x ≤ tk Q L l i := by
    intro i h1 h2
    rcases h with ⟨rfl, h⟩ | ⟨a, b, c, d, e⟩ | ⟨rfl, c, d⟩
    · exact le_trans h (hmono 0 i (by omega) h2)
    · exact le_trans e.le (hmono j i h1 h2)
    · omega
  have hfin : (tk Q L l '' {i | i < nTot l}).Finite := (Set.finite_lt_nat _).image _
  have hcard : (tk Q L l '' {i | i < j}).ncard = j := by
    have hinj' : Set.InjOn (tk Q L l) {i | i < j} :=
      hinj.mono fun a (ha : a < j) => lt_of_lt_of_le ha hjn
    rw [hinj'.ncard_image]
    have he : {i : ℕ | i < j} = ((Finset.range j : Finset ℕ) : Set ℕ) := by
      ext i
      simp
    rw [he, Set.ncard_coe_finset, Finset.card_range]
  constructor
  · rw [← hcard]
    apply Set.ncard_le_ncard _ ((Set.finite_lt_nat _).image _)
    rintro y ⟨⟨i, hi, rfl⟩, hy⟩
    refine ⟨i, ?_, rfl⟩
    by_contra hcon
    have := hright i (not_lt.mp hcon) hi
    linarith
  · conv_lhs => rw [← hcard]
    apply Set.ncard_le_ncard _ (hfin.subset (Set.sep_subset _ _))
    rintro y ⟨i, hi, rfl⟩
    exact ⟨⟨i, lt_of_lt_of_le hi hjn, rfl⟩, hleft i hi⟩

/-- Everything at once, for exact conversions. -/
theorem basis_exact (hQ : IsNormalQuantile Q) (hL : 1 ≤ L) :
    ∃ ls, basisLevels exactZ Q L = Except.ok ls ∧ ls.length = L + 1 ∧
      (∀ l (h : l < ls.length), LevelOk Q L l ls[l]) ∧
      BasisOk (basis exactZ ls) L Set.univ (kap Q L) (phi Q L) ∧
      BasisDerivOk (basis exactZ ls) L Set.univ (phi' Q L) (phi'' Q L) := by
  have hok := quantileOk hQ
  obtain ⟨ls, h1, h2, h3⟩ := basisLevels_ok hok hL (fun l _ => knotFits_exactZ Q L l)
  have h4 := basis_ok (aru := exactZ) hok hL h2 h3 (by rw [dom_exactZ]; intros; trivial)
  rw [dom_exactZ] at h4
  exact ⟨ls, h1, h2, h3, h4⟩

/-- Everything at once, for 32-bit conversions. -/
theorem basis_32 (hQ : IsNormalQuantile Q) (hL : 1 ≤ L) (hL' : L ≤ 25) :
    ∃ ls, basisLevels i32 Q L = Except.ok ls ∧ ls.length = L + 1 ∧
      (∀ l (h : l < ls.length), LevelOk Q L l ls[l]) ∧
      BasisOk (basis u32 ls) L (Dom u32 Q L) (kap Q L) (phi Q L) ∧
      BasisDerivOk (basis u32 ls) L (Dom u32 Q L) (phi' Q L) (phi'' Q L) := by
  have hok := quantileOk hQ
  obtain ⟨ls, h1, h2, h3⟩ := basisLevels_ok hok hL (knotFits_i32 hQ hL hL')
  exact ⟨ls, h1, h2, h3, basis_ok (aru := u32) hok hL h2 h3
    (fun l p hl hp => dom_u32 hok hL (knot_lt_u32 hQ hL hL' hl (own_lt hp)))⟩

end

/-- C09. For the normal quantile function and every maximum level `L ≥ 1`, the basis is built
without failure and is hierarchical. (Level 0 is C10.) -/
theorem c09_hierarchical (Q : ℝ → ℝ) (hQ : IsNormalQuantile Q) (L : ℕ) (hL : 1 ≤ L) :
    ∃ ls, basisLevels exactZ Q L = Except.ok ls ∧ IsHierarchical (basis exactZ ls) L := by
  obtain ⟨ls, h1, -, -, h2, -⟩ := basis_exact hQ hL
  exact ⟨ls, h1, isHierarchical_of h2 (hierarchical (quantileOk hQ) hL)⟩

/-- C09 with 32-bit conversions, for maximum levels from 1 to 25. -/
theorem c09_hierarchical32 (Q : ℝ → ℝ) (hQ : IsNormalQuantile Q) (L : ℕ) (hL : 1 ≤ L)
    (hL' : L ≤ 25) :
    ∃ ls, basisLevels i32 Q L = Except.ok ls ∧ IsHierarchical (basis u32 ls) L := by
  obtain ⟨ls, h1, -, -, h2, -⟩ := basis_32 hQ hL hL'
  exact ⟨ls, h1, isHierarchical_of h2 (hierarchical (quantileOk hQ) hL)⟩

/-- C09. For every maximum level `L ≥ 1`, every level `l ≤ L` and every real `x`, the lookup returns
the number of an interval, between consecutive knots of levels up to `l`, that contains `x`. -/
theorem c09_interval (Q : ℝ → ℝ) (hQ : IsNormalQuantile Q) (L : ℕ) (hL : 1 ≤ L) :
    ∃ ls, basisLevels exactZ Q L = Except.ok ls ∧ ls.length = L + 1 ∧
      ∀ l (h : l < ls.length) (x : ℝ), ∃ j, ls[l].findIntervalId exactZ x = Except.ok j ∧
        IsInterval (KnotsUpTo (basis exactZ ls) l) x j := by
  obtain ⟨ls, h1, h2, h3, h4, -⟩ := basis_exact hQ hL
  refine ⟨ls, h1, h2, ?_⟩
  intro l h x
  obtain ⟨j, g1, g2⟩ := findIntervalId_ok (aru := exactZ) (quantileOk hQ) (show l ≤ L by omega) hL
    (h3 l h) (show x ∈ Dom exactZ Q L by rw [dom_exactZ]; trivial)
  exact ⟨j, g1, isInterval_of (quantileOk hQ) h4 (by omega) hL g2⟩

/-- C09. The coded basis functions are twice differentiable everywhere, and the coded derivatives
are their derivatives. -/
theorem c09_derivatives (Q : ℝ → ℝ) (hQ : IsNormalQuantile Q) (L : ℕ) (hL : 1 ≤ L) :
    ∃ ls, basisLevels exactZ Q L = Except.ok ls ∧
      ∃ φ φ' φ'' : ℝ → ℕ → ℕ → ℝ,
        (∀ x l p, l ≤ L → p < 2 ^ l → (basis exactZ ls).evaluate x l p = Except.ok (φ x l p) ∧
          (basis exactZ ls).evaluateDerivative x l p = Except.ok (φ' x l p) ∧
          (basis exactZ ls).evaluateSecondDerivative x l p = Except.ok (φ'' x l p)) ∧
        ∀ x l p, l ≤ L → p < 2 ^ l → HasDerivAt (fun y => φ y l p) (φ' x l p) x ∧
          HasDerivAt (fun y => φ' y l p) (φ'' x l p) x := by
  obtain ⟨ls, h1, -, -, h2, h3⟩ := basis_exact hQ hL
  refine ⟨ls, h1, phi Q L, phi' Q L, phi'' Q L, ?_, ?_⟩
  · intro x l p hl hp
    exact ⟨h2.eval_ok x trivial l p hl hp, h3.deriv_ok x trivial l p hl hp,
      h3.second_ok x trivial l p hl hp⟩
  · intro x l p hl hp
    exact phi_deriv (quantileOk hQ) hL hl hp x

/-- C06 for the basis as coded, with machine integers, under the complexity check of the SR method:
the grid of a function `f` is built and returns `f` exactly at each of its grid points. -/
theorem c06_coded_basis (Q : ℝ → ℝ) (hQ : IsNormalQuantile Q) (w k d : ℕ) (hw : 2 ≤ w)
    (hw2 : w ≤ 2147483645) (hc : complexityAccepted w k) (hk : 1 ≤ k) (hd : 0 < d) (hdw : d ≤ w)
    (f : List ℝ → ℝ) {fr : List ℝ → Res ℝ} (hfr : ∀ z, z.length = d → fr z = Except.ok (f z)) :
    ∃ ls g, basisLevels i32 Q k = Except.ok ls ∧
      SparseGrid.construct i32 (basis u32 ls) fr d k = Except.ok g ∧
      ∀ lv ps, IsGridPoint d k lv ps → ∃ x,
        getGridPoint (basis u32 ls) ⟨0, lv, ps, lv.sum⟩ = Except.ok x ∧
        interpolate i32 (basis u32 ls) g x = Except.ok (f x) := by
  obtain ⟨ls, h1, -, -, h2, -⟩ := basis_32 hQ hk (le_trans (guard_bounds hw hc).2 (by norm_num))
  obtain ⟨g, h3, h4⟩ := c06_interpolate_exact i32 (basis u32 ls) k d _ _ _ h2
    (hierarchical (quantileOk hQ) hk) (gridArOk_i32 hw hw2 hc hd hdw) f hfr
  refine ⟨ls, g, h1, h3, ?_⟩
  intro lv ps hg
  exact ⟨_, getGridPoint_ok h2 hg, h4 lv ps hg⟩

/-- The hypotheses of the C09 theorems are met: a normal quantile function exists. -/
example : ∃ Q ls, IsNormalQuantile Q ∧ basisLevels i32 Q 5 = Except.ok ls ∧
    IsHierarchical (basis u32 ls) 5 := by
  obtain ⟨Q, hQ⟩ := exists_quantile
  obtain ⟨ls, h⟩ := c09_hierarchical32 Q hQ 5 (by norm_num) (by norm_num)
  exact ⟨Q, ls, hQ, h⟩

example (f : List ℝ → ℝ) : ∃ Q, IsNormalQuantile Q ∧ ∃ ls g, basisLevels i32 Q 3 = Except.ok ls ∧
    SparseGrid.construct i32 (basis u32 ls) (fun z => Except.ok (f z)) 2 3 = Except.ok g := by
  obtain ⟨Q, hQ⟩ := exists_quantile
  obtain ⟨ls, g, h1, h2, -⟩ := c06_coded_basis Q hQ 4 3 2 (by norm_num) (by norm_num)
    (by unfold complexityAccepted; norm_num) (by norm_num) (by norm_num) (by norm_num) f
    (fun _ _ => rfl)
  exact ⟨Q, hQ, ls, g, h1, h2⟩

/-- C10 fails: creating the basis for level 0 is undefined behaviour, whatever the quantile function
and the integer type. -/
theorem c10_level0_ub (ar : Arith) (Q : ℝ → ℝ) : basisLevels ar Q 0 = Res.ub := by
  have hb : bandwidth Q 0 = 0 := by simp [bandwidth]
  have hc : construct ar Q 0 0 = Res.ub := by
    unfold construct initializeKnots knotId divToInt
    rw [hb]
    simp only [if_true]
    rfl
  unfold basisLevels
  rw [show List.range (0 + 1) = [0] from rfl, List.mapM_cons, hc]
  rfl

/-- C10 fails for remote arguments: with 32-bit conversions, evaluating any basis function at
a point far enough to the right is undefined behaviour. -/
theorem c10_far_argument_ub (Q : ℝ → ℝ) (hQ : IsNormalQuantile Q) (L : ℕ) (hL : 1 ≤ L)
    (hL' : L ≤ 25) :
    ∃ ls X, basisLevels i32 Q L = Except.ok ls ∧ ∀ x, X ≤ x → ∀ l p, l ≤ L →
      (basis u32 ls).evaluate x l p = Res.ub := by
  have hok := quantileOk hQ
  have hbw := bandwidth_pos hok hL
  obtain ⟨ls, h1, h2, h3, -⟩ := basis_32 hQ hL hL'
  refine ⟨ls, tk Q L 0 0 + 4294967296 * bandwidth Q L, h1, ?_⟩
  intro x hx l p hl
  have hl' : l < ls.length := by omega
  have hb := h3 l hl'
  have hle : tk Q L l 0 ≤ tk Q L 0 0 := by
    have h := kap_eq (Q := Q) (L := L) (p := 0) (Nat.zero_le l)
    rw [kap] at h
    rw [show 2 * 0 = 0 from rfl] at h
    rw [h]
    have hlt := embed_lt (p := 0) (Nat.zero_le l) (by positivity)
    rcases Nat.eq_zero_or_pos ((2 * 0 + 1) * 2 ^ (l - 0) - 1) with e | e
    · rw [e]
    · exact (tk_strictMono hok hl hL e hlt).2.le
  have hnth : nth ls l = Except.ok ls[l] := by simp [nth, hl']
  simp only [basis, hnth, res_ok_bind]
  have hk0 : atE ls[l].knots 0 = Except.ok (tk Q L l 0) := by
    rw [hb.knots, atE_getD _ 0 (by simp)]
    simp
  have hdiv : divToInt u32 (x - tk Q L l 0) ls[l].bandwidth = Res.ub := by
    have hq : 4294967296 ≤ (x - tk Q L l 0) / bandwidth Q L := by
      rw [le_div_iff₀ hbw]
      linarith
    have hf : (4294967296 : ℤ) ≤ ⌊(x - tk Q L l 0) / bandwidth Q L⌋ := by
      rw [Int.le_floor]
      exact_mod_cast hq
    have ht : trunc ((x - tk Q L l 0) / bandwidth Q L) = ⌊(x - tk Q L l 0) / bandwidth Q L⌋ := by
      rw [trunc, if_pos (by linarith)]
    unfold divToInt u32
    rw [hb.bandwidth, if_neg hbw.ne', ht, if_neg (by omega)]
  have hpos : x > tk Q L l 0 := by
    have : 0 < 4294967296 * bandwidth Q L := by positivity
    linarith
  unfold Level.evaluate Level.findIntervalId
  rw [hk0]
  simp only [res_ok_bind]
  rw [if_pos hpos, hdiv]
  rfl

/-- What remains of C10: for levels from 1 to 25, creating the basis and evaluating any of its
functions at any argument below an explicit bound (which exceeds all knots) is free of
undefined behaviour. Missing: level 0 and remote arguments, which are undefined (above), and
levels over 25 (c10_create_iff). -/
theorem c10_levels_partial (Q : ℝ → ℝ) (hQ : IsNormalQuantile Q) (L : ℕ) (hL : 1 ≤ L)
    (hL' : L ≤ 25) :
    ∃ ls X, basisLevels i32 Q L = Except.ok ls ∧
      (∀ y ∈ KnotsUpTo (basis u32 ls) L, y < X) ∧
      ∀ x, x < X → ∀ l p, l ≤ L → p < 2 ^ l →
        (∃ v, (basis u32 ls).evaluate x l p = Except.ok v) ∧
        (∃ v, (basis u32 ls).evaluateDerivative x l p = Except.ok v) ∧
        ∃ v, (basis u32 ls).evaluateSecondDerivative x l p = Except.ok v := by
  have hok := quantileOk hQ
  obtain ⟨ls, h1, h2, h3, h4, h5⟩ := basis_32 hQ hL hL'
  refine ⟨ls, tk Q L L 0 + 4294967296 * bandwidth Q L, h1, ?_, ?_⟩
  · rintro y ⟨l', p, g1, g2, g3⟩
    rw [h4.knot_ok l' p g1 g2] at g3
    injection g3 with g3
    rw [← g3]
    exact knot_lt_u32 hQ hL hL' g1 (own_lt g2)
  · intro x hx l p hl hp
    have hd := dom_u32 hok hL hx
    exact ⟨⟨_, h4.eval_ok x hd l p hl hp⟩, ⟨_, h5.deriv_ok x hd l p hl hp⟩,
      ⟨_, h5.second_ok x hd l p hl hp⟩⟩

/-- A computation that succeeds or is undefined behaviour. -/
def OkOrUb {α : Type} (r : Res α) : Prop := r = Res.ub ∨ ∃ v, r = Except.ok v

theorem okOrUb_bind {α β : Type} {r : Res α} {f : α → Res β} (h : OkOrUb r)
    (hf : ∀ v, OkOrUb (f v)) : OkOrUb (r >>= f) := by
  rcases h with rfl | ⟨v, rfl⟩
  · exact Or.inl rfl
  · exact hf v

theorem okOrUb_mapM {α β : Type} {f : α → Res β} (hf : ∀ a, OkOrUb (f a)) (l : List α) :
    OkOrUb (l.mapM f) := by
  induction l with
  | nil => exact Or.inr ⟨[], rfl⟩
  | cons a l ih =>
    rw [List.mapM_cons]
    exact okOrUb_bind (hf a) fun v => okOrUb_bind ih fun w => Or.inr ⟨_, rfl⟩

theorem mapM_ub {α β : Type} {f : α → Res β} (hf : ∀ a, OkOrUb (f a)) {l : List α} {a : α}
    (ha : a ∈ l) (hu : f a = Res.ub) : l.mapM f = Res.ub := by
  induction l with
  | nil => cases ha
  | cons b l ih =>
    rw [List.mapM_cons]
    rcases hf b with h | ⟨v, h⟩
    · rw [h]; rfl
    · rcases List.mem_cons.1 ha with rfl | h'
      · rw [hu]; rfl
      · rw [h, ih h']; rfl

theorem okOrUb_knotId (Q : ℝ → ℝ) (L : ℕ) (q : ℝ) : OkOrUb (knotId i32 Q L q) := by
  unfold knotId divToInt i32
  split_ifs
  · exact Or.inl rfl
  · exact Or.inr ⟨_, rfl⟩
  · exact Or.inl rfl

theorem okOrUb_gridIdsLoop (Q : ℝ → ℝ) (L n : ℕ) : ∀ (m i : ℕ) (prev : ℤ) (ids : List ℕ),
    OkOrUb (gridIdsLoop i32 Q L n m i prev ids)
  | 0, _, _, _ => Or.inr ⟨_, rfl⟩
  | m + 1, i, _, _ => okOrUb_bind (okOrUb_knotId Q L _) fun _ => okOrUb_gridIdsLoop Q L n m _ _ _

theorem okOrUb_construct (Q : ℝ → ℝ) (l L : ℕ) : OkOrUb (construct i32 Q l L) :=
  okOrUb_bind (okOrUb_mapM (fun _ => okOrUb_bind (okOrUb_knotId Q L _) fun _ => Or.inr ⟨_, rfl⟩) _)
    fun _ => okOrUb_bind (okOrUb_gridIdsLoop Q L _ _ _ _ _) fun _ => okOrUb_bind
      (okOrUb_mapM (fun _ => okOrUb_bind (okOrUb_knotId Q L _) fun _ => Or.inr ⟨_, rfl⟩) _)
      fun _ => Or.inr ⟨_, rfl⟩

/-- C10 fails for 26 levels and more. (Shifts overflow only later, see the model.) -/
theorem c10_many_levels_ub (Q : ℝ → ℝ) (hQ : IsNormalQuantile Q) (L : ℕ) (hL : 26 ≤ L) :
    basisLevels i32 Q L = Res.ub := by
  refine mapM_ub (fun l => okOrUb_construct Q l L) (List.mem_range.2 (Nat.lt_succ_self L)) ?_
  have hk : initializeKnots i32 Q L L = Res.ub := by
    have h2 : 0 < 2 ^ L := by positivity
    refine mapM_ub (a := 2 ^ L - 1)
      (fun _ => okOrUb_bind (okOrUb_knotId Q L _) fun _ => Or.inr ⟨_, rfl⟩)
      (List.mem_range.2 (by omega)) ?_
    have hp : ((2.0 * ((2 ^ L - 1 : ℕ) : ℝ) + 1.0) / (2.0 * ((2 ^ L : ℕ) : ℝ)) : ℝ) = 1 - dlt L := by
      have h3 : ((2 : ℝ) ^ L) ≠ 0 := by positivity
      rw [Nat.cast_sub (show 1 ≤ 2 ^ L from h2)]
      unfold dlt
      push_cast
      rw [pow_succ]
      norm_num
      field_simp
      ring
    have hid : knotId i32 Q L (1 - dlt L) = Res.ub := by
      have h4 := kid_far hQ hL
      have h5 := bandwidth_pos (quantileOk hQ) (show 1 ≤ L by omega)
      unfold kid at h4
      unfold knotId divToInt i32
      rw [if_neg h5.ne', if_neg (by omega)]
    simp only [hp, hid]
    rfl
  unfold construct
  rw [hk]
  rfl

/-- **C10, creation, exactly**: the basis for `L` levels is created if `L` is between 1 and 25, and its
creation is undefined behaviour otherwise. -/
theorem c10_create_iff (Q : ℝ → ℝ) (hQ : IsNormalQuantile Q) (L : ℕ) :
    (1 ≤ L ∧ L ≤ 25 → ∃ ls, basisLevels i32 Q L = Except.ok ls) ∧
      (¬ (1 ≤ L ∧ L ≤ 25) → basisLevels i32 Q L = Res.ub) := by
  refine ⟨fun h => ?_, fun h => ?_⟩
  · obtain ⟨ls, h1, -⟩ := basis_32 hQ h.1 h.2
    exact ⟨ls, h1⟩
  · rcases Nat.eq_zero_or_pos L with rfl | h0
    · exact c10_level0_ub i32 Q
    · exact c10_many_levels_ub Q hQ L (by omega)

/-- **C10, evaluation, exactly**: a basis function of level `l` and its derivatives can be evaluated
at `x` if `x` is below the first knot of the level plus `2 ^ 32` bandwidths, and their evaluation is
undefined behaviour otherwise. -/
theorem c10_evaluate_iff (Q : ℝ → ℝ) (hQ : IsNormalQuantile Q) (L : ℕ) (hL : 1 ≤ L) (hL' : L ≤ 25) :
    ∃ ls, basisLevels i32 Q L = Except.ok ls ∧ ∀ l p, l ≤ L → p < 2 ^ l →
      ∃ k, (basis u32 ls).getKnot l 0 = Except.ok k ∧ ∀ x,
        (x < k + 2 ^ 32 * bandwidth Q L → (∃ v, (basis u32 ls).evaluate x l p = Except.ok v) ∧
          (∃ v, (basis u32 ls).evaluateDerivative x l p = Except.ok v) ∧
          ∃ v, (basis u32 ls).evaluateSecondDerivative x l p = Except.ok v) ∧
        (k + 2 ^ 32 * bandwidth Q L ≤ x → (basis u32 ls).evaluate x l p = Res.ub ∧
          (basis u32 ls).evaluateDerivative x l p = Res.ub ∧
          (basis u32 ls).evaluateSecondDerivative x l p = Res.ub) := by
  have hok := quantileOk hQ
  have hbw := bandwidth_pos hok hL
  obtain ⟨ls, h1, h2, h3, h4, -⟩ := basis_32 hQ hL hL'
  have h5 := basis_ok (aru := exactZ) hok hL h2 h3 (by rw [dom_exactZ]; intros; trivial)
  rw [dom_exactZ] at h5
  obtain ⟨h5, h6⟩ := h5
  refine ⟨ls, h1, ?_⟩
  intro l p hl hp
  refine ⟨tk Q L l 0, h4.knot_ok l 0 hl (by positivity), ?_⟩
  have hl' : l < ls.length := by omega
  have hb := h3 l hl'
  have hnth : nth ls l = Except.ok ls[l] := by simp [nth, hl']
  have hk0 : atE ls[l].knots 0 = Except.ok (tk Q L l 0) := by
    rw [hb.knots, atE_getD _ 0 (by simp)]
    simp
  intro x
  constructor
  · intro hx
    have hf : ls[l].findIntervalId u32 x = ls[l].findIntervalId exactZ x := by
      unfold Level.findIntervalId
      rw [hk0]
      simp only [res_ok_bind]
      split_ifs with h
      · have hd : divToInt u32 (x - tk Q L l 0) ls[l].bandwidth =
            divToInt exactZ (x - tk Q L l 0) ls[l].bandwidth := by
          have hq : (x - tk Q L l 0) / bandwidth Q L < 4294967296 := by
            rw [div_lt_iff₀ hbw]
            linarith
          have hq0 : 0 ≤ (x - tk Q L l 0) / bandwidth Q L := div_nonneg (by linarith) hbw.le
          have hf0 : (0 : ℤ) ≤ ⌊(x - tk Q L l 0) / bandwidth Q L⌋ := Int.floor_nonneg.2 hq0
          have hf : ⌊(x - tk Q L l 0) / bandwidth Q L⌋ < (4294967296 : ℤ) := by
            rw [Int.floor_lt]
            exact_mod_cast hq
          have ht : trunc ((x - tk Q L l 0) / bandwidth Q L) =
              ⌊(x - tk Q L l 0) / bandwidth Q L⌋ := by rw [trunc, if_pos hq0]
          unfold divToInt u32
          rw [hb.bandwidth, if_neg hbw.ne', if_neg hbw.ne', ht, if_pos ⟨hf0, by omega⟩]
          rfl
        rw [hd]
      · rfl
    refine ⟨⟨phi Q L x l p, ?_⟩, ⟨phi' Q L x l p, ?_⟩, ⟨phi'' Q L x l p, ?_⟩⟩
    · rw [← h5.eval_ok x trivial l p hl hp]
      simp only [basis, hnth, res_ok_bind, Level.evaluate, hf]
    · rw [← h6.deriv_ok x trivial l p hl hp]
      simp only [basis, hnth, res_ok_bind, Level.evaluateDerivative, hf]
    · rw [← h6.second_ok x trivial l p hl hp]
      simp only [basis, hnth, res_ok_bind, Level.evaluateSecondDerivative, hf]
  · intro hx
    have hf : ls[l].findIntervalId u32 x = Res.ub := by
      have hq : 4294967296 ≤ (x - tk Q L l 0) / bandwidth Q L := by
        rw [le_div_iff₀ hbw]
        linarith
      have hf : (4294967296 : ℤ) ≤ ⌊(x - tk Q L l 0) / bandwidth Q L⌋ := by
        rw [Int.le_floor]
        exact_mod_cast hq
      have ht : trunc ((x - tk Q L l 0) / bandwidth Q L) = ⌊(x - tk Q L l 0) / bandwidth Q L⌋ := by
        rw [trunc, if_pos (by linarith)]
      have hpos : x > tk Q L l 0 := by
        have : 0 < 2 ^ 32 * bandwidth Q L := by positivity
        linarith
      unfold Level.findIntervalId
      rw [hk0]
      simp only [res_ok_bind]
      rw [if_pos hpos]
      unfold divToInt u32
      rw [hb.bandwidth, if_neg hbw.ne', ht, if_neg (by omega)]
      rfl
    simp only [basis, hnth, res_ok_bind, Level.evaluate, Level.evaluateDerivative,
      Level.evaluateSecondDerivative, hf]
    exact ⟨rfl, rfl, rfl⟩

example : ∃ Q, IsNormalQuantile Q ∧ ∃ ls X, basisLevels i32 Q 9 = Except.ok ls ∧
    ∀ x, x < X → ∃ v, (basis u32 ls).evaluate x 9 511 = Except.ok v := by
  obtain ⟨Q, hQ⟩ := exists_quantile
  obtain ⟨ls, X, h1, -, h2⟩ := c10_levels_partial Q hQ 9 (by norm_num) (by norm_num)
  exact ⟨Q, hQ, ls, X, h1, fun x hx => (h2 x hx 9 511 (by norm_num) (by norm_num)).1⟩

end Verif.BasisLevel
