import Verif.Proofs.GridTraverse
import Mathlib.Analysis.Calculus.FDeriv.Mul
import Mathlib.Analysis.Calculus.FDeriv.Pi
import Mathlib.Analysis.Calculus.Deriv.Comp
import Mathlib.Analysis.Calculus.Deriv.Basic

/-! Derivatives of the interpolant. -/
namespace Verif.SparseGrid

open Finset Verif.Point Verif.Counting Verif.Spec

theorem mulAt_ite {K : Type} [DecidableEq K] (c : Prop) [Decidable c] (m : K → ℝ) (k : K)
    (a b : ℝ) : (if c then mulAt m k a else mulAt m k b) = mulAt m k (if c then a else b) := by
  split <;> rfl

theorem foldl_mulAt_range (f : ℕ → ℝ) (n : ℕ) (m : ℕ → ℝ) :
    (List.range n).foldl (fun m s => mulAt m s (f s)) m
      = fun s => if s < n then m s * f s else m s := by
  induction n with
  | zero => simp
  | succ n ih =>
    rw [List.range_succ, List.foldl_append, ih]
    funext s
    simp only [List.foldl_cons, List.foldl_nil, mulAt]
    rcases lt_trichotomy s n with h | h | h
    · rw [if_neg (by omega), if_pos h, if_pos (by omega)]
    · subst h
      rw [if_pos rfl, if_neg (lt_irrefl s), if_pos (by omega)]
    · rw [if_neg (by omega), if_neg (by omega), if_neg (by omega)]

theorem foldl_mulAt_row (r : ℕ) (f : ℕ → ℝ) (n : ℕ) (m : ℕ × ℕ → ℝ) :
    (List.range n).foldl (fun m s => mulAt m (r, s) (f s)) m
      = fun k => if k.1 = r ∧ k.2 < n then m k * f k.2 else m k := by
  induction n with
  | zero => simp
  | succ n ih =>
    rw [List.range_succ, List.foldl_append, ih]
    funext ⟨a, s⟩
    simp only [List.foldl_cons, List.foldl_nil, mulAt, Prod.mk.injEq]
    by_cases ha : a = r
    · subst ha
      rcases lt_trichotomy s n with h | h | h
      · rw [if_neg (by omega), if_pos ⟨rfl, h⟩, if_pos ⟨rfl, by omega⟩]
      · subst h
        rw [if_pos ⟨rfl, rfl⟩, if_neg (by omega), if_pos ⟨rfl, by omega⟩]
      · rw [if_neg (by omega), if_neg (by omega), if_neg (by omega)]
    · rw [if_neg (by tauto), if_neg (by tauto), if_neg (by tauto)]

theorem foldl_mulAt_lower (f : ℕ → ℕ → ℝ) (n : ℕ) (m : ℕ × ℕ → ℝ) :
    (List.range n).foldl (fun m r =>
        (List.range (r + 1)).foldl (fun m s => mulAt m (r, s) (f r s)) m) m
      = fun k => if k.1 < n ∧ k.2 ≤ k.1 then m k * f k.1 k.2 else m k := by
  induction n with
  | zero => simp
  | succ n ih =>
    rw [List.range_succ, List.foldl_append, ih]
    funext ⟨a, s⟩
    simp only [List.foldl_cons, List.foldl_nil]
    rw [foldl_mulAt_row]
    simp only
    rcases lt_trichotomy a n with h | h | h
    · rw [if_neg (by omega)]
      by_cases hs : s ≤ a
      · rw [if_pos ⟨h, hs⟩, if_pos ⟨by omega, hs⟩]
      · rw [if_neg (by tauto), if_neg (by tauto)]
    · subst h
      by_cases hs : s ≤ a
      · rw [if_pos ⟨rfl, by omega⟩, if_neg (by omega), if_pos ⟨by omega, hs⟩]
      · rw [if_neg (by omega), if_neg (by omega), if_neg (by omega)]
    · rw [if_neg (by omega), if_neg (by omega), if_neg (by omega)]

theorem foldl_pointwise {K : Type} (P : K → Prop) [DecidablePred P] (w : ℕ → K → ℝ) (n : ℕ)
    (m : K → ℝ) :
    (List.range n).foldl (fun (m : K → ℝ) t => fun k => if P k then m k * w t k else m k) m
      = fun k => if P k then m k * ∏ t ∈ range n, w t k else m k := by
  induction n with
  | zero => simp
  | succ n ih =>
    rw [List.range_succ, List.foldl_append, ih]
    funext k
    simp only [List.foldl_cons, List.foldl_nil]
    split
    · rw [prod_range_succ]; ring
    · rfl

/-- The derivative functions of the basis answer for all levels up to `k`. -/
structure BasisDerivOk (b : BasisI) (k : ℕ) (D : Set ℝ) (φ' φ'' : ℝ → ℕ → ℕ → ℝ) : Prop where
  deriv_ok : ∀ x ∈ D, ∀ l p, l ≤ k → p < 2 ^ l → b.evaluateDerivative x l p = Except.ok (φ' x l p)
  second_ok : ∀ x ∈ D, ∀ l p, l ≤ k → p < 2 ^ l →
    b.evaluateSecondDerivative x l p = Except.ok (φ'' x l p)

/-- Product with the factor of direction `s` differentiated. -/
noncomputable def dprod (φ φ' : ℝ → ℕ → ℕ → ℝ) (d : ℕ) (x : List ℝ) (ls ps : List ℕ) (s : ℕ) :
    ℝ :=
  ∏ t ∈ range d, if s = t then φ' (x.getD t 0) (ls.getD t 0) (ps.getD t 0)
    else φ (x.getD t 0) (ls.getD t 0) (ps.getD t 0)

/-- Product with the factors of directions `r` and `s` differentiated. -/
noncomputable def d2prod (φ φ' φ'' : ℝ → ℕ → ℕ → ℝ) (d : ℕ) (x : List ℝ) (ls ps : List ℕ)
    (r s : ℕ) : ℝ :=
  ∏ t ∈ range d, if r = t then
      if s = t then φ'' (x.getD t 0) (ls.getD t 0) (ps.getD t 0)
      else φ' (x.getD t 0) (ls.getD t 0) (ps.getD t 0)
    else if s = t then φ' (x.getD t 0) (ls.getD t 0) (ps.getD t 0)
      else φ (x.getD t 0) (ls.getD t 0) (ps.getD t 0)

theorem d2prod_symm (φ φ' φ'' : ℝ → ℕ → ℕ → ℝ) (d : ℕ) (x : List ℝ) (ls ps : List ℕ) (r s : ℕ) :
    d2prod φ φ' φ'' d x ls ps r s = d2prod φ φ' φ'' d x ls ps s r := by
  refine prod_congr rfl fun t _ => ?_
  by_cases h1 : r = t <;> by_cases h2 : s = t <;> simp [h1, h2]

theorem computeBasisDerivative_ok {b : BasisI} {k : ℕ} {D : Set ℝ} {κ : ℕ → ℕ → ℝ}
    {φ φ' φ'' : ℝ → ℕ → ℕ → ℝ} (hb : BasisOk b k D κ φ) (hb' : BasisDerivOk b k D φ' φ'') {d : ℕ}
    {ls ps : List ℕ} {i : ℤ} {s : ℕ} (h : IsGridPoint d k ls ps) {x : List ℝ}
    (hx : XOk D d x) :
    computeBasisDerivative b ⟨i, ls, ps, s⟩ x
      = Except.ok (fun s => if s < d then dprod φ φ' d x ls ps s else 1) := by
  unfold computeBasisDerivative
  simp only [mulAt_ite, foldl_mulAt_range]
  rw [h.levels_length, foldlM_ok _ _
    (fun ret t => fun s => if s < d then ret s * (if s = t then
        φ' (x.getD t 0) (ls.getD t 0) (ps.getD t 0)
      else φ (x.getD t 0) (ls.getD t 0) (ps.getD t 0)) else ret s),
    foldl_pointwise (fun s => s < d)]
  · congr 1
    funext s
    split
    · rw [one_mul, dprod]
    · rfl
  · intro t ht r
    rw [List.mem_range] at ht
    obtain ⟨h1, h2, h3, h4⟩ := gp_bounds h ht
    rw [nth_getD x 0 (by rw [hx.1]; exact ht)]
    simp only [res_ok_bind]
    rw [nth_getD _ 0 h3]
    simp only [res_ok_bind]
    rw [nth_getD _ 0 h4]
    simp only [res_ok_bind]
    rw [hb.eval_ok _ (hx.mem ht) _ _ h1 h2]
    simp only [res_ok_bind]
    rw [hb'.deriv_ok _ (hx.mem ht) _ _ h1 h2]
    rfl

theorem computeBasisSecondDerivative_ok {b : BasisI} {k : ℕ} {D : Set ℝ} {κ : ℕ → ℕ → ℝ}
    {φ φ' φ'' : ℝ → ℕ → ℕ → ℝ} (hb : BasisOk b k D κ φ) (hb' : BasisDerivOk b k D φ' φ'') {d : ℕ}
    {ls ps : List ℕ} {i : ℤ} {s : ℕ} (h : IsGridPoint d k ls ps) {x : List ℝ}
    (hx : XOk D d x) :
    ∃ V, computeBasisSecondDerivative b ⟨i, ls, ps, s⟩ x = Except.ok V ∧
      (∀ r s, r < d → s < d → V (r, s) = d2prod φ φ' φ'' d x ls ps r s) := by
  unfold computeBasisSecondDerivative
  simp only [mulAt_ite]
  rw [h.levels_length, foldlM_ok _ _
    (fun ret t => fun k => if k.1 < d ∧ k.2 ≤ k.1 then ret k * (if k.1 = t then
        if k.2 = t then φ'' (x.getD t 0) (ls.getD t 0) (ps.getD t 0)
        else φ' (x.getD t 0) (ls.getD t 0) (ps.getD t 0)
      else if k.2 = t then φ' (x.getD t 0) (ls.getD t 0) (ps.getD t 0)
      else φ (x.getD t 0) (ls.getD t 0) (ps.getD t 0)) else ret k),
    foldl_pointwise (fun k : ℕ × ℕ => k.1 < d ∧ k.2 ≤ k.1)]
  · refine ⟨_, rfl, ?_⟩
    intro r s hr hs
    simp only
    split
    · rw [if_pos ⟨hr, ‹_›⟩, one_mul, d2prod]
    · rw [if_pos ⟨hs, by omega⟩, one_mul, d2prod_symm, d2prod]
  · intro t ht r
    rw [List.mem_range] at ht
    obtain ⟨h1, h2, h3, h4⟩ := gp_bounds h ht
    rw [nth_getD x 0 (by rw [hx.1]; exact ht)]
    simp only [res_ok_bind]
    rw [nth_getD _ 0 h3]
    simp only [res_ok_bind]
    rw [nth_getD _ 0 h4]
    simp only [res_ok_bind]
    rw [hb.eval_ok _ (hx.mem ht) _ _ h1 h2]
    simp only [res_ok_bind]
    rw [hb'.deriv_ok _ (hx.mem ht) _ _ h1 h2]
    simp only [res_ok_bind]
    rw [hb'.second_ok _ (hx.mem ht) _ _ h1 h2]
    simp only [res_ok_bind]
    rw [foldl_mulAt_lower (fun a s => if a = t then
        if s = t then φ'' (x.getD t 0) (ls.getD t 0) (ps.getD t 0)
        else φ' (x.getD t 0) (ls.getD t 0) (ps.getD t 0)
      else if s = t then φ' (x.getD t 0) (ls.getD t 0) (ps.getD t 0)
      else φ (x.getD t 0) (ls.getD t 0) (ps.getD t 0))]
    rfl

theorem accumulateLoop_ok {K : Type} {ar : Arith} {d k : ℕ} (ha : ArOk ar d k) {g : Grid}
    (hg : g.coefficients.length = numPts d k) {basisAt : Pt → Res (K → ℝ)} {V : ℕ → K → ℝ}
    (hV : ∀ i < numPts d k, basisAt (st d i) = Except.ok (V i)) (m : ℕ) :
    ∀ (i : ℕ) (ret : K → ℝ), i + m = numPts d k →
    ∀ p, (m = 0 ∨ p = st d i) →
    accumulateLoop ar g basisAt m i ret p
      = Except.ok (fun key => ret key
          + ∑ j ∈ range m, g.coefficients.getD (i + j) 0 * V (i + j) key) := by
  induction m with
  | zero => intro i ret _ p _; simp [accumulateLoop]
  | succ m ih =>
    intro i ret hi p hp
    have hp' : p = st d i := by simpa using hp
    subst hp'
    rw [accumulateLoop, nth_getD _ 0 (by omega)]
    simp only [res_ok_bind]
    rw [hV i (by omega)]
    simp only [res_ok_bind]
    have hsum : ∀ key, ∑ j ∈ range (m + 1), g.coefficients.getD (i + j) 0 * V (i + j) key
        = g.coefficients.getD i 0 * V i key
          + ∑ j ∈ range m, g.coefficients.getD (i + 1 + j) 0 * V (i + 1 + j) key := by
      intro key
      rw [sum_range_succ', Nat.add_zero i, add_comm]
      congr 1
      exact sum_congr rfl (fun j _ => by rw [show i + (j + 1) = i + 1 + j by ring])
    simp only [hsum]
    by_cases h : (i : ℤ) < g.coefficients.length - 1
    · rw [if_pos h]
      rw [advance_st' ha hg h]
      simp only [res_ok_bind]
      rw [ih (i + 1) _ (by omega) _ (Or.inr rfl)]
      congr 1
      funext key
      ring
    · rw [if_neg h]
      rw [ih (i + 1) _ (by omega) _ (Or.inl (by omega))]
      congr 1
      funext key
      ring

theorem accumulate_ok {K : Type} {ar : Arith} {d k : ℕ} (ha : ArOk ar d k) {g : Grid}
    (hgd : g.d = d)
    (hg : g.coefficients.length = numPts d k) {basisAt : Pt → Res (K → ℝ)} {V : ℕ → K → ℝ}
    (hV : ∀ i < numPts d k, basisAt (st d i) = Except.ok (V i)) :
    accumulateLoop ar g basisAt g.coefficients.length 0 (fun _ => 0) (center g.d)
      = Except.ok (fun key => ∑ j ∈ range (numPts d k), g.coefficients.getD j 0 * V j key) := by
  rw [hgd, hg, accumulateLoop_ok ha hg hV (numPts d k) 0 _ (by omega) (center d)
    (Or.inr (by simp [st, center, pt]))]
  simp

/-! ### The calculus part -/

/-- Product rule in all coordinates. -/
theorem hasFDerivAt_prod {d : ℕ} (ψ ψ' : Fin d → ℝ → ℝ) (x : Fin d → ℝ)
    (h : ∀ t, HasDerivAt (ψ t) (ψ' t (x t)) (x t)) :
    HasFDerivAt (fun y : Fin d → ℝ => ∏ t, ψ t (y t))
      (∑ r : Fin d, (∏ t, if r = t then ψ' t (x t) else ψ t (x t)) •
        (ContinuousLinearMap.proj r : (Fin d → ℝ) →L[ℝ] ℝ)) x := by
  have hp : ∀ t, HasFDerivAt (fun y : Fin d → ℝ => ψ t (y t))
      (ψ' t (x t) • (ContinuousLinearMap.proj t : (Fin d → ℝ) →L[ℝ] ℝ)) x := by
    intro t
    have h1 : HasFDerivAt (fun y : Fin d → ℝ => y t)
        (ContinuousLinearMap.proj t : (Fin d → ℝ) →L[ℝ] ℝ) x :=
      (ContinuousLinearMap.proj t : (Fin d → ℝ) →L[ℝ] ℝ).hasFDerivAt
    exact (h t).comp_hasFDerivAt x h1
  have := HasFDerivAt.finset_prod (u := univ) (fun t _ => hp t)
  refine this.congr_fderiv ?_
  refine Finset.sum_congr rfl fun r _ => ?_
  rw [smul_smul]
  congr 1
  rw [← mul_prod_erase univ (fun t => if r = t then ψ' t (x t) else ψ t (x t)) (mem_univ r),
    if_pos rfl, mul_comm]
  congr 1
  refine prod_congr rfl fun t ht => ?_
  rw [if_neg (fun e => (mem_erase.mp ht).1 e.symm)]

theorem getD_ofFn {d : ℕ} (y : Fin d → ℝ) (t : Fin d) : (List.ofFn y).getD t 0 = y t := by
  simp

theorem tprod_ofFn (φ : ℝ → ℕ → ℕ → ℝ) {d : ℕ} (y : Fin d → ℝ) (ls ps : List ℕ) :
    tprod φ d (List.ofFn y) ls ps = ∏ t : Fin d, φ (y t) (ls.getD t 0) (ps.getD t 0) := by
  rw [tprod, Finset.prod_range]
  exact prod_congr rfl fun t _ => by rw [getD_ofFn]

theorem dprod_ofFn (φ φ' : ℝ → ℕ → ℕ → ℝ) {d : ℕ} (y : Fin d → ℝ) (ls ps : List ℕ) (s : Fin d) :
    dprod φ φ' d (List.ofFn y) ls ps s
      = ∏ t : Fin d, if s = t then φ' (y t) (ls.getD t 0) (ps.getD t 0)
          else φ (y t) (ls.getD t 0) (ps.getD t 0) := by
  rw [dprod, Finset.prod_range]
  refine prod_congr rfl fun t _ => ?_
  simp only [getD_ofFn, Fin.ext_iff]

theorem d2prod_ofFn (φ φ' φ'' : ℝ → ℕ → ℕ → ℝ) {d : ℕ} (y : Fin d → ℝ) (ls ps : List ℕ)
    (r s : Fin d) :
    d2prod φ φ' φ'' d (List.ofFn y) ls ps r s
      = ∏ t : Fin d, if r = t then
          if s = t then φ'' (y t) (ls.getD t 0) (ps.getD t 0)
          else φ' (y t) (ls.getD t 0) (ps.getD t 0)
        else if s = t then φ' (y t) (ls.getD t 0) (ps.getD t 0)
          else φ (y t) (ls.getD t 0) (ps.getD t 0) := by
  rw [d2prod, Finset.prod_range]
  refine prod_congr rfl fun t _ => ?_
  simp only [getD_ofFn, Fin.ext_iff]

/-- The unclamped interpolant. -/
noncomputable def raw (g : Grid) (φ : ℝ → ℕ → ℕ → ℝ) (d k : ℕ) (y : Fin d → ℝ) : ℝ :=
  ∑ j ∈ range (numPts d k), g.coefficients.getD j 0
    * tprod φ d (List.ofFn y) (pt d j).1 (pt d j).2

/-- Its reported gradient. -/
noncomputable def rawGrad (g : Grid) (φ φ' : ℝ → ℕ → ℕ → ℝ) (d k : ℕ) (y : Fin d → ℝ) (s : ℕ) :
    ℝ :=
  ∑ j ∈ range (numPts d k), g.coefficients.getD j 0
    * dprod φ φ' d (List.ofFn y) (pt d j).1 (pt d j).2 s

/-- Its reported Hessian. -/
noncomputable def rawHess (g : Grid) (φ φ' φ'' : ℝ → ℕ → ℕ → ℝ) (d k : ℕ) (y : Fin d → ℝ)
    (r s : ℕ) : ℝ :=
  ∑ j ∈ range (numPts d k), g.coefficients.getD j 0
    * d2prod φ φ' φ'' d (List.ofFn y) (pt d j).1 (pt d j).2 r s

theorem hasFDerivAt_sum_smul {d : ℕ} (N : ℕ) (c : ℕ → ℝ) (F : ℕ → (Fin d → ℝ) → ℝ)
    (G : ℕ → Fin d → ℝ) (x : Fin d → ℝ)
    (h : ∀ j < N, HasFDerivAt (F j)
      (∑ r : Fin d, G j r • (ContinuousLinearMap.proj r : (Fin d → ℝ) →L[ℝ] ℝ)) x) :
    HasFDerivAt (fun y => ∑ j ∈ range N, c j * F j y)
      (∑ r : Fin d, (∑ j ∈ range N, c j * G j r) •
        (ContinuousLinearMap.proj r : (Fin d → ℝ) →L[ℝ] ℝ)) x := by
  have := HasFDerivAt.fun_sum (u := range N) fun j hj =>
    (h j (mem_range.mp hj)).const_mul (c j)
  refine this.congr_fderiv ?_
  simp only [smul_sum, sum_smul, smul_smul]
  rw [sum_comm]

theorem raw_hasFDerivAt {g : Grid} {φ φ' : ℝ → ℕ → ℕ → ℝ} {d k : ℕ} {x : Fin d → ℝ}
    (hd : ∀ t l p, l ≤ k → p < 2 ^ l → HasDerivAt (fun y => φ y l p) (φ' (x t) l p) (x t)) :
    HasFDerivAt (raw g φ d k)
      (∑ r : Fin d, rawGrad g φ φ' d k x r •
        (ContinuousLinearMap.proj r : (Fin d → ℝ) →L[ℝ] ℝ)) x := by
  refine hasFDerivAt_sum_smul (numPts d k) _ _
    (fun j r => dprod φ φ' d (List.ofFn x) (pt d j).1 (pt d j).2 r) x ?_
  intro j hj
  simp only [tprod_ofFn, dprod_ofFn]
  refine hasFDerivAt_prod (fun t y => φ y ((pt d j).1.getD t 0) ((pt d j).2.getD t 0))
    (fun t y => φ' y ((pt d j).1.getD t 0) ((pt d j).2.getD t 0)) x ?_
  intro t
  obtain ⟨h1, h2, -, -⟩ := gp_bounds (pt_isGridPoint hj) t.2
  exact hd t _ _ h1 h2

theorem rawGrad_hasFDerivAt {g : Grid} {φ φ' φ'' : ℝ → ℕ → ℕ → ℝ} {d k : ℕ} {x : Fin d → ℝ}
    (hd : ∀ t l p, l ≤ k → p < 2 ^ l → HasDerivAt (fun y => φ y l p) (φ' (x t) l p) (x t))
    (hd' : ∀ t l p, l ≤ k → p < 2 ^ l → HasDerivAt (fun y => φ' y l p) (φ'' (x t) l p) (x t))
    (s : Fin d) :
    HasFDerivAt (fun y => rawGrad g φ φ' d k y s)
      (∑ r : Fin d, rawHess g φ φ' φ'' d k x r s •
        (ContinuousLinearMap.proj r : (Fin d → ℝ) →L[ℝ] ℝ)) x := by
  refine hasFDerivAt_sum_smul (numPts d k) _ _
    (fun j r => d2prod φ φ' φ'' d (List.ofFn x) (pt d j).1 (pt d j).2 r s) x ?_
  intro j hj
  simp only [d2prod_ofFn, dprod_ofFn]
  refine hasFDerivAt_prod
    (fun t y => if s = t then φ' y ((pt d j).1.getD t 0) ((pt d j).2.getD t 0)
      else φ y ((pt d j).1.getD t 0) ((pt d j).2.getD t 0))
    (fun t y => if s = t then φ'' y ((pt d j).1.getD t 0) ((pt d j).2.getD t 0)
      else φ' y ((pt d j).1.getD t 0) ((pt d j).2.getD t 0)) x ?_
  intro t
  obtain ⟨h1, h2, -, -⟩ := gp_bounds (pt_isGridPoint hj) t.2
  by_cases hst : s = t
  · simp only [hst, if_true]
    exact hd' t _ _ h1 h2
  · simp only [hst, if_false]
    exact hd t _ _ h1 h2

end Verif.SparseGrid
