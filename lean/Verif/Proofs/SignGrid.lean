import Verif.Props.SparseGrid
import Verif.Proofs.GridDeriv
import Mathlib.LinearAlgebra.Matrix.NonsingularInverse

/-! Sparse grids of functions that are mirror images of each other are mirror images. -/
namespace Verif.Sign

open Finset Verif.Spec Verif.SparseGrid Verif.Point Verif.Counting

/-! ### Refinement of results -/

/-- The second computation returns what the first one returns, if that returns. -/
def Le {α : Type} (r r' : Res α) : Prop := ∀ v, r = Except.ok v → r' = Except.ok v

theorem Le.refl {α : Type} (r : Res α) : Le r r := fun _ h => h

theorem Le.bind {α β : Type} {r r' : Res α} {g g' : α → Res β} (h : Le r r')
    (hg : ∀ a, Le (g a) (g' a)) : Le (r >>= g) (r' >>= g') := by
  intro v hv
  cases r with
  | error e => rw [res_error_bind] at hv; cases hv
  | ok a =>
    rw [res_ok_bind] at hv
    rw [h a rfl, res_ok_bind]
    exact hg a v hv

theorem Le.ite {α : Type} {c : Prop} [Decidable c] {r r' s s' : Res α} (h : Le r r') (hs : Le s s') :
    Le (if c then r else s) (if c then r' else s') := by
  split
  · exact h
  · exact hs

theorem Le.foldlM {α β : Type} {g g' : β → α → Res β} (h : ∀ b a, Le (g b a) (g' b a)) :
    ∀ (l : List α) (b : β), Le (l.foldlM g b) (l.foldlM g' b)
  | [], b => by simp only [List.foldlM_nil]; exact Le.refl _
  | a :: l, b => by
    simp only [List.foldlM_cons]
    exact (h b a).bind fun b => Le.foldlM h l b

theorem Le.mapM {α β : Type} {g g' : α → Res β} (h : ∀ a, Le (g a) (g' a)) :
    ∀ l : List α, Le (l.mapM g) (l.mapM g')
  | [] => by simp only [List.mapM_nil]; exact Le.refl _
  | a :: l => by
    simp only [List.mapM_cons]
    exact (h a).bind fun b => (Le.mapM h l).bind fun _ => Le.refl _

/-- The second basis returns what the first one returns. -/
structure BLe (b b' : BasisI) : Prop where
  knot : ∀ l p, Le (b.getKnot l p) (b'.getKnot l p)
  eval : ∀ x l p, Le (b.evaluate x l p) (b'.evaluate x l p)
  deriv : ∀ x l p, Le (b.evaluateDerivative x l p) (b'.evaluateDerivative x l p)
  second : ∀ x l p, Le (b.evaluateSecondDerivative x l p) (b'.evaluateSecondDerivative x l p)

section
variable {b b' : BasisI} (hb : BLe b b') (ar : Arith)
include hb

theorem computeBasis_le (p : Pt) (x : List ℝ) : Le (computeBasis b p x) (computeBasis b' p x) :=
  Le.foldlM (fun _ _ => (Le.refl _).bind fun _ => (Le.refl _).bind fun _ => (Le.refl _).bind fun _ =>
    (hb.eval _ _ _).bind fun _ => Le.refl _) _ _

theorem interpolateLoop_le (g : Grid) (x : List ℝ) : ∀ (m i : ℕ) (ret : ℝ) (p : Pt),
    Le (interpolateLoop ar b g x m i ret p) (interpolateLoop ar b' g x m i ret p)
  | 0, _, _, _ => Le.refl _
  | m + 1, i, ret, p => by
    unfold interpolateLoop
    exact (Le.refl _).bind fun _ => (computeBasis_le hb p x).bind fun _ => Le.ite
      ((Le.refl _).bind fun _ => interpolateLoop_le g x m _ _ _) (interpolateLoop_le g x m _ _ _)

theorem interpolate_le (g : Grid) (x : List ℝ) :
    Le (interpolate ar b g x) (interpolate ar b' g x) :=
  (interpolateLoop_le hb ar g x _ _ _ _).bind fun _ => Le.refl _

theorem computeBasisDerivative_le (p : Pt) (x : List ℝ) :
    Le (computeBasisDerivative b p x) (computeBasisDerivative b' p x) :=
  Le.foldlM (fun _ _ => (Le.refl _).bind fun _ => (Le.refl _).bind fun _ => (Le.refl _).bind fun _ =>
    (hb.eval _ _ _).bind fun _ => (hb.deriv _ _ _).bind fun _ => Le.refl _) _ _

theorem computeBasisSecondDerivative_le (p : Pt) (x : List ℝ) :
    Le (computeBasisSecondDerivative b p x) (computeBasisSecondDerivative b' p x) :=
  Le.bind (Le.foldlM (fun _ _ => (Le.refl _).bind fun _ => (Le.refl _).bind fun _ =>
    (Le.refl _).bind fun _ => (hb.eval _ _ _).bind fun _ => (hb.deriv _ _ _).bind fun _ =>
    (hb.second _ _ _).bind fun _ => Le.refl _) _ _) fun _ => Le.refl _

omit hb in
theorem accumulateLoop_le {K : Type} (g : Grid) {f f' : Pt → Res (K → ℝ)} (h : ∀ p, Le (f p) (f' p)) :
    ∀ (m i : ℕ) (ret : K → ℝ) (p : Pt),
      Le (accumulateLoop ar g f m i ret p) (accumulateLoop ar g f' m i ret p)
  | 0, _, _, _ => Le.refl _
  | m + 1, i, ret, p => by
    unfold accumulateLoop
    exact (Le.refl _).bind fun _ => (h p).bind fun _ => Le.ite
      ((Le.refl _).bind fun _ => accumulateLoop_le g h m _ _ _) (accumulateLoop_le g h m _ _ _)

theorem interpolateDerivative_le (g : Grid) (x : List ℝ) :
    Le (interpolateDerivative ar b g x) (interpolateDerivative ar b' g x) :=
  (interpolate_le hb ar g x).bind fun _ => Le.ite
    (accumulateLoop_le ar g (fun p => computeBasisDerivative_le hb p x) _ _ _ _) (Le.refl _)

theorem interpolateSecondDerivative_le (g : Grid) (x : List ℝ) :
    Le (interpolateSecondDerivative ar b g x) (interpolateSecondDerivative ar b' g x) :=
  (interpolate_le hb ar g x).bind fun _ => Le.ite
    (accumulateLoop_le ar g (fun p => computeBasisSecondDerivative_le hb p x) _ _ _ _) (Le.refl _)

theorem getGridPointInDirection_le (p : Pt) (t : ℕ) :
    Le (getGridPointInDirection b p t) (getGridPointInDirection b' p t) :=
  (Le.refl _).bind fun _ => (Le.refl _).bind fun _ => hb.knot _ _

theorem storageLoop_le {f f' : List ℝ → Res ℝ} (hf : ∀ z, Le (f z) (f' z)) :
    ∀ (m i : ℕ) (cs : List ℝ) (mx : Option ℝ) (p : Pt),
      Le (storageLoop ar b f m i cs mx p) (storageLoop ar b' f' m i cs mx p)
  | 0, _, _, _, _ => Le.refl _
  | m + 1, i, cs, mx, p => by
    unfold storageLoop
    exact Le.bind (Le.mapM (fun t => getGridPointInDirection_le hb p t) _) fun _ =>
      (hf _).bind fun _ => (Le.refl _).bind fun _ => (Le.refl _).bind fun _ => (Le.refl _).bind fun _ =>
      Le.ite ((Le.refl _).bind fun _ => storageLoop_le hf m _ _ _ _) (storageLoop_le hf m _ _ _ _)

theorem parentLoop_le (t i : ℕ) (knot : ℝ) (lev : ℕ) : ∀ (m : ℕ) (cs : List ℝ) (parent : Pt),
    Le (parentLoop ar b t i knot lev m cs parent) (parentLoop ar b' t i knot lev m cs parent)
  | 0, _, _ => Le.refl _
  | m + 1, cs, parent => by
    unfold parentLoop
    exact (Le.refl _).bind fun _ => Le.ite ((Le.refl _).bind fun _ => (Le.refl _).bind fun _ =>
      (hb.eval _ _ _).bind fun _ => (Le.refl _).bind fun _ => (Le.refl _).bind fun _ =>
      (Le.refl _).bind fun _ => parentLoop_le t i knot lev m _ _) (Le.refl _)

theorem hierarchizeLoop_le (t : ℕ) : ∀ (m i : ℕ) (cs : List ℝ) (p : Pt),
    Le (hierarchizeLoop ar b t m i cs p) (hierarchizeLoop ar b' t m i cs p)
  | 0, _, _, _ => Le.refl _
  | m + 1, i, cs, p => by
    unfold hierarchizeLoop
    exact (getGridPointInDirection_le hb p t).bind fun _ => (Le.refl _).bind fun _ =>
      (Le.refl _).bind fun _ => (parentLoop_le hb ar t i _ _ _ _ _).bind fun _ =>
      (Le.refl _).bind fun _ => hierarchizeLoop_le t m _ _ _

theorem construct_le {f f' : List ℝ → Res ℝ} (hf : ∀ z, Le (f z) (f' z)) (d k : ℕ) :
    Le (construct ar b f d k) (construct ar b' f' d k) :=
  (Le.refl _).bind fun _ => Le.bind (Le.bind (storageLoop_le hb ar hf _ _ _ _ _) fun _ => Le.refl _)
    fun _ => Le.bind (Le.foldlM (fun _ _ => hierarchizeLoop_le hb ar _ _ _ _ _) _ _) fun _ => Le.refl _

end

theorem BLe.refl (b : BasisI) : BLe b b :=
  ⟨fun _ _ => Le.refl _, fun _ _ _ => Le.refl _, fun _ _ _ => Le.refl _, fun _ _ _ => Le.refl _⟩

/-! ### Mirrored grid points -/

/-- Signs of coordinates. -/
def IsSign (σ : ℕ → ℝ) : Prop := ∀ t, σ t = 1 ∨ σ t = -1

theorem IsSign.sq {σ : ℕ → ℝ} (h : IsSign σ) (t : ℕ) : σ t * σ t = 1 := by
  rcases h t with e | e <;> rw [e] <;> norm_num

/-- The basis is symmetric about 0. -/
structure SymBasis (k : ℕ) (κ : ℕ → ℕ → ℝ) (φ φ' φ'' : ℝ → ℕ → ℕ → ℝ) : Prop where
  knot : ∀ l p, l ≤ k → p < 2 ^ l → κ l (2 ^ l - 1 - p) = -κ l p
  eval : ∀ x l p, l ≤ k → p < 2 ^ l → φ (-x) l (2 ^ l - 1 - p) = φ x l p
  deriv : ∀ x l p, l ≤ k → p < 2 ^ l → φ' (-x) l (2 ^ l - 1 - p) = -φ' x l p
  second : ∀ x l p, l ≤ k → p < 2 ^ l → φ'' (-x) l (2 ^ l - 1 - p) = φ'' x l p

/-- The position mirrored in the directions with sign -1. -/
noncomputable def mpos (σ : ℕ → ℝ) (l p t : ℕ) : ℕ := if σ t = 1 then p else 2 ^ l - 1 - p

/-- The positions of the mirrored grid point. -/
noncomputable def mps (σ : ℕ → ℝ) (d : ℕ) (ls ps : List ℕ) : List ℕ :=
  (List.range d).map fun t => mpos σ (ls.getD t 0) (ps.getD t 0) t

theorem mps_getD (σ : ℕ → ℝ) {d : ℕ} (ls ps : List ℕ) {t : ℕ} (ht : t < d) :
    (mps σ d ls ps).getD t 0 = mpos σ (ls.getD t 0) (ps.getD t 0) t := by
  simp [mps, ht]

theorem mpos_lt {σ : ℕ → ℝ} {l p t : ℕ} (hp : p < 2 ^ l) : mpos σ l p t < 2 ^ l := by
  unfold mpos; split <;> omega

theorem mpos_mpos {σ : ℕ → ℝ} {l p t : ℕ} (hp : p < 2 ^ l) : mpos σ l (mpos σ l p t) t = p := by
  unfold mpos
  split <;> omega

theorem mps_isGridPoint (σ : ℕ → ℝ) {d k : ℕ} {ls ps : List ℕ} (h : IsGridPoint d k ls ps) :
    IsGridPoint d k ls (mps σ d ls ps) := by
  refine ⟨h.levels_length, by simp [mps], h.sum_le, fun t h1 h2 => ?_⟩
  have ht : t < d := by rw [← h.levels_length]; exact h1
  have := mpos_lt (σ := σ) (t := t) (gp_bounds h ht).2.1
  rw [← mps_getD σ ls ps ht] at this
  simpa [h1, h2] using this

theorem mps_mps (σ : ℕ → ℝ) {d k : ℕ} {ls ps : List ℕ} (h : IsGridPoint d k ls ps) :
    mps σ d ls (mps σ d ls ps) = ps := by
  apply List.ext_getElem
  · simp [mps, h.positions_length]
  · intro t h1 h2
    have ht : t < d := by rw [← h.positions_length]; exact h2
    have e1 : (mps σ d ls (mps σ d ls ps)).getD t 0 = (mps σ d ls (mps σ d ls ps))[t] := by
      simp [h1]
    have e2 : ps.getD t 0 = ps[t] := by simp [h2]
    rw [← e1, ← e2, mps_getD σ _ _ ht, mps_getD σ _ _ ht, mpos_mpos (gp_bounds h ht).2.1]

/-- The second vector is the mirror image of the first one. -/
structure Flip (σ : ℕ → ℝ) (d : ℕ) (x x' : List ℝ) : Prop where
  len : x.length = d
  len' : x'.length = d
  eq : ∀ t < d, x'.getD t 0 = σ t * x.getD t 0

section
variable {k d : ℕ} {κ : ℕ → ℕ → ℝ} {φ φ' φ'' : ℝ → ℕ → ℕ → ℝ} {σ : ℕ → ℝ}

theorem mpos_eval (hsym : SymBasis k κ φ φ' φ'') (hσ : IsSign σ) {l p : ℕ} (hl : l ≤ k)
    (hp : p < 2 ^ l) (t : ℕ) (x : ℝ) :
    κ l (mpos σ l p t) = σ t * κ l p ∧ φ (σ t * x) l (mpos σ l p t) = φ x l p ∧
    φ' (σ t * x) l (mpos σ l p t) = σ t * φ' x l p ∧
    φ'' (σ t * x) l (mpos σ l p t) = φ'' x l p := by
  unfold mpos
  rcases hσ t with e | e
  · simp [e]
  · rw [if_neg (by rw [e]; norm_num), e, hsym.knot l p hl hp, neg_one_mul, neg_one_mul, neg_one_mul,
      hsym.eval x l p hl hp, hsym.deriv x l p hl hp, hsym.second x l p hl hp]
    exact ⟨rfl, rfl, rfl, rfl⟩

theorem flip_grid (hsym : SymBasis k κ φ φ' φ'') (hσ : IsSign σ) {ls ps : List ℕ}
    (h : IsGridPoint d k ls ps) :
    Flip σ d (List.zipWith κ ls ps) (List.zipWith κ ls (mps σ d ls ps)) := by
  have h' := mps_isGridPoint σ h
  refine ⟨by simp [h.levels_length, h.positions_length],
    by simp [h'.levels_length, h'.positions_length], fun t ht => ?_⟩
  obtain ⟨a1, a2, a3, a4⟩ := gp_bounds h ht
  obtain ⟨b1, b2, b3, b4⟩ := gp_bounds h' ht
  have e1 : (List.zipWith κ ls ps).getD t 0 = κ (ls.getD t 0) (ps.getD t 0) := by simp [a3, a4]
  have e2 : (List.zipWith κ ls (mps σ d ls ps)).getD t 0
      = κ (ls.getD t 0) ((mps σ d ls ps).getD t 0) := by simp [b3, b4]
  rw [e1, e2, mps_getD σ _ _ ht, (mpos_eval hsym hσ a1 a2 t 0).1]

theorem tprod_mirror (hsym : SymBasis k κ φ φ' φ'') (hσ : IsSign σ) {ls ps : List ℕ}
    (h : IsGridPoint d k ls ps) {x x' : List ℝ} (hx : Flip σ d x x') :
    tprod φ d x' ls (mps σ d ls ps) = tprod φ d x ls ps := by
  refine prod_congr rfl fun t ht => ?_
  have ht := mem_range.mp ht
  obtain ⟨a1, a2, -⟩ := gp_bounds h ht
  rw [mps_getD σ _ _ ht, hx.eq t ht, (mpos_eval hsym hσ a1 a2 t _).2.1]

theorem dprod_mirror (hsym : SymBasis k κ φ φ' φ'') (hσ : IsSign σ) {ls ps : List ℕ}
    (h : IsGridPoint d k ls ps) {x x' : List ℝ} (hx : Flip σ d x x') {s : ℕ} (hs : s < d) :
    dprod φ φ' d x' ls (mps σ d ls ps) s = σ s * dprod φ φ' d x ls ps s := by
  have e : σ s = ∏ t ∈ range d, if s = t then σ t else 1 := by
    rw [prod_ite_eq, if_pos (mem_range.mpr hs)]
  unfold dprod
  rw [e, ← prod_mul_distrib]
  refine prod_congr rfl fun t ht => ?_
  have ht := mem_range.mp ht
  obtain ⟨a1, a2, -⟩ := gp_bounds h ht
  obtain ⟨-, e1, e2, -⟩ := mpos_eval hsym hσ a1 a2 t (x.getD t 0)
  rw [mps_getD σ _ _ ht, hx.eq t ht, e1, e2]
  split <;> ring

theorem d2prod_mirror (hsym : SymBasis k κ φ φ' φ'') (hσ : IsSign σ) {ls ps : List ℕ}
    (h : IsGridPoint d k ls ps) {x x' : List ℝ} (hx : Flip σ d x x') {r s : ℕ} (hr : r < d)
    (hs : s < d) :
    d2prod φ φ' φ'' d x' ls (mps σ d ls ps) r s = σ r * σ s * d2prod φ φ' φ'' d x ls ps r s := by
  have e : σ s = ∏ t ∈ range d, if s = t then σ t else 1 := by
    rw [prod_ite_eq, if_pos (mem_range.mpr hs)]
  have e' : σ r = ∏ t ∈ range d, if r = t then σ t else 1 := by
    rw [prod_ite_eq, if_pos (mem_range.mpr hr)]
  unfold d2prod
  rw [e, e', ← prod_mul_distrib, ← prod_mul_distrib]
  refine prod_congr rfl fun t ht => ?_
  have ht := mem_range.mp ht
  obtain ⟨a1, a2, -⟩ := gp_bounds h ht
  obtain ⟨-, e1, e2, e3⟩ := mpos_eval hsym hσ a1 a2 t (x.getD t 0)
  rw [mps_getD σ _ _ ht, hx.eq t ht, e1, e2, e3]
  have := hσ.sq t
  split <;> split <;> (try rw [this]) <;> ring

end

theorem pt_inj {d k n m : ℕ} (hn : n < numPts d k) (hm : m < numPts d k) (h : pt d n = pt d m) :
    n = m := by
  rcases Nat.eq_zero_or_pos d with rfl | hd
  · simp [numPts] at hn hm; omega
  · have h1 := (pt_spec hd n).2.2
    have h2 := (pt_spec hd m).2.2
    rw [h] at h1
    omega

/-- The number of the mirrored grid point. -/
theorem exists_mirror (σ : ℕ → ℝ) (d k : ℕ) : ∃ ρ : ℕ → ℕ,
    (∀ n < numPts d k, ρ n < numPts d k ∧ pt d (ρ n) = ((pt d n).1, mps σ d (pt d n).1 (pt d n).2)) ∧
    ∀ n < numPts d k, ρ (ρ n) = n := by
  have hex : ∀ n, ∃ m, n < numPts d k →
      m < numPts d k ∧ pt d m = ((pt d n).1, mps σ d (pt d n).1 (pt d n).2) := by
    intro n
    by_cases h : n < numPts d k
    · obtain ⟨m, h1, h2⟩ := exists_pt (mps_isGridPoint σ (pt_isGridPoint h))
      exact ⟨m, fun _ => ⟨h1, h2⟩⟩
    · exact ⟨0, fun h' => absurd h' h⟩
  choose ρ hρ using hex
  refine ⟨ρ, hρ, fun n hn => ?_⟩
  obtain ⟨h1, h2⟩ := hρ n hn
  obtain ⟨h3, h4⟩ := hρ (ρ n) h1
  apply pt_inj h3 hn
  rw [h4, h2]
  simp only
  rw [mps_mps σ (pt_isGridPoint hn)]

theorem sum_mirror {N : ℕ} {ρ : ℕ → ℕ} (h1 : ∀ n < N, ρ n < N) (h2 : ∀ n < N, ρ (ρ n) = n)
    (F : ℕ → ℝ) : ∑ j ∈ range N, F j = ∑ j ∈ range N, F (ρ j) :=
  sum_nbij' ρ ρ (fun n hn => mem_range.mpr (h1 n (mem_range.mp hn)))
    (fun n hn => mem_range.mpr (h1 n (mem_range.mp hn))) (fun n hn => h2 n (mem_range.mp hn))
    (fun n hn => h2 n (mem_range.mp hn)) (fun n hn => by rw [h2 n (mem_range.mp hn)])

section
variable {ar : Arith} {b : BasisI} {k d : ℕ} {κ : ℕ → ℕ → ℝ} {φ φ' φ'' : ℝ → ℕ → ℕ → ℝ}

/-- The coefficients are determined by the values at the grid points. -/
theorem coefficients_unique (hb : BasisOk b k Set.univ κ φ) (hh : Hierarchical k κ φ)
    (ha : ArOk ar d k) (c c' : ℕ → ℝ)
    (h : ∀ n < numPts d k, ∑ j ∈ range (numPts d k), c j
        * tprod φ d (List.zipWith κ (pt d n).1 (pt d n).2) (pt d j).1 (pt d j).2
      = ∑ j ∈ range (numPts d k), c' j
        * tprod φ d (List.zipWith κ (pt d n).1 (pt d n).2) (pt d j).1 (pt d j).2) :
    ∀ j < numPts d k, c j = c' j := by
  let A : Matrix (Fin (numPts d k)) (Fin (numPts d k)) ℝ := Matrix.of fun n j =>
    tprod φ d (List.zipWith κ (pt d n).1 (pt d n).2) (pt d j).1 (pt d j).2
  have hmul : ∀ (c : ℕ → ℝ) (n : Fin (numPts d k)), A.mulVec (fun j : Fin (numPts d k) => c j) n
      = ∑ j ∈ range (numPts d k), c j
        * tprod φ d (List.zipWith κ (pt d n).1 (pt d n).2) (pt d j).1 (pt d j).2 := by
    intro c n
    rw [Finset.sum_range]
    simp only [Matrix.mulVec, dotProduct, A, Matrix.of_apply]
    exact sum_congr rfl fun j _ => mul_comm _ _
  have hsurj : Function.Surjective A.mulVec := by
    intro v
    obtain ⟨cs', -, -, h3⟩ := hierarchize_ok hb hh ha (List.ofFn v) (by simp)
    refine ⟨fun j => cs'.getD j 0, ?_⟩
    funext n
    rw [hmul (fun j => cs'.getD j 0) n, h3 n n.2]
    simp
  have hinj : Function.Injective A.mulVec :=
    Matrix.mulVec_injective_iff_isUnit.mpr (Matrix.mulVec_surjective_iff_isUnit.mp hsurj)
  have he : (fun j : Fin (numPts d k) => c j) = fun j : Fin (numPts d k) => c' j := by
    apply hinj
    funext n
    rw [hmul, hmul, h n n.2]
  intro j hj
  exact congrFun he ⟨j, hj⟩

/-- If the grid was built, the function returned at every grid point. -/
theorem construct_inv (hb : BasisOk b k Set.univ κ φ) (hh : Hierarchical k κ φ)
    (ha : GridArOk ar d k) {f : List ℝ → Res ℝ} {g : Grid}
    (hg : construct ar b f d k = Except.ok g) {ls ps : List ℕ} (hp : IsGridPoint d k ls ps) :
    ∃ v, f (List.zipWith κ ls ps) = Except.ok v := by
  let F : ℝ → List ℝ → ℝ := fun a z => match f z with
    | Except.ok v => v
    | Except.error _ => a
  have hF : ∀ a, ∃ g', construct ar b (fun z => Except.ok (F a z)) d k = Except.ok g' ∧ _ := fun a =>
    construct_ok hb hh ha (F a) (fr := fun z => Except.ok (F a z)) fun _ _ => rfl
  have hle : ∀ a, construct ar b (fun z => Except.ok (F a z)) d k = Except.ok g := fun a =>
    construct_le (BLe.refl b) ar (fun z v hv => by
      show Except.ok (F a z) = _
      simp only [F, hv]) d k g hg
  obtain ⟨n, hn, hpt⟩ := exists_pt hp
  obtain ⟨g0, h1, -, -, h2, -⟩ := hF 0
  obtain ⟨g1, k1, -, -, k2, -⟩ := hF 1
  rw [hle 0] at h1
  rw [hle 1] at k1
  obtain rfl : g = g0 := by injection h1
  obtain rfl : g = g1 := by injection k1
  have e := (h2 n hn).symm.trans (k2 n hn)
  rw [hpt] at e
  rcases hv : f (List.zipWith κ ls ps) with er | v
  · simp only [F, hv] at e
    norm_num at e
  · exact ⟨v, rfl⟩

/-- Grids of mirrored functions. -/
structure GridMirror (σ : ℕ → ℝ) (d k : ℕ) (g g' : Grid) : Prop where
  d1 : g.d = d
  d2 : g'.d = d
  len : g.coefficients.length = numPts d k
  len' : g'.coefficients.length = numPts d k
  bound : g.bound = g'.bound
  coef : ∃ ρ : ℕ → ℕ, (∀ n < numPts d k,
      ρ n < numPts d k ∧ pt d (ρ n) = ((pt d n).1, mps σ d (pt d n).1 (pt d n).2)) ∧
    (∀ n < numPts d k, ρ (ρ n) = n) ∧
    ∀ j < numPts d k, g'.coefficients.getD (ρ j) 0 = g.coefficients.getD j 0

variable {σ : ℕ → ℝ}

theorem construct_mirror (hb : BasisOk b k Set.univ κ φ) (hh : Hierarchical k κ φ)
    (hsym : SymBasis k κ φ φ' φ'') (hσ : IsSign σ) (ha : GridArOk ar d k) {f f' : List ℝ → Res ℝ}
    (hf : ∀ x x' v v', Flip σ d x x' → f x = Except.ok v → f' x' = Except.ok v' → v = v')
    {g g' : Grid} (hg : construct ar b f d k = Except.ok g)
    (hg' : construct ar b f' d k = Except.ok g') : GridMirror σ d k g g' := by
  let val : (List ℝ → Res ℝ) → List ℝ → ℝ := fun f z => match f z with
    | Except.ok v => v
    | Except.error _ => 0
  have hval : ∀ (f : List ℝ → Res ℝ) (g : Grid), construct ar b f d k = Except.ok g → ∀ ls ps,
      IsGridPoint d k ls ps →
      f (List.zipWith κ ls ps) = Except.ok (val f (List.zipWith κ ls ps)) := by
    intro f g hg ls ps hp
    obtain ⟨v, hv⟩ := construct_inv hb hh ha hg hp
    simp only [val, hv]
  obtain ⟨g0, h1, h2, h3, h4, h5, n0, hn0, h6⟩ := construct_at hb hh ha (val f) (hval f g hg)
  obtain ⟨g0', k1, k2, k3, k4, k5, n1, hn1, k6⟩ := construct_at hb hh ha (val f') (hval f' g' hg')
  rw [hg] at h1
  rw [hg'] at k1
  obtain rfl : g = g0 := by injection h1
  obtain rfl : g' = g0' := by injection k1
  obtain ⟨ρ, r1, r2⟩ := exists_mirror σ d k
  have hv : ∀ n < numPts d k, val f (List.zipWith κ (pt d n).1 (pt d n).2)
      = val f' (List.zipWith κ (pt d (ρ n)).1 (pt d (ρ n)).2) := by
    intro n hn
    have hp := pt_isGridPoint hn
    rw [(r1 n hn).2]
    exact hf _ _ _ _ (flip_grid hsym hσ hp) (hval f g hg _ _ hp)
      (hval f' g' hg' _ _ (mps_isGridPoint σ hp))
  refine ⟨h2, k2, h3, k3, ?_, ρ, r1, r2, ?_⟩
  · apply le_antisymm
    · rw [h6, hv n0 hn0]
      exact k5 _ (r1 n0 hn0).1
    · have := hv (ρ n1) (r1 n1 hn1).1
      rw [r2 n1 hn1] at this
      rw [k6, ← this]
      exact h5 _ (r1 n1 hn1).1
  · apply coefficients_unique hb hh ha.1 (fun j => g'.coefficients.getD (ρ j) 0)
      (fun j => g.coefficients.getD j 0)
    intro n hn
    rw [h4 n hn, hv n hn, ← k4 (ρ n) (r1 n hn).1,
      sum_mirror (fun n hn => (r1 n hn).1) r2 (fun j => g'.coefficients.getD j 0
        * tprod φ d (List.zipWith κ (pt d (ρ n)).1 (pt d (ρ n)).2) (pt d j).1 (pt d j).2)]
    refine sum_congr rfl fun j hj => ?_
    have hj := mem_range.mp hj
    rw [(r1 n hn).2, (r1 j hj).2]
    simp only
    rw [tprod_mirror hsym hσ (pt_isGridPoint hj) (flip_grid hsym hσ (pt_isGridPoint hn))]

section
variable (hb : BasisOk b k Set.univ κ φ) (hb' : BasisDerivOk b k Set.univ φ' φ'')
  (hsym : SymBasis k κ φ φ' φ'') (hσ : IsSign σ) (ha : ArOk ar d k) {g g' : Grid}
  (hm : GridMirror σ d k g g') {x x' : List ℝ} (hx : Flip σ d x x')

include hb hsym hσ ha hm hx

theorem interpolate_mirror : interpolate ar b g x = interpolate ar b g' x' := by
  obtain ⟨ρ, r1, r2, r3⟩ := hm.coef
  rw [interpolate_ok hb ha hm.d1 hm.len ⟨hx.len, fun _ _ => trivial⟩,
    interpolate_ok hb ha hm.d2 hm.len' ⟨hx.len', fun _ _ => trivial⟩, hm.bound,
    sum_mirror (fun n hn => (r1 n hn).1) r2 (fun j => g'.coefficients.getD j 0
      * tprod φ d x' (pt d j).1 (pt d j).2)]
  congr 2
  refine sum_congr rfl fun j hj => ?_
  have hj := mem_range.mp hj
  rw [r3 j hj, (r1 j hj).2]
  simp only
  rw [tprod_mirror hsym hσ (pt_isGridPoint hj) hx]

include hb'

theorem interpolateDerivative_mirror {v v' : ℕ → ℝ}
    (h : interpolateDerivative ar b g x = Except.ok v)
    (h' : interpolateDerivative ar b g' x' = Except.ok v') : ∀ s < d, v' s = σ s * v s := by
  obtain ⟨ρ, r1, r2, r3⟩ := hm.coef
  have hi := interpolate_mirror hb hsym hσ ha hm hx
  unfold interpolateDerivative at h h'
  rw [← hi] at h'
  rw [interpolate_ok hb ha hm.d1 hm.len ⟨hx.len, fun _ _ => trivial⟩] at h h'
  simp only [res_ok_bind] at h h'
  rw [← hm.bound] at h'
  intro s hs
  split at h
  · rename_i hlt
    rw [if_pos hlt] at h'
    rw [accumulate_ok ha hm.d1 hm.len (V := fun i s => if s < d then
      dprod φ φ' d x (pt d i).1 (pt d i).2 s else 1) (fun i hi => computeBasisDerivative_ok hb hb'
        (pt_isGridPoint hi) ⟨hx.len, fun _ _ => trivial⟩)] at h
    rw [accumulate_ok ha hm.d2 hm.len' (V := fun i s => if s < d then
      dprod φ φ' d x' (pt d i).1 (pt d i).2 s else 1) (fun i hi => computeBasisDerivative_ok hb hb'
        (pt_isGridPoint hi) ⟨hx.len', fun _ _ => trivial⟩)] at h'
    injection h with h
    injection h' with h'
    rw [← h, ← h']
    simp only [if_pos hs]
    rw [sum_mirror (fun n hn => (r1 n hn).1) r2 (fun j => g'.coefficients.getD j 0
      * dprod φ φ' d x' (pt d j).1 (pt d j).2 s), mul_sum]
    refine sum_congr rfl fun j hj => ?_
    have hj := mem_range.mp hj
    rw [r3 j hj, (r1 j hj).2]
    simp only
    rw [dprod_mirror hsym hσ (pt_isGridPoint hj) hx hs]
    ring
  · rename_i hlt
    rw [if_neg hlt] at h'
    simp only [res_pure] at h h'
    injection h with h
    injection h' with h'
    rw [← h, ← h', mul_zero]

theorem interpolateSecondDerivative_mirror {v v' : ℕ × ℕ → ℝ}
    (h : interpolateSecondDerivative ar b g x = Except.ok v)
    (h' : interpolateSecondDerivative ar b g' x' = Except.ok v') :
    ∀ r s, r < d → s < d → v' (r, s) = σ r * σ s * v (r, s) := by
  obtain ⟨ρ, r1, r2, r3⟩ := hm.coef
  have hi := interpolate_mirror hb hsym hσ ha hm hx
  have hex : ∀ y : List ℝ, y.length = d → ∃ V : ℕ → ℕ × ℕ → ℝ, ∀ i < numPts d k,
      computeBasisSecondDerivative b (st d i) y = Except.ok (V i) ∧ ∀ r s, r < d → s < d →
        V i (r, s) = d2prod φ φ' φ'' d y (pt d i).1 (pt d i).2 r s := by
    intro y hy
    have : ∀ i, ∃ V : ℕ × ℕ → ℝ, i < numPts d k →
        computeBasisSecondDerivative b (st d i) y = Except.ok V ∧ ∀ r s, r < d → s < d →
        V (r, s) = d2prod φ φ' φ'' d y (pt d i).1 (pt d i).2 r s := by
      intro i
      by_cases hi : i < numPts d k
      · obtain ⟨V, hV⟩ := computeBasisSecondDerivative_ok hb hb' (i := (i : ℤ))
          (s := (pt d i).1.sum) (pt_isGridPoint hi) (x := y) ⟨hy, fun _ _ => trivial⟩
        exact ⟨V, fun _ => hV⟩
      · exact ⟨fun _ => 0, fun h => absurd h hi⟩
    choose V hV using this
    exact ⟨V, hV⟩
  obtain ⟨V, hV⟩ := hex x hx.len
  obtain ⟨V', hV'⟩ := hex x' hx.len'
  unfold interpolateSecondDerivative at h h'
  rw [← hi] at h'
  rw [interpolate_ok hb ha hm.d1 hm.len ⟨hx.len, fun _ _ => trivial⟩] at h h'
  simp only [res_ok_bind] at h h'
  rw [← hm.bound] at h'
  intro r s hr hs
  split at h
  · rename_i hlt
    rw [if_pos hlt] at h'
    rw [accumulate_ok ha hm.d1 hm.len (V := V) (fun i hi => (hV i hi).1)] at h
    rw [accumulate_ok ha hm.d2 hm.len' (V := V') (fun i hi => (hV' i hi).1)] at h'
    injection h with h
    injection h' with h'
    rw [← h, ← h']
    simp only
    rw [sum_mirror (fun n hn => (r1 n hn).1) r2 (fun j => g'.coefficients.getD j 0 * V' j (r, s)),
      mul_sum]
    refine sum_congr rfl fun j hj => ?_
    have hj := mem_range.mp hj
    rw [r3 j hj, (hV' _ (r1 j hj).1).2 r s hr hs, (r1 j hj).2]
    simp only
    rw [d2prod_mirror hsym hσ (pt_isGridPoint hj) hx hr hs, (hV j hj).2 r s hr hs]
    ring
  · rename_i hlt
    rw [if_neg hlt] at h'
    simp only [res_pure] at h h'
    injection h with h
    injection h' with h'
    rw [← h, ← h', mul_zero]

end

end

end Verif.Sign
