import Verif.Model.Flatten
import Verif.Props.Indexing

/-!
# C87: the covariates of a subformula with several indices
-/
namespace Verif.Flatten

open Verif.SubExpr Verif.Indexing

/-! ## Specification -/

/-- The element of a vector or array for given indices. -/
inductive Element : RVal → List ℕ → ℝ → Prop
  | vec {v : List ℝ} {k : ℕ} {x : ℝ} : v[k]? = some x → Element (.vec v) [k + 1] x
  | arr {dims ks : List ℕ} {data : List ℝ} {x : ℝ} {r : ℕ} :
      (Indexing.Spec.grid dims)[r]? = some ks → data[r]? = some x → Element (.arr dims data) ks x

/-- The value of an expression in row `t` of a data frame with `m` rows: every variable stands for its
value in this row (or its only value), `x[i, j]` for an element of `x`, and `g` are the functions of
numbers. -/
inductive At (g : String → List ℝ → Option ℝ) (env : REnv) (m t : ℕ) : Expr → ℝ → Prop
  | name {s : String} {v : List ℝ} {x : ℝ} : env s = some (.vec v) →
      (v.length = m ∨ v.length = 1) → v[t % v.length]? = some x → At g env m t (.name s) x
  | lit (x : ℝ) : At g env m t (.lit (.num x)) x
  | elem {s : String} {X : RVal} {idx : List Expr} {ks : List ℕ} {x : ℝ} : env s = some X →
      idx ≠ [] → List.Forall₂ (fun i (k : ℕ) => At g env m t i k) idx ks → Element X ks x →
      At g env m t (.call (.name "[" :: .name s :: idx)) x
  | fn {f : String} {args : List Expr} {xs : List ℝ} {x : ℝ} : f ≠ "[" → f ≠ "cbind" →
      List.Forall₂ (At g env m t) args xs → g f xs = some x → At g env m t (.call (.name f :: args)) x

/-- Vectors of the length of the data frame or of length 1. -/
def Shape (m : ℕ) (v : List ℝ) : Prop := v.length = m ∨ v.length = 1

/-- The functions work on each row alone: `g` is what they do with numbers. -/
def Pointwise (fn : String → List RVal → Res RVal) (g : String → List ℝ → Option ℝ) (m : ℕ) : Prop :=
  ∀ f (vs : List (List ℝ)) (x : ℕ → ℝ), (∀ v ∈ vs, Shape m v) →
    (∀ t < m, g f (vs.map fun v => v.getD (t % v.length) 0) = some (x t)) →
    ∃ v, fn f (vs.map .vec) = Except.ok (.vec v) ∧ Shape m v ∧ ∀ t < m, v[t % v.length]? = some (x t)

/-- Expressions made of variables, numbers, elements of variables (those of `base`) and functions.
Inside the brackets of several indices there is no further `[` with several indices; if `b` is false
there is none at all. -/
inductive Plain (base : String → Prop) : Bool → Expr → Prop
  | name {b : Bool} (s : String) : Plain base b (.name s)
  | lit {b : Bool} (x : ℝ) : Plain base b (.lit (.num x))
  | elem {b : Bool} {s : String} {i : Expr} : base s → Plain base b i →
      Plain base b (.call [.name "[", .name s, i])
  | elems {s : String} {idx : List Expr} : base s → 2 ≤ idx.length → (∀ i ∈ idx, Plain base false i) →
      Plain base true (.call (.name "[" :: .name s :: idx))
  | fn {b : Bool} {f : String} {args : List Expr} : f ≠ "[" → f ≠ "cbind" →
      (∀ a ∈ args, Plain base b a) → Plain base b (.call (.name f :: args))

/-- The data frame `expand.grid` of indices with the names `ixs` and the lengths `ls`, and the other
variables: R/subformula.R:128-135. (Factors by their codes.) -/
def gridEnv (ixs : List String) (ls : List ℕ) (data : REnv) : REnv := fun s =>
  if s ∈ ixs then some (.vec ((Indexing.Spec.grid ls).map fun T => ((T.getD (ixs.idxOf s) 0 : ℕ) : ℝ)))
  else data s

/-- The variables when the indices have the values `T`. -/
def rowEnv (ixs : List String) (T : List ℕ) (data : REnv) : REnv := fun s =>
  if s ∈ ixs then some (.vec [((T.getD (ixs.idxOf s) 0 : ℕ) : ℝ)]) else data s

/-- The right-hand side of a subformula: covariates combined by `+`, `|` and other operators and by
parentheses. -/
inductive Rhs where
  | cov (e : Expr)
  | op (o : String) (a b : Rhs)
  | paren (a : Rhs)

/-- The expression of a right-hand side. -/
def Rhs.expr : Rhs → Expr
  | .cov e => e
  | .op o a b => .call [.name o, a.expr, b.expr]
  | .paren a => .call [.name "(", a.expr]

/-- The covariates of a right-hand side. -/
def Rhs.covs : Rhs → List Expr
  | .cov e => [e]
  | .op _ a b => a.covs ++ b.covs
  | .paren a => a.covs

/-- Replacement of the covariates. -/
def Rhs.map (f : Expr → Expr) : Rhs → Rhs
  | .cov e => .cov (f e)
  | .op o a b => .op o (a.map f) (b.map f)
  | .paren a => .paren (a.map f)

/-- The operators are not the brackets. -/
def Rhs.Operators : Rhs → Prop
  | .cov _ => True
  | .op o a b => o ≠ "[" ∧ a.Operators ∧ b.Operators
  | .paren a => a.Operators

/-- `e'`, evaluated in the data frame of all combinations of the indices, has in the row of the
combination `T` the value of `e` for the indices `T`. -/
def Covariate (fn : String → List RVal → Res RVal) (g : String → List ℝ → Option ℝ)
    (ixs : List String) (ls : List ℕ) (data : REnv) (e e' : Expr) : Prop :=
  ∀ X : List ℕ → ℝ,
    (∀ T, Indexing.Spec.IsTuple T ls → At g (rowEnv ixs T data) 1 0 e (X T)) →
    ∃ v, eval fn (gridEnv ixs ls data) e' = Except.ok (.vec v) ∧ Shape ls.prod v ∧
      ∀ r T, (Indexing.Spec.grid ls)[r]? = some T → v[r % v.length]? = some (X T)

/-! ## Proofs -/

theorem list_eq_map : ∀ xs : List Expr, matrixIndexingList xs = xs.map matrixIndexing
  | [] => by rw [matrixIndexingList]; rfl
  | x :: xs => by rw [matrixIndexingList, list_eq_map xs]; rfl

/-- Calls of other functions keep their form. -/
theorem matrixIndexing_call {f : String} (hf : f ≠ "[") (args : List Expr) :
    matrixIndexing (.call (.name f :: args)) = .call (.name f :: args.map matrixIndexing) := by
  have h0 : matrixIndexing (.name f) = .name f := by rw [matrixIndexing]
  have hn : isName (.name f) "[" = false := by simp [isName, hf]
  rcases args with _ | ⟨a, _ | ⟨b, _ | ⟨c, rest⟩⟩⟩
  · rw [matrixIndexing, h0]; rfl
  · rw [matrixIndexing, h0]; rfl
  · rw [matrixIndexing, h0]; rfl
  · rw [matrixIndexing, hn, h0, list_eq_map]
    rfl

theorem matrixIndexing_plain {base : String → Prop} {e : Expr} (h : Plain base false e) : matrixIndexing e = e := by
  generalize hb : false = b at h
  induction h with
  | name s => rw [matrixIndexing]
  | lit x => rw [matrixIndexing]
  | elem _ _ ih => rw [matrixIndexing, ih hb, matrixIndexing, matrixIndexing]
  | elems => cases hb
  | fn hf _ _ ih =>
    rw [matrixIndexing_call hf]
    congr 2
    refine (List.map_congr_left fun a ha => ih a ha hb).trans ?_
    exact List.map_id _

theorem mapM_eq {α β : Type} {f : α → Res β} {h : α → β} : ∀ {l : List α},
    (∀ a ∈ l, f a = Except.ok (h a)) → l.mapM f = Except.ok (l.map h)
  | [], _ => rfl
  | a :: l, H => by
    rw [List.mapM_cons, H a (by simp), mapM_eq (l := l) fun b hb => H b (by simp [hb])]
    rfl

theorem toIndex_eq {k : ℕ} (hk : 1 ≤ k) : toIndex (k : ℝ) = Except.ok k := by
  have h : ∃ j : ℕ, 1 ≤ j ∧ (k : ℝ) = j := ⟨k, hk, rfl⟩
  unfold toIndex
  rw [dif_pos h]
  have := h.choose_spec.2
  rw [Nat.cast_inj] at this
  rw [← this]

theorem element_eq {v : List ℝ} {k : ℕ} {x : ℝ} (h : v[k]? = some x) :
    element v (k + 1) = Except.ok x := by
  unfold element
  rw [Nat.add_sub_cancel, h]

theorem offset_eq : ∀ {dims ks : List ℕ}, Indexing.Spec.IsTuple ks dims →
    offset dims ks = Except.ok (rank dims ks)
  | [], _, h => by
    cases h
    rfl
  | d :: dims, _, h => by
    obtain ⟨k, ks, h1, h2, rfl⟩ := List.forall₂_cons_right_iff.1 h
    rw [offset, if_pos h1.2, offset_eq h2]
    rfl

theorem elementAt_eq {dims ks : List ℕ} {data : List ℝ} {x : ℝ}
    (h : Element (.arr dims data) ks x) :
    elementAt dims data (ks.map fun k : ℕ => (k : ℝ)) = Except.ok x := by
  cases h with
  | arr hg hx =>
    have ht := grid_tuple (List.mem_of_getElem? hg)
    have hr := grid_get_rank _ _ hg
    unfold elementAt
    have h1 : (ks.map fun k : ℕ => (k : ℝ)).mapM toIndex = Except.ok ks := by
      have hpos : ∀ k ∈ ks, 1 ≤ k := by
        intro k hk
        obtain ⟨i, hi, rfl⟩ := List.getElem_of_mem hk
        exact ((List.forall₂_iff_get.1 ht).2 i hi (by
          rw [← (List.forall₂_iff_get.1 ht).1]; exact hi)).1
      have : ∀ {l : List ℕ}, (∀ k ∈ l, 1 ≤ k) →
          (l.map fun k : ℕ => (k : ℝ)).mapM toIndex = Except.ok l := by
        intro l
        induction l with
        | nil => exact fun _ => rfl
        | cons a l ih =>
          intro H
          rw [List.map_cons, List.mapM_cons, toIndex_eq (H a (by simp)),
            ih fun k hk => H k (by simp [hk])]
          rfl
      exact this hpos
    rw [h1]
    simp only [res_ok_bind]
    rw [offset_eq ht, hr]
    simp only [res_ok_bind]
    exact element_eq hx

/-- An element with a single index. -/
theorem element_single {X : RVal} {k : ℕ} {x : ℝ} (h : Element X [k] x) :
    1 ≤ k ∧ X.data[k - 1]? = some x := by
  cases h with
  | vec h => exact ⟨by omega, h⟩
  | arr hg hx =>
    rename_i dims data r
    have ht := grid_tuple (List.mem_of_getElem? hg)
    have hr := grid_get_rank _ _ hg
    obtain ⟨d, ds, h1, h2, rfl⟩ := List.forall₂_cons_left_iff.1 ht
    cases h2
    refine ⟨h1.1, ?_⟩
    rw [← hr] at hx
    simpa [rank, RVal.data] using hx

theorem element_unique {X : RVal} {ks : List ℕ} {x y : ℝ} (h : Element X ks x)
    (h' : Element X ks y) : x = y := by
  cases h with
  | vec h =>
    cases h' with
    | vec h' => exact Option.some.inj (h.symm.trans h')
  | arr hg hx =>
    cases h' with
    | arr hg' hx' =>
      rw [← grid_get_rank _ _ hg] at hx
      rw [← grid_get_rank _ _ hg'] at hx'
      exact Option.some.inj (hx.symm.trans hx')

theorem shape_mod {m : ℕ} {v : List ℝ} (h : Shape m v) {t : ℕ} (ht : t < m) :
    t % v.length < v.length := by
  refine Nat.mod_lt _ ?_
  rcases h with h | h <;> omega

theorem getElem?_getD {v : List ℝ} {t : ℕ} {x : ℝ} (h : v[t]? = some x) : v.getD t 0 = x := by
  rw [List.getD_eq_getElem?_getD, h]
  rfl

/-- What the induction shows of an expression. -/
def Good (fn : String → List RVal → Res RVal) (g : String → List ℝ → Option ℝ) (env : REnv) (m : ℕ)
    (e e' : Expr) : Prop :=
  ∀ x : ℕ → ℝ, (∀ t < m, At g env m t e (x t)) →
    ∃ v, eval fn env e' = Except.ok (.vec v) ∧ Shape m v ∧ ∀ t < m, v[t % v.length]? = some (x t)

theorem evalList_good {fn : String → List RVal → Res RVal} {g : String → List ℝ → Option ℝ}
    {env : REnv} {m : ℕ} (hm : 0 < m) {F : Expr → Expr} : ∀ {args : List Expr} {xs : ℕ → List ℝ},
    (∀ t < m, List.Forall₂ (At g env m t) args (xs t)) → (∀ a ∈ args, Good fn g env m a (F a)) →
    ∃ vs : List (List ℝ), evalList fn env (args.map F) = Except.ok (vs.map .vec) ∧
      (∀ v ∈ vs, Shape m v) ∧ vs.length = args.length ∧
      ∀ t < m, xs t = vs.map fun v => v.getD (t % v.length) 0
  | [], xs, h, _ => by
    refine ⟨[], by rw [List.map_nil, evalList]; rfl, by simp, rfl, fun t ht => ?_⟩
    have := h t ht
    cases hx : xs t with
    | nil => rfl
    | cons a l => rw [hx] at this; cases this
  | a :: args, xs, h, hG => by
    have hx : ∀ t < m, xs t = (xs t).headD 0 :: (xs t).tail ∧ At g env m t a ((xs t).headD 0) ∧
        List.Forall₂ (At g env m t) args (xs t).tail := by
      intro t ht
      obtain ⟨b, l, h1, h2, h3⟩ := List.forall₂_cons_left_iff.1 (h t ht)
      rw [h3]
      exact ⟨rfl, h1, h2⟩
    obtain ⟨v, hv, hs, hvt⟩ := hG a (by simp) (fun t => (xs t).headD 0) fun t ht => (hx t ht).2.1
    obtain ⟨vs, hvs, hss, hl, hvst⟩ := evalList_good hm (args := args) (xs := fun t => (xs t).tail)
      (fun t ht => (hx t ht).2.2) fun b hb => hG b (by simp [hb])
    refine ⟨v :: vs, ?_, ?_, by simp [hl], fun t ht => ?_⟩
    · rw [List.map_cons, evalList, hv]
      simp only [res_ok_bind]
      rw [hvs]
      rfl
    · intro w hw
      rcases List.mem_cons.1 hw with rfl | hw
      · exact hs
      · exact hss w hw
    · rw [(hx t ht).1, hvst t ht, List.map_cons, getElem?_getD (hvt t ht)]

/-- `x[w]` for a vector of positions. -/
theorem pickLinear_good {x w : List ℝ} {m : ℕ} (hs : Shape m w) (hm : 0 < m) {k : ℕ → ℕ}
    {y : ℕ → ℝ} (hw : ∀ t < m, w[t % w.length]? = some (k t : ℝ))
    (hx : ∀ t < m, 1 ≤ k t ∧ x[k t - 1]? = some (y t)) :
    ∃ v, pickLinear x w = Except.ok (.vec v) ∧ Shape m v ∧ ∀ t < m, v[t % v.length]? = some (y t) := by
  have hf : ∀ a ∈ w, (do
      let k ← toIndex a
      element x k) = Except.ok (x.getD (⌊a⌋₊ - 1) 0) := by
    intro a ha
    obtain ⟨j, hj, rfl⟩ := List.getElem_of_mem ha
    obtain ⟨t, ht, e⟩ : ∃ t < m, t % w.length = j := by
      rcases hs with h | h
      · exact ⟨j, by omega, Nat.mod_eq_of_lt hj⟩
      · exact ⟨0, hm, by rw [Nat.zero_mod]; omega⟩
    have h1 := hw t ht
    rw [e, List.getElem?_eq_getElem hj] at h1
    rw [Option.some.inj h1, toIndex_eq (hx t ht).1, Nat.floor_natCast]
    simp only [res_ok_bind]
    have := element_eq (hx t ht).2
    rw [Nat.sub_add_cancel (hx t ht).1] at this
    rw [this, getElem?_getD (hx t ht).2]
  refine ⟨w.map fun a => x.getD (⌊a⌋₊ - 1) 0, ?_, ?_, fun t ht => ?_⟩
  · unfold pickLinear
    rw [mapM_eq hf]
    rfl
  · unfold Shape
    rw [List.length_map]
    exact hs
  · rw [List.length_map, List.getElem?_map, hw t ht, Option.map_some, Nat.floor_natCast,
      getElem?_getD (hx t ht).2]

theorem foldr_max {m : ℕ} (hm : 0 < m) : ∀ {vs : List (List ℝ)}, (∀ v ∈ vs, Shape m v) → vs ≠ [] →
    ((vs.map List.length).foldr max 0 = m ∨
      (vs.map List.length).foldr max 0 = 1 ∧ ∀ v ∈ vs, v.length = 1)
  | [v], h, _ => by
    rcases h v (by simp) with h | h
    · left; simp [h]
    · right; simp [h]
  | v :: w :: vs, h, _ => by
    have ih := foldr_max hm (vs := w :: vs) (fun u hu => h u (by simp [List.mem_cons.1 hu])) (by simp)
    rw [List.map_cons, List.foldr_cons]
    rcases h v (by simp) with h1 | h1 <;> rcases ih with h2 | ⟨h2, h3⟩
    · left; rw [h1, h2, max_self]
    · left; rw [h1, h2]; exact max_eq_left hm
    · left; rw [h1, h2]; exact max_eq_right hm
    · right
      refine ⟨by rw [h1, h2]; rfl, fun u hu => ?_⟩
      rcases List.mem_cons.1 hu with rfl | hu
      · exact h1
      · exact h3 u hu

/-- `cbind` of vectors. -/
theorem cbind_vectors {vs : List (List ℝ)} {R : ℕ}
    (hR : (vs.map List.length).foldr max 0 = R) :
    cbind (vs.map .vec) = Except.ok (.arr [R, vs.length]
      (vs.flatMap fun v => (List.range R).map fun t => v.getD (t % v.length) 0)) := by
  have hrows : rowsOf (vs.map .vec) = R := by
    unfold rowsOf
    have : (vs.map RVal.vec).filterMap matrixRows = [] := by
      rw [List.filterMap_eq_nil_iff]
      intro a ha
      obtain ⟨v, -, rfl⟩ := List.mem_map.1 ha
      rfl
    rw [this]
    dsimp only
    rw [List.map_map, ← hR]
    rfl
  unfold cbind
  rw [hrows, mapM_eq (h := fun a => match a with
    | .vec v => (List.range R).map fun t => v.getD (t % v.length) 0
    | _ => [])]
  · simp only [res_ok_bind, List.map_map]
    have : (List.map (columnsOf ∘ RVal.vec) vs).sum = vs.length := by
      have : columnsOf ∘ RVal.vec = fun _ => 1 := rfl
      rw [this]
      simp
    rw [this]
    rfl
  · intro a ha
    obtain ⟨v, -, rfl⟩ := List.mem_map.1 ha
    rfl

theorem good_elem {fn : String → List RVal → Res RVal} {g : String → List ℝ → Option ℝ}
    {env : REnv} {m : ℕ} (hm : 0 < m) {s : String} {i i' : Expr} (hi : Good fn g env m i i') :
    Good fn g env m (.call [.name "[", .name s, i]) (.call [.name "[", .name s, i']) := by
  intro x hx
  have hinv : ∀ t < m, ∃ X k, env s = some X ∧ At g env m t i (k : ℕ) ∧ Element X [k] (x t) := by
    intro t ht
    cases hx t ht with
    | elem h1 h2 h3 h4 =>
      obtain ⟨k, l, h5, h6, rfl⟩ := List.forall₂_cons_left_iff.1 h3
      cases h6
      exact ⟨_, k, h1, h5, h4⟩
    | fn h1 => exact absurd rfl h1
  obtain ⟨X, -, hX, -, -⟩ := hinv 0 hm
  have hinv' : ∀ t, ∃ k : ℕ, t < m → At g env m t i k ∧ Element X [k] (x t) := by
    intro t
    by_cases ht : t < m
    · obtain ⟨X', k, h1, h2, h3⟩ := hinv t ht
      rw [hX] at h1
      cases h1
      exact ⟨k, fun _ => ⟨h2, h3⟩⟩
    · exact ⟨0, fun h => absurd h ht⟩
  choose k hk using hinv'
  obtain ⟨w, hw, hs, hwt⟩ := hi (fun t => (k t : ℝ)) fun t ht => (hk t ht).1
  have hpick : pick X (.vec w) = pickLinear X.data w := by
    unfold pick
    rcases X with v | ⟨d, v⟩ <;> rfl
  obtain ⟨v, hv, hsv, hvt⟩ := pickLinear_good hs hm hwt fun t ht => element_single (hk t ht).2
  refine ⟨v, ?_, hsv, hvt⟩
  rw [← hv, ← hpick]
  rw [eval, evalList, eval, hX]
  simp only [res_ok_bind]
  rw [evalList, hw, evalList]
  simp [res_ok_bind, isName, res_pure]

theorem good_elems {fn : String → List RVal → Res RVal} {g : String → List ℝ → Option ℝ}
    {env : REnv} {m : ℕ} (hm : 0 < m) {s : String} {idx : List Expr} (h2 : 2 ≤ idx.length)
    (hi : ∀ i ∈ idx, Good fn g env m i i) :
    Good fn g env m (.call (.name "[" :: .name s :: idx))
      (.call [.name "[", .name s, .call (.name "cbind" :: idx)]) := by
  intro x hx
  have hinv : ∀ t < m, ∃ X ks, env s = some X ∧
      List.Forall₂ (fun i (k : ℕ) => At g env m t i k) idx ks ∧ Element X ks (x t) := by
    intro t ht
    cases hx t ht with
    | elem h1 h2 h3 h4 => exact ⟨_, _, h1, h3, h4⟩
    | fn h1 => exact absurd rfl h1
  obtain ⟨X, ks0, hX, hl0, he0⟩ := hinv 0 hm
  have hinv' : ∀ t, ∃ ks : List ℕ, t < m →
      List.Forall₂ (fun i (k : ℕ) => At g env m t i k) idx ks ∧ Element X ks (x t) := by
    intro t
    by_cases ht : t < m
    · obtain ⟨X', k, h1, h2, h3⟩ := hinv t ht
      rw [hX] at h1
      cases h1
      exact ⟨k, fun _ => ⟨h2, h3⟩⟩
    · exact ⟨[], fun h => absurd h ht⟩
  choose ks hks using hinv'
  obtain ⟨vs, hvs, hss, hl, hvt⟩ := evalList_good (fn := fn) (F := id) hm
    (xs := fun t => (ks t).map fun k : ℕ => (k : ℝ))
    (fun t ht => List.forall₂_map_right_iff.2 (hks t ht).1) hi
  rw [List.map_id] at hvs
  have hne : vs ≠ [] := by
    rintro rfl
    rw [List.length_nil] at hl
    omega
  obtain ⟨R, hR, hR1⟩ : ∃ R, (vs.map List.length).foldr max 0 = R ∧
      (R = m ∨ R = 1 ∧ ∀ v ∈ vs, v.length = 1) := ⟨_, rfl, foldr_max hm hss hne⟩
  -- the array
  obtain ⟨dims, data, rfl⟩ : ∃ dims data, X = .arr dims data := by
    cases he0 with
    | vec h =>
      have := hl0.length_eq
      simp at this
      omega
    | arr => exact ⟨_, _, rfl⟩
  have hdims : vs.length = dims.length := by
    cases he0 with
    | arr hg _ =>
      rw [hl, hl0.length_eq]
      exact (grid_tuple (List.mem_of_getElem? hg)).length_eq
  have hRm : ∀ t < R, t < m := by
    intro t ht
    rcases hR1 with h | h <;> omega
  have hcols : ∀ t < R, ((List.range vs.length).map fun k =>
      (vs.flatMap fun v => (List.range R).map fun t => v.getD (t % v.length) 0).getD (t + R * k) 0) =
      (ks t).map fun k : ℕ => (k : ℝ) := by
    intro t ht
    rw [hvt t (hRm t ht)]
    apply List.ext_getElem
    · simp
    · intro k h1 h2
      rw [List.getElem_map, List.getElem_range, List.getElem_map]
      rw [List.length_map, List.length_range] at h1
      rw [List.getD_eq_getElem?_getD, block_get (l := R) (fun b => by simp) ht,
        List.getElem?_eq_getElem h1, Option.bind_some, List.getElem?_map, List.getElem?_range ht]
      rfl
  refine ⟨(List.range R).map x, ?_, ?_, fun t ht => ?_⟩
  · rw [eval, evalList, eval, hX]
    simp only [res_ok_bind]
    rw [evalList, eval, hvs]
    simp only [res_ok_bind]
    have hn : isName (.name "cbind") "[" = false := by decide
    have hn' : isName (.name "cbind") "cbind" = true := by decide
    rw [hn, hn']
    simp only [Bool.false_eq_true, if_false, if_true]
    rw [cbind_vectors hR, evalList]
    have hn2 : isName (.name "[") "[" = true := by decide
    simp only [res_ok_bind, res_pure, hn2, if_true]
    unfold pick
    dsimp only
    rw [if_pos hdims, mapM_eq (h := x)]
    · rfl
    · intro t ht
      rw [hcols t (List.mem_range.1 ht)]
      exact elementAt_eq (hks t (hRm t (List.mem_range.1 ht))).2
  · unfold Shape
    rw [List.length_map, List.length_range]
    rcases hR1 with h | h
    · exact Or.inl h
    · exact Or.inr h.1
  · rw [List.length_map, List.length_range, List.getElem?_map]
    rcases hR1 with h | ⟨h, hone⟩
    · rw [h, Nat.mod_eq_of_lt ht, List.getElem?_range ht]
      rfl
    · rw [h, Nat.mod_one, List.getElem?_range Nat.one_pos, Option.map_some]
      have : ks 0 = ks t := by
        have e : (ks 0).map (fun k : ℕ => (k : ℝ)) = (ks t).map fun k : ℕ => (k : ℝ) := by
          rw [hvt 0 hm, hvt t ht]
          refine List.map_congr_left fun v hv => ?_
          rw [hone v hv, Nat.mod_one, Nat.mod_one]
        exact List.map_injective_iff.2 Nat.cast_injective e
      have h0 := (hks 0 hm).2
      rw [this] at h0
      rw [element_unique h0 (hks t ht).2]

/-- C87. The rewritten expression has, in each row of the data frame, the value of the expression at
that row: `x[cbind(i, j)]` are the elements `x[i, j]` one by one. -/
theorem c87 {fn : String → List RVal → Res RVal} {g : String → List ℝ → Option ℝ} {env : REnv}
    {m : ℕ} (hm : 0 < m) (hfn : Pointwise fn g m) {base : String → Prop} {e : Expr}
    (he : Plain base true e) {x : ℕ → ℝ}
    (hx : ∀ t < m, At g env m t e (x t)) :
    ∃ v, eval fn env (matrixIndexing e) = Except.ok (.vec v) ∧ Shape m v ∧
      ∀ t < m, v[t % v.length]? = some (x t) := by
  suffices H : ∀ b, Plain base b e → Good fn g env m e (matrixIndexing e) from H true he x hx
  clear hx he x
  intro b hb
  induction hb with
  | name s =>
    intro x hx
    rw [matrixIndexing]
    cases hx 0 hm with
    | name h1 h2 h3 =>
      rename_i v
      refine ⟨v, by rw [eval, h1], h2, fun t ht => ?_⟩
      cases hx t ht with
      | name h4 h5 h6 =>
        rw [h1] at h4
        cases h4
        exact h6
  | lit y =>
    intro x hx
    refine ⟨[y], by rw [matrixIndexing, eval], Or.inr rfl, fun t ht => ?_⟩
    cases hx t ht with
    | lit => simp [Nat.mod_one]
  | elem _ _ ih =>
    have := good_elem hm ih (s := ‹String›)
    rw [matrixIndexing, matrixIndexing, matrixIndexing]
    exact this
  | @elems s idx _ h2 hp ih =>
    have h := good_elems hm h2 (s := s) fun i hi => matrixIndexing_plain (hp i hi) ▸ ih i hi
    rcases idx with _ | ⟨i, _ | ⟨j, rest⟩⟩
    · simp at h2
    · simp at h2
    · rw [matrixIndexing]
      exact h
  | fn h1 h2 hp ih =>
    rename_i f args
    intro x hx
    have hinv : ∀ t, ∃ xs, t < m → List.Forall₂ (At g env m t) args xs ∧ g f xs = some (x t) := by
      intro t
      by_cases ht : t < m
      · cases hx t ht with
        | elem => exact absurd rfl h1
        | fn _ _ h3 h4 => exact ⟨_, fun _ => ⟨h3, h4⟩⟩
      · exact ⟨[], fun h => absurd h ht⟩
    choose xs hxs using hinv
    obtain ⟨vs, hvs, hss, -, hvt⟩ := evalList_good hm (fun t ht => (hxs t ht).1) ih
    obtain ⟨v, hv, hsv, hvx⟩ := hfn f vs x hss fun t ht => by
      rw [← hvt t ht]
      exact (hxs t ht).2
    refine ⟨v, ?_, hsv, hvx⟩
    rw [matrixIndexing_call h1, eval, hvs]
    have hn1 : isName (.name f) "[" = false := by simp [isName, h1]
    have hn2 : isName (.name f) "cbind" = false := by simp [isName, h2]
    simp only [res_ok_bind, hn1, hn2, Bool.false_eq_true, if_false]
    exact hv

/-- The value of an expression for given values of the indices is its value in their row. -/
theorem at_row {g : String → List ℝ → Option ℝ} {ixs : List String} {ls : List ℕ} {data : REnv}
    {T : List ℕ} {r : ℕ} (hr : (Indexing.Spec.grid ls)[r]? = some T) {b : Bool} {e : Expr}
    (he : Plain (· ∉ ixs) b e) : ∀ {x : ℝ}, At g (rowEnv ixs T data) 1 0 e x →
      At g (gridEnv ixs ls data) ls.prod r e x := by
  have hlt : r < ls.prod := by
    rw [← grid_length]
    exact (List.getElem?_eq_some_iff.1 hr).1
  induction he with
  | name s =>
    intro x hx
    cases hx with
    | name h1 h2 h3 =>
      rename_i v
      unfold rowEnv at h1
      by_cases hs : s ∈ ixs
      · rw [if_pos hs] at h1
        cases h1
        refine .name (by rw [gridEnv, if_pos hs]) (Or.inl (by rw [List.length_map, grid_length])) ?_
        rw [List.length_map, grid_length, Nat.mod_eq_of_lt hlt, List.getElem?_map, hr]
        exact h3
      · rw [if_neg hs] at h1
        have hv : v.length = 1 := by rcases h2 with h | h <;> exact h
        refine .name (by rw [gridEnv, if_neg hs, h1]) (Or.inr hv) ?_
        rw [hv, Nat.mod_one]
        rw [hv, Nat.mod_one] at h3
        exact h3
  | lit y =>
    intro x hx
    cases hx with
    | lit => exact .lit y
  | elem hs _ ih =>
    intro x hx
    cases hx with
    | elem h1 h2 h3 h4 =>
      obtain ⟨k, l, h5, h6, rfl⟩ := List.forall₂_cons_left_iff.1 h3
      cases h6
      refine .elem ?_ h2 (.cons (ih h5) .nil) h4
      rw [rowEnv, if_neg hs] at h1
      rw [gridEnv, if_neg hs, h1]
    | fn h => exact absurd rfl h
  | elems hs _ hp ih =>
    intro x hx
    cases hx with
    | elem h1 h2 h3 h4 =>
      refine .elem ?_ h2 (List.forall₂_iff_get.2 ⟨h3.length_eq, fun i h5 h6 => ?_⟩) h4
      · rw [rowEnv, if_neg hs] at h1
        rw [gridEnv, if_neg hs, h1]
      · exact ih _ (List.get_mem _ _) ((List.forall₂_iff_get.1 h3).2 i h5 h6)
    | fn h => exact absurd rfl h
  | fn h1 h2 hp ih =>
    intro x hx
    cases hx with
    | elem => exact absurd rfl h1
    | fn _ _ h3 h4 =>
      refine .fn h1 h2 (List.forall₂_iff_get.2 ⟨h3.length_eq, fun i h5 h6 => ?_⟩) h4
      exact ih _ (List.get_mem _ _) ((List.forall₂_iff_get.1 h3).2 i h5 h6)

/-- C87, the data frame of the subformula: in the row of the values `T` of the indices the rewritten
covariate has the value of the covariate for these values. (This is the row that `multi_to_flat`
gives for `T`, C46.) -/
theorem c87_grid {fn : String → List RVal → Res RVal} {g : String → List ℝ → Option ℝ}
    {ixs : List String} {ls : List ℕ} (hl : ∀ l ∈ ls, 0 < l) {data : REnv}
    (hfn : Pointwise fn g ls.prod) {e : Expr} (he : Plain (· ∉ ixs) true e) :
    Covariate fn g ixs ls data e (matrixIndexing e) := by
  intro X hX
  obtain ⟨v, hv, hs, hvt⟩ := c87 (x := fun r => X ((Indexing.Spec.grid ls).getD r []))
    (List.prod_pos hl) hfn he (env := gridEnv ixs ls data) (fun t ht => by
      have hr : (Indexing.Spec.grid ls)[t]? = some ((Indexing.Spec.grid ls).getD t []) := by
        rw [List.getD_eq_getElem?_getD, List.getElem?_eq_getElem (by rw [grid_length]; exact ht)]
        rfl
      exact at_row hr he (hX _ (grid_tuple (List.mem_of_getElem? hr))))
  refine ⟨v, hv, hs, fun r T hr => ?_⟩
  have hlt : r < ls.prod := by
    rw [← grid_length]
    exact (List.getElem?_eq_some_iff.1 hr).1
  rw [hvt r hlt, List.getD_eq_getElem?_getD, hr]
  rfl

theorem plain_mono {base : String → Prop} {b : Bool} {e : Expr} (h : Plain base b e) :
    Plain base true e := by
  induction h with
  | name s => exact .name s
  | lit x => exact .lit x
  | elem h1 _ ih => exact .elem h1 ih
  | elems h1 h2 h3 => exact .elems h1 h2 h3
  | fn h1 h2 _ ih => exact .fn h1 h2 ih

theorem mapM_length {α β : Type} {f : α → Res β} : ∀ {l : List α} {r : List β},
    l.mapM f = Except.ok r → r.length = l.length
  | [], r, h => by
    cases Except.ok.inj h
    rfl
  | a :: l, r, h => by
    rw [List.mapM_cons] at h
    rcases h1 : f a with e | b
    · rw [h1] at h; cases h
    rw [h1] at h
    simp only [res_ok_bind] at h
    rcases h2 : l.mapM f with e | bs
    · rw [h2] at h; cases h
    rw [h2] at h
    cases Except.ok.inj h
    rw [List.length_cons, List.length_cons, mapM_length h2]

theorem combos_two (v w : List ℝ) : (combos [v, w]).length = v.length * w.length := by
  simp [combos, List.length_flatMap, Function.comp_def, mul_comm]

/-- C87, what is not rewritten: inside the brackets of several indices a further `[` with several
indices is left as it is, and selects all combinations. The covariate then has the wrong length. -/
theorem c87_nested (fn : String → List RVal → Res RVal) {env : REnv} {m : ℕ} (hm : 2 ≤ m)
    {i j : List ℝ} (hi : i.length = m) (hj : j.length = m) (ei : env "i" = some (.vec i))
    (ej : env "j" = some (.vec j)) {dx dy : List ℕ} {x y : List ℝ} (hx : dx.length = 2)
    (ex : env "x" = some (.arr dx x)) (ey : env "y" = some (.arr dy y)) {v : List ℝ}
    (h : eval fn env (matrixIndexing (.call [.name "[", .name "x", .name "i",
      .call [.name "[", .name "y", .name "i", .name "j"]])) = Except.ok (.vec v)) :
    v.length = m * (m + 1) := by
  have h1 : isName (.name "[") "[" = true := by simp [isName]
  have h2 : isName (.name "cbind") "[" = false := by simp [isName]
  have h3 : isName (.name "cbind") "cbind" = true := by simp [isName]
  rw [matrixIndexing] at h
  simp only [eval, evalList, ei, ej, ex, ey, res_ok_bind, res_pure, h1, h2, h3, if_true] at h
  rcases hy : (combos [i, j]).mapM (elementAt dy y) with err | w
  · simp only [pickAll, List.map, RVal.data, hy, res_error_bind] at h
    cases h
  have hw : w.length = m * m := by rw [mapM_length hy, combos_two, hi, hj]
  have hd : dropDims [m, m] w = .arr [m, m] w := by
    have : m ≠ 1 := by omega
    simp [dropDims, this]
  simp only [pickAll, List.map, RVal.data, hy, res_ok_bind, res_pure, hi, hj, hd] at h
  rw [if_neg (by simp)] at h
  simp only [cbind, rowsOf, matrixRows, List.filterMap, List.mapM_cons, List.mapM_nil, columnOf,
    if_true, res_ok_bind, res_pure, List.map, columnsOf] at h
  have hc : [1, m].sum ≠ dx.length := by simp [hx]; omega
  simp only [pick, if_neg hc, pickLinear] at h
  generalize hl : [(List.range m).map fun t => i.getD (t % i.length) 0, w].flatten = l at h
  rcases hu : l.mapM (fun i => do
      let k ← toIndex i
      element x k) with err | u
  · rw [hu] at h
    cases h
  rw [hu] at h
  cases Except.ok.inj h
  rw [mapM_length hu, ← hl]
  simp [hw]
  ring

theorem matrixIndexing_rhs : ∀ {a : Rhs}, a.Operators →
    matrixIndexing a.expr = (a.map matrixIndexing).expr
  | .cov _, _ => rfl
  | .op o a b, h => by
    rw [Rhs.expr, matrixIndexing, matrixIndexing, matrixIndexing_rhs h.2.1,
      matrixIndexing_rhs h.2.2]
    rfl
  | .paren a, h => by
    rw [Rhs.expr, matrixIndexing, matrixIndexing, matrixIndexing_rhs (a := a) h]
    rfl

theorem rhs_map_id : ∀ a : Rhs, a.map id = a
  | .cov _ => rfl
  | .op o a b => by rw [Rhs.map, rhs_map_id a, rhs_map_id b]
  | .paren a => by rw [Rhs.map, rhs_map_id a]

/-- C87: the subformula `v[i, j, …] ~ rhs` becomes `v ~ rhs'`, where `rhs'` is `rhs` with each of its
covariates replaced by one which, in the data frame of all combinations of the indices, has the value
of the covariate for the indices of the row. With one index nothing is rewritten. -/
theorem c87_formula {fn : String → List RVal → Res RVal} {g : String → List ℝ → Option ℝ}
    {ixs : List String} {ls : List ℕ} (hl : ∀ l ∈ ls, 0 < l) {data : REnv}
    (hfn : Pointwise fn g ls.prod) {v : String} {is : List Expr} {a : Rhs} (ha : a.Operators)
    (hp : ∀ e ∈ a.covs, Plain (· ∉ ixs) (decide (ls.length > 1)) e) :
    ∃ f : Expr → Expr,
      flattenFormula (.call [.name "~", .call (.name "[" :: .name v :: is), a.expr]) ls.length =
        Except.ok (.call [.name "~", .name v, (a.map f).expr]) ∧
      ∀ e ∈ a.covs, Covariate fn g ixs ls data e (f e) := by
  have hv : findSubvar (.call [.name "~", .call (.name "[" :: .name v :: is), a.expr]) =
      Except.ok v := by
    simp [findSubvar, dropIndex, isName]
  by_cases hd : ls.length > 1
  · refine ⟨matrixIndexing, ?_, fun e he => ?_⟩
    · unfold flattenFormula
      rw [hv]
      simp only [res_ok_bind, res_pure, if_pos hd, matrixIndexing, matrixIndexing_rhs ha]
    · have := hp e he
      rw [decide_eq_true hd] at this
      exact c87_grid hl hfn this
  · refine ⟨id, ?_, fun e he => ?_⟩
    · unfold flattenFormula
      rw [hv, rhs_map_id]
      simp only [res_ok_bind, res_pure, if_neg hd]
    · have h := hp e he
      rw [decide_eq_false hd] at h
      have h1 := c87_grid hl hfn (plain_mono h) (data := data)
      rwa [matrixIndexing_plain h] at h1

/-- C87, with one index: `x[i, i]` is not rewritten, and is the matrix of all combinations. -/
theorem c87_one (fn : String → List RVal → Res RVal) {env : REnv} {m : ℕ} (hm : 2 ≤ m)
    {i : List ℝ} (hi : i.length = m) (ei : env "i" = some (.vec i)) {dx : List ℕ} {x : List ℝ}
    (ex : env "x" = some (.arr dx x)) {e : Expr}
    (he : e = .call [.name "[", .name "x", .name "i", .name "i"]) :
    flattenFormula (.call [.name "~", .call [.name "[", .name "v", .name "i"], e]) 1 =
      Except.ok (.call [.name "~", .name "v", e]) ∧
    ∀ w, eval fn env e ≠ Except.ok (.vec w) := by
  subst he
  refine ⟨by simp [flattenFormula, findSubvar, dropIndex, isName, res_ok_bind, res_pure], ?_⟩
  intro w h
  have h1 : isName (.name "[") "[" = true := by simp [isName]
  simp only [eval, evalList, ei, ex, res_ok_bind, res_pure, h1, if_true] at h
  have hd : ∀ w, dropDims [m, m] w = .arr [m, m] w := by
    have : m ≠ 1 := by omega
    simp [dropDims, this]
  simp only [pickAll, List.map, RVal.data, hi, hd] at h
  rcases hy : (combos [i, i]).mapM (elementAt dx x) with err | u
  · rw [hy] at h
    cases h
  · rw [hy] at h
    cases Except.ok.inj h

/-! ## A case -/

/-- Minus. -/
noncomputable def minus (f : String) (vs : List RVal) : Res RVal :=
  match f, vs with
  | "-", [.vec v] => Except.ok (.vec (v.map fun x => -x))
  | _, _ => Res.raise "could not find function"

/-- Minus, of a number. -/
noncomputable def minusAt (f : String) (xs : List ℝ) : Option ℝ :=
  match f, xs with
  | "-", [x] => some (-x)
  | _, _ => none

theorem minus_pointwise {m : ℕ} (hm : 0 < m) : Pointwise minus minusAt m := by
  intro f vs x hs hg
  have h0 := hg 0 hm
  unfold minusAt at h0
  split at h0
  · rename_i y hy
    rcases vs with _ | ⟨v, _ | ⟨w, vs⟩⟩
    · cases hy
    · refine ⟨v.map fun x => -x, rfl, by rw [Shape, List.length_map]; exact hs v (by simp), ?_⟩
      intro t ht
      have h1 := hg t ht
      simp only [List.map, minusAt, Option.some.injEq] at h1
      have hv : 0 < v.length := by
        rcases hs v (by simp) with h | h <;> omega
      rw [List.length_map, List.getElem?_map, ← h1, List.getD_eq_getElem?_getD,
        List.getElem?_eq_getElem (Nat.mod_lt t hv)]
      rfl
    · simp at hy
  · cases h0

/-- A 2 × 3 array `x` and a vector `w`. -/
noncomputable def caseData : REnv := fun s =>
  if s = "x" then some (.arr [2, 3] [10, 11, 12, 13, 14, 15])
  else if s = "w" then some (.vec [5, 6]) else none

/-- `-x[i, j]`. -/
def caseCov : Expr := .call [.name "-", .call [.name "[", .name "x", .name "i", .name "j"]]

/-- `-x[i, j] + (1 | w[i])`. -/
def caseRhs : Rhs := .op "+" (.cov caseCov)
  (.paren (.op "|" (.cov (.lit (.num 1))) (.cov (.call [.name "[", .name "w", .name "i"]))))

theorem caseCov_at (T : List ℕ) (hT : Indexing.Spec.IsTuple T [2, 3]) :
    At minusAt (rowEnv ["i", "j"] T caseData) 1 0 caseCov
      (-(10 + ((T.getD 0 0 : ℕ) - 1) + 2 * ((T.getD 1 0 : ℕ) - 1))) := by
  rcases T with _ | ⟨a, _ | ⟨b, _ | ⟨c, T⟩⟩⟩
  · cases hT
  · rcases hT with _ | ⟨_, h⟩
    cases h
  · obtain ⟨h1, h2⟩ := List.forall₂_cons.1 hT
    obtain ⟨h3, -⟩ := List.forall₂_cons.1 h2
    have hi : At minusAt (rowEnv ["i", "j"] [a, b] caseData) 1 0 (.name "i") (a : ℝ) :=
      .name (v := [(a : ℝ)]) (by simp [rowEnv]) (Or.inl rfl) rfl
    have hj : At minusAt (rowEnv ["i", "j"] [a, b] caseData) 1 0 (.name "j") (b : ℝ) :=
      .name (v := [(b : ℝ)]) (by simp [rowEnv, List.idxOf_cons]) (Or.inl rfl) rfl
    refine .fn (xs := [_]) (by decide) (by decide) (.cons (.elem (idx := [.name "i", .name "j"])
      (ks := [a, b]) (X := .arr [2, 3] [10, 11, 12, 13, 14, 15]) (by simp [rowEnv, caseData]) (by simp)
      (.cons hi (.cons hj .nil)) (.arr (r := (a - 1) + 2 * (b - 1)) ?_ ?_)) .nil) rfl
    · obtain ⟨ha, ha'⟩ := h1
      obtain ⟨hb, hb'⟩ := h3
      interval_cases a <;> interval_cases b <;> decide
    · obtain ⟨ha, ha'⟩ := h1
      obtain ⟨hb, hb'⟩ := h3
      interval_cases a <;> interval_cases b <;> norm_num
  · obtain ⟨-, h2⟩ := List.forall₂_cons.1 hT
    obtain ⟨-, h3⟩ := List.forall₂_cons.1 h2
    cases h3

/-- The hypotheses of `c87_formula` are met: in the row of `i = 2`, `j = 3` is `-x[2, 3] = -15`. -/
example : ∃ f : Expr → Expr,
    flattenFormula (.call [.name "~", .call [.name "[", .name "p", .name "i", .name "j"],
      caseRhs.expr]) 2 = Except.ok (.call [.name "~", .name "p", (caseRhs.map f).expr]) ∧
    ∃ v, eval minus (gridEnv ["i", "j"] [2, 3] caseData) (f caseCov) = Except.ok (.vec v) ∧
      v[5 % v.length]? = some (-15) := by
  obtain ⟨f, hf, hc⟩ := c87_formula (fn := minus) (g := minusAt) (ixs := ["i", "j"]) (ls := [2, 3])
    (data := caseData) (v := "p") (is := [.name "i", .name "j"]) (a := caseRhs) (by decide)
    (minus_pointwise (by decide)) (by simp [caseRhs, Rhs.Operators]) (by
      intro e he
      simp only [caseRhs, Rhs.covs, List.cons_append, List.nil_append, List.mem_cons,
        List.not_mem_nil, or_false] at he
      rcases he with rfl | rfl | rfl
      · refine .fn (by decide) (by decide) ?_
        intro a ha
        cases List.mem_singleton.1 ha
        refine .elems (by decide) (by decide) ?_
        intro i hi
        fin_cases hi
        · exact .name _
        · exact .name _
      · exact .lit 1
      · exact .elem (by decide) (.name _))
  refine ⟨f, hf, ?_⟩
  obtain ⟨v, hv, -, hr⟩ := hc caseCov (by simp [caseRhs, Rhs.covs]) _ caseCov_at
  refine ⟨v, hv, ?_⟩
  rw [hr 5 [2, 3] (by decide)]
  norm_num

/-- The hypotheses of `c87_nested` are met: `x[i, y[i, j]]` with two rows has 6 values. -/
example (fn : String → List RVal → Res RVal) {env : REnv}
    (ei : env "i" = some (.vec [1, 1])) (ej : env "j" = some (.vec [1, 1]))
    (ex : env "x" = some (.arr [1, 1] [7])) (ey : env "y" = some (.arr [1, 1] [1])) :
    eval fn env (matrixIndexing (.call [.name "[", .name "x", .name "i",
      .call [.name "[", .name "y", .name "i", .name "j"]])) =
      Except.ok (.vec [7, 7, 7, 7, 7, 7]) := by
  have h0 : toIndex 1 = Except.ok 1 := by
    have := toIndex_eq (k := 1) le_rfl
    rwa [Nat.cast_one] at this
  have h1 : ∀ w, rowsOf [.vec [1, 1], .arr [2, 2] w] = 2 := fun _ => rfl
  simp [matrixIndexing, isName, eval, evalList, ei, ej, ex, ey, pickAll, combos, elementAt, h0, offset,
    element, dropDims, cbind, h1, columnOf, columnsOf, pick, pickLinear, RVal.data,
    res_ok_bind, res_pure, List.range_succ]

end Verif.Flatten
