import Verif.Props.SubMatch

/-!
# C68, C69: consistent indexing, and one term for each subformula
-/
namespace Verif.SubExpr

open Verif.Frames Verif.SubExpr.Spec

/-! ## C68 -/

/-- Specification: somewhere in the expression the variable `y` is indexed by `k` indices. -/
inductive Spec.IndexCall (y : String) (k : ℕ) : Expr → Prop
  | here (idx : List Expr) : idx.length = k → IndexCall y k (.call (.name "[" :: .name y :: idx))
  | inside {x : Expr} {xs : List Expr} : x ∈ xs → IndexCall y k x → IndexCall y k (.call xs)

theorem dimOwn_keeps {var : String} {h : Expr} {rest : List Expr} {d d' : Option ℕ}
    (e : dimOwn var h rest d = Except.ok d') {k : ℕ} (hk : d = some k) : d' = some k := by
  subst hk
  unfold dimOwn at e
  split at e
  · split_ifs at e with h1
    · dsimp only at e
      split_ifs at e
      · cases e
      · exact (Except.ok.inj e).symm
    · exact (Except.ok.inj e).symm
  · exact (Except.ok.inj e).symm

theorem dimOwn_here {var : String} {idx : List Expr} {d d' : Option ℕ}
    (e : dimOwn var (.name "[") (.name var :: idx) d = Except.ok d') : d' = some idx.length := by
  unfold dimOwn at e
  dsimp only at e
  rw [if_pos (by simp [isName])] at e
  rcases d with _ | d
  · exact (Except.ok.inj e).symm
  · dsimp only at e
    split_ifs at e with h
    · cases e
    · have := (Except.ok.inj e).symm
      rw [not_not] at h
      rw [this, h]

theorem dimOwn_new {var : String} {h : Expr} {rest : List Expr} {d : Option ℕ} {k : ℕ}
    (e : dimOwn var h rest d = Except.ok (some k)) :
    d = some k ∨ IndexCall var k (.call (h :: rest)) := by
  unfold dimOwn at e
  split at e
  · rename_i a idx
    split_ifs at e with h1
    · rw [Bool.and_eq_true, isName_iff, isName_iff] at h1
      obtain ⟨rfl, rfl⟩ := h1
      rcases d with _ | d
      · right
        exact .here _ (Option.some.inj (Except.ok.inj e))
      · dsimp only at e
        split_ifs at e
        · cases e
        · exact Or.inl (Except.ok.inj e)
    · exact Or.inl (Except.ok.inj e)
  · exact Or.inl (Except.ok.inj e)

mutual
theorem findDim_keeps {var : String} {k : ℕ} : ∀ {x : Expr} {d' : Option ℕ},
    findDim var x (some k) = Except.ok d' → d' = some k
  | .name _, d', e => by
    rw [findDim] at e
    exact (Except.ok.inj e).symm
  | .lit _, d', e => by
    rw [findDim] at e
    exact (Except.ok.inj e).symm
  | .call [], d', e => by
    rw [findDim] at e
    exact (Except.ok.inj e).symm
  | .call (h :: rest), d', e => by
    rw [findDim] at e
    rcases h1 : dimOwn var h rest (some k) with err | d1
    · rw [h1] at e
      cases e
    rw [h1] at e
    simp only [res_ok_bind] at e
    have := dimOwn_keeps h1 rfl
    subst this
    rcases h2 : findDim var h (some k) with err | d2
    · rw [h2] at e
      cases e
    rw [h2] at e
    simp only [res_ok_bind] at e
    have := findDim_keeps h2
    subst this
    exact findDimList_keeps e

theorem findDimList_keeps {var : String} {k : ℕ} : ∀ {xs : List Expr} {d' : Option ℕ},
    findDimList var xs (some k) = Except.ok d' → d' = some k
  | [], d', e => by
    rw [findDimList] at e
    exact (Except.ok.inj e).symm
  | x :: xs, d', e => by
    rw [findDimList] at e
    rcases h2 : findDim var x (some k) with err | d2
    · rw [h2] at e
      cases e
    rw [h2] at e
    simp only [res_ok_bind] at e
    have := findDim_keeps h2
    subst this
    exact findDimList_keeps e
end

mutual
theorem findDim_all {var : String} {k : ℕ} : ∀ {x : Expr} {d d' : Option ℕ},
    findDim var x d = Except.ok d' → IndexCall var k x → d' = some k
  | .name _, _, _, _, hi => by cases hi
  | .lit _, _, _, _, hi => by cases hi
  | .call [], _, _, _, hi => by
    cases hi with
    | inside hx _ => cases hx
  | .call (h :: rest), d, d', e, hi => by
    rw [findDim] at e
    rcases h1 : dimOwn var h rest d with err | d1
    · rw [h1] at e
      cases e
    rw [h1] at e
    simp only [res_ok_bind] at e
    rcases h2 : findDim var h d1 with err | d2
    · rw [h2] at e
      cases e
    rw [h2] at e
    simp only [res_ok_bind] at e
    cases hi with
    | here idx hk =>
      have := dimOwn_here h1
      rw [hk] at this
      subst this
      have := findDim_keeps h2
      subst this
      exact findDimList_keeps e
    | inside hx hi =>
      rcases List.mem_cons.1 hx with hx | hx
      · rw [hx] at hi
        have := findDim_all h2 hi
        subst this
        exact findDimList_keeps e
      · exact findDimList_all e hx hi

theorem findDimList_all {var : String} {k : ℕ} : ∀ {xs : List Expr} {d d' : Option ℕ} {x : Expr},
    findDimList var xs d = Except.ok d' → x ∈ xs → IndexCall var k x → d' = some k
  | [], _, _, _, _, hx, _ => by cases hx
  | y :: ys, d, d', x, e, hx, hi => by
    rw [findDimList] at e
    rcases h2 : findDim var y d with err | d2
    · rw [h2] at e
      cases e
    rw [h2] at e
    simp only [res_ok_bind] at e
    rcases List.mem_cons.1 hx with hx | hx
    · rw [hx] at hi
      have := findDim_all h2 hi
      subst this
      exact findDimList_keeps e
    · exact findDimList_all e hx hi
end

mutual
theorem findDim_new {var : String} {k : ℕ} : ∀ {x : Expr} {d : Option ℕ},
    findDim var x d = Except.ok (some k) → d = some k ∨ IndexCall var k x
  | .name _, d, e => by
    rw [findDim] at e
    exact Or.inl (Except.ok.inj e)
  | .lit _, d, e => by
    rw [findDim] at e
    exact Or.inl (Except.ok.inj e)
  | .call [], d, e => by
    rw [findDim] at e
    exact Or.inl (Except.ok.inj e)
  | .call (h :: rest), d, e => by
    rw [findDim] at e
    rcases h1 : dimOwn var h rest d with err | d1
    · rw [h1] at e
      cases e
    rw [h1] at e
    simp only [res_ok_bind] at e
    rcases h2 : findDim var h d1 with err | d2
    · rw [h2] at e
      cases e
    rw [h2] at e
    simp only [res_ok_bind] at e
    rcases findDimList_new e with rfl | ⟨x, hx, hi⟩
    · rcases findDim_new h2 with rfl | hi
      · exact dimOwn_new h1
      · exact Or.inr (.inside List.mem_cons_self hi)
    · exact Or.inr (.inside (List.mem_cons_of_mem _ hx) hi)

theorem findDimList_new {var : String} {k : ℕ} : ∀ {xs : List Expr} {d : Option ℕ},
    findDimList var xs d = Except.ok (some k) → d = some k ∨ ∃ x ∈ xs, IndexCall var k x
  | [], d, e => by
    rw [findDimList] at e
    exact Or.inl (Except.ok.inj e)
  | y :: ys, d, e => by
    rw [findDimList] at e
    rcases h2 : findDim var y d with err | d2
    · rw [h2] at e
      cases e
    rw [h2] at e
    simp only [res_ok_bind] at e
    rcases findDimList_new e with rfl | ⟨x, hx, hi⟩
    · rcases findDim_new h2 with rfl | hi
      · exact Or.inl rfl
      · exact Or.inr ⟨y, List.mem_cons_self, hi⟩
    · exact Or.inr ⟨x, List.mem_cons_of_mem _ hx, hi⟩
end

/-- C68: for every expression, whatever R does with it, if the `Sub(.)` term is accepted then the
substituted variable is indexed in it, and everywhere by as many indices as in its subformula. -/
theorem c68 {host : Host} {subvar : String} {subexpr : Expr} {lengths : List ℕ} {f : Frame}
    {data : Env} {v : Val} (h : parseSub host subvar subexpr lengths f data = Except.ok v) :
    (∃ k, IndexCall subvar k subexpr) ∧ ∀ k, IndexCall subvar k subexpr → k = lengths.length := by
  unfold parseSub at h
  rcases hd : findDim subvar subexpr none with err | d
  · rw [hd] at h
    cases h
  rw [hd] at h
  simp only [res_ok_bind] at h
  split_ifs at h with hne
  · cases h
  rw [not_not] at hne
  subst hne
  constructor
  · rcases findDim_new hd with h | h
    · cases h
    · exact ⟨_, h⟩
  · intro k hk
    exact (Option.some.inj (findDim_all hd hk)).symm

/-- `a[i] + a[i, j]`, whatever the lengths and the data. -/
example (host : Host) (lengths : List ℕ) (f : Frame) (data : Env) (v : Val) :
    parseSub host "a" (.call [.name "+", .call [.name "[", .name "a", .name "i"],
      .call [.name "[", .name "a", .name "i", .name "j"]]) lengths f data ≠ Except.ok v := by
  intro h
  obtain ⟨-, h2⟩ := c68 h
  have h1 := h2 1 (.inside (x := .call [.name "[", .name "a", .name "i"]) (by simp) (.here _ rfl))
  have h2 := h2 2 (.inside (x := .call [.name "[", .name "a", .name "i", .name "j"]) (by simp)
    (.here _ rfl))
  omega

/-! ## C69 -/

/-- Specification: the first of the variables that occurs in the expression. -/
def Spec.first (vars : List String) (e : Expr) : Option String :=
  (names e).find? fun x => decide (x ∈ vars)

theorem head?_eraseDups {l : List String} : l.eraseDups.head? = l.head? := by
  rcases l with _ | ⟨x, l⟩
  · rfl
  · rw [List.eraseDups_cons]
    rfl

mutual
theorem findVars_head (vars : List String) : ∀ e : Expr, (findVars vars e).head? = first vars e
  | .lit _ => by simp [findVars, first, names]
  | .name x => by
    rw [findVars, first, names]
    by_cases h : x ∈ vars
    · rw [if_pos (List.contains_iff_mem.2 h), List.find?_cons_of_pos (by simpa using h)]
      rfl
    · rw [if_neg (fun hc => h (List.contains_iff_mem.1 hc)),
        List.find?_cons_of_neg (by simpa using h)]
      rfl
  | .call xs => by
    rw [findVars, head?_eraseDups, first, names]
    exact findVarsList_head vars xs

theorem findVarsList_head (vars : List String) : ∀ xs : List Expr, (findVarsList vars xs).head? =
    (namesList xs).find? fun x => decide (x ∈ vars)
  | [] => by simp [findVarsList, namesList]
  | x :: xs => by
    rw [findVarsList, namesList, List.find?_append, List.head?_append, findVars_head,
      findVarsList_head, first]
end

theorem mapM_firstIs {subvar : String} : ∀ {l : List (List String)} {r : List Bool},
    l.mapM (firstIs subvar) = Except.ok r →
      r = l.map fun x => decide (x.head? = some subvar) := by
  intro l r h
  replace h := mapM_inv h
  induction h with
  | nil => rfl
  | @cons a b l1 l2 hab _ ih =>
    rw [List.map_cons, ih]
    congr 1
    rcases a with _ | ⟨v, a⟩
    · cases hab
    · have := (Except.ok.inj hab).symm
      subst this
      simp

theorem zip_filter {α : Type} (l : List α) (p : α → Bool) :
    ((l.zip (l.map p)).filter fun x => x.2) = (l.filter p).map fun x => (x, true) := by
  induction l with
  | nil => rfl
  | cons a l ih =>
    rw [List.map_cons, List.zip_cons_cons, List.filter_cons, List.filter_cons, ih]
    cases p a <;> rfl

/-- C69: for all subformulas and `Sub(.)` terms, if they are matched then each subformula has at most
one term whose first substituted variable is its own, and is given exactly that term; it is given none
(and a warning) only if there is none. -/
theorem c69 {subvars : List String} {subexprs : List Expr} {r : List (Option (String × Expr))}
    (h : matchSub subvars subexprs = Except.ok r) :
    List.Forall₂ (fun v o =>
      (o = none ∧ ∀ e ∈ subexprs, first subvars e ≠ some v) ∨
      ∃ l e l', o = some (v, e) ∧ subexprs = l ++ e :: l' ∧ first subvars e = some v ∧
        ∀ e' ∈ l ++ l', first subvars e' ≠ some v) subvars r := by
  unfold matchSub at h
  dsimp only at h
  rw [if_neg (c51_check _)] at h
  split at h
  · cases h
  refine (mapM_inv h).imp fun v o ho => ?_
  unfold addSubexpr at ho
  rcases hf : (subexprs.map (findVars subvars)).mapM (firstIs v) with err | firsts
  · rw [hf] at ho
    cases ho
  rw [hf] at ho
  simp only [res_ok_bind] at ho
  have hfi := mapM_firstIs hf
  rw [List.map_map] at hfi
  have hfi : firsts = subexprs.map fun e => decide (first subvars e = some v) := by
    rw [hfi]
    refine List.map_congr_left fun e _ => ?_
    simp only [Function.comp_apply, findVars_head]
  rw [hfi, zip_filter] at ho
  rcases hl : subexprs.filter (fun e => decide (first subvars e = some v)) with _ | ⟨e, _ | ⟨e', l⟩⟩
  · left
    rw [hl] at ho
    refine ⟨(Except.ok.inj ho).symm, fun e he hv => ?_⟩
    have : e ∈ subexprs.filter (fun e => decide (first subvars e = some v)) :=
      List.mem_filter.2 ⟨he, decide_eq_true hv⟩
    rw [hl] at this
    cases this
  · right
    rw [hl] at ho
    have ho := (Except.ok.inj ho).symm
    obtain ⟨l1, l2, rfl, h1, hp, h2⟩ := List.filter_eq_cons_iff.1 hl
    refine ⟨l1, e, l2, ho, rfl, of_decide_eq_true hp, ?_⟩
    intro e' he'
    rcases List.mem_append.1 he' with he' | he'
    · have := h1 e' he'
      simpa using this
    · have := List.filter_eq_nil_iff.1 h2 e' he'
      simpa using this
  · rw [hl] at ho
    cases ho

/-- Two terms with the same variable are always rejected. -/
theorem c69_repeated {subvars : List String} {subexprs : List Expr} {v : String} (hv : v ∈ subvars)
    {l1 l2 l3 : List Expr} {e e' : Expr} (hs : subexprs = l1 ++ e :: (l2 ++ e' :: l3))
    (h1 : first subvars e = some v) (h2 : first subvars e' = some v)
    (r : List (Option (String × Expr))) : matchSub subvars subexprs ≠ Except.ok r := by
  intro h
  have hall := c69 h
  obtain ⟨i, hi, hvi⟩ := List.mem_iff_getElem.1 hv
  have ho := (List.forall₂_iff_get.1 hall).2 i hi (hall.length_eq ▸ hi)
  have hvi : subvars.get ⟨i, hi⟩ = v := hvi
  rw [hvi] at ho
  have he : e ∈ subexprs := by
    rw [hs]
    simp
  rcases ho with ⟨-, hn⟩ | ⟨l, x, l', -, hx, hfx, hne⟩
  · exact hn e he h1
  · have hc : subexprs.countP (fun e => decide (first subvars e = some v)) = 1 := by
      rw [hx, List.countP_append, List.countP_cons, if_pos (decide_eq_true hfx),
        List.countP_eq_zero.2 (fun a ha => by simpa using hne a (List.mem_append_left _ ha)),
        List.countP_eq_zero.2 (fun a ha => by simpa using hne a (List.mem_append_right _ ha))]
    rw [hs, List.countP_append, List.countP_cons, List.countP_append, List.countP_cons,
      if_pos (decide_eq_true h1), if_pos (decide_eq_true h2)] at hc
    omega

/-- If the frames are made, every subformula has exactly one term of its own: a subformula without one
does not only give a warning, but stops. -/
theorem c69_frames {host : Host} {make : String → List ℕ × Frame × Env} {subvars : List String}
    {subexprs : List Expr} {Fs : List Val} (h : subFrames host make subvars subexprs = Except.ok Fs) :
    List.Forall₂ (fun v F => ∃ l e l', subexprs = l ++ e :: l' ∧ first subvars e = some v ∧
      (∀ e' ∈ l ++ l', first subvars e' ≠ some v) ∧
      parseSub host v e (make v).1 (make v).2.1 (make v).2.2 = Except.ok F) subvars Fs := by
  unfold subFrames at h
  rcases hm : matchSub subvars subexprs with err | r
  · rw [hm] at h
    cases h
  rw [hm] at h
  simp only [res_ok_bind] at h
  have h1 := c69 hm
  have h2 := mapM_inv h
  refine List.forall₂_iff_get.2 ⟨h1.length_eq.trans h2.length_eq, fun i hi hi' => ?_⟩
  have hir : i < r.length := h1.length_eq ▸ hi
  have a := (List.forall₂_iff_get.1 h1).2 i hi hir
  have b := (List.forall₂_iff_get.1 h2).2 i hir hi'
  rcases a with ⟨ha, -⟩ | ⟨l, e, l', ha, h3, h4, h5⟩
  · rw [ha] at b
    cases b
  · rw [ha] at b
    exact ⟨l, e, l', h3, h4, h5, b⟩

/-- Two terms in two variables, and a repeated term. -/
example : (∃ r, matchSub ["a", "b"] bothExprs = Except.ok r) ∧
    ∀ r, matchSub ["a", "b"] [at1 "a" "i", at1 "b" "i", at1 "a" "j"] ≠ Except.ok r := by
  refine ⟨?_, fun r => c69_repeated (v := "a") (l1 := []) (e := at1 "a" "i") (l2 := [at1 "b" "i"])
    (e' := at1 "a" "j") (l3 := []) (by decide) rfl (by decide) (by decide) r⟩
  obtain ⟨-, Fs, h⟩ := c51_violated
  unfold subFrames at h
  rcases hm : matchSub ["a", "b"] bothExprs with err | r
  · rw [hm] at h
    cases h
  · exact ⟨r, rfl⟩

/-- The hypothesis of `c69_frames` is met; and with the subformula `c` as well the frames are not made. -/
example : (∃ Fs, subFrames smallHost (fun _ => ([1], lineFrame 1, bothData)) ["a", "b"] bothExprs =
      Except.ok Fs) ∧
    ∀ Fs, subFrames smallHost (fun _ => ([1], lineFrame 1, bothData)) ["a", "b", "c"] bothExprs ≠
      Except.ok Fs := by
  refine ⟨c51_violated.2, fun Fs h => ?_⟩
  have h1 := c69_frames h
  obtain ⟨_, _, -, h2, -⟩ := List.forall₂_cons_left_iff.1 h1
  obtain ⟨_, _, -, h3, -⟩ := List.forall₂_cons_left_iff.1 h2
  obtain ⟨_, _, ⟨l, e, l', he, hf, -⟩, -, -⟩ := List.forall₂_cons_left_iff.1 h3
  have hm : e ∈ bothExprs := by
    rw [he]
    simp
  have hall : ∀ e ∈ bothExprs, first ["a", "b", "c"] e ≠ some "c" := by decide
  exact hall e hm hf

/-! ## C51: which lists of terms are matched -/

theorem mapM_firstIs_ok (subvar : String) : ∀ {l : List (List String)}, (∀ x ∈ l, x ≠ []) →
    ∃ r, l.mapM (firstIs subvar) = Except.ok r
  | [], _ => ⟨[], rfl⟩
  | [] :: _, h => absurd rfl (h [] List.mem_cons_self)
  | (v :: a) :: l, h => by
    obtain ⟨r, hr⟩ := mapM_firstIs_ok subvar (l := l) fun x hx => h x (List.mem_cons_of_mem _ hx)
    refine ⟨decide (v = subvar) :: r, ?_⟩
    rw [List.mapM_cons, show firstIs subvar (v :: a) = Except.ok (decide (v = subvar)) from rfl,
      res_ok_bind, hr, res_ok_bind, res_pure]

theorem mapM_exists {α β : Type} {f : α → Res β} : ∀ {l : List α}, (∀ x ∈ l, ∃ y, f x = Except.ok y) →
    ∃ r, l.mapM f = Except.ok r
  | [], _ => ⟨[], rfl⟩
  | a :: l, h => by
    obtain ⟨y, hy⟩ := h a List.mem_cons_self
    obtain ⟨r, hr⟩ := mapM_exists (l := l) fun x hx => h x (List.mem_cons_of_mem _ hx)
    exact ⟨y :: r, by rw [List.mapM_cons, hy, res_ok_bind, hr, res_ok_bind, res_pure]⟩

/-- C51, exactly: for all subformulas and all non-empty lists of `Sub(.)` terms, the terms are matched
if and only if each involves a substituted variable and no two have the same first substituted variable.
How many variables a term involves does not matter. -/
theorem c51_iff (subvars : List String) {subexprs : List Expr} (hne : subexprs ≠ []) :
    (∃ r, matchSub subvars subexprs = Except.ok r) ↔
      (∀ e ∈ subexprs, ¬ InvolvesNone subvars e) ∧
      ∀ v ∈ subvars, ∀ l1 e l2 e' l3, subexprs = l1 ++ e :: (l2 ++ e' :: l3) →
        ¬ (first subvars e = some v ∧ first subvars e' = some v) := by
  constructor
  · rintro ⟨r, h⟩
    exact ⟨c51_partial h, fun v hv l1 e l2 e' l3 hs hf => c69_repeated hv hs hf.1 hf.2 r h⟩
  · rintro ⟨h1, h2⟩
    have hsome : ∀ x ∈ subexprs.map (findVars subvars), x ≠ [] := by
      intro x hx
      obtain ⟨e, he, rfl⟩ := List.mem_map.1 hx
      exact fun h0 => h1 e he (findVars_nil.1 h0)
    unfold matchSub
    dsimp only
    rw [if_neg (c51_check _), if_neg]
    · refine mapM_exists fun v hv => ?_
      obtain ⟨firsts, hf⟩ := mapM_firstIs_ok v hsome
      unfold addSubexpr
      rw [hf, res_ok_bind]
      have hfi := mapM_firstIs hf
      rw [List.map_map] at hfi
      have hfi : firsts = subexprs.map fun e => decide (first subvars e = some v) := by
        rw [hfi]
        refine List.map_congr_left fun e _ => ?_
        simp only [Function.comp_apply, findVars_head]
      rw [hfi, zip_filter]
      rcases hl : subexprs.filter (fun e => decide (first subvars e = some v)) with
        _ | ⟨e, _ | ⟨e', l⟩⟩
      · exact ⟨_, rfl⟩
      · exact ⟨_, rfl⟩
      · exfalso
        obtain ⟨l1, l2, hs, -, hp, hl2⟩ := List.filter_eq_cons_iff.1 hl
        obtain ⟨l3, l4, rfl, -, hp', -⟩ := List.filter_eq_cons_iff.1 hl2
        exact h2 v hv l1 e l3 e' l4 hs ⟨of_decide_eq_true hp, of_decide_eq_true hp'⟩
    · rcases subexprs with _ | ⟨e, l⟩
      · exact absurd rfl hne
      · have : findVars subvars e ≠ [] := hsome _ (List.mem_map_of_mem List.mem_cons_self)
        have hpos : (findVars subvars e).length ≠ 0 := by simpa using this
        unfold anyNum
        rw [if_pos (by simp [hpos])]
        omega

/-- Both sides occur: `a[i] * b` and `b[i]` are matched, `x[i]` is not. -/
example : (∃ r, matchSub ["a", "b"] bothExprs = Except.ok r) ∧
    ¬ ∃ r, matchSub ["a", "b"] [at1 "a" "i", at1 "x" "i"] = Except.ok r := by
  constructor
  · obtain ⟨-, Fs, h⟩ := c51_violated
    unfold subFrames at h
    rcases hm : matchSub ["a", "b"] bothExprs with err | r
    · rw [hm] at h
      cases h
    · exact ⟨r, rfl⟩
  · rw [c51_iff _ (by simp)]
    rintro ⟨h, -⟩
    refine h (at1 "x" "i") (by simp) fun v hv => ?_
    revert v
    decide

end Verif.SubExpr
