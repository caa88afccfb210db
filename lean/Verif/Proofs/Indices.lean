import Verif.Spec.Indices
import Verif.Proofs.SubExpr
import Verif.Proofs.IS

/-!
# The indices of a subformula: what the code finds
-/
namespace Verif.SubExpr

open Verif.Frames Verif.Indexing Verif.SubExpr.Spec

/-! ## `find_indices` -/

theorem isName_self (s : String) : isName (.name s) s = true := by simp [isName]

theorem findIndices_here {i : ℕ} {y : String} {idx l : List String}
    (h : findIndices i y (.call (.name "[" :: .name y :: idx.map .name)) = Except.ok l) :
    ∃ s, idx[i - 1]? = some s ∧ l = [s] := by
  rw [findIndices, if_pos (by simp [isName])] at h
  rw [List.getElem?_map] at h
  rcases hs : idx[i - 1]? with _ | s
  · rw [hs] at h
    cases h
  · rw [hs] at h
    exact ⟨s, rfl, (Except.ok.inj h).symm⟩

theorem findIndices_two {i : ℕ} {y f : String} {a b : Expr} {l : List String} (hf : f ≠ "[")
    (h : findIndices i y (.call [.name f, a, b]) = Except.ok l) :
    ∃ la lb, findIndices i y a = Except.ok la ∧ findIndices i y b = Except.ok lb ∧
      ∀ s, s ∈ la ∨ s ∈ lb → s ∈ l := by
  rw [findIndices, if_neg (by simp [isName, hf])] at h
  rw [findIndices] at h
  simp only [res_ok_bind] at h
  rcases ha : findIndices i y a with err | la
  · rw [ha] at h
    cases h
  rw [ha] at h
  simp only [res_ok_bind] at h
  rw [findIndicesList, findIndicesList] at h
  rcases hb : findIndices i y b with err | lb
  · rw [hb] at h
    cases h
  rw [hb] at h
  simp only [res_ok_bind, res_pure] at h
  have h := Except.ok.inj h
  subst h
  refine ⟨la, lb, rfl, rfl, fun s hs => ?_⟩
  rw [List.mem_eraseDups]
  simpa using hs

/-! ## One turn of the loop -/

/-- The index variable and the index of the subformula have the same labels. -/
inductive Compat : Col → Idx → Prop
  | fac (levels : List String) (codes : List (Option ℕ)) : Compat (.fac levels codes) (.fac levels)
  | num (v : List ℝ) (m : ℕ) : Compat (.num v) (.seq (IS.colon 1 m))

theorem allFactors_inv : ∀ {cs : List Col} {ls : List (List String)}, allFactors cs = some ls →
    List.Forall₂ (fun c l => ∃ codes, c = .fac l codes) cs ls
  | [], ls, h => by
    rw [allFactors] at h
    cases h
    exact .nil
  | .fac l codes :: cs, ls, h => by
    rw [allFactors] at h
    rcases hr : allFactors cs with _ | r
    · rw [hr] at h
      cases h
    · rw [hr] at h
      cases h
      exact .cons ⟨codes, rfl⟩ (allFactors_inv hr)
  | .num _ :: _, ls, h => by cases h
  | .arr _ :: _, ls, h => by cases h
  | .chr _ :: _, ls, h => by cases h
  | .other :: _, ls, h => by cases h

theorem allNumeric_inv : ∀ {cs : List Col} {vs : List (List ℝ)}, allNumeric cs = some vs →
    cs = vs.map .num
  | [], vs, h => by
    rw [allNumeric] at h
    cases h
    rfl
  | .num v :: cs, vs, h => by
    rw [allNumeric] at h
    rcases hr : allNumeric cs with _ | r
    · rw [hr] at h
      cases h
    · rw [hr] at h
      cases h
      rw [allNumeric_inv hr]
      rfl
  | .fac _ _ :: _, vs, h => by cases h
  | .arr _ :: _, vs, h => by cases h
  | .chr _ :: _, vs, h => by cases h
  | .other :: _, vs, h => by cases h

theorem indexI_inv {cs : List Col} {x : IndexI} (h : indexI cs = Except.ok x) :
    (∃ l, x = .fac l ∧ cs ≠ [] ∧ ∀ c ∈ cs, ∃ codes, c = .fac l codes) ∨
    ∃ n, x = .num n ∧ ∀ c ∈ cs, ∃ v, c = .num v := by
  unfold indexI at h
  rcases hf : allFactors cs with _ | ls
  · rw [hf] at h
    dsimp only at h
    rcases hn : allNumeric cs with _ | vs
    · rw [hn] at h
      cases h
    · rw [hn] at h
      right
      refine ⟨_, (Except.ok.inj h).symm, fun c hc => ?_⟩
      rw [allNumeric_inv hn] at hc
      obtain ⟨v, -, rfl⟩ := List.mem_map.1 hc
      exact ⟨v, rfl⟩
  · rw [hf] at h
    rcases ls with _ | ⟨l, ls⟩
    · cases h
    · dsimp only at h
      split_ifs at h with hall
      · left
        have hc := allFactors_inv hf
        refine ⟨l, (Except.ok.inj h).symm, ?_, fun c hm => ?_⟩
        · rintro rfl
          cases hc
        · obtain ⟨j, hj, rfl⟩ := List.mem_iff_getElem.1 hm
          obtain ⟨hlen, hget⟩ := List.forall₂_iff_get.1 hc
          obtain ⟨codes, hcd⟩ := hget j hj (hlen ▸ hj)
          refine ⟨codes, ?_⟩
          simp only [List.get_eq_getElem] at hcd
          rw [hcd]
          congr 1
          have hmem : (l :: ls)[j]'(hlen ▸ hj) ∈ l :: ls := List.getElem_mem _
          rcases List.mem_cons.1 hmem with h1 | h1
          · exact h1
          · simpa using List.all_eq_true.1 hall _ h1
      · cases h

theorem getIndices_inv {data : Data} {l : List String} {r : List (String × Col)}
    (h : getIndices data l = Except.ok r) :
    List.Forall₂ (fun s p => p.1 = s ∧ data s = some p.2) l r := by
  refine (mapM_inv h).imp fun s p hp => ?_
  rcases hd : data s with _ | c
  · rw [hd] at hp
    cases hp
  · rw [hd] at hp
    have hp := Except.ok.inj hp
    subst hp
    exact ⟨rfl, rfl⟩

theorem findIndexI_inv {index : String} {i : ℕ} {x : IndexI} {subform : Expr} {data : Data} {r : Idx}
    (h : findIndexI index i x subform data = Except.ok r) :
    ∃ m, levelsMax index i x subform data = Except.ok m ∧
      ((∃ l, x = .fac l ∧ l.length = m ∧ r = .fac l) ∨ ∃ n, x = .num n ∧ r = .seq (IS.colon 1 m)) := by
  unfold findIndexI at h
  rcases hm : levelsMax index i x subform data with err | m
  · rw [hm] at h
    cases h
  rw [hm] at h
  simp only [res_ok_bind] at h
  refine ⟨m, rfl, ?_⟩
  cases x with
  | fac l =>
    dsimp only at h
    split_ifs at h with hl
    · cases h
    · exact Or.inl ⟨l, rfl, not_not.1 hl, (Except.ok.inj h).symm⟩
  | num n => exact Or.inr ⟨n, rfl, (Except.ok.inj h).symm⟩

/-- One turn, taken apart. -/
theorem indexTurn_inv {text : ℝ → String} {y : String} {subform subexpr : Expr} {st st' : LoopState}
    {i : ℕ} (h : indexTurn text y subform subexpr st i = Except.ok st') :
    ∃ l cols index c x r, findIndices i y subexpr = Except.ok l ∧
      getIndices st.data l = Except.ok cols ∧ findIndices i y subform = Except.ok [index] ∧
      chooseIndex text index cols st = Except.ok (c, some x) ∧
      findIndexI index i x subform c = Except.ok r ∧
      st' = ⟨c, some x, st.indices ++ [(index, r)]⟩ := by
  unfold indexTurn at h
  rcases h1 : findIndices i y subexpr with err | l
  · rw [h1] at h
    cases h
  rw [h1] at h
  simp only [res_ok_bind] at h
  rcases h2 : getIndices st.data l with err | cols
  · rw [h2] at h
    cases h
  rw [h2] at h
  simp only [res_ok_bind] at h
  rcases h3 : findIndices i y subform with err | l'
  · rw [h3] at h
    cases h
  rw [h3] at h
  simp only [res_ok_bind] at h
  rcases h4 : single l' with err | index
  · rw [h4] at h
    cases h
  rw [h4] at h
  simp only [res_ok_bind] at h
  have h4' : l' = [index] := by
    unfold single at h4
    split at h4
    · rw [Except.ok.inj h4]
    · cases h4
  subst h4'
  rcases h5 : chooseIndex text index cols st with err | c
  · rw [h5] at h
    cases h
  rw [h5] at h
  simp only [res_ok_bind] at h
  obtain ⟨c, x⟩ := c
  rcases x with _ | x
  · cases h
  dsimp only at h
  rcases h6 : findIndexI index i x subform c with err | r
  · rw [h6] at h
    cases h
  rw [h6] at h
  exact ⟨l, cols, index, c, x, r, rfl, h2, rfl, h5, h6, (Except.ok.inj h).symm⟩

/-- What the loop establishes for one dimension. -/
def Good (data : Data) (y : String) (subexpr : Expr) (i : ℕ) (p : String × Idx) : Prop :=
  ∃ l, findIndices i y subexpr = Except.ok l ∧ ∀ s ∈ l, ∃ c, data s = some c ∧ Compat c p.2

theorem turn_good {text : ℝ → String} {y : String} {subform subexpr : Expr} {st st' : LoopState}
    {i : ℕ} (h : indexTurn text y subform subexpr st i = Except.ok st')
    (hf : ∀ p ∈ st'.indices, st.data p.1 = none) :
    st'.data = st.data ∧ ∃ p, st'.indices = st.indices ++ [p] ∧ Good st.data y subexpr i p := by
  obtain ⟨l, cols, index, c, x, r, h1, h2, h3, h4, h5, rfl⟩ := indexTurn_inv h
  have hn : st.data index = none := hf (index, r) (by simp)
  unfold chooseIndex at h4
  rw [hn] at h4
  dsimp only at h4
  rcases hx : indexI (cols.map Prod.snd) with err | x'
  · rw [hx] at h4
    cases h4
  rw [hx] at h4
  have h4 := Except.ok.inj h4
  simp only [Prod.mk.injEq, Option.some.injEq] at h4
  obtain ⟨rfl, rfl⟩ := h4
  refine ⟨rfl, (index, r), rfl, l, h1, fun s hs => ?_⟩
  obtain ⟨j, hj, rfl⟩ := List.mem_iff_getElem.1 hs
  obtain ⟨hlen, hget⟩ := List.forall₂_iff_get.1 (getIndices_inv h2)
  have hg := hget j hj (hlen ▸ hj)
  simp only [List.get_eq_getElem] at hg
  have hmem : (cols[j]'(hlen ▸ hj)).2 ∈ cols.map Prod.snd :=
    List.mem_map.2 ⟨_, List.getElem_mem _, rfl⟩
  refine ⟨_, hg.2, ?_⟩
  obtain ⟨m, -, hr⟩ := findIndexI_inv h5
  rcases indexI_inv hx with ⟨lv, rfl, -, hall⟩ | ⟨n, rfl, hall⟩
  · obtain ⟨codes, hc⟩ := hall _ hmem
    rcases hr with ⟨l', e, -, rfl⟩ | ⟨n, e, -⟩
    · cases e
      rw [hc]
      exact .fac _ _
    · cases e
  · obtain ⟨v, hc⟩ := hall _ hmem
    rcases hr with ⟨l', e, -, -⟩ | ⟨n, e, rfl⟩
    · cases e
    · rw [hc]
      exact .num _ _

theorem fold_append {text : ℝ → String} {y : String} {subform subexpr : Expr} :
    ∀ {is : List ℕ} {st st' : LoopState},
    is.foldlM (indexTurn text y subform subexpr) st = Except.ok st' →
    ∃ new, st'.indices = st.indices ++ new
  | [], st, st', h => by
    rw [List.foldlM_nil] at h
    have h := Except.ok.inj h
    subst h
    exact ⟨[], by simp⟩
  | i :: is, st, st', h => by
    rw [List.foldlM_cons] at h
    rcases h1 : indexTurn text y subform subexpr st i with err | s
    · rw [h1] at h
      cases h
    rw [h1] at h
    simp only [res_ok_bind] at h
    obtain ⟨new, hn⟩ := fold_append h
    obtain ⟨l, cols, index, c, x, r, -, -, -, -, -, rfl⟩ := indexTurn_inv h1
    exact ⟨(index, r) :: new, by rw [hn]; simp⟩

theorem fold_good {text : ℝ → String} {y : String} {subform subexpr : Expr} :
    ∀ {is : List ℕ} {st st' : LoopState},
    is.foldlM (indexTurn text y subform subexpr) st = Except.ok st' →
    (∀ p ∈ st'.indices, st.data p.1 = none) →
    st'.data = st.data ∧ ∃ new, st'.indices = st.indices ++ new ∧
      List.Forall₂ (Good st.data y subexpr) is new
  | [], st, st', h, _ => by
    rw [List.foldlM_nil] at h
    have h := Except.ok.inj h
    subst h
    exact ⟨rfl, [], by simp, .nil⟩
  | i :: is, st, st', h, hf => by
    rw [List.foldlM_cons] at h
    rcases h1 : indexTurn text y subform subexpr st i with err | s
    · rw [h1] at h
      cases h
    rw [h1] at h
    simp only [res_ok_bind] at h
    obtain ⟨new, hn⟩ := fold_append h
    obtain ⟨e1, p, e2, g⟩ := turn_good h1 fun p hp => hf p (by rw [hn]; simp [hp])
    obtain ⟨e3, new', e4, g'⟩ := fold_good h fun p hp => by rw [e1]; exact hf p hp
    refine ⟨e3.trans e1, p :: new', by rw [e4, e2]; simp, .cons g ?_⟩
    rw [← e1]
    exact g'

/-- All indices, with names that are not variables of the data. -/
theorem findIndicesSubform_inv {text : ℝ → String} {y : String} {subform subexpr : Expr}
    {data data' : Data} {ix : List (String × Idx)}
    (h : findIndicesSubform text y subform subexpr data = Except.ok (data', ix)) :
    ∃ d, findDim y subexpr none = Except.ok (some d) ∧ findDim y subform none = Except.ok (some d) ∧
      ∃ st, (IS.colon 1 d).foldlM (indexTurn text y subform subexpr) ⟨data, none, []⟩ =
        Except.ok st ∧ st.data = data' ∧ st.indices = ix := by
  unfold findIndicesSubform at h
  rcases h1 : findDim y subexpr none with err | d
  · rw [h1] at h
    cases h
  rw [h1] at h
  simp only [res_ok_bind] at h
  rcases h2 : findDim y subform none with err | d'
  · rw [h2] at h
    cases h
  rw [h2] at h
  simp only [res_ok_bind] at h
  rcases d with _ | d
  · cases h
  rcases d' with _ | d'
  · cases h
  dsimp only at h
  split_ifs at h with hd
  · cases h
  rw [not_not] at hd
  subst hd
  rcases h3 : (IS.colon 1 d').foldlM (indexTurn text y subform subexpr) ⟨data, none, []⟩ with err | st
  · rw [h3] at h
    cases h
  rw [h3] at h
  have h := Except.ok.inj h
  cases h
  exact ⟨d', rfl, rfl, st, h3, rfl, rfl⟩

theorem findIndicesSubform_good {text : ℝ → String} {y : String} {subform subexpr : Expr}
    {data data' : Data} {ix : List (String × Idx)}
    (h : findIndicesSubform text y subform subexpr data = Except.ok (data', ix))
    (hf : ∀ p ∈ ix, data p.1 = none) :
    data' = data ∧ ∃ d, findDim y subexpr none = Except.ok (some d) ∧
      List.Forall₂ (Good data y subexpr) (IS.colon 1 d) ix := by
  obtain ⟨d, h1, -, st, h2, rfl, rfl⟩ := findIndicesSubform_inv h
  obtain ⟨e, new, e2, g⟩ := fold_good h2 hf
  refine ⟨e, d, h1, ?_⟩
  rw [e2]
  exact g

/-! ## Labels and numbers -/

/-- The numbers of a variable, as `as.numeric` gives them. -/
def numbers : Col → List ℝ
  | .num v => v
  | .fac _ codes => (codes.filterMap id).map fun k : ℕ => (k : ℝ)
  | _ => []

theorem filterMap_some {codes : List (Option ℕ)} (h : ∀ k < codes.length, ∃ c, codes[k]? = some (some c)) :
    codes.all Option.isSome = true ∧ (codes.filterMap id).length = codes.length ∧
      ∀ k : ℕ, (codes.filterMap id)[k]? = codes[k]?.bind id := by
  induction codes with
  | nil => simp
  | cons a codes ih =>
    obtain ⟨c, hc⟩ := h 0 (by simp)
    simp only [List.getElem?_cons_zero, Option.some.injEq] at hc
    subst hc
    obtain ⟨h1, h2, h3⟩ := ih fun k hk => by
      simpa using h (k + 1) (by simpa using hk)
    refine ⟨by simpa using h1, by simpa using h2, fun k => ?_⟩
    rw [List.filterMap_cons_some (by rfl)]
    cases k with
    | zero => rfl
    | succ k => simpa using h3 k

theorem numeric_numbers {c : Col} {x : Idx} (hc : Compat c x)
    (hl : ∀ k < colLength c, ∃ L, colLabel c k = some L) :
    Numeric c.toVal (numbers c) ∧ (numbers c).length = colLength c := by
  cases hc with
  | num v m => exact ⟨.num v, rfl⟩
  | fac levels codes =>
    have h : ∀ k < codes.length, ∃ c, codes[k]? = some (some c) := by
      intro k hk
      obtain ⟨L, hL⟩ := hl k hk
      unfold colLabel at hL
      dsimp only at hL
      split at hL
      · rename_i c hc
        exact ⟨_, hc⟩
      · cases hL
    obtain ⟨h1, h2, -⟩ := filterMap_some h
    refine ⟨?_, by rw [numbers, List.length_map, h2]; rfl⟩
    rw [Col.toVal, if_pos h1]
    exact .fac _

/-- The number of a variable at an observation is the number of the element of the index that has the
label of the observation. -/
theorem numbers_label {c : Col} {x : Idx} (hc : Compat c x)
    (hnd : ∀ levels codes, c = .fac levels codes → levels.Nodup)
    (hl : ∀ k < colLength c, ∃ L, colLabel c k = some L) {k a : ℕ} {L : Label} (ha : 1 ≤ a)
    (h0 : L ≠ .number 0) (h1 : colLabel c k = some L) (h2 : idxLabel x a = some L) :
    (numbers c).getD k 0 = a := by
  cases hc with
  | num v m =>
    unfold colLabel at h1
    dsimp only at h1
    unfold idxLabel at h2
    dsimp only at h2
    rcases hv : v[k]? with _ | z
    · rw [hv] at h1
      cases h1
    rw [hv] at h1
    cases h1
    rcases hm : (IS.colon 1 m)[a - 1]? with _ | n
    · rw [hm] at h2
      cases h2
    rw [hm] at h2
    have h2 : Label.number (n : ℝ) = Label.number z := Option.some.inj h2
    have h2 : (n : ℝ) = z := Label.number.inj h2
    rw [numbers, List.getD_eq_getElem?_getD, hv]
    show z = _
    rw [← h2]
    congr 1
    unfold IS.colon at hm
    split_ifs at hm with hle
    · rw [List.getElem?_map] at hm
      rcases hr : (List.range (m - 1 + 1))[a - 1]? with _ | b
      · rw [hr] at hm
        cases hm
      · rw [hr] at hm
        obtain ⟨hb, hb'⟩ := List.getElem?_eq_some_iff.1 hr
        rw [List.getElem_range] at hb'
        have : 1 + b = n := Option.some.inj hm
        omega
    · have hm0 : m = 0 := by omega
      subst hm0
      have e : (List.range (1 - 0 + 1)).map (fun i => 1 - i) = [1, 0] := rfl
      rw [e] at hm
      obtain ⟨hb, hb'⟩ := List.getElem?_eq_some_iff.1 hm
      simp only [List.length_cons, List.length_nil] at hb
      have : a = 1 ∨ a = 2 := by omega
      rcases this with rfl | rfl
      · exact hb'.symm
      · exfalso
        have hb' : 0 = n := hb'
        apply h0
        rw [← h2, ← hb', Nat.cast_zero]
  | fac levels codes =>
    have hsome : ∀ k < codes.length, ∃ c, codes[k]? = some (some c) := by
      intro k hk
      obtain ⟨L, hL⟩ := hl k hk
      unfold colLabel at hL
      dsimp only at hL
      split at hL
      · rename_i c hc
        exact ⟨_, hc⟩
      · cases hL
    obtain ⟨-, -, h3⟩ := filterMap_some hsome
    have hnd := hnd levels codes rfl
    unfold colLabel at h1
    dsimp only at h1
    split at h1
    · rename_i c hc
      unfold idxLabel at h2
      dsimp only at h2
      rcases hx : levels[c]? with _ | s
      · rw [hx] at h1
        cases h1
      rw [hx] at h1
      cases h1
      rcases hy : levels[a - 1]? with _ | s'
      · rw [hy] at h2
        cases h2
      rw [hy] at h2
      have h2 : Label.text s' = Label.text s := Option.some.inj h2
      cases h2
      have : c = a - 1 := by
        obtain ⟨p1, p2⟩ := List.getElem?_eq_some_iff.1 hx
        obtain ⟨q1, q2⟩ := List.getElem?_eq_some_iff.1 hy
        exact (List.Nodup.getElem_inj_iff hnd).1 (p2.trans q2.symm)
      rw [numbers, List.getD_eq_getElem?_getD, List.getElem?_map, h3 k, hc]
      show ((c + 1 : ℕ) : ℝ) = _
      congr 1
      omega
    · cases h1

end Verif.SubExpr
