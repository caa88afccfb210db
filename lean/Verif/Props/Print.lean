import Verif.Model.Print
import Verif.Props.Summary

/-!
# C89: the table of the random effects and the names of the parameters
-/
namespace Verif.Print

open Verif.IS Verif.Fit

/-! ## Specification -/

/-- A term of random effects: the number of its grouping factor and its variables. -/
structure Term where
  factor : ℕ
  vars : List String

/-- The random effects of a model: the grouping factors with their numbers of levels, and the terms. -/
structure Effects where
  factors : List (String × ℕ)
  terms : List Term

/-- The parameters of a term with `k` variables: the entries of a lower triangle, by columns. -/
def Spec.triangle (k : ℕ) : List (ℕ × ℕ) :=
  (List.range k).flatMap fun c => (List.range (k - c)).map fun r => (c, c + r)

/-- The variance parameters of a model in the order of `theta`: the term and the entry. -/
def Spec.parameters (E : Effects) : List (Term × ℕ × ℕ) :=
  E.terms.flatMap fun t => (Spec.triangle t.vars.length).map fun e => (t, e)

/-- As made by lme4: the grouping factors are in the order of their first use, and every term has a
variable. -/
structure Spec.Proper (E : Effects) : Prop where
  order : (E.terms.map Term.factor).eraseDups = List.range E.factors.length
  vars : ∀ t ∈ E.terms, t.vars ≠ []

/-- The name of the grouping factor of a term. -/
def Spec.factorName (E : Effects) (t : Term) : String := (E.factors.map Prod.fst).getD t.factor ""

/-- What lme4 leaves in `reTrms`. -/
def Spec.reNames (E : Effects) : ReNames where
  cnms := E.terms.map fun t => (Spec.factorName E t, t.vars)
  nTheta := (Spec.parameters E).length
  nlevels := E.factors.map Prod.snd

/-- The table is right: a row for each parameter with its estimate and standard error; the row of the
parameter of a variable alone has the group and the name of that variable. -/
def Spec.Right (E : Effects) (x : Summary) (rows : List ReRow) : Prop :=
  rows.length = (Spec.parameters E).length ∧
    ∀ i row, rows[i]? = some row → row.estimate = x.fit.estim[i]? ∧
      row.stdError = x.se.getD i none ∧
      ∀ t c, (Spec.parameters E)[i]? = some (t, c, c) →
        row.group = Spec.factorName E t ∧ t.vars[c]? = some row.name

/-- The line of the groups is right: for each term its group and the number of its levels. -/
def Spec.LineRight (E : Effects) (line : List (List (Option String) × List (Option ℕ))) : Prop :=
  line = E.terms.map fun t => ([some (Spec.factorName E t)], [(E.factors.map Prod.snd)[t.factor]?])

/-! ## Sizes -/

theorem triangle_succ (k : ℕ) : Spec.triangle (k + 1) =
    ((List.range (k + 1)).map fun r => (0, r)) ++
      (Spec.triangle k).map fun e => (e.1 + 1, e.2 + 1) := by
  unfold Spec.triangle
  rw [List.range_succ_eq_map, List.flatMap_cons, List.flatMap_map, List.map_flatMap]
  congr 1
  · simp [← List.range_succ_eq_map]
  · refine List.flatMap_congr fun c _ => ?_
    rw [List.map_map, Nat.succ_sub_succ]
    refine List.map_congr_left fun r _ => ?_
    show (c + 1, c + 1 + r) = (c + 1, c + r + 1)
    congr 1; omega

theorem length_triangle_succ (k : ℕ) :
    (Spec.triangle (k + 1)).length = k + 1 + (Spec.triangle k).length := by
  rw [triangle_succ]; simp

theorem length_triangle (k : ℕ) : (Spec.triangle k).length * 2 = k * (k + 1) := by
  induction k with
  | zero => rfl
  | succ k ih => rw [length_triangle_succ, Nat.add_mul, ih]; ring

theorem le_length_triangle (k : ℕ) : k ≤ (Spec.triangle k).length := by
  cases k with
  | zero => exact Nat.zero_le _
  | succ k => rw [length_triangle_succ]; omega

theorem length_terms_le {E : Effects} (h : Spec.Proper E) :
    (groupNames (Spec.reNames E)).length ≤ (namesTheta (Spec.reNames E)).length := by
  have : ∀ l : List Term, (∀ t ∈ l, t.vars ≠ []) → l.length ≤ (l.flatMap Term.vars).length := by
    intro l hl
    induction l with
    | nil => exact le_rfl
    | cons t l ih =>
      have h1 := List.length_pos_iff.2 (hl t (by simp))
      have h2 := ih fun s hs => hl s (by simp [hs])
      rw [List.flatMap_cons, List.length_append, List.length_cons]
      omega
  simpa [groupNames, namesTheta, Spec.reNames, List.flatMap_map] using this E.terms h.vars

theorem length_names_le (E : Effects) :
    (namesTheta (Spec.reNames E)).length ≤ (Spec.reNames E).nTheta := by
  have : ∀ l : List Term, (l.flatMap Term.vars).length ≤
      (l.flatMap fun t => (Spec.triangle t.vars.length).map fun e => (t, e)).length := by
    intro l
    induction l with
    | nil => exact le_rfl
    | cons t l ih =>
      have h1 := le_length_triangle t.vars.length
      rw [List.flatMap_cons, List.length_append, List.flatMap_cons, List.length_append,
        List.length_map]
      omega
  simpa [namesTheta, Spec.reNames, List.flatMap_map, Spec.parameters] using this E.terms

/-! ## The table -/

theorem colon_one {m : ℕ} (h : 0 < m) :
    (colon 1 m).filter (fun i => i ≠ 0) = (List.range m).map fun i => 1 + i := by
  unfold colon
  rw [if_pos (Nat.succ_le_of_lt h), Nat.sub_add_cancel (Nat.succ_le_of_lt h), List.filter_eq_self]
  intro a ha
  obtain ⟨j, -, rfl⟩ := List.mem_map.1 ha
  simp

theorem index_one {m : ℕ} (h : 0 < m) (x : List ℝ) :
    index x (colon 1 m) = (List.range m).map fun i => x[i]? := by
  unfold index
  rw [colon_one h, List.map_map]
  exact List.map_congr_left fun i _ => by simp

theorem indexNa_one {α : Type} {m : ℕ} (h : 0 < m) (x : List (Option α)) :
    indexNa x (colon 1 m) = (List.range m).map fun i => x.getD i none := by
  unfold indexNa
  rw [colon_one h, List.map_map]
  exact List.map_congr_left fun i _ => by simp

theorem recycle_ok_iff {α : Type} {nr : ℕ} (hn : 0 < nr) (x : List α) :
    (∃ y, recycle nr x = Except.ok y) ↔ x.length ∣ nr := by
  unfold recycle
  split_ifs with h1 h2
  · simp [h1]
  · exact ⟨fun _ => Nat.dvd_of_mod_eq_zero h2.2, fun _ => ⟨_, rfl⟩⟩
  · constructor
    · rintro ⟨y, hy⟩
      cases hy
    intro hd
    refine absurd ⟨Nat.pos_of_dvd_of_pos hd hn, Nat.mod_eq_zero_of_dvd hd⟩ h2

theorem recycle_self {α : Type} {nr : ℕ} {x : List α} (h : x.length = nr) :
    recycle nr x = Except.ok x := if_pos h

theorem getElem?_replicate_flatten {α : Type} (m : ℕ) (x : List α) {i : ℕ} (hi : i < m * x.length) :
    ((List.replicate m x).flatten)[i]? = x[i % x.length]? := by
  induction m generalizing i with
  | zero => simp at hi
  | succ m ih =>
    rw [List.replicate_succ, List.flatten_cons, List.getElem?_append]
    split_ifs with h
    · rw [Nat.mod_eq_of_lt h]
    · rw [ih (by rw [Nat.succ_mul] at hi; omega), ← Nat.mod_eq_sub_mod (by omega)]

theorem recycle_get {α : Type} {nr : ℕ} {x y : List α} (h : recycle nr x = Except.ok y) {i : ℕ}
    (hi : i < nr) : y[i]? = x[i % x.length]? := by
  unfold recycle at h
  split_ifs at h with h1 h2
  · cases h; rw [Nat.mod_eq_of_lt (by omega)]
  · cases h
    exact getElem?_replicate_flatten _ x
      (by rw [Nat.div_mul_cancel (Nat.dvd_of_mod_eq_zero h2.2)]; exact hi)
  · cases h

theorem table_eq {E : Effects} (h : Spec.Proper E) (hn : 0 < (Spec.parameters E).length)
    (x : Summary) : randomTable (Spec.reNames E) x = do
      let groups ← recycle (Spec.parameters E).length (groupNames (Spec.reNames E))
      let names ← recycle (Spec.parameters E).length (namesTheta (Spec.reNames E))
      return (List.range (Spec.parameters E).length).map fun i =>
        ⟨groups.getD i "", names.getD i "", x.fit.estim[i]?, x.se.getD i none⟩ := by
  unfold randomTable dataFrame
  have h1 := length_terms_le h
  have h2 := length_names_le E
  have h3 : (Spec.reNames E).nTheta = (Spec.parameters E).length := rfl
  rw [h3] at h2
  dsimp only
  rw [h3, index_one hn, indexNa_one hn, List.length_map, List.length_map, List.length_range, max_self,
    max_eq_right (by omega)]
  rw [recycle_self (x := List.map (fun i => x.fit.estim[i]?) _) (by simp),
    recycle_self (x := List.map (fun i => x.se.getD i none) _) (by simp)]
  refine bind_congr fun groups => bind_congr fun names => ?_
  simp only [res_ok_bind]
  refine congrArg Except.ok (List.map_congr_left fun i hi => ?_)
  have hi := List.mem_range.1 hi
  simp [hi]

/-- C89: the table can be printed exactly when both the number of terms and the number of variables
divide the number of variance parameters. -/
theorem c89_iff {E : Effects} (h : Spec.Proper E) (hn : 0 < (Spec.parameters E).length)
    (x : Summary) : (∃ rows, randomTable (Spec.reNames E) x = Except.ok rows) ↔
      E.terms.length ∣ (Spec.parameters E).length ∧
        (E.terms.flatMap Term.vars).length ∣ (Spec.parameters E).length := by
  have e1 : (groupNames (Spec.reNames E)).length = E.terms.length := by
    simp [groupNames, Spec.reNames]
  have e2 : (namesTheta (Spec.reNames E)).length = (E.terms.flatMap Term.vars).length := by
    simp [namesTheta, Spec.reNames, List.flatMap_map]
  rw [table_eq h hn, ← e1, ← e2, ← recycle_ok_iff hn, ← recycle_ok_iff hn]
  constructor
  · rintro ⟨rows, hr⟩
    rcases h1 : recycle (Spec.parameters E).length (groupNames (Spec.reNames E)) with e | a
    · rw [h1] at hr; cases hr
    rcases h2 : recycle (Spec.parameters E).length (namesTheta (Spec.reNames E)) with e | b
    · rw [h1, h2] at hr; cases hr
    exact ⟨⟨a, rfl⟩, ⟨b, rfl⟩⟩
  · rintro ⟨⟨a, ha⟩, ⟨b, hb⟩⟩
    rw [ha, hb]
    exact ⟨_, rfl⟩

/-- Every term has one variable. -/
def Spec.Simple (E : Effects) : Prop := ∀ t ∈ E.terms, t.vars.length = 1

theorem parameters_simple {E : Effects} (h : Spec.Simple E) :
    Spec.parameters E = E.terms.map fun t => (t, 0, 0) := by
  unfold Spec.parameters
  rw [List.map_eq_flatMap]
  refine List.flatMap_congr fun t ht => ?_
  rw [h t ht]; rfl

/-- **C89, the part that holds.** If every term has one variable, the table is right. Missing: terms
with several variables, see `c89_two` and `c89_odd`. -/
theorem c89_partial {E : Effects} (h : Spec.Proper E) (hs : Spec.Simple E) (hn : E.terms ≠ [])
    (x : Summary) :
    ∃ rows, randomTable (Spec.reNames E) x = Except.ok rows ∧ Spec.Right E x rows := by
  have hp := parameters_simple hs
  have hl : (Spec.parameters E).length = E.terms.length := by rw [hp, List.length_map]
  have hn' : 0 < (Spec.parameters E).length := by rw [hl]; exact List.length_pos_iff.2 hn
  have e1 : groupNames (Spec.reNames E) = E.terms.map (Spec.factorName E) := by
    simp [groupNames, Spec.reNames]
  have e2 : namesTheta (Spec.reNames E) = E.terms.map fun t => t.vars.getD 0 "" := by
    unfold namesTheta Spec.reNames
    rw [List.flatMap_map]
    rw [List.map_eq_flatMap]
    refine List.flatMap_congr fun t ht => ?_
    obtain ⟨v, hv⟩ := List.length_eq_one_iff.1 (hs t ht)
    simp [hv]
  refine ⟨_, by
    rw [table_eq h hn', e1, e2, recycle_self (by rw [List.length_map, hl]), res_ok_bind,
      recycle_self (by rw [List.length_map, hl]), res_ok_bind]; rfl, by simp, ?_⟩
  intro i row hrow
  rw [List.getElem?_map, Option.map_eq_some_iff] at hrow
  obtain ⟨j, hj, rfl⟩ := hrow
  obtain ⟨hi, rfl⟩ := List.getElem?_eq_some_iff.1 hj
  rw [List.length_range, hl] at hi
  refine ⟨by simp, by simp, fun t c ht => ?_⟩
  rw [hp, List.getElem?_map, List.getElem?_eq_getElem hi] at ht
  simp only [Option.map_some, Option.some.injEq, Prod.mk.injEq] at ht
  obtain ⟨rfl, rfl, -⟩ := ht
  obtain ⟨v, hv⟩ := List.length_eq_one_iff.1 (hs _ (List.getElem_mem hi))
  simp [hi, hv]

/-- C89, one term with `k` variables: the table can be printed exactly when `k` is odd. -/
theorem c89_one {E : Effects} (h : Spec.Proper E) {t : Term} (ht : E.terms = [t]) (x : Summary) :
    (∃ rows, randomTable (Spec.reNames E) x = Except.ok rows) ↔ Odd t.vars.length := by
  have hp : (Spec.parameters E).length = (Spec.triangle t.vars.length).length := by
    simp [Spec.parameters, ht]
  have hk : 0 < t.vars.length := List.length_pos_iff.2 (h.vars t (by simp [ht]))
  have hl := length_triangle t.vars.length
  have := le_length_triangle t.vars.length
  rw [c89_iff h (by omega), hp, ht]
  simp only [List.length_singleton, one_dvd, true_and, List.flatMap_cons, List.flatMap_nil,
    List.append_nil]
  constructor
  · rintro ⟨m, hm⟩
    rw [hm, mul_assoc] at hl
    have := Nat.eq_of_mul_eq_mul_left hk hl
    exact ⟨m - 1, by omega⟩
  · rintro ⟨m, hm⟩
    refine ⟨m + 1, ?_⟩
    rw [hm] at hl ⊢
    nlinarith

/-- **C89, violated**: for one term with two variables, as `(1 + x | g)`, there is an error. -/
theorem c89_two {E : Effects} (h : Spec.Proper E) {t : Term} (ht : E.terms = [t])
    (h2 : t.vars.length = 2) (x : Summary) :
    ¬ ∃ rows, randomTable (Spec.reNames E) x = Except.ok rows := by
  rw [c89_one h ht, h2]; decide

/-- **C89, violated**: for one term with several different variables, the table is never right. -/
theorem c89_odd {E : Effects} (h : Spec.Proper E) {t : Term} (ht : E.terms = [t])
    (hk : 2 ≤ t.vars.length) (hd : t.vars.Nodup) (x : Summary) {rows : List ReRow}
    (hr : randomTable (Spec.reNames E) x = Except.ok rows) : ¬ Spec.Right E x rows := by
  rintro ⟨hlen, hrow⟩
  obtain ⟨k, hk'⟩ : ∃ k, t.vars.length = k + 2 := ⟨t.vars.length - 2, by omega⟩
  have hp : Spec.parameters E = (Spec.triangle (k + 2)).map fun e => (t, e) := by
    simp [Spec.parameters, ht, hk']
  have hpos : k + 2 < (Spec.parameters E).length := by
    rw [hp, List.length_map, length_triangle_succ, length_triangle_succ]; omega
  have hpar : (Spec.parameters E)[k + 2]? = some (t, 1, 1) := by
    rw [hp, List.getElem?_map, triangle_succ, List.getElem?_append_right (by simp)]
    rw [triangle_succ]
    simp
  have hE := hr
  rw [table_eq h (by omega)] at hr
  rcases h1 : recycle (Spec.parameters E).length (groupNames (Spec.reNames E)) with e | a
  · rw [h1] at hr; cases hr
  rcases h2 : recycle (Spec.parameters E).length (namesTheta (Spec.reNames E)) with e | b
  · rw [h1, h2] at hr; cases hr
  rw [h1, h2] at hr
  simp only [res_ok_bind] at hr
  cases Except.ok.inj hr
  obtain ⟨-, -, h3⟩ := hrow (k + 2) _ (by
    rw [List.getElem?_map, List.getElem?_range hpos]; rfl)
  obtain ⟨-, h4⟩ := h3 t 1 hpar
  have hnames : namesTheta (Spec.reNames E) = t.vars := by simp [namesTheta, Spec.reNames, ht]
  have hb := recycle_get h2 hpos
  rw [hnames, hk', Nat.mod_self] at hb
  have h5 : b.getD (k + 2) "" = t.vars[0] := by
    rw [List.getD_eq_getElem?_getD, hb, List.getElem?_eq_getElem (by omega)]; rfl
  rw [List.getElem?_eq_getElem (by omega), Option.some.injEq] at h4
  have := (List.nodup_iff_injective_get.1 hd) (a₁ := ⟨1, by omega⟩) (a₂ := ⟨0, by omega⟩)
    (by simpa using h4.trans h5)
  simp at this

/-! ## The groups -/

theorem eraseDups_of_nodup {α : Type} [BEq α] [LawfulBEq α] {l : List α} (h : l.Nodup) :
    l.eraseDups = l := by
  induction l with
  | nil => simp
  | cons a l ih =>
    rw [List.nodup_cons] at h
    rw [List.eraseDups_cons, List.filter_eq_self.2, ih h.2]
    intro b hb
    have : b ≠ a := fun hba => h.1 (hba ▸ hb)
    simp [this]

theorem groupLine_eq {E : Effects} (hn : E.terms ≠ []) :
    groupLine (Spec.reNames E) = (List.range E.terms.length).map fun i =>
      ([(E.terms.map (Spec.factorName E))[i]?], [(E.factors.map Prod.snd)[i]?]) := by
  have e1 : groupNames (Spec.reNames E) = E.terms.map (Spec.factorName E) := by
    simp [groupNames, Spec.reNames]
  have hl : 1 ≤ E.terms.length := List.length_pos_iff.2 hn
  unfold groupLine colon
  rw [e1, List.length_map, if_pos hl, Nat.sub_add_cancel hl, List.map_map]
  refine List.map_congr_left fun i _ => ?_
  simp [pick, Spec.reNames]

/-- C89: the line of the groups is right exactly when no two terms have the same grouping factor.
(Otherwise, as for `(x || g)`, a number of levels is missing.) -/
theorem c89_groups {E : Effects} (h : Spec.Proper E) (hn : E.terms ≠ []) :
    Spec.LineRight E (groupLine (Spec.reNames E)) ↔ (E.terms.map Term.factor).Nodup := by
  rw [groupLine_eq hn]
  have hmem : ∀ t ∈ E.terms, t.factor < E.factors.length := fun t ht => by
    have : t.factor ∈ (E.terms.map Term.factor).eraseDups :=
      List.mem_eraseDups.2 (List.mem_map_of_mem ht)
    rw [h.order] at this
    exact List.mem_range.1 this
  constructor
  · intro hr
    by_contra hd
    have hlt : E.factors.length < E.terms.length := by
      have h1 : (E.terms.map Term.factor).toFinset = Finset.range E.factors.length := by
        ext a
        rw [List.mem_toFinset, ← List.mem_eraseDups, h.order, List.mem_range, Finset.mem_range]
      have h2 := List.toFinset_card_le (E.terms.map Term.factor)
      rw [h1, Finset.card_range, List.length_map] at h2
      refine lt_of_le_of_ne h2 fun he => hd ?_
      refine Multiset.coe_nodup.1 (Multiset.toFinset_card_eq_card_iff_nodup.1 ?_)
      show (E.terms.map Term.factor).toFinset.card = (E.terms.map Term.factor).length
      rw [h1, Finset.card_range, List.length_map, he]
    have h3 := congrArg (fun l => l[E.factors.length]?) hr
    simp only [List.getElem?_map, List.getElem?_range hlt, List.getElem?_eq_getElem hlt,
      Option.map_some, Option.some.injEq, Prod.mk.injEq, List.cons.injEq, and_true] at h3
    have h4 := hmem _ (List.getElem_mem hlt)
    have h5 := h3.2
    rw [List.getElem?_eq_none (by simp), List.getElem?_eq_getElem h4] at h5
    cases h5
  · intro hd
    have ho := h.order
    rw [eraseDups_of_nodup hd] at ho
    refine List.ext_getElem (by simp) fun i hi hi' => ?_
    simp only [List.length_map, List.length_range] at hi
    have h6 : (E.terms[i]).factor = i := by
      have := congrArg (fun l => l[i]?) ho
      have hF : i < E.factors.length := by
        have := congrArg List.length ho
        rw [List.length_map, List.length_range] at this
        omega
      simpa [hi, hF] using this
    simp [hi, h6]

/-! ## Names -/

theorem coefRandomNames_eq {E : Effects} (hn : 0 < (Spec.parameters E).length) (estim : List ℝ) :
    coefRandomNames (Spec.reNames E) estim = Except.ok
      ((List.range (Spec.parameters E).length).map fun i =>
        ((E.terms.flatMap Term.vars).map fun s => "RE" ++ s)[i]?) := by
  have h2 := length_names_le E
  have e2 : namesTheta (Spec.reNames E) = E.terms.flatMap Term.vars := by
    simp [namesTheta, Spec.reNames, List.flatMap_map]
  have h3 : (Spec.reNames E).nTheta = (Spec.parameters E).length := rfl
  unfold coefRandomNames setNames coefRandom
  rw [h3, index_one hn, e2, if_neg (by
    rw [List.length_map, List.length_map, List.length_range, ← e2]; omega), List.length_map,
    List.length_range]

/-- C89: the parameters of the random effects all have names exactly when every term has one
variable. -/
theorem c89_names {E : Effects} (h : Spec.Proper E) (hn : E.terms ≠ []) (estim : List ℝ) :
    ∃ names, coefRandomNames (Spec.reNames E) estim = Except.ok names ∧
      names.length = (Spec.parameters E).length ∧ (none ∉ names ↔ Spec.Simple E) := by
  have hn' : 0 < (Spec.parameters E).length := by
    have h1 := length_terms_le h
    have h2 := length_names_le E
    have h3 : (groupNames (Spec.reNames E)).length = E.terms.length := by
      simp [groupNames, Spec.reNames]
    have h4 := List.length_pos_iff.2 hn
    exact lt_of_lt_of_le (by omega) (h1.trans h2)
  refine ⟨_, coefRandomNames_eq hn' estim, by simp, ?_⟩
  have h2 : (E.terms.flatMap Term.vars).length ≤ (Spec.parameters E).length := by
    have := length_names_le E
    simpa [namesTheta, Spec.reNames, List.flatMap_map] using this
  have key : ∀ l : List Term, (∀ t ∈ l, t.vars ≠ []) →
      ((l.flatMap fun t => (Spec.triangle t.vars.length).map fun e => (t, e)).length ≤
        (l.flatMap Term.vars).length ↔ ∀ t ∈ l, t.vars.length = 1) := by
    intro l hl
    induction l with
    | nil => simp
    | cons t l ih =>
      have ih := ih fun s hs => hl s (by simp [hs])
      have h5 : (l.flatMap Term.vars).length ≤
          (l.flatMap fun t => (Spec.triangle t.vars.length).map fun e => (t, e)).length := by
        have := length_names_le ⟨[], l⟩
        simpa [namesTheta, Spec.reNames, List.flatMap_map, Spec.parameters] using this
      have h6 := le_length_triangle t.vars.length
      have h7 : (Spec.triangle t.vars.length).length ≤ t.vars.length ↔ t.vars.length = 1 := by
        have h8 := length_triangle t.vars.length
        have h9 := List.length_pos_iff.2 (hl t (by simp))
        constructor
        · intro h10
          nlinarith
        · intro h10
          rw [h10] at h8 ⊢
          omega
      rw [List.flatMap_cons, List.length_append, List.flatMap_cons, List.length_append,
        List.length_map, List.forall_mem_cons, ← ih, ← h7]
      omega
  rw [show Spec.Simple E ↔ _ from (key E.terms h.vars).symm]
  constructor
  · intro hno
    by_contra hlt
    refine hno (List.mem_map.2 ⟨(E.terms.flatMap Term.vars).length, List.mem_range.2 (not_le.1 hlt), ?_⟩)
    simp
  · intro hle hno
    obtain ⟨i, hi, h0⟩ := List.mem_map.1 hno
    rw [List.getElem?_eq_none_iff, List.length_map] at h0
    have := List.mem_range.1 hi
    exact absurd (lt_of_lt_of_le this hle) (not_lt.2 h0)

/-- **C89, names of all parameters.** If every term has one variable and there are fixed effects, the
names are those of the variables, after `RE`, and of the columns of `X`. -/
theorem c89_coef {E : Effects} (hs : Spec.Simple E) (hn : E.terms ≠ [])
    {names_beta : List String} (hb : names_beta ≠ []) (estim : List ℝ) :
    coefNames (Spec.reNames E) names_beta estim = Except.ok
      ((E.terms.map fun t => some ("RE" ++ t.vars.getD 0 "")) ++ names_beta.map some) := by
  have hp := parameters_simple hs
  have hl : (Spec.parameters E).length = E.terms.length := by rw [hp, List.length_map]
  have hn' : 0 < (Spec.parameters E).length := by rw [hl]; exact List.length_pos_iff.2 hn
  have e2 : E.terms.flatMap Term.vars = E.terms.map fun t => t.vars.getD 0 "" := by
    rw [List.map_eq_flatMap]
    refine List.flatMap_congr fun t ht => ?_
    obtain ⟨v, hv⟩ := List.length_eq_one_iff.1 (hs t ht)
    simp [hv]
  unfold coefNames coefFixedNames setNames coefFixed
  have h5 : (index estim (colon ((Spec.reNames E).nTheta + 1)
      (names_beta.length + (Spec.reNames E).nTheta))).length = names_beta.length := by
    unfold index
    rw [Fit.colon_fixed _ (List.length_pos_iff.2 hb)]
    simp
  rw [coefRandomNames_eq hn', res_ok_bind, h5, if_neg (lt_irrefl _), res_ok_bind]
  refine congrArg Except.ok (congrArg₂ (· ++ ·) ?_ ?_)
  · rw [e2, hl]
    refine List.ext_getElem (by simp) fun i hi hi' => ?_
    simp only [List.length_map, List.length_range] at hi
    simp [hi]
  · refine List.ext_getElem (by simp) fun i hi hi' => ?_
    simp only [List.length_map, List.length_range] at hi
    simp [hi]

/-! ## Cases -/

/-- `(1 | p) + (1 | q)`. -/
def crossed : Effects := ⟨[("p", 10), ("q", 4)], [⟨0, ["(Intercept)"]⟩, ⟨1, ["(Intercept)"]⟩]⟩

theorem crossed_proper : Spec.Proper crossed := ⟨by decide, by decide⟩

example : ∃ rows, randomTable (Spec.reNames crossed) (summary twoOpt) = Except.ok rows ∧
    Spec.Right crossed (summary twoOpt) rows :=
  c89_partial crossed_proper (show ∀ t ∈ crossed.terms, t.vars.length = 1 by decide) (by decide) _

example : groupLine (Spec.reNames crossed) =
    [([some "p"], [some 10]), ([some "q"], [some 4])] := by
  exact ((c89_groups crossed_proper (by decide)).2 (by decide)).trans rfl

/-- `(1 + x | g)`. -/
def slope : Effects := ⟨[("g", 7)], [⟨0, ["(Intercept)", "x"]⟩]⟩

theorem slope_proper : Spec.Proper slope := ⟨by decide, by decide⟩

/-- A fit of this model cannot be printed. -/
example (x : Summary) : ¬ ∃ rows, randomTable (Spec.reNames slope) x = Except.ok rows :=
  c89_two slope_proper rfl rfl x

/-- `(x || g)`: the second number of levels is missing. -/
example : groupLine (Spec.reNames ⟨[("g", 7)], [⟨0, ["(Intercept)"]⟩, ⟨0, ["x"]⟩]⟩) =
    [([some "g"], [some 7]), ([some "g"], [none])] := rfl

/-- `(1 + x + z | g)`: the third variance has the name of the first variable. -/
example (x : Summary) : ∃ rows : List ReRow,
    randomTable (Spec.reNames ⟨[("g", 7)], [⟨0, ["(Intercept)", "x", "z"]⟩]⟩) x = Except.ok rows ∧
    (rows.map ReRow.name) = ["(Intercept)", "x", "z", "(Intercept)", "x", "z"] := by
  rw [table_eq ⟨by decide, by decide⟩ (by decide)]
  exact ⟨_, rfl, rfl⟩

/-- The methods of `glmm` have names. -/
theorem c89_method (method : String) (control : String → String) :
    (∃ name, findApproximationName method control = Except.ok name) ↔
      method ∈ ["Laplace", "AGQ", "SR", "IS"] := by
  unfold findApproximationName
  split_ifs with h1 h2 h3 h4
  · simp [h1]
  · simp [h2]
  · simp [h3]
  · simp [h4]
  · simp only [List.mem_cons, h1, h2, h3, h4, List.not_mem_nil, or_self, iff_false]
    rintro ⟨name, hn⟩
    cases hn

end Verif.Print
