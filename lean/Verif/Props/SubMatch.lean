import Verif.Model.SubMatch
import Verif.Props.SubWitness

/-!
# C51: `Sub(.)` terms and substituted variables
-/
namespace Verif.SubExpr

open Verif.Frames Verif.Frames.Spec Verif.SubExpr.Spec

mutual
theorem mem_findVars {vars : List String} {x : String} : ∀ {e : Expr},
    x ∈ findVars vars e ↔ x ∈ vars ∧ x ∈ names e
  | .lit _ => by simp [findVars, names]
  | .name y => by
    rw [findVars, names]
    split
    · rename_i h
      rw [List.contains_iff_mem] at h
      rw [List.mem_singleton]
      constructor
      · rintro rfl
        exact ⟨h, rfl⟩
      · exact fun h => h.2
    · rename_i h
      rw [List.contains_iff_mem] at h
      constructor
      · intro h
        cases h
      · rintro ⟨h1, h2⟩
        rw [List.mem_singleton] at h2
        exact absurd (h2 ▸ h1) h
  | .call xs => by
    rw [findVars, names, List.mem_eraseDups]
    exact mem_findVarsList

theorem mem_findVarsList {vars : List String} {x : String} : ∀ {xs : List Expr},
    x ∈ findVarsList vars xs ↔ x ∈ vars ∧ x ∈ namesList xs
  | [] => by simp [findVarsList, namesList]
  | e :: xs => by
    rw [findVarsList, namesList, List.mem_append, List.mem_append, mem_findVars, mem_findVarsList]
    tauto
end

/-- A `Sub(.)` term involves none of the variables. -/
def Spec.InvolvesNone (vars : List String) (e : Expr) : Prop := ∀ v ∈ vars, v ∉ names e

/-- A `Sub(.)` term involves more than one of the variables. -/
def Spec.InvolvesSeveral (vars : List String) (e : Expr) : Prop :=
  ∃ v ∈ vars, ∃ w ∈ vars, v ≠ w ∧ v ∈ names e ∧ w ∈ names e

theorem findVars_nil {vars : List String} {e : Expr} :
    findVars vars e = [] ↔ InvolvesNone vars e := by
  rw [List.eq_nil_iff_forall_not_mem]
  constructor
  · intro h v hv hn
    exact h v (mem_findVars.2 ⟨hv, hn⟩)
  · intro h x hx
    obtain ⟨h1, h2⟩ := mem_findVars.1 hx
    exact h x h1 h2

/-- The first check never stops, whatever the counts. -/
theorem c51_check (n : List ℕ) : ¬ anyNum n > 1 := by
  unfold anyNum
  split <;> omega

theorem mapM_first {subvar : String} {l : List (List String)} {r : List Bool}
    (h : l.mapM (firstIs subvar) = Except.ok r) : ∀ x ∈ l, x ≠ [] := by
  replace h := mapM_inv h
  induction h with
  | nil => simp
  | cons hab _ ih =>
    intro x hx
    rcases List.mem_cons.1 hx with rfl | hx
    · rintro rfl
      cases hab
    · exact ih x hx

/-- C51, the part that holds: if the terms are matched, each involves a substituted variable.
Missing: that it involves only one (`c51_violated`). -/
theorem c51_partial {subvars : List String} {subexprs : List Expr}
    {r : List (Option (String × Expr))} (h : matchSub subvars subexprs = Except.ok r) :
    ∀ e ∈ subexprs, ¬ InvolvesNone subvars e := by
  unfold matchSub at h
  dsimp only at h
  rw [if_neg (c51_check _)] at h
  split at h
  · cases h
  rename_i h0
  rcases subvars with _ | ⟨v, vars⟩
  · exfalso
    apply h0
    unfold anyNum
    rw [if_neg]
    rw [Bool.not_eq_true, List.any_eq_false]
    intro k hk
    obtain ⟨f, hf, rfl⟩ := List.mem_map.1 hk
    obtain ⟨e, -, rfl⟩ := List.mem_map.1 hf
    rw [findVars_nil.2 (fun v hv => by cases hv)]
    simp
  · have h := mapM_inv h
    cases h with
    | cons h1 _ =>
      unfold addSubexpr at h1
      rcases hf : (subexprs.map (findVars (v :: vars))).mapM (firstIs v) with err | first
      · rw [hf] at h1
        cases h1
      · intro e he hn
        exact mapM_first hf _ (List.mem_map_of_mem he) (findVars_nil.2 hn)

/-! ## Two variables in one term -/

/-- Column `b` of the data; a substituted variable has the same name. -/
def bothData : Env := fun x =>
  if x = "i" then some (.num [1]) else if x = "b" then some (.num [3]) else none

/-- `a[i] * b`, and `b[i]`. -/
def bothExprs : List Expr := [.call [.name "*", at1 "a" "i", .name "b"], at1 "b" "i"]

/-- C51 is violated: a term with two substituted variables is matched and made into a frame. -/
theorem c51_violated : (∃ e ∈ bothExprs, InvolvesSeveral ["a", "b"] e) ∧
    ∃ Fs, subFrames smallHost (fun _ => ([1], lineFrame 1, bothData)) ["a", "b"] bothExprs =
      Except.ok Fs := by
  refine ⟨⟨_, List.mem_cons_self, "a", by decide, "b", by decide, by decide, by decide,
    by decide⟩, ?_⟩
  have hm : matchSub ["a", "b"] bothExprs = Except.ok
      [some ("a", .call [.name "*", at1 "a" "i", .name "b"]), some ("b", at1 "b" "i")] := by
    have e1 : findVars ["a", "b"] (.call [.name "*", at1 "a" "i", .name "b"]) = ["a", "b"] := by decide
    have e2 : findVars ["a", "b"] (at1 "b" "i") = ["b"] := by decide
    unfold matchSub bothExprs
    simp only [List.map_cons, List.map_nil, e1, e2]
    rw [if_neg (by decide), if_neg (by decide)]
    rfl
  have hd : ∀ x g, bothData x ≠ some (.frame g) := by
    intro x g
    unfold bothData
    split
    · simp
    · split <;> simp
  obtain ⟨⟨F, hF, -⟩, -⟩ := c56_partial smallHost (y := "a") (i := "i") (k := "b") (n0 := 1) (m := 1)
    (js := [1]) (c := 3) (data := bothData) (lineFrame_wf 1) hd ⟨by decide, by decide⟩
    ⟨by decide, by decide⟩ ⟨by decide, by decide⟩ (by decide) (by decide) (by simp [bothData])
    (by simp) (by simp [bothData]) 0 0 0
  have hv : Value smallHost bothData "b" [1] (predictor (lineFrame 1) 1 0 0 0) (at1 "b" "i") [0] :=
    .index .var (by decide) (smallHost.lookup _ _ (.num [1]) rfl) (.num _)
      (Or.inl ⟨[1], by simp, by simp [predictor_length], by
        rw [lineFrame_predictor]
        simp⟩)
  obtain ⟨G, hG, -⟩ := c42_accepted (lineFrame_wf 1) (by simp) hd (by decide)
    (by simp [NoLit, NoLitList, at1])
    (by
      intro x hx
      simp only [names, namesList, at1, List.append_nil, List.mem_append, List.mem_singleton] at hx
      rcases hx with rfl | rfl | rfl <;> decide)
    (by
      intro p q hp _ h2
      rcases indexedBy_two hp with h | h | h
      · omega
      · cases h
      · cases h) rfl hv
  refine ⟨[.frame F, .frame G], ?_⟩
  unfold subFrames
  rw [hm]
  simp only [res_ok_bind]
  rw [List.mapM_cons, List.mapM_cons, List.mapM_nil]
  dsimp only
  unfold at1 at hG ⊢
  rw [hF]
  simp only [res_ok_bind]
  rw [hG]
  rfl

/-- The hypothesis of `c51_partial` is met. -/
example : ∃ r, matchSub ["a", "b"] bothExprs = Except.ok r := by
  obtain ⟨-, Fs, h⟩ := c51_violated
  unfold subFrames at h
  rcases hm : matchSub ["a", "b"] bothExprs with err | r
  · rw [hm] at h
    cases h
  · exact ⟨r, rfl⟩

end Verif.SubExpr
