import Verif.Spec.Options

/-!
# C117: the options for lme4 reach lme4

They do where the model frame and the likelihood are asked for separately (`c117_separate`), and in
`glmm` for the deviance function. The model frame of `glmm` is made with the default options, whatever
the options given (`c117_frame`); so the options have the effect documented if the model frame is the
same with the default options (`c117_partial`), and not otherwise (`c117_iff`). In particular no option
makes `glmm` stop for a grouping factor with one level (`c117_levels`).
-/
namespace Verif.Options

open Verif

variable {F S M N D : Type}

/-- `find_modfr_glmm` and `find_lfun_glmm`, called with the same options, run all of lme4 with them. -/
theorem c117_separate (L : Lme4 F S M N D) (f : F) (subs : List S) (o : Options)
    (other : Option Options) :
    (do let m ← findModfrGlmm L f subs (some o); findLfunGlmm L m (some o)) =
      (do
        let m ← findModfrGlmm (Spec.fixedTo L o) f subs other
        findLfunGlmm (Spec.fixedTo L o) m other) := by
  rfl

/-- The model frame of `glmm` is that of the default options. -/
theorem c117_frame (L : Lme4 F S M N D) (f : F) (subs : List S) (o : Option Options) (m : M) (d : D)
    (h : glmm L f subs o = Except.ok (m, d)) :
    findModfrGlmm L f subs (some (setLme4Control {})) = Except.ok m := by
  unfold glmm at h
  change (findModfrGlmm L f subs (some (setLme4Control {})) >>= _) = _ at h
  cases hm : findModfrGlmm L f subs (some (setLme4Control {})) with
  | error e => rw [hm] at h; cases h
  | ok m' =>
    rw [hm] at h
    change (if L.hasReTrms m' = true then _ else _) = _ at h
    split at h
    · cases hd : L.mkGlmerDevfun (o.getD (setLme4Control {})) m' with
      | error e => rw [hd] at h; cases h
      | ok d' => rw [hd] at h; cases h; rfl
    · cases h

/-- The frames depend on the options through lme4 only. -/
theorem frames_eq (L : Lme4 F S M N D) (f : F) (subs : List S) (o o' : Options)
    (h : Spec.SameFrames L o o' f subs) :
    findModfrGlmm L f subs (some o) = findModfrGlmm L f subs (some o') := by
  have h1 : parseFormula L f o = parseFormula L f o' := by
    unfold parseFormula
    split
    · exact h.1 ‹_›
    · rfl
  have h2 : subs.mapM (parseSubformula L o) = subs.mapM (parseSubformula L o') := by
    have h3 := h.2
    clear h h1
    induction subs with
    | nil => rfl
    | cons s l ih =>
      have h4 : parseSubformula L o s = parseSubformula L o' s := by
        unfold parseSubformula
        split
        · exact h3 s (by simp) ‹_›
        · rfl
      rw [List.mapM_cons, List.mapM_cons, h4, ih fun t ht => h3 t (by simp [ht])]
  unfold findModfrGlmm
  simp only [Option.getD_some, h1, h2]

/-- What is missing: that this holds without the hypothesis, see `c117_levels`. -/
theorem c117_partial (L : Lme4 F S M N D) (f : F) (subs : List S) (o : Options)
    (h : Spec.SameFrames L o (setLme4Control {}) f subs) :
    glmm L f subs (some o) = glmm (Spec.fixedTo L o) f subs none := by
  have h1 := frames_eq L f subs o _ h
  have h2 : findModfrGlmm (Spec.fixedTo L o) f subs none = findModfrGlmm L f subs (some o) := rfl
  have h3 : findModfrGlmm L f subs none = findModfrGlmm L f subs (some (setLme4Control {})) := rfl
  unfold glmm
  rw [h2, h3, h1]
  rfl

/-- The exact condition, for a frame with random effects for which lme4 makes a deviance function: the
options have the effect documented just if they make no difference to the frame. -/
theorem c117_iff (L : Lme4 F S M N D) (f : F) (subs : List S) (o : Options) (m : M) (d : D)
    (h : glmm L f subs (some o) = Except.ok (m, d)) :
    glmm (Spec.fixedTo L o) f subs none = Except.ok (m, d) ↔
      findModfrGlmm L f subs (some o) = findModfrGlmm L f subs (some (setLme4Control {})) := by
  have h1 := c117_frame L f subs _ m d h
  have h2 : findModfrGlmm (Spec.fixedTo L o) f subs none = findModfrGlmm L f subs (some o) := rfl
  constructor
  · intro h3
    have h4 := c117_frame _ f subs _ m d h3
    rw [h1]
    exact h4
  · intro h3
    have h4 : glmm (Spec.fixedTo L o) f subs none = glmm L f subs (some o) := by
      have h5 : findModfrGlmm L f subs none = findModfrGlmm L f subs (some (setLme4Control {})) := rfl
      unfold glmm
      rw [h2, h3, h5]
      rfl
    rw [h4, h]

/-- An option "stop" for grouping factors with one level. -/
def stopOne : Options := setLme4Control { nlevGtr1 := some ["stop"] }

/-- No option makes `glmm` stop for the levels of the grouping factors. -/
theorem c117_levels (levels : List Nat) (h : levels ≠ []) (o : Option Options) :
    glmm Spec.levelsOnly levels [] o = Except.ok (levels, levels) := by
  have h1 : levels.isEmpty = false := by simpa using h
  have h2 : findModfrGlmm Spec.levelsOnly levels [] none = Except.ok levels := by
    unfold findModfrGlmm parseFormula
    simp [Spec.levelsOnly, h1, Spec.checkLevels, setLme4Control]
  unfold glmm
  rw [h2]
  change (if (!levels.isEmpty) = true then _ else _) = _
  rw [h1]
  rfl

/-- With the option "stop", `find_modfr_glmm` stops for a grouping factor with one level; as documented,
`glmm` would too. -/
theorem c117_stop (levels : List Nat) (h : ∃ k ∈ levels, k ≤ 1) :
    findModfrGlmm Spec.levelsOnly levels [] (some stopOne) =
        Res.raise "grouping factors must have > 1 sampled level" ∧
      glmm (Spec.fixedTo Spec.levelsOnly stopOne) levels [] none =
        Res.raise "grouping factors must have > 1 sampled level" := by
  have h0 : levels.isEmpty = false := by
    obtain ⟨k, hk, _⟩ := h
    cases levels with
    | nil => simp at hk
    | cons => rfl
  have h1 : findModfrGlmm Spec.levelsOnly levels [] (some stopOne) =
      Res.raise "grouping factors must have > 1 sampled level" := by
    unfold findModfrGlmm parseFormula
    simp [Spec.levelsOnly, h0, Spec.checkLevels, stopOne, setLme4Control, h]
    rfl
  refine ⟨h1, ?_⟩
  have h2 : findModfrGlmm (Spec.fixedTo Spec.levelsOnly stopOne) levels [] none =
      findModfrGlmm Spec.levelsOnly levels [] (some stopOne) := rfl
  unfold glmm
  rw [h2, h1]
  rfl

/-- The options that are given to `set_lme4_control` are found in the result; of the others, the checks of
the numbers of levels and observations are off. -/
theorem c117_set (g : Given) :
    (∀ v, g.nobsVsRankZ = some v → (setLme4Control g).nobsVsRankZ = v) ∧
      (g.nobsVsRankZ = none → (setLme4Control g).nobsVsRankZ = ["ignore"]) ∧
    (∀ v, g.nobsVsNlev = some v → (setLme4Control g).nobsVsNlev = v) ∧
      (g.nobsVsNlev = none → (setLme4Control g).nobsVsNlev = ["ignore"]) ∧
    (∀ v, g.nlevGtreq5 = some v → (setLme4Control g).nlevGtreq5 = v) ∧
      (g.nlevGtreq5 = none → (setLme4Control g).nlevGtreq5 = ["ignore"]) ∧
    (∀ v, g.nlevGtr1 = some v → (setLme4Control g).nlevGtr1 = v) ∧
      (g.nlevGtr1 = none → (setLme4Control g).nlevGtr1 = ["ignore"]) ∧
    (∀ v, g.nobsVsNRE = some v → (setLme4Control g).nobsVsNRE = v) ∧
      (g.nobsVsNRE = none → (setLme4Control g).nobsVsNRE = ["ignore"]) ∧
    (∀ v, g.scaleX = some v → (setLme4Control g).scaleX = v) ∧
      (g.scaleX = none → (setLme4Control g).scaleX = ["warning"]) ∧
    (∀ v, g.formulaLHS = some v → (setLme4Control g).formulaLHS = v) ∧
      (g.formulaLHS = none → (setLme4Control g).formulaLHS = ["stop"]) ∧
    (∀ v, g.responseNotConst = some v → (setLme4Control g).responseNotConst = v) ∧
      (g.responseNotConst = none → (setLme4Control g).responseNotConst = ["ignore"]) ∧
    (∀ v, g.rankX = some v → (setLme4Control g).rankX = v) ∧
      (g.rankX = none → (setLme4Control g).rankX.head? = some "message+drop.cols") ∧
      (setLme4Control g).others = g.others := by
  refine ⟨?_, ?_, ?_, ?_, ?_, ?_, ?_, ?_, ?_, ?_, ?_, ?_, ?_, ?_, ?_, ?_, ?_, ?_, rfl⟩ <;> intros <;> simp_all [setLme4Control]

/-- The model of tests/testthat/test_lme4_control.R: one grouping factor with one level. -/
example : (∃ k ∈ [1], k ≤ 1) ∧ ([1] : List Nat) ≠ [] := by simp

/-- With two levels the hypothesis of `c117_partial` holds for the option "stop", and with one level it
does not. -/
example : Spec.SameFrames Spec.levelsOnly stopOne (setLme4Control {}) [2] [[3]] ∧
    ¬ Spec.SameFrames Spec.levelsOnly stopOne (setLme4Control {}) [1] [] := by
  constructor
  · constructor
    · intro _; rfl
    · intro s hs _
      simp only [List.mem_singleton] at hs
      subst hs
      rfl
  · rintro ⟨h, -⟩
    cases h rfl

end Verif.Options
