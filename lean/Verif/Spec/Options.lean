import Verif.Model.Options

/-!
# What the options of `glmm` should do

"`lme4_control`: the result of a call to `lme4_control`, containing control parameters passed to `lme4`"
(R/fit.R:20-21): all of lme4 is run with the options given.
-/
namespace Verif.Options.Spec

open Verif

variable {F S M N D : Type}

/-- lme4 with the same options for everything. -/
def fixedTo (L : Lme4 F S M N D) (o : Options) : Lme4 F S M N D :=
  { L with
    glFormula := fun _ => L.glFormula o
    lFormula := fun _ => L.lFormula o
    mkGlmerDevfun := fun _ => L.mkGlmerDevfun o }

/-- The formulas with random effects use the options for nothing: the frames are the same for both. -/
def SameFrames (L : Lme4 F S M N D) (o o' : Options) (f : F) (subs : List S) : Prop :=
  (L.hasRe f = true → L.glFormula o f = L.glFormula o' f) ∧
    ∀ s ∈ subs, L.hasReSub s = true → L.lFormula o s = L.lFormula o' s

/-- The check of lme4 on the numbers of levels of the grouping factors, `check.nlev.gtr.1`, where the
option is "stop". -/
def checkLevels (o : Options) (levels : List Nat) : Res Unit :=
  if o.nlevGtr1.head? = some "stop" ∧ ∃ k ∈ levels, k ≤ 1 then
    Res.raise "grouping factors must have > 1 sampled level"
  else pure ()

/-- lme4 with that check only: a formula is the list of the numbers of levels of its grouping factors,
and so is its frame. -/
def levelsOnly : Lme4 (List Nat) (List Nat) (List Nat) (List Nat) (List Nat) where
  hasRe l := !l.isEmpty
  glFormula o l := do checkLevels o l; pure l
  plain l := pure l
  hasReSub l := !l.isEmpty
  lFormula o l := do checkLevels o l; pure l
  plainSub l := pure l
  attach m l := pure (m ++ l.flatten)
  hasReTrms l := !l.isEmpty
  mkGlmerDevfun _ l := pure l

end Verif.Options.Spec
