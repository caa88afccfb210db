import Verif.Base.Res

/-!
# The options for lme4: R/control.R:8-32 and the functions that pass them on

What lme4 does with the options is a parameter (`Lme4`). Only the path of the options is modelled here:
what is computed from the formula, the data, the weights and the offset is in the parameters, and the
rest of the code is in the other files.
-/
namespace Verif.Options

open Verif

/-- The options of `lme4::glmerControl` that `set_lme4_control` names, and any others.
Used for R/control.R:8-32. -/
structure Options where
  nobsVsRankZ : List String
  nobsVsNlev : List String
  nlevGtreq5 : List String
  nlevGtr1 : List String
  nobsVsNRE : List String
  rankX : List String
  scaleX : List String
  formulaLHS : List String
  responseNotConst : List String
  others : List (String × List String)
  deriving DecidableEq

/-- The arguments given in a call of `set_lme4_control`; `none` is an argument that is missing.
Used for R/control.R:8-32. -/
structure Given where
  nobsVsRankZ : Option (List String) := none
  nobsVsNlev : Option (List String) := none
  nlevGtreq5 : Option (List String) := none
  nlevGtr1 : Option (List String) := none
  nobsVsNRE : Option (List String) := none
  rankX : Option (List String) := none
  scaleX : Option (List String) := none
  formulaLHS : Option (List String) := none
  responseNotConst : Option (List String) := none
  others : List (String × List String) := []

/-- R/control.R:8-32 `set_lme4_control`. The choice of the first element, where the default has several,
is left to lme4. -/
def setLme4Control (g : Given) : Options where
  nobsVsRankZ := g.nobsVsRankZ.getD ["ignore"]
  nobsVsNlev := g.nobsVsNlev.getD ["ignore"]
  nlevGtreq5 := g.nlevGtreq5.getD ["ignore"]
  nlevGtr1 := g.nlevGtr1.getD ["ignore"]
  nobsVsNRE := g.nobsVsNRE.getD ["ignore"]
  rankX := g.rankX.getD
    ["message+drop.cols", "silent.drop.cols", "warn+drop.cols", "stop.deficient", "ignore"]
  scaleX := g.scaleX.getD ["warning"]
  formulaLHS := g.formulaLHS.getD ["stop"]
  responseNotConst := g.responseNotConst.getD ["ignore"]
  others := g.others

/-- The functions of lme4 that take the options, for formulas `F` and subformulas `S` (with their data),
model frames `M`, frames of subformulas `N` and deviance functions `D`; and the functions used where a
formula has no random effects, and to put the frames together. Used for R/model_frames.R:3-70. -/
structure Lme4 (F S M N D : Type) where
  hasRe : F → Bool
  glFormula : Options → F → Res M
  plain : F → Res M
  hasReSub : S → Bool
  lFormula : Options → S → Res N
  plainSub : S → Res N
  attach : M → List N → Res M
  hasReTrms : M → Bool
  mkGlmerDevfun : Options → M → Res D

variable {F S M N D : Type}

/-- R/model_frames.R:3-70 `parse_formula`: every call of `glFormula` (lines 15-16, 19-21, 24-26, 28-30)
has `control = lme4_control`. -/
def parseFormula (L : Lme4 F S M N D) (f : F) (control : Options) : Res M :=
  if L.hasRe f then L.glFormula control f else L.plain f

/-- R/model_frames.R:73-89 `parse_subformula`, as called by `parse_sub` (R/subformula.R:118-155). -/
def parseSubformula (L : Lme4 F S M N D) (control : Options) (s : S) : Res N :=
  if L.hasReSub s then L.lFormula control s else L.plainSub s

/-- R/subformula.R:161-190 `find_modfr_glmm`; `control` is `none` where the argument is missing. -/
def findModfrGlmm (L : Lme4 F S M N D) (f : F) (subs : List S) (control : Option Options) : Res M := do
  let lme4Control := control.getD (setLme4Control {})
  let m ← parseFormula L f lme4Control
  if subs.isEmpty then pure m
  else do
    let l ← subs.mapM (parseSubformula L lme4Control)
    L.attach m l

/-- R/loglikelihood.R:5-18 `find_lfun_glmm`, the deviance function it is built on. -/
def findLfunGlmm (L : Lme4 F S M N D) (modfr : M) (control : Option Options) : Res D :=
  L.mkGlmerDevfun (control.getD (setLme4Control {})) modfr

/-- R/fit.R:46-57 and 88-90 `glmm`, up to the deviance function. The call of `find_modfr_glmm` (lines
53-54) does not have the argument `lme4_control`. -/
def glmm (L : Lme4 F S M N D) (f : F) (subs : List S) (control : Option Options) : Res (M × D) := do
  let lme4Control := control.getD (setLme4Control {})
  let m ← findModfrGlmm L f subs none
  if L.hasReTrms m then do
    let d ← L.mkGlmerDevfun lme4Control m
    pure (m, d)
  else Res.raise "haven't yet implemented no random effects case"

end Verif.Options
