import Verif.Model.ModFr
import Verif.Props.Indices

/-!
# C77, C78: the model frame of a formula with subformulas
-/
namespace Verif.SubExpr

open Verif.Frames Verif.Frames.Spec Verif.Indexing Verif.SubExpr.Spec

/-! ## C77 -/

/-- Specification: a `Sub(.)` term with its subformula: the variable, the expression, the indices of
the subformula and the frame made for it. -/
structure Spec.SubTerm where
  y : String
  e : Expr
  ix : List (String × Idx)
  F0 : Frame

/-- Specification: number of rows of the subformula. -/
def Spec.SubTerm.rows (t : SubTerm) : ℕ := (t.ix.map fun p => p.2.length).prod

/-- Specification: the values of the `Sub(.)` terms, each subformula with its own coefficients, random
effects and variance parameters, one after the other. -/
inductive Spec.TermValues (host : Host) (data : Data) : List SubTerm → (ℕ → ℝ) → (ℕ → ℝ) → (ℕ → ℝ) →
    List (List ℝ) → Prop
  | nil {θ β u : ℕ → ℝ} : TermValues host data [] θ β u []
  | cons {t : SubTerm} {ts : List SubTerm} {θ β u : ℕ → ℝ} {v : List ℝ} {vs : List (List ℝ)} :
      LabelValue host data t.y t.ix (predictor t.F0 t.rows θ β u) t.e v →
      TermValues host data ts (from_ (nTheta t.F0) θ) (from_ (nBeta t.F0) β) (from_ (nU t.F0) u) vs →
      TermValues host data (t :: ts) θ β u (v :: vs)

/-- Specification: `t` comes from the subformula `subform` and one of the `Sub(.)` expressions. -/
def Spec.SubTerm.From (text : ℝ → String) (frame : Expr → List (String × Idx) → Data → Res Frame)
    (data : Data) (subexprs : List Expr) (subform : Expr) (t : SubTerm) : Prop :=
  findSubvar subform = Except.ok t.y ∧ t.e ∈ subexprs ∧ t.y ∈ names t.e ∧
    findIndicesSubform text t.y subform t.e data = Except.ok (data, t.ix) ∧
    frame subform t.ix data = Except.ok t.F0

theorem shape_counts {F0 F : Frame} (h : Shape F0 F) :
    nTheta F = nTheta F0 ∧ nBeta F = nBeta F0 ∧ nU F = nU F0 := by
  obtain ⟨h1, h2⟩ := h
  unfold nTheta nBeta nU
  rcases h2 with ⟨e, e'⟩ | ⟨R, Z, e, e', hz⟩
  · rw [e, e']
    exact ⟨rfl, h1, rfl⟩
  · rw [e, e']
    exact ⟨rfl, h1, hz⟩

/-- `c75_partial`, with the shape of the frame. -/
theorem parseSubAll_core {host : Host} {text : ℝ → String}
    {frame : Expr → List (String × Idx) → Data → Res Frame} {y : String} {subform e : Expr}
    {data : Data} {V : Val} (hframe : ∀ ix data' F, frame subform ix data' = Except.ok F →
      WellFormed F (ix.map fun p => p.2.length).prod)
    (hfresh : ∀ data' ix, findIndicesSubform text y subform e data = Except.ok (data', ix) →
      ∀ p ∈ ix, data p.1 = none) (hg : GoodFactors data) (hvis : Visible y e) (hT : NoTrue e)
    (hN : NoFrames e) (hc : NoClash e)
    (h : parseSubAll host text frame y subform e data = Except.ok V) :
    ∃ ix F0 F n, findIndicesSubform text y subform e data = Except.ok (data, ix) ∧
      frame subform ix data = Except.ok F0 ∧ V = .frame F ∧ WellFormed F n ∧ Shape F0 F ∧
      y ∈ names e ∧ ∀ θ β u v,
        LabelValue host data y ix (predictor F0 (ix.map fun p => p.2.length).prod θ β u) e v →
        predictor F n θ β u = v := by
  obtain ⟨data', ix, F0, h1, h2, h3⟩ := parseSubAll_inv h
  obtain ⟨rfl, d, hd, hgood⟩ := findIndicesSubform_good h1 (hfresh _ _ h1)
  have hix : ix ≠ [] := by
    rintro rfl
    exact colon_ne_nil d (List.forall₂_nil_right_iff.1 hgood)
  have hdim := (parseSub_inv h3).1
  rw [hd, List.length_map] at hdim
  have hd' : d = ix.length := Option.some.inj (Except.ok.inj hdim)
  subst hd'
  have hy := parseSub_uses h3
  obtain ⟨-, e', ex, flats, p1, p2, p3, p4⟩ := parseSub_inv h3
  obtain ⟨-, F, n, r1, r2, r3, r4⟩ := eval_main (hframe _ _ _ h2)
    (l := ix.map fun p => p.2.length) (by simpa using hix) (by simp [subEnv])
    (fun x g hx => subEnv_noFrame p3 (env_noFrame _) x g hx) e e' V ex hvis hT hN hy p2 p1 p4
  refine ⟨ix, F0, F, n, h1, h2, r1, r3, r2, hy, fun θ β u v hlab => ?_⟩
  exact r4 (subEnv_sees p2 p3 hy hc) θ β u v (labelValue_value hg hix hlab (allGood_of hgood))

theorem fold_rows : ∀ {Gs : List Frame} {F H : Frame} {n : ℕ}, WellFormed F n →
    (∀ G ∈ Gs, ∃ m, WellFormed G m) → Gs.foldlM concatenateFrames F = Except.ok H →
    WellFormed H n ∧ ∀ G ∈ Gs, WellFormed G n
  | [], F, H, n, hF, _, h => by
    have h := Except.ok.inj h
    subst h
    exact ⟨hF, by simp⟩
  | G :: Gs, F, H, n, hF, hG, h => by
    rw [List.foldlM_cons] at h
    rcases hc : concatenateFrames F G with err | K
    · rw [hc] at h
      cases h
    rw [hc] at h
    simp only [res_ok_bind] at h
    obtain ⟨m, hm⟩ := hG G (by simp)
    have hnm := (c45_runs hF hm).1 ⟨_, hc⟩
    subst hnm
    obtain ⟨h1, h2⟩ := fold_rows (c45_concat hF hm hc).1 (fun G' h' => hG G' (by simp [h'])) h
    refine ⟨h1, fun G' h' => ?_⟩
    rcases List.mem_cons.1 h' with rfl | h'
    · exact hm
    · exact h2 G' h'

/-- All frames that have been attached have the same number of observations. -/
theorem attach_rows {F H : Frame} {Gs : List Frame} {n : ℕ} (hF : WellFormed F n)
    (hG : ∀ G ∈ Gs, ∃ m, WellFormed G m) (h : attachSubframes F Gs = Except.ok H) :
    ∀ G ∈ Gs, WellFormed G n := by
  rcases Gs with _ | ⟨G, Gs⟩
  · simp
  · unfold attachSubframes at h
    dsimp only at h
    rcases hc : Gs.foldlM concatenateFrames G with err | K
    · rw [hc] at h
      cases h
    rw [hc] at h
    simp only [res_ok_bind] at h
    obtain ⟨m, hm⟩ := hG G (by simp)
    obtain ⟨h1, h2⟩ := fold_rows hm (fun G' h' => hG G' (by simp [h'])) hc
    have hnm := (c45_runs hF h1).1 ⟨_, h⟩
    subst hnm
    intro G' h'
    rcases List.mem_cons.1 h' with rfl | h'
    · exact hm
    · exact h2 G' h'

/-- What is known of one `Sub(.)` term and its frame. -/
def Made (host : Host) (text : ℝ → String) (frame : Expr → List (String × Idx) → Data → Res Frame)
    (data : Data) (subexprs : List Expr) (subform : Expr) (t : SubTerm) (F : Frame) : Prop :=
  t.From text frame data subexprs subform ∧ Shape t.F0 F ∧ ∃ n, WellFormed F n ∧ ∀ θ β u v,
    LabelValue host data t.y t.ix (predictor t.F0 t.rows θ β u) t.e v → predictor F n θ β u = v

theorem wf_unique {F : Frame} {n m : ℕ} (h : WellFormed F n) (h' : WellFormed F m) : n = m :=
  h.rows.symm.trans h'.rows

theorem lpSum_values {host : Host} {text : ℝ → String}
    {frame : Expr → List (String × Idx) → Data → Res Frame} {data : Data} {subexprs : List Expr}
    {n : ℕ} : ∀ {subforms : List Expr} {ts : List SubTerm} {Fs : List Frame} {θ β u : ℕ → ℝ}
    {vs : List (List ℝ)}, List.Forall₂ (fun s (p : SubTerm × Frame) =>
      Made host text frame data subexprs s p.1 p.2) subforms (ts.zip Fs) → ts.length = Fs.length →
    (∀ F ∈ Fs, WellFormed F n) → TermValues host data ts θ β u vs → ∀ i < n,
    Frames.Spec.lpSum Fs θ β u i = (vs.map fun v => v.getD i 0).sum
  | [], [], [], _, _, _, _, _, _, _, hv, i, _ => by
    cases hv
    rfl
  | s :: ss, t :: ts, F :: Fs, θ, β, u, _, h, hl, hF, .cons h1 h2, i, hi => by
    rw [List.zip_cons_cons] at h
    obtain ⟨⟨-, hs, m, hm, hval⟩, hrest⟩ := List.forall₂_cons.1 h
    have hmn := wf_unique hm (hF F (by simp))
    subst hmn
    obtain ⟨c1, c2, c3⟩ := shape_counts hs
    rw [Frames.Spec.lpSum, List.map_cons, List.sum_cons, c1, c2, c3,
      lpSum_values hrest (by simpa using hl) (fun F h' => hF F (by simp [h'])) h2 i hi,
      ← hval θ β u _ h1, predictor_getD hi]
  | _, [], _ :: _, _, _, _, _, _, hl, _, _, _, _ => by simp at hl
  | _, _ :: _, [], _, _, _, _, _, hl, _, _, _, _ => by simp at hl
  | [], _ :: _, _ :: _, _, _, _, _, h, _, _, _, _, _ => by cases h
  | _ :: _, [], [], _, _, _, _, h, _, _, _, _, _ => by cases h

theorem findModfr_inv {host : Host} {text : ℝ → String}
    {frame : Expr → List (String × Idx) → Data → Res Frame} {F H : Frame}
    {subforms subexprs : List Expr} {data : Data} (hne : subexprs ≠ [])
    (h : findModfr host text frame F subforms subexprs data = Except.ok H) :
    ∃ subvars subs vals Fs, subforms.mapM findSubvar = Except.ok subvars ∧
      matchSub subvars subexprs = Except.ok subs ∧
      (subforms.zip subs).mapM (parseMatched host text frame data) = Except.ok vals ∧
      vals.mapM asFrame = Except.ok Fs ∧ attachSubframes F Fs = Except.ok H := by
  unfold findModfr at h
  rw [if_neg (by rwa [List.length_eq_zero_iff])] at h
  rcases h1 : subforms.mapM findSubvar with err | subvars
  · rw [h1] at h
    cases h
  rw [h1] at h
  simp only [res_ok_bind] at h
  rcases h2 : matchSub subvars subexprs with err | subs
  · rw [h2] at h
    cases h
  rw [h2] at h
  simp only [res_ok_bind] at h
  rcases h3 : (subforms.zip subs).mapM (parseMatched host text frame data) with err | vals
  · rw [h3] at h
    cases h
  rw [h3] at h
  simp only [res_ok_bind] at h
  rcases h4 : vals.mapM asFrame with err | Fs
  · rw [h4] at h
    cases h
  rw [h4] at h
  exact ⟨subvars, subs, vals, Fs, rfl, h2, h3, h4, h⟩

/-- What the expressions of `Sub(.)` terms have to satisfy, as in `c42_partial`. -/
structure Spec.Plainly (y : String) (e : Expr) : Prop where
  visible : Visible y e
  noTrue : NoTrue e
  noFrames : NoFrames e
  noClash : NoClash e

theorem made_of {host : Host} {text : ℝ → String}
    {frame : Expr → List (String × Idx) → Data → Res Frame} {data : Data}
    (hg : GoodFactors data) {all : List Expr} : ∀ {subforms : List Expr} {subvars : List String}
    {subs : List (Option (String × Expr))} {vals : List Val} {Fs : List Frame},
    (∀ s ∈ subforms, ∀ ix data' F, frame s ix data' = Except.ok F →
      WellFormed F (ix.map fun p => p.2.length).prod) →
    (∀ s ∈ subforms, ∀ y, findSubvar s = Except.ok y → ∀ e ∈ all, ∀ data' ix,
      findIndicesSubform text y s e data = Except.ok (data', ix) → ∀ p ∈ ix, data p.1 = none) →
    (∀ s ∈ subforms, ∀ y, findSubvar s = Except.ok y → ∀ e ∈ all, Plainly y e) →
    List.Forall₂ (fun s v => findSubvar s = Except.ok v) subforms subvars →
    List.Forall₂ (fun v o => ∀ p, o = some p → p.1 = v ∧ p.2 ∈ all) subvars subs →
    List.Forall₂ (fun a b => parseMatched host text frame data a = Except.ok b) (subforms.zip subs) vals →
    List.Forall₂ (fun a b => asFrame a = Except.ok b) vals Fs →
    ∃ ts : List SubTerm, ts.length = Fs.length ∧
      ts.map (fun t => some (t.y, t.e)) = subs ∧
      List.Forall₂ (fun s (p : SubTerm × Frame) => Made host text frame data all s p.1 p.2)
        subforms (ts.zip Fs)
  | [], _, _, _, _, _, _, _, .nil, .nil, h3, h4 => by
    cases h3
    cases h4
    exact ⟨[], rfl, rfl, .nil⟩
  | s :: ss, y :: ys, o :: os, _, _, hfr, hfresh, hp, .cons a1 b1, .cons a2 b2, h3, h4 => by
    rw [List.zip_cons_cons] at h3
    cases h3 with
    | cons a3 b3 =>
    cases h4 with
    | cons a4 b4 =>
    obtain ⟨ts, l1, l2, l3⟩ := made_of hg (fun s' h' => hfr s' (by simp [h']))
      (fun s' h' => hfresh s' (by simp [h'])) (fun s' h' => hp s' (by simp [h'])) b1 b2 b3 b4
    rename_i V vals F Fs
    rcases o with _ | ⟨y', e⟩
    · cases a3
    obtain ⟨e1, e2⟩ := a2 _ rfl
    dsimp only at e1 e2
    subst e1
    have a3 : parseSubAll host text frame y' s e data = Except.ok V := a3
    have pl := hp s (by simp) y' a1 e e2
    obtain ⟨ix, F0, F', n, c1, c2, rfl, c4, c5, c6, c7⟩ := parseSubAll_core
      (fun ix data' F => hfr s (by simp) ix data' F)
      (fun data' ix => hfresh s (by simp) y' a1 e e2 data' ix) hg pl.visible pl.noTrue pl.noFrames
      pl.noClash a3
    have e3 : F' = F := Except.ok.inj a4
    subst e3
    refine ⟨⟨y', e, ix, F0⟩ :: ts, by simp [l1], by simp [l2], ?_⟩
    rw [List.zip_cons_cons]
    exact .cons ⟨⟨a1, e2, c6, c1, c2⟩, c5, n, c4, c7⟩ l3

/-- C77: the linear predictor of the model frame is that of the formula without `Sub(.)` terms, plus
the value of each `Sub(.)` expression, with rows of its subformula found by labels and with its own
coefficients, random effects and variance parameters; every expression is used, by the subformula of
its first substituted variable.
Missing: what is missing in `c75_partial`, and the splitting of the formula (C78). -/
theorem c77_partial {host : Host} {text : ℝ → String}
    {frame : Expr → List (String × Idx) → Data → Res Frame} {F H : Frame} {n : ℕ}
    {subforms subexprs : List Expr} {data : Data} (hne : subexprs ≠ []) (hF : WellFormed F n)
    (hframe : ∀ s ∈ subforms, ∀ ix data' F, frame s ix data' = Except.ok F →
      WellFormed F (ix.map fun p => p.2.length).prod)
    (hfresh : ∀ s ∈ subforms, ∀ y, findSubvar s = Except.ok y → ∀ e ∈ subexprs, ∀ data' ix,
      findIndicesSubform text y s e data = Except.ok (data', ix) → ∀ p ∈ ix, data p.1 = none)
    (hg : GoodFactors data)
    (hp : ∀ s ∈ subforms, ∀ y, findSubvar s = Except.ok y → ∀ e ∈ subexprs, Plainly y e)
    (h : findModfr host text frame F subforms subexprs data = Except.ok H) :
    ∃ ts : List SubTerm, List.Forall₂ (SubTerm.From text frame data subexprs) subforms ts ∧
      (∀ e ∈ subexprs, ∃ t ∈ ts, t.e = e ∧ first (ts.map SubTerm.y) e = some t.y) ∧ WellFormed H n ∧
      nBeta H = nBeta F + (ts.map fun t => nBeta t.F0).sum ∧
      nU H = nU F + (ts.map fun t => nU t.F0).sum ∧
      nTheta H = nTheta F + (ts.map fun t => nTheta t.F0).sum ∧
      ∀ θ β u vs, TermValues host data ts (from_ (nTheta F) θ) (from_ (nBeta F) β) (from_ (nU F) u) vs →
        ∀ i < n, lp H θ β u i = lp F θ β u i + (vs.map fun v => v.getD i 0).sum := by
  obtain ⟨subvars, subs, vals, Fs, h1, h2, h3, h4, h5⟩ := findModfr_inv hne h
  have hm := c69 h2
  obtain ⟨ts, l1, l2, l3⟩ := made_of hg hframe hfresh hp (mapM_inv h1) (hm.imp fun v o ho p e => by
    rcases ho with ⟨rfl, -⟩ | ⟨l, x, l', rfl, hs, -⟩
    · cases e
    · cases e
      exact ⟨rfl, by rw [hs]; simp⟩) (mapM_inv h3) (mapM_inv h4)
  have hrows := attach_rows hF (fun G hG => by
    obtain ⟨j, hj, rfl⟩ := List.mem_iff_getElem.1 hG
    obtain ⟨hlen, hget⟩ := List.forall₂_iff_get.1 l3
    have hz : j < (ts.zip Fs).length := by rw [List.length_zip, l1, min_self]; exact hj
    obtain ⟨-, -, m, hm, -⟩ := hget j (hlen ▸ hz) hz
    simp only [List.get_eq_getElem, List.getElem_zip] at hm
    exact ⟨m, hm⟩) h5
  obtain ⟨w, b1, b2, b3, b4⟩ := c45_attach hF hrows h5
  have hfrom : List.Forall₂ (SubTerm.From text frame data subexprs) subforms ts := by
    rw [List.forall₂_iff_get] at l3 ⊢
    obtain ⟨hlen, hget⟩ := l3
    rw [List.length_zip, l1, min_self] at hlen
    refine ⟨hlen.trans l1.symm, fun j h1 h2 => ?_⟩
    have := hget j h1 (by rw [List.length_zip, l1, min_self]; omega)
    simp only [List.get_eq_getElem, List.getElem_zip] at this ⊢
    exact this.1
  have hcounts : ∀ (f : Frame → ℕ), (∀ F0 F, Shape F0 F → f F = f F0) →
      Fs.map f = ts.map fun t => f t.F0 := by
    intro f hf
    refine List.ext_getElem (by simp [l1]) fun j h1 h2 => ?_
    simp only [List.getElem_map]
    obtain ⟨hlen, hget⟩ := List.forall₂_iff_get.1 l3
    rw [List.length_map] at h1 h2
    have hz : j < (ts.zip Fs).length := by rw [List.length_zip, l1, min_self]; exact h1
    obtain ⟨-, hs, -⟩ := hget j (hlen ▸ hz) hz
    simp only [List.get_eq_getElem, List.getElem_zip] at hs
    exact hf _ _ hs
  have hys : ts.map SubTerm.y = subvars := by
    refine List.ext_getElem ?_ fun j k1 k2 => ?_
    · rw [List.length_map, ← hfrom.length_eq, (mapM_inv h1).length_eq]
    · rw [List.length_map] at k1
      have p1 := (List.forall₂_iff_get.1 hfrom).2 j (hfrom.length_eq ▸ k1) k1
      have p2 := (List.forall₂_iff_get.1 (mapM_inv h1)).2 j (hfrom.length_eq ▸ k1) k2
      simp only [List.get_eq_getElem] at p1 p2
      rw [List.getElem_map]
      exact Except.ok.inj (p1.1.symm.trans p2)
  refine ⟨ts, hfrom, ?_, w, ?_, ?_, ?_, ?_⟩
  · intro e he
    have hnone := c51_partial h2 e he
    rw [hys]
    rcases hfe : first subvars e with _ | v
    · exfalso
      apply hnone
      rw [← findVars_nil, ← List.head?_eq_none_iff, findVars_head, hfe]
    · have hv : v ∈ subvars := by
        rw [← findVars_head] at hfe
        exact (mem_findVars.1 (List.mem_of_mem_head? hfe)).1
      obtain ⟨j, hj, rfl⟩ := List.mem_iff_getElem.1 hv
      obtain ⟨hlen, hget⟩ := List.forall₂_iff_get.1 hm
      have ho := hget j hj (hlen ▸ hj)
      simp only [List.get_eq_getElem] at ho
      rcases ho with ⟨-, hn⟩ | ⟨l, x, l', hx, hs, hfx, hne⟩
      · exact absurd hfe (hn e he)
      · have hxe : x = e := by
          rw [hs] at he
          rcases List.mem_append.1 he with h' | h'
          · exact absurd hfe (hne e (by simp [h']))
          · rcases List.mem_cons.1 h' with h' | h'
            · exact h'.symm
            · exact absurd hfe (hne e (by simp [h']))
        subst hxe
        have hjt : j < ts.length := by
          have := congrArg List.length l2
          rw [List.length_map] at this
          rw [this]
          exact hlen ▸ hj
        refine ⟨ts[j], List.getElem_mem _, ?_⟩
        have e1 : subs[j]'(hlen ▸ hj) = some (ts[j].y, ts[j].e) := by
          simp only [← l2, List.getElem_map]
        rw [hx] at e1
        simp only [Option.some.injEq, Prod.mk.injEq] at e1
        exact ⟨e1.2.symm, by rw [← e1.1]⟩
  · rw [b1, hcounts nBeta fun F0 F hs => (shape_counts hs).2.1]
  · rw [b2, hcounts nU fun F0 F hs => (shape_counts hs).2.2]
  · rw [b3, hcounts nTheta fun F0 F hs => (shape_counts hs).1]
  · intro θ β u vs hv i hi
    rw [b4, Frames.Spec.lpSum, lpSum_values l3 l1 hrows hv i hi]

/-! ### A concrete case -/

theorem duelExpr_plainly : Plainly "y" duelExpr where
  visible := linearIn_visible (by decide) (.sub (.index .var (by simp) (by simp [names]))
    (.index .var (by simp) (by simp [names])))
  noTrue := noLit_noTrue (by simp [duelExpr, NoLit, NoLitList, at1])
  noFrames := by
    intro x hx
    simp only [duelExpr, names, namesList, at1, List.append_nil, List.mem_append,
      List.mem_singleton] at hx
    rcases hx with rfl | (rfl | rfl | rfl) | rfl | rfl | rfl <;> decide
  noClash := by
    intro p q hp _ h2
    rcases indexedBy_two hp with h | h | h
    · omega
    · rcases indexedBy_two h with h | h | h
      · omega
      · cases h
      · cases h
    · rcases indexedBy_two h with h | h | h
      · omega
      · cases h
      · cases h

/-- The values of the duel. -/
theorem duel_value (θ β u : ℕ → ℝ) : LabelValue smallHost duel "y" [("i", .fac ["u", "v", "w"])]
    (predictor (lineFrame 3) 3 θ β u) duelExpr
    ([β 0, 3 * β 0].zipWith (· - ·) [2 * β 0, β 0]) := by
  rw [lineFrame_predictor]
  refine .sub (.pick (idx := ["p"]) rfl (by decide) (by simp [duel, colLength]) ?_)
    (.pick (idx := ["q"]) rfl (by decide) (by simp [duel, colLength]) ?_) rfl
  · intro k hk
    have hk : k = 0 ∨ k = 1 := by
      have : k < 2 := hk
      omega
    rcases hk with rfl | rfl
    · refine ⟨[.text "u"], 0, .cons ⟨_, rfl, rfl⟩ .nil, by simp, ⟨[1], rfl, .cons rfl .nil⟩, by simp, ?_⟩
      simp [List.range_succ]
    · refine ⟨[.text "w"], 2, .cons ⟨_, rfl, rfl⟩ .nil, by simp, ⟨[3], rfl, .cons rfl .nil⟩, by simp, ?_⟩
      simp [List.range_succ]
      norm_num
  · intro k hk
    have hk : k = 0 ∨ k = 1 := by
      have : k < 2 := hk
      omega
    rcases hk with rfl | rfl
    · refine ⟨[.text "v"], 1, .cons ⟨_, rfl, rfl⟩ .nil, by simp, ⟨[2], rfl, .cons rfl .nil⟩, by simp, ?_⟩
      simp [List.range_succ]
      norm_num
    · refine ⟨[.text "u"], 0, .cons ⟨_, rfl, rfl⟩ .nil, by simp, ⟨[1], rfl, .cons rfl .nil⟩, by simp, ?_⟩
      simp [List.range_succ]

/-- The hypotheses of `c77_partial` are met, by the duel with a fixed effect of its own: the linear
predictor is the sum of both parts. -/
example (text : ℝ → String) : ∃ H,
    findModfr smallHost text lineOf (lineFrame 2) [duelForm] [duelExpr] duel = Except.ok H ∧
    ∀ θ β u, predictor H 2 θ β u = [β 0 - β 1, 2 * β 0 + 2 * β 1] := by
  have hfresh : ∀ s ∈ [duelForm], ∀ y, findSubvar s = Except.ok y → ∀ e ∈ [duelExpr], ∀ data' ix,
      findIndicesSubform text y s e duel = Except.ok (data', ix) → ∀ p ∈ ix, duel p.1 = none := by
    intro s hs y hy e he data' ix h
    rw [List.mem_singleton] at hs he
    subst hs he
    cases Except.ok.inj hy
    rw [duel_indices] at h
    cases Except.ok.inj h
    intro p hp
    rw [List.mem_singleton] at hp
    subst hp
    rfl
  obtain ⟨F, h1, w, -⟩ := c75_accepted (frame := lineOf) (duel_indices text) (by
      intro p hp
      rw [List.mem_singleton] at hp
      subst hp
      rfl) rfl (lineFrame_wf 3) duel_factors (by decide) (by simp [duelExpr, NoLit, NoLitList, at1])
    duelExpr_plainly.noFrames duelExpr_plainly.noClash rfl (duel_value 0 0 0)
  obtain ⟨H, hH⟩ := c45_attach_runs (F := lineFrame 2) (Gs := [F]) (lineFrame_wf 2) (by
    intro G hG
    rw [List.mem_singleton] at hG
    subst hG
    exact w)
  have hrun : findModfr smallHost text lineOf (lineFrame 2) [duelForm] [duelExpr] duel =
      Except.ok H := by
    unfold findModfr
    rw [if_neg (by simp)]
    have e1 : [duelForm].mapM findSubvar = Except.ok ["y"] := rfl
    have e2 : matchSub ["y"] [duelExpr] = Except.ok [some ("y", duelExpr)] := by
      have : findVars ["y"] duelExpr = ["y"] := by decide
      unfold matchSub
      simp only [List.map_cons, List.map_nil, this]
      rw [if_neg (by decide), if_neg (by decide)]
      rfl
    rw [e1]
    simp only [res_ok_bind]
    rw [e2]
    simp only [res_ok_bind]
    rw [List.zip_cons_cons, List.zip_nil_left, List.mapM_cons, List.mapM_nil]
    unfold parseMatched
    dsimp only
    rw [h1]
    simp only [res_ok_bind, res_pure]
    exact hH
  refine ⟨H, hrun, fun θ β u => ?_⟩
  obtain ⟨ts, t1, -, -, -, -, -, t2⟩ := c77_partial (by simp) (lineFrame_wf 2) (by
      intro s _ ix data' F hF
      cases Except.ok.inj hF
      exact lineFrame_wf _) hfresh duel_factors (by
      intro s hs y hy e he
      rw [List.mem_singleton] at hs he
      subst hs he
      cases Except.ok.inj hy
      exact duelExpr_plainly) hrun
  rcases ts with _ | ⟨⟨ty, te, tix, tF⟩, _ | ⟨t', ts⟩⟩
  · cases t1
  · obtain ⟨⟨a1, a2, -, a3, a4⟩, -⟩ := List.forall₂_cons.1 t1
    dsimp only at a1 a2 a3 a4
    cases Except.ok.inj a1
    rw [List.mem_singleton] at a2
    subst a2
    rw [duel_indices] at a3
    cases Except.ok.inj a3
    cases Except.ok.inj a4
    have hv := t2 θ β u _ (.cons (duel_value (from_ _ θ) (from_ _ β) (from_ _ u)) .nil)
    have hβ : from_ (nBeta (lineFrame 2)) β 0 = β 1 := rfl
    rw [hβ] at hv
    have h0 := hv 0 (by norm_num)
    have h1 := hv 1 (by norm_num)
    rw [lineFrame_lp] at h0 h1
    show [lp H θ β u 0, lp H θ β u 1] = _
    rw [h0, h1]
    simp
    constructor <;> ring
  · have := (List.forall₂_cons.1 t1).2
    cases this

/-! ## C78 -/

/-- Specification: the text of a random effect has a bar. -/
def Spec.HasBar : Rest → Prop
  | .plain _ => False
  | .bars _ => True

/-- Specification: as made by `terms`, at least one bar separates two sums. -/
def Spec.GoodRest : Rest → Prop
  | .plain _ => True
  | .bars segs => 2 ≤ segs.length

theorem segments_ne (l : List Rest) : segments l ≠ [] := by
  induction l with
  | nil => simp [segments]
  | cons a l ih =>
    cases a with
    | plain s =>
      rw [segments]
      split <;> simp
    | bars segs =>
      rw [segments]
      split
      · simp
      · exact ih
      · rename_i h _
        exact absurd h ih

theorem segments_plain : ∀ {l : List Rest}, (∀ a ∈ l, ¬HasBar a) →
    ∃ s : List String, segments l = [s] ∧ s.map .plain = l
  | [], _ => ⟨[], rfl, rfl⟩
  | .plain s :: l, h => by
    obtain ⟨x, h1, h2⟩ := segments_plain (l := l) fun a ha => h a (by simp [ha])
    refine ⟨s :: x, ?_, by simp [h2]⟩
    rw [segments, h1]
  | .bars segs :: l, h => absurd trivial (h (.bars segs) (by simp))

theorem segments_bar : ∀ {l : List Rest}, (∀ a ∈ l, GoodRest a) → (∃ a ∈ l, HasBar a) →
    2 ≤ (segments l).length
  | .plain s :: l, hg, ⟨a, ha, hb⟩ => by
    have ha : a ∈ l := by
      rcases List.mem_cons.1 ha with rfl | ha
      · exact hb.elim
      · exact ha
    have := segments_bar (l := l) (fun a ha => hg a (by simp [ha])) ⟨a, ha, hb⟩
    rw [segments]
    split
    · rename_i h
      rw [h] at this
      simp at this
    · rename_i h
      rw [h] at this
      simpa using this
  | .bars segs :: l, hg, _ => by
    have h2 : 2 ≤ segs.length := hg (.bars segs) (by simp)
    rw [segments]
    split
    · rename_i r ls x xs hr _
      have : segs.length = ls.length + 1 := by
        rw [← List.length_reverse, hr]
        simp
      simp only [List.length_append, List.length_reverse, List.length_cons]
      omega
    · rename_i hr
      have : segs.length = 0 := by
        rw [← List.length_reverse, hr]
        rfl
      omega
    · rename_i h _
      exact absurd h (segments_ne l)

theorem segments_single (segs : List (List String)) (h : segs ≠ []) : segments [.bars segs] = segs := by
  rw [segments, segments]
  rcases hr : segs.reverse with _ | ⟨r, ls⟩
  · exact absurd (List.reverse_eq_nil_iff.1 hr) h
  · dsimp only
    rw [List.append_nil]
    have := congrArg List.reverse hr
    rw [List.reverse_reverse] at this
    rw [this]
    simp

/-- The terms survive exactly when none has a bar, or when there is only one. -/
theorem reformulate_iff {l : List Rest} (hg : ∀ a ∈ l, GoodRest a) :
    reformulate l = l ↔ (∀ a ∈ l, ¬HasBar a) ∨ l.length = 1 := by
  constructor
  · intro h
    by_cases hb : ∃ a ∈ l, HasBar a
    · right
      have h2 := segments_bar hg hb
      unfold reformulate at h
      split at h
      · rename_i s hs
        rw [hs] at h2
        simp at h2
      · rw [← h]
        rfl
    · left
      push Not at hb
      exact hb
  · rintro (h | h)
    · obtain ⟨s, h1, h2⟩ := segments_plain h
      unfold reformulate
      rw [h1]
      exact h2
    · obtain ⟨a, rfl⟩ := List.length_eq_one_iff.1 h
      cases a with
      | plain s => rfl
      | bars segs =>
        have h2 : 2 ≤ segs.length := hg (.bars segs) (by simp)
        unfold reformulate
        rw [segments_single segs (by rintro rfl; simp at h2)]
        split
        · rename_i s
          simp at h2
        · rfl

/-- Specification: the `Sub(.)` expressions of a formula. -/
def Spec.subsOf (l : List TermLabel) : List Expr := l.filterMap fun t => match t with
  | .sub e => some e
  | _ => none

theorem subLabels_eq : ∀ {l : List TermLabel} {r : List Expr}, subLabels l = Except.ok r →
    r = subsOf l
  | [], r, h => (Except.ok.inj h).symm
  | .rest a :: l, r, h => by
    rw [subLabels] at h
    rw [subLabels_eq h]
    rfl
  | .sub e :: l, r, h => by
    rw [subLabels] at h
    rcases hr : subLabels l with err | es
    · rw [hr] at h
      cases h
    rw [hr] at h
    rw [← Except.ok.inj h, subLabels_eq hr]
    rfl
  | .mixed :: l, r, h => by cases h

theorem rest_sub_length : ∀ {l : List TermLabel} {r : List Expr}, subLabels l = Except.ok r →
    l.length = (restLabels l).length + r.length
  | [], r, h => by
    cases Except.ok.inj h
    rfl
  | .rest a :: l, r, h => by
    rw [subLabels] at h
    have := rest_sub_length h
    simp only [restLabels, List.filterMap_cons, List.length_cons] at this ⊢
    omega
  | .sub e :: l, r, h => by
    rw [subLabels] at h
    rcases hr : subLabels l with err | es
    · rw [hr] at h
      cases h
    rw [hr] at h
    have := rest_sub_length hr
    rw [← Except.ok.inj h]
    simp only [restLabels, List.filterMap_cons, List.length_cons] at this ⊢
    omega
  | .mixed :: l, r, h => by cases h

/-- C78: the `Sub(.)` expressions are those of the formula. Without any, the formula is unchanged. With
one, the other terms are kept exactly when none of them is a random effect or there is only one other
term; and the intercept is always dropped.
Missing, because false: that the other terms and the intercept are kept (`c78_violated`). -/
theorem c78_partial {tf : TermsObj} {f : RestObj} {subs : List Expr}
    (hg : ∀ a ∈ restLabels tf.labels, GoodRest a) (h : splitFormula tf = Except.ok (f, subs)) :
    subs = subsOf tf.labels ∧ (subs = [] → f = ⟨tf.intercept, restLabels tf.labels⟩) ∧
      (subs ≠ [] → f.intercept = false ∧ (f.labels = restLabels tf.labels ↔
        (∀ a ∈ restLabels tf.labels, ¬HasBar a) ∨ (restLabels tf.labels).length = 1)) := by
  unfold splitFormula at h
  dsimp only at h
  split_ifs at h with h1 h2
  · cases Except.ok.inj h
    have hall : ∀ {l : List TermLabel}, (restLabels l).length = l.length → subsOf l = [] := by
      intro l
      induction l with
      | nil => exact fun _ => rfl
      | cons a l ih =>
        intro hl
        have hle : (restLabels l).length ≤ l.length := List.length_filterMap_le _ _
        cases a with
        | rest r =>
          have : (restLabels l).length = l.length := by
            simpa [restLabels, List.filterMap_cons] using hl
          exact ih this
        | sub e =>
          have : (restLabels l).length = l.length + 1 := by
            simpa [restLabels, List.filterMap_cons] using hl
          omega
        | mixed =>
          have : (restLabels l).length = l.length + 1 := by
            simpa [restLabels, List.filterMap_cons] using hl
          omega
    exact ⟨(hall h1).symm, fun _ => rfl, fun h => absurd rfl h⟩
  all_goals
    rcases hs : subLabels tf.labels with err | es
    · rw [hs] at h
      cases h
    rw [hs] at h
    have hlen := rest_sub_length hs
    have hes : es ≠ [] := by
      rintro rfl
      exact h1 hlen.symm
    cases Except.ok.inj h
  · exact ⟨subLabels_eq hs, fun h => absurd h hes, fun _ => ⟨rfl, reformulate_iff hg⟩⟩
  · refine ⟨subLabels_eq hs, fun h => absurd h hes, fun _ => ⟨rfl, ?_⟩⟩
    have : restLabels tf.labels = [] := by
      rw [← List.length_eq_zero_iff]
      omega
    rw [this]
    simp

/-- `1 + x + (1 | g) + Sub(y[p] - y[q])`. -/
def lostFormula : TermsObj :=
  ⟨true, [.rest (.plain "x"), .rest (.bars [["1"], ["g"]]), .sub duelExpr]⟩

/-- C78 is violated: of `1 + x + (1 | g) + Sub(y[p] - y[q])` remains `0 + (x + 1 | g)`, so that the
fixed effect of `x` is lost and a random one takes its place. -/
theorem c78_violated : splitFormula lostFormula =
    Except.ok (⟨false, [.bars [["x", "1"], ["g"]]]⟩, [duelExpr]) := rfl

/-- The hypotheses of `c78_partial` are met, with the terms kept: `0 + x + z + Sub(y[p] - y[q])`. -/
example : splitFormula ⟨false, [.rest (.plain "x"), .rest (.plain "z"), .sub duelExpr]⟩ =
    Except.ok (⟨false, [.plain "x", .plain "z"]⟩, [duelExpr]) := rfl

end Verif.SubExpr
