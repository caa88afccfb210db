import Verif.Proofs.Indices
import Verif.Props.SubUnique
import Verif.Props.SubWitness

/-!
# C75, C76: rows of a subformula are found by the labels of the indices
-/
namespace Verif.SubExpr

open Verif.Frames Verif.Frames.Spec Verif.Indexing Verif.SubExpr.Spec

/-! ## C75 -/

/-- Each dimension has been found. -/
def AllGood (data : Data) (y : String) (ix : List (String × Idx)) (e : Expr) : Prop :=
  ∀ j (hj : j < ix.length), Good data y e (j + 1) ix[j]

theorem AllGood.two {data : Data} {y f : String} {ix : List (String × Idx)} {a b : Expr}
    (hf : f ≠ "[") (h : AllGood data y ix (.call [.name f, a, b])) :
    AllGood data y ix a ∧ AllGood data y ix b := by
  refine ⟨fun j hj => ?_, fun j hj => ?_⟩
  all_goals
    obtain ⟨l, h1, h2⟩ := h j hj
    obtain ⟨la, lb, ha, hb, hs⟩ := findIndices_two hf h1
  · exact ⟨la, ha, fun s m => h2 s (hs s (Or.inl m))⟩
  · exact ⟨lb, hb, fun s m => h2 s (hs s (Or.inr m))⟩

theorem AllGood.here {data : Data} {y : String} {ix : List (String × Idx)} {idx : List String}
    (h : AllGood data y ix (.call (.name "[" :: .name y :: idx.map .name)))
    (hlen : idx.length = ix.length) :
    List.Forall₂ (fun s (p : String × Idx) => ∃ c, data s = some c ∧ Compat c p.2) idx ix := by
  rw [List.forall₂_iff_get]
  refine ⟨hlen, fun j h1 h2 => ?_⟩
  obtain ⟨l, e, hl⟩ := h j h2
  obtain ⟨s, hs, rfl⟩ := findIndices_here e
  rw [Nat.add_sub_cancel] at hs
  obtain ⟨_, hs'⟩ := List.getElem?_eq_some_iff.1 hs
  simp only [List.get_eq_getElem]
  rw [hs']
  exact hl s (List.mem_singleton.2 rfl)

/-- The numbers of the index variables at an observation are the tuple of the row with its labels. -/
theorem numbers_row {data : Data} (hg : GoodFactors data) : ∀ {idx : List String}
    {ix : List (String × Idx)} {L : List Label} {t : List ℕ} {k n : ℕ},
    List.Forall₂ (fun s (p : String × Idx) => ∃ c, data s = some c ∧ Compat c p.2) idx ix →
    (∀ s ∈ idx, ∃ c, data s = some c ∧ colLength c = n ∧ ∀ k < n, ∃ x, colLabel c k = some x) →
    ObsLabels data idx k L → Label.number 0 ∉ L →
    Indexing.Spec.IsTuple t (ix.map fun p => p.2.length) →
    List.Forall₂ (fun (p : (String × Idx) × ℕ) x => idxLabel p.1.2 p.2 = some x) (ix.zip t) L →
    idx.map (fun s => ((data s).elim [] numbers).getD k 0) = t.map (fun a : ℕ => (a : ℝ))
  | [], _, _, t, _, _, .nil, _, _, _, ht, _ => by
    have := ht.length_eq
    rw [List.map_nil, List.length_nil, List.length_eq_zero_iff] at this
    subst this
    rfl
  | s :: idx, p :: ix, L, t, k, n, .cons hc hcs, hs, hobs, h0, ht, hrow => by
    rcases t with _ | ⟨a, t⟩
    · cases ht
    rw [List.map_cons] at ht
    obtain ⟨ha, ht⟩ := List.forall₂_cons.1 ht
    rcases L with _ | ⟨x, L⟩
    · cases hobs
    obtain ⟨hx, hobs⟩ := List.forall₂_cons.1 hobs
    rw [List.zip_cons_cons] at hrow
    obtain ⟨hy, hrow⟩ := List.forall₂_cons.1 hrow
    rw [List.map_cons, List.map_cons, numbers_row hg hcs (fun s m => hs s (by simp [m])) hobs
      (fun m => h0 (by simp [m])) ht hrow]
    congr 1
    obtain ⟨c, e1, hc⟩ := hc
    obtain ⟨c', e2, hx⟩ := hx
    obtain ⟨c'', e3, hn, hl⟩ := hs s (by simp)
    rw [e1] at e2 e3
    cases e2
    cases e3
    rw [e1]
    refine numbers_label hc (fun levels codes e => hg s levels codes (e ▸ e1)) (hn ▸ hl) ha.1 ?_ hx hy
    rintro rfl
    exact h0 (by simp)

theorem data_env {data : Data} {s : String} {c : Col} (h : data s = some c) :
    data.env s = some c.toVal := by
  rw [Data.env, h]
  rfl

/-- Substitution by labels is substitution by the numbers which the code computes. -/
theorem labelValue_value {host : Host} {data : Data} {y : String} {ix : List (String × Idx)}
    {η : List ℝ} (hg : GoodFactors data) (hix : ix ≠ []) {e : Expr} {v : List ℝ}
    (h : LabelValue host data y ix η e v) : AllGood data y ix e →
    Value host data.env y (ix.map fun p => p.2.length) η e v := by
  induction h with
  | @pick idx v hlen hy hcol hpick =>
    intro hgood
    have hc := hgood.here hlen
    have hs : ∀ s ∈ idx, ∃ c, data s = some c ∧ colLength c = v.length ∧
        ∀ k < v.length, ∃ x, colLabel c k = some x := by
      intro s hs
      obtain ⟨c, e, hn⟩ := hcol s hs
      refine ⟨c, e, hn, fun k hk => ?_⟩
      obtain ⟨L, row, hobs, -⟩ := hpick k hk
      obtain ⟨j, hj, rfl⟩ := List.mem_iff_getElem.1 hs
      obtain ⟨hl, hget⟩ := List.forall₂_iff_get.1 hobs
      obtain ⟨c', e', hx⟩ := hget j hj (hl ▸ hj)
      simp only [List.get_eq_getElem] at e'
      rw [e] at e'
      cases e'
      exact ⟨_, hx⟩
    have hnum : ∀ s ∈ idx, ∃ c, data s = some c ∧ Numeric c.toVal (numbers c) ∧
        (numbers c).length = v.length := by
      intro s m
      obtain ⟨c, e, hn, hl⟩ := hs s m
      obtain ⟨j, hj, rfl⟩ := List.mem_iff_getElem.1 m
      obtain ⟨hl', hget⟩ := List.forall₂_iff_get.1 hc
      obtain ⟨c', e', hcomp⟩ := hget j hj (hl' ▸ hj)
      simp only [List.get_eq_getElem] at e'
      rw [e] at e'
      cases e'
      obtain ⟨h1, h2⟩ := numeric_numbers hcomp (hn ▸ hl)
      exact ⟨c, e, h1, h2.trans hn⟩
    have hrows : ∀ k < v.length, ∃ t row,
        (Indexing.Spec.grid (ix.map fun p => p.2.length))[row]? = some t ∧ row < η.length ∧
        idx.map (fun s => ((data s).elim [] numbers).getD k 0) = t.map (fun a : ℕ => (a : ℝ)) ∧
        v.getD k 0 = η.getD row 0 := by
      intro k hk
      obtain ⟨L, row, hobs, h0, ⟨t, ht, hrow⟩, hr, hv⟩ := hpick k hk
      exact ⟨t, row, ht, hr, numbers_row hg hc hs hobs h0 (grid_tuple (List.mem_of_getElem? ht)) hrow,
        hv⟩
    have hpos := List.length_pos_of_ne_nil hix
    by_cases h2 : 2 ≤ idx.length
    · refine .multi (vals := idx.map fun s => (data s).elim [] numbers) h2 (by simpa using hlen) hy
        ?_ ?_ ?_
      · rw [List.forall₂_map_right_iff]
        refine List.forall₂_same.2 fun s m => ?_
        obtain ⟨c, e, h1, -⟩ := hnum s m
        exact ⟨c.toVal, data_env e, by rw [e]; exact h1⟩
      · intro w hw
        obtain ⟨s, m, rfl⟩ := List.mem_map.1 hw
        obtain ⟨c, e, -, h1⟩ := hnum s m
        rw [e]
        exact h1
      · intro k hk
        obtain ⟨t, row, h1, h2, h3, h4⟩ := hrows k hk
        refine ⟨t, row, h1, h2, ?_, h4⟩
        rw [List.map_map]
        exact h3
    · obtain ⟨s, rfl⟩ := List.length_eq_one_iff.1 (show idx.length = 1 by omega)
      obtain ⟨p, rfl⟩ := List.length_eq_one_iff.1 (show ix.length = 1 by rw [← hlen]; rfl)
      obtain ⟨c, e, h1, h3⟩ := hnum s (by simp)
      have hrow : ∀ k < v.length, ∃ row, row < η.length ∧ (numbers c).getD k 0 = ((row + 1 : ℕ) : ℝ) ∧
          v.getD k 0 = η.getD row 0 := by
        intro k hk
        obtain ⟨t, row, g1, g2, g3, g4⟩ := hrows k hk
        refine ⟨row, g2, ?_, g4⟩
        have ht := grid_tuple (List.mem_of_getElem? g1)
        have hr := grid_get_rank _ _ g1
        rcases t with _ | ⟨a, t⟩
        · cases ht
        rcases t with _ | ⟨b, t⟩
        · have := (List.forall₂_cons.1 ht).1.1
          have hr : (a - 1) + _ * 0 = row := hr
          rw [mul_zero] at hr
          simp only [List.map_cons, List.map_nil, List.cons.injEq, and_true] at g3
          rw [e] at g3
          have g3 : (numbers c).getD k 0 = (a : ℝ) := g3
          rw [g3]
          congr 1
          omega
        · have := (List.forall₂_cons.1 ht).2
          cases this
      choose! row hrow using hrow
      refine .index .var (by simpa [names, eq_comm] using hy) (host.lookup _ _ _ (data_env e)) h1
        (Or.inl ⟨(List.range v.length).map fun k => row k + 1, ?_, ?_, ?_⟩)
      · refine List.ext_getElem (by simp [h3]) fun k k1 k2 => ?_
        have := (hrow k (h3 ▸ k1)).2.1
        rw [List.getD_eq_getElem _ _ k1] at this
        simpa using this
      · intro j hj
        obtain ⟨k, hk, rfl⟩ := List.mem_map.1 hj
        exact (hrow k (List.mem_range.1 hk)).1
      · rw [List.filter_eq_self.2 (fun j hj => by
          obtain ⟨k, -, rfl⟩ := List.mem_map.1 hj
          simp), List.map_map]
        refine List.ext_getElem (by simp) fun k k1 k2 => ?_
        have := (hrow k k1).2.2
        rw [List.getD_eq_getElem _ _ k1] at this
        rw [this]
        simp
  | add _ _ hl iha ihb =>
    intro hgood
    obtain ⟨ga, gb⟩ := hgood.two (by decide)
    exact .add (iha ga) (ihb gb) hl
  | sub _ _ hl iha ihb =>
    intro hgood
    obtain ⟨ga, gb⟩ := hgood.two (by decide)
    exact .sub (iha ga) (ihb gb) hl
  | mulRight _ hy hb ih => exact fun hgood => .mulRight (ih (hgood.two (by decide)).1) hy hb
  | mulLeft hy ha _ ih => exact fun hgood => .mulLeft hy ha (ih (hgood.two (by decide)).2)
  | div _ hy hb hc ih => exact fun hgood => .div (ih (hgood.two (by decide)).1) hy hb hc

theorem colon_ne_nil (d : ℕ) : IS.colon 1 d ≠ [] := by
  unfold IS.colon
  split <;> simp

theorem allGood_of {data : Data} {y : String} {ix : List (String × Idx)} {e : Expr}
    (h : List.Forall₂ (Good data y e) (IS.colon 1 ix.length) ix) : AllGood data y ix e := by
  intro j hj
  have hpos : 1 ≤ ix.length := by omega
  obtain ⟨m, hm⟩ : ∃ m, ix.length = 0 + (m + 1) := ⟨ix.length - 1, by omega⟩
  have hc : IS.colon 1 ix.length = (List.range (m + 1)).map fun i => 0 + 1 + i := by
    rw [hm]
    exact IS.colon_up 0 m
  obtain ⟨hl, hget⟩ := List.forall₂_iff_get.1 h
  have := hget j (by rw [hl]; exact hj) hj
  simp only [List.get_eq_getElem, hc] at this
  simp only [List.getElem_map, List.getElem_range] at this
  rw [show j + 1 = 0 + 1 + j by omega]
  exact this

theorem env_noFrame (data : Data) (x : String) (g : Frame) : data.env x ≠ some (.frame g) := by
  unfold Data.env
  rcases data x with _ | c
  · simp
  · cases c with
    | fac l codes =>
      simp only [Option.map_some, Col.toVal]
      split <;> simp
    | _ => simp [Col.toVal]

theorem parseSubAll_inv {host : Host} {text : ℝ → String}
    {frame : Expr → List (String × Idx) → Data → Res Frame} {y : String} {subform e : Expr}
    {data : Data} {V : Val} (h : parseSubAll host text frame y subform e data = Except.ok V) :
    ∃ data' ix F0, findIndicesSubform text y subform e data = Except.ok (data', ix) ∧
      frame subform ix data' = Except.ok F0 ∧
      parseSub host y e (ix.map fun p => p.2.length) F0 data'.env = Except.ok V := by
  unfold parseSubAll at h
  rcases h1 : findIndicesSubform text y subform e data with err | r
  · rw [h1] at h
    cases h
  rw [h1] at h
  simp only [res_ok_bind] at h
  obtain ⟨data', ix⟩ := r
  rcases h2 : frame subform ix data' with err | F0
  · rw [h2] at h
    cases h
  rw [h2] at h
  exact ⟨data', ix, F0, rfl, h2, h⟩

/-- C75: a `Sub(.)` term that is accepted has as linear predictor the value of its expression with the
rows of the subformula found by labels, where `frame` is the frame made for the subformula.
Missing: index names that are themselves variables of the data (`c76_stops`, `c76_stale`), and
observations whose labels no row has, for which the code may silently take another row
(`c75_violated`); expressions excluded in `c42_partial`. -/
theorem c75_partial {host : Host} {text : ℝ → String}
    {frame : Expr → List (String × Idx) → Data → Res Frame} {y : String} {subform e : Expr}
    {data : Data} {V : Val} (hframe : ∀ ix data' F, frame subform ix data' = Except.ok F →
      WellFormed F (ix.map fun p => p.2.length).prod)
    (hfresh : ∀ data' ix, findIndicesSubform text y subform e data = Except.ok (data', ix) →
      ∀ p ∈ ix, data p.1 = none) (hg : GoodFactors data) (hvis : Visible y e) (hT : NoTrue e)
    (hN : NoFrames e) (hc : NoClash e)
    (h : parseSubAll host text frame y subform e data = Except.ok V) :
    ∃ ix F0 F n, findIndicesSubform text y subform e data = Except.ok (data, ix) ∧
      frame subform ix data = Except.ok F0 ∧ V = .frame F ∧ WellFormed F n ∧ ∀ θ β u v,
        LabelValue host data y ix (predictor F0 (ix.map fun p => p.2.length).prod θ β u) e v →
        predictor F n θ β u = v := by
  obtain ⟨data', ix, F0, h1, h2, h3⟩ := parseSubAll_inv h
  obtain ⟨rfl, d, hd, hgood⟩ := findIndicesSubform_good h1 (hfresh _ _ h1)
  have hix : ix ≠ [] := by
    rintro rfl
    exact colon_ne_nil d (List.forall₂_nil_right_iff.1 hgood)
  have hdim := (parseSub_inv h3).1
  rw [hd, List.length_map] at hdim
  have hd' : d = ix.length := Option.some.inj (Except.ok.inj hdim)
  subst hd'
  obtain ⟨F, n, rfl, hF, hv⟩ := c42_partial (hframe _ _ _ h2) (by simpa using hix)
    (env_noFrame _) hvis hT hN hc h3
  refine ⟨ix, F0, F, n, h1, h2, rfl, hF, fun θ β u v hlab => hv θ β u v ?_⟩
  exact labelValue_value hg hix hlab (allGood_of hgood)

/-- C75, the other direction: when the indices are found and the expression has a value with rows
found by labels, the term is accepted and has this value. -/
theorem c75_accepted {host : Host} {text : ℝ → String}
    {frame : Expr → List (String × Idx) → Data → Res Frame} {y : String} {subform e : Expr}
    {data data' : Data} {ix : List (String × Idx)} {F0 : Frame} {θ β u : ℕ → ℝ} {v : List ℝ}
    (hi : findIndicesSubform text y subform e data = Except.ok (data', ix))
    (hfresh : ∀ p ∈ ix, data p.1 = none) (hf : frame subform ix data = Except.ok F0)
    (hF0 : WellFormed F0 (ix.map fun p => p.2.length).prod) (hg : GoodFactors data)
    (hy : y ∉ opNames) (hL : NoLit e) (hN : NoFrames e) (hc : NoClash e)
    (hlen : findDim y e none = Except.ok (some ix.length))
    (h : LabelValue host data y ix (predictor F0 (ix.map fun p => p.2.length).prod θ β u) e v) :
    ∃ F, parseSubAll host text frame y subform e data = Except.ok (.frame F) ∧
      WellFormed F v.length ∧ predictor F v.length θ β u = v := by
  obtain ⟨rfl, d, hd, hgood⟩ := findIndicesSubform_good hi hfresh
  have hix : ix ≠ [] := by
    rintro rfl
    exact colon_ne_nil d (List.forall₂_nil_right_iff.1 hgood)
  rw [hd] at hlen
  have hd' : d = ix.length := Option.some.inj (Except.ok.inj hlen)
  subst hd'
  obtain ⟨F, h1, h2, h3⟩ := c42_accepted hF0 (l := ix.map fun p => p.2.length) (by simpa using hix)
    (env_noFrame _) hy hL hN hc (by rw [hd, List.length_map])
    (labelValue_value hg hix h (allGood_of hgood))
  refine ⟨F, ?_, h2, h3⟩
  unfold parseSubAll
  rw [hi]
  simp only [res_ok_bind]
  rw [hf]
  exact h1

/-! ### Every observation has a row -/

/-- Specification: in the expression the variable `y` is indexed by the variables `idx`, outside of
other indices. -/
inductive Spec.PickedBy (y : String) (idx : List String) : Expr → Prop
  | here : PickedBy y idx (.call (.name "[" :: .name y :: idx.map .name))
  | left {f : String} {a b : Expr} : f ≠ "[" → PickedBy y idx a → PickedBy y idx (.call [.name f, a, b])
  | right {f : String} {a b : Expr} : f ≠ "[" → PickedBy y idx b →
      PickedBy y idx (.call [.name f, a, b])

theorem AllGood.picked {data : Data} {y : String} {ix : List (String × Idx)} {idx : List String}
    {e : Expr} (h : PickedBy y idx e) : AllGood data y ix e →
    AllGood data y ix (.call (.name "[" :: .name y :: idx.map .name)) := by
  induction h with
  | here => exact id
  | left hf _ ih => exact fun hg => ih (hg.two hf).1
  | right hf _ ih => exact fun hg => ih (hg.two hf).2

theorem idxLabel_of {x : Idx} {L : Label} {c : Col} {k : ℕ} (hc : Compat c x)
    (h : colLabel c k = some L)
    (hn : ∀ v z, x = .seq v → L = .number z → ∃ m : ℕ, z = m ∧ m ∈ v) :
    ∃ a, (1 ≤ a ∧ a ≤ x.length) ∧ idxLabel x a = some L := by
  cases hc with
  | fac levels codes =>
    unfold colLabel at h
    dsimp only at h
    split at h
    · rename_i c hc
      rcases hl : levels[c]? with _ | s
      · rw [hl] at h
        cases h
      rw [hl] at h
      obtain ⟨hlt, -⟩ := List.getElem?_eq_some_iff.1 hl
      refine ⟨c + 1, ⟨by omega, hlt⟩, ?_⟩
      unfold idxLabel
      dsimp only
      rw [Nat.add_sub_cancel, hl]
      exact h
    · cases h
  | num v m =>
    unfold colLabel at h
    dsimp only at h
    rcases hv : v[k]? with _ | z
    · rw [hv] at h
      cases h
    rw [hv] at h
    obtain ⟨n, rfl, hn⟩ := hn _ z rfl (Option.some.inj h).symm
    obtain ⟨j, hj, hjn⟩ := List.mem_iff_getElem.1 hn
    refine ⟨j + 1, ⟨by omega, hj⟩, ?_⟩
    unfold idxLabel
    dsimp only
    rw [Nat.add_sub_cancel, List.getElem?_eq_getElem hj, hjn]
    exact h

/-- C75: every observation has a row with its labels, when its numeric labels are among the numbers of
the indices (for factors there is no condition). -/
theorem c75_row {text : ℝ → String} {y : String} {subform e : Expr} {data data' : Data}
    {ix : List (String × Idx)} {idx : List String} {k : ℕ} {L : List Label}
    (hi : findIndicesSubform text y subform e data = Except.ok (data', ix))
    (hfresh : ∀ p ∈ ix, data p.1 = none) (hp : PickedBy y idx e)
    (hlen : findDim y e none = Except.ok (some ix.length)) (hlen' : idx.length = ix.length)
    (hobs : ObsLabels data idx k L)
    (hn : List.Forall₂ (fun x (p : String × Idx) => ∀ v (z : ℝ), p.2 = .seq v → x = .number z →
      ∃ m : ℕ, z = m ∧ m ∈ v) L ix) : ∃ row, RowLabels ix row L := by
  obtain ⟨rfl, d, hd, hgood⟩ := findIndicesSubform_good hi hfresh
  rw [hd] at hlen
  have hd' : d = ix.length := Option.some.inj (Except.ok.inj hlen)
  subst hd'
  have hc := (AllGood.picked hp (allGood_of hgood)).here hlen'
  suffices h : ∃ t, Indexing.Spec.IsTuple t (ix.map fun p => p.2.length) ∧
      List.Forall₂ (fun (p : (String × Idx) × ℕ) x => idxLabel p.1.2 p.2 = some x) (ix.zip t) L by
    obtain ⟨t, h1, h2⟩ := h
    exact ⟨_, t, grid_rank h1, h2⟩
  clear hi hfresh hd hlen hgood hp hlen'
  induction hc generalizing L with
  | nil =>
    cases hn
    exact ⟨[], .nil, .nil⟩
  | @cons s p idx ix hsp _ ih =>
    rcases L with _ | ⟨x, L⟩
    · cases hn
    obtain ⟨hx, hobs⟩ := List.forall₂_cons.1 hobs
    obtain ⟨hz, hn⟩ := List.forall₂_cons.1 hn
    obtain ⟨t, h1, h2⟩ := ih hn hobs
    obtain ⟨c, e1, hcomp⟩ := hsp
    obtain ⟨c', e2, hx⟩ := hx
    rw [e1] at e2
    cases e2
    obtain ⟨a, ha, hl⟩ := idxLabel_of hcomp hx hz
    exact ⟨a :: t, .cons ha h1, .cons hl h2⟩

/-! ### A concrete case -/

/-- A duel: factors with the levels "u", "v", "w". -/
def duel : Data := fun x =>
  if x = "p" then some (.fac ["u", "v", "w"] [some 1, some 3])
  else if x = "q" then some (.fac ["u", "v", "w"] [some 2, some 1]) else none

/-- `y[i] ~ 0 + x[i]`, where `x` is not in the data. -/
def duelForm : Expr := .call [.name "~", at1 "y" "i", .call [.name "+", .lit (.num 0), at1 "x" "i"]]

/-- `y[p] - y[q]`. -/
def duelExpr : Expr := .call [.name "-", at1 "y" "p", at1 "y" "q"]

/-- The frame of the subformula: as many rows as the grid. -/
def lineOf : Expr → List (String × Idx) → Data → Res Frame := fun _ ix _ =>
  Except.ok (lineFrame (ix.map fun p => p.2.length).prod)

theorem duel_indices (text : ℝ → String) :
    findIndicesSubform text "y" duelForm duelExpr duel =
      Except.ok (duel, [("i", .fac ["u", "v", "w"])]) := rfl

theorem duel_factors : GoodFactors duel := by
  intro s levels codes h
  unfold duel at h
  split_ifs at h
  · cases h
    decide
  · cases h
    decide

/-- The hypotheses of `c75_accepted` and of `c75_partial` are met: `u` against `v`, `w` against `u`. -/
example (text : ℝ → String) (θ β u : ℕ → ℝ) : ∃ F,
    parseSubAll smallHost text lineOf "y" duelForm duelExpr duel = Except.ok (.frame F) ∧
      predictor F 2 θ β u = [-β 0, 2 * β 0] := by
  have hv : LabelValue smallHost duel "y" [("i", .fac ["u", "v", "w"])]
      (predictor (lineFrame 3) 3 θ β u) duelExpr
      ([β 0, 3 * β 0].zipWith (· - ·) [2 * β 0, β 0]) := by
    rw [lineFrame_predictor]
    refine .sub (.pick (idx := ["p"]) rfl (by decide) (by simp [duel, colLength]) ?_)
      (.pick (idx := ["q"]) rfl (by decide) (by simp [duel, colLength]) ?_) rfl
    · intro k hk
      have hk : k = 0 ∨ k = 1 := by
        have : k < 2 := hk
        omega
      rcases hk with rfl | rfl
      · refine ⟨[.text "u"], 0, .cons ⟨_, rfl, rfl⟩ .nil, by simp, ⟨[1], rfl, .cons rfl .nil⟩, by simp, ?_⟩
        simp [List.range_succ]
      · refine ⟨[.text "w"], 2, .cons ⟨_, rfl, rfl⟩ .nil, by simp, ⟨[3], rfl, .cons rfl .nil⟩, by simp, ?_⟩
        simp [List.range_succ]
        norm_num
    · intro k hk
      have hk : k = 0 ∨ k = 1 := by
        have : k < 2 := hk
        omega
      rcases hk with rfl | rfl
      · refine ⟨[.text "v"], 1, .cons ⟨_, rfl, rfl⟩ .nil, by simp, ⟨[2], rfl, .cons rfl .nil⟩, by simp, ?_⟩
        simp [List.range_succ]
        norm_num
      · refine ⟨[.text "u"], 0, .cons ⟨_, rfl, rfl⟩ .nil, by simp, ⟨[1], rfl, .cons rfl .nil⟩, by simp, ?_⟩
        simp [List.range_succ]
  obtain ⟨F, h1, -, h3⟩ := c75_accepted (frame := lineOf) (duel_indices text) (by
      intro p hp
      rw [List.mem_singleton] at hp
      subst hp
      rfl) rfl (lineFrame_wf 3) duel_factors (by decide) (by simp [duelExpr, NoLit, NoLitList, at1])
    (by
      intro x hx
      simp only [duelExpr, names, namesList, at1, List.append_nil, List.mem_append,
        List.mem_singleton] at hx
      rcases hx with rfl | (rfl | rfl | rfl) | rfl | rfl | rfl <;> decide)
    (by
      intro p q hp _ h2
      rcases indexedBy_two hp with h | h | h
      · omega
      · rcases indexedBy_two h with h | h | h
        · omega
        · cases h
        · cases h
      · rcases indexedBy_two h with h | h | h
        · omega
        · cases h
        · cases h) rfl hv
  refine ⟨F, h1, ?_⟩
  have h3 : predictor F 2 θ β u = [β 0 - 2 * β 0, 3 * β 0 - β 0] := h3
  rw [h3]
  congr 1
  · ring
  · congr 1
    ring

/-! ### Numeric indices with gaps -/

/-- Three observations with the indices (1, 1), (3, 1), (1, 2). -/
noncomputable def gapData : Data := fun x =>
  if x = "a" then some (.num [1, 3, 1]) else if x = "b" then some (.num [1, 1, 2]) else none

/-- `y[i, j] ~ 0 + x[i, j]`, where `x` is not in the data. -/
def gapForm : Expr := .call [.name "~", at2 "y" "i" "j", .call [.name "+", .lit (.num 0), at2 "x" "i" "j"]]

theorem indexI_num (v : List ℝ) (S : Finset ℝ) (h : ∀ x, x ∈ v ↔ x ∈ S) :
    indexI [.num v] = Except.ok (.num S.card) := by
  unfold indexI
  dsimp only [allFactors, allNumeric, Option.map]
  congr 3
  ext x
  simp [h]

theorem gap_indices (text : ℝ → String) :
    findIndicesSubform text "y" gapForm (at2 "y" "a" "b") gapData =
      Except.ok (gapData, [("i", .seq [1, 2]), ("j", .seq [1, 2])]) := by
  have i1 : indexI [.num [1, 3, 1]] = Except.ok (.num 2) := by
    rw [indexI_num _ {1, 3} (by intro x; simp; tauto), Finset.card_pair (by norm_num)]
  have i2 : indexI [.num [1, 1, 2]] = Except.ok (.num 2) := by
    rw [indexI_num _ {1, 2} (by intro x; simp), Finset.card_pair (by norm_num)]
  have t1 : indexTurn text "y" gapForm (at2 "y" "a" "b") ⟨gapData, none, []⟩ 1 =
      Except.ok ⟨gapData, some (.num 2), [("i", .seq [1, 2])]⟩ := by
    have e1 : findIndices 1 "y" (at2 "y" "a" "b") = Except.ok ["a"] := rfl
    have e2 : getIndices gapData ["a"] = Except.ok [("a", .num [1, 3, 1])] := rfl
    have e3 : findIndices 1 "y" gapForm = Except.ok ["i"] := rfl
    have e4 : chooseIndex text "i" [("a", .num [1, 3, 1])] ⟨gapData, none, []⟩ =
        Except.ok (gapData, some (.num 2)) := by
      unfold chooseIndex
      have : gapData "i" = none := rfl
      dsimp only
      rw [this]
      show (do let index_i ← indexI [.num [1, 3, 1]]; pure (gapData, some index_i)) = _
      rw [i1]
      rfl
    have e5 : findIndexI "i" 1 (.num 2) gapForm gapData = Except.ok (.seq [1, 2]) := rfl
    unfold indexTurn
    rw [e1]
    simp only [res_ok_bind]
    rw [e2]
    simp only [res_ok_bind]
    rw [e3]
    simp only [res_ok_bind, single]
    rw [e4]
    simp only [res_ok_bind]
    rw [e5]
    rfl
  have t2 : indexTurn text "y" gapForm (at2 "y" "a" "b")
      ⟨gapData, some (.num 2), [("i", .seq [1, 2])]⟩ 2 =
      Except.ok ⟨gapData, some (.num 2), [("i", .seq [1, 2]), ("j", .seq [1, 2])]⟩ := by
    have e1 : findIndices 2 "y" (at2 "y" "a" "b") = Except.ok ["b"] := rfl
    have e2 : getIndices gapData ["b"] = Except.ok [("b", .num [1, 1, 2])] := rfl
    have e3 : findIndices 2 "y" gapForm = Except.ok ["j"] := rfl
    have e4 : chooseIndex text "j" [("b", .num [1, 1, 2])]
        ⟨gapData, some (.num 2), [("i", .seq [1, 2])]⟩ = Except.ok (gapData, some (.num 2)) := by
      unfold chooseIndex
      have : gapData "j" = none := rfl
      dsimp only
      rw [this]
      show (do let index_i ← indexI [.num [1, 1, 2]]; pure (gapData, some index_i)) = _
      rw [i2]
      rfl
    have e5 : findIndexI "j" 2 (.num 2) gapForm gapData = Except.ok (.seq [1, 2]) := rfl
    unfold indexTurn
    rw [e1]
    simp only [res_ok_bind]
    rw [e2]
    simp only [res_ok_bind]
    rw [e3]
    simp only [res_ok_bind, single]
    rw [e4]
    simp only [res_ok_bind]
    rw [e5]
    rfl
  have d1 : findDim "y" (at2 "y" "a" "b") none = Except.ok (some 2) := rfl
  have d2 : findDim "y" gapForm none = Except.ok (some 2) := rfl
  unfold findIndicesSubform
  rw [d1]
  simp only [res_ok_bind]
  rw [d2]
  simp only [res_ok_bind]
  rw [if_neg (by simp), show IS.colon 1 2 = [1, 2] from rfl, List.foldlM_cons, t1]
  simp only [res_ok_bind]
  rw [List.foldlM_cons, t2]
  rfl

theorem flatten_gap : Indexing.flattenVars [[1, 3, 1], [1, 1, 2]] [2, 2] = Except.ok [1, 3, 3] := by
  unfold Indexing.flattenVars Indexing.rbindVectors
  dsimp only
  rw [if_pos (by simp)]
  simp only [res_ok_bind]
  unfold Indexing.multiToFlat Mat.scale
  rw [if_neg (by norm_num), if_neg (by norm_num [Indexing.strides, Indexing.cumprod])]
  simp only [res_ok_bind]
  show Except.ok _ = _
  congr 1
  simp [Indexing.strides, Indexing.cumprod, Finset.sum_range_succ, List.range_succ]
  norm_num

/-- C75 is violated by numeric indices with gaps: the second observation has the labels (3, 1), which
no row has; the term is accepted, and this observation shares a row with the third, whose labels are
(1, 2). -/
theorem c75_violated (text : ℝ → String) :
    (∃ F, parseSubAll smallHost text lineOf "y" gapForm (at2 "y" "a" "b") gapData =
      Except.ok (.frame F) ∧ ∀ θ β u, predictor F 3 θ β u = [β 0, 3 * β 0, 3 * β 0]) ∧
    ObsLabels gapData ["a", "b"] 1 [.number 3, .number 1] ∧
    (¬∃ row, RowLabels [("i", .seq [1, 2]), ("j", .seq [1, 2])] row [.number 3, .number 1]) ∧
    ObsLabels gapData ["a", "b"] 2 [.number 1, .number 2] ∧
    RowLabels [("i", .seq [1, 2]), ("j", .seq [1, 2])] 2 [.number 1, .number 2] := by
  refine ⟨?_, .cons ⟨_, rfl, rfl⟩ (.cons ⟨_, rfl, rfl⟩ .nil), ?_,
    .cons ⟨_, rfl, rfl⟩ (.cons ⟨_, rfl, rfl⟩ .nil), ⟨[1, 2], rfl, ?_⟩⟩
  · have hsel : select 4 [(1 : ℝ), 3, 3] = Except.ok [0, 2, 2] := by
      have := select_nat (n := 4) (js := [1, 3, 3]) (by simp)
      simpa using this
    have g1 : indexFr (lineFrame 4) [1, 3, 3] = Except.ok ⟨(lineFrame 4).X.rows [0, 2, 2], none⟩ := by
      unfold indexFr
      show (do let rows ← select 4 [1, 3, 3]; _) = _
      rw [hsel]
      rfl
    refine ⟨⟨(lineFrame 4).X.rows [0, 2, 2], none⟩, ?_, fun θ β u => ?_⟩
    · unfold parseSubAll
      rw [gap_indices]
      simp only [res_ok_bind]
      have hfr : lineOf gapForm [("i", Idx.seq [1, 2]), ("j", .seq [1, 2])] gapData =
        Except.ok (lineFrame 4) := rfl
      rw [hfr]
      simp only [res_ok_bind]
      show parseSub smallHost "y" (at2 "y" "a" "b") [2, 2] (lineFrame 4) gapData.env = _
      have hm : modify "y" (at2 "y" "a" "b") =
        Except.ok (.call [.name "[fr", .name "y", .name (joinNames ["a", "b"])]) := rfl
      have hx : extract "y" (at2 "y" "a" "b") = Except.ok [["a", "b"]] := rfl
      have hd : findDim "y" (at2 "y" "a" "b") none = Except.ok (some 2) := rfl
      have hfl : flatVar gapData.env [2, 2] ["a", "b"] =
          Except.ok (joinNames ["a", "b"], .num [1, 3, 3]) := by
        unfold flatVar
        have : ["a", "b"].mapM (lookupNumeric gapData.env) =
            Except.ok [[1, 3, 1], [1, 1, 2]] :=
          forall2_lookup (.cons ⟨_, rfl, .num _⟩ (.cons ⟨_, rfl, .num _⟩ .nil))
        rw [this]
        simp only [res_ok_bind]
        rw [flatten_gap]
        rfl
      unfold parseSub
      rw [hd]
      simp only [res_ok_bind]
      rw [if_neg (by simp), hm, hx]
      simp only [res_ok_bind]
      rw [List.mapM_cons, hfl, List.mapM_nil]
      simp only [res_ok_bind, res_pure]
      have hj : joinNames ["a", "b"] = "a_b" := by decide
      rw [hj, eval_frOp (op := indexVal) (va := .frame (lineFrame 4)) (vb := .num [1, 3, 3])
        (by simp [frOp]) (by
        rw [eval]
        exact smallHost.lookup _ _ _ (by simp [subEnv])) (by
        rw [eval]
        exact smallHost.lookup _ _ _ (by simp [subEnv]))]
      unfold indexVal
      dsimp only
      rw [asNumeric]
      simp only [res_ok_bind]
      rw [g1]
      rfl
    · have : ∀ i, lp ⟨(lineFrame 4).X.rows [0, 2, 2], none⟩ θ β u i =
          (lineFrame 4).X.e ([0, 2, 2].getD i 0) 0 * β 0 := by
        intro i
        rw [lp_none rfl]
        simp [Mat.rows, lineFrame]
      simp only [predictor, this]
      simp [lineFrame, List.range_succ]
      norm_num
  · rintro ⟨row, t, -, h⟩
    rcases t with _ | ⟨a, t⟩
    · cases h
    rw [List.zip_cons_cons] at h
    have h := (List.forall₂_cons.1 h).1
    unfold idxLabel at h
    dsimp only at h
    rcases hm : ([1, 2] : List ℕ)[a - 1]? with _ | n
    · rw [hm] at h
      cases h
    rw [hm] at h
    have h : (n : ℝ) = 3 := Label.number.inj (Option.some.inj h)
    have hn : n ∈ [1, 2] := List.mem_of_getElem? hm
    have h3 : n = 3 := by exact_mod_cast h
    subst h3
    simp at hn
  · refine .cons ?_ (.cons ?_ .nil)
    · simp [idxLabel]
    · simp [idxLabel]

/-! ## C76 -/

/-- C76: with one index, an index name that is a variable of the data always stops, although the code
has a branch for it. -/
theorem c76_stops (text : ℝ → String) {y index : String} {subform e : Expr} {data : Data} {c : Col}
    (hd : findDim y e none = Except.ok (some 1)) (hi : findIndices 1 y subform = Except.ok [index])
    (hc : data index = some c) (r : Data × List (String × Idx)) :
    findIndicesSubform text y subform e data ≠ Except.ok r := by
  intro h
  obtain ⟨data', ix⟩ := r
  obtain ⟨d, h1, -, st, h2, -, -⟩ := findIndicesSubform_inv h
  rw [hd] at h1
  cases Option.some.inj (Except.ok.inj h1)
  rw [show IS.colon 1 1 = [1] from rfl, List.foldlM_cons] at h2
  rcases h3 : indexTurn text y subform e ⟨data, none, []⟩ 1 with err | s
  · rw [h3] at h2
    cases h2
  obtain ⟨l, cols, index', c', x, r, -, -, h5, h6, -, -⟩ := indexTurn_inv h3
  rw [hi] at h5
  cases Except.ok.inj h5
  unfold chooseIndex at h6
  dsimp only at h6
  rw [hc] at h6
  dsimp only at h6
  rcases ht : texts text c with err | lv
  · rw [ht] at h6
    cases h6
  rw [ht] at h6
  simp only [res_ok_bind] at h6
  rcases hco : coerceAll text lv cols data with err | dd
  · rw [hco] at h6
    cases h6
  rw [hco] at h6
  have h6 := Except.ok.inj h6
  cases h6

/-- The hypotheses of `c76_stops` are met: `y[i] ~ 0 + x[i]` where `i` holds the names of the
levels. -/
example (text : ℝ → String) (r : Data × List (String × Idx)) :
    findIndicesSubform text "y" duelForm duelExpr
      (Function.update duel "i" (some (.chr ["u", "v", "w"]))) ≠ Except.ok r :=
  c76_stops text (index := "i") (c := .chr ["u", "v", "w"]) rfl rfl rfl r

/-- Two index variables with different levels; the second index name is a variable with the levels
"k", "l", "m". -/
def staleData : Data := fun x =>
  if x = "a" then some (.fac ["u", "v"] [some 1, some 2])
  else if x = "b" then some (.fac ["k", "l", "m"] [some 3, some 1])
  else if x = "j" then some (.chr ["k", "l", "m"]) else none

/-- C76 is violated with two indices: the second index of the subformula gets the levels of the first,
so that no row has the labels of the first observation. -/
theorem c76_stale (text : ℝ → String) :
    (∃ data', findIndicesSubform text "y" gapForm (at2 "y" "a" "b") staleData =
      Except.ok (data', [("i", .fac ["u", "v"]), ("j", .fac ["u", "v"])])) ∧
    ObsLabels staleData ["a", "b"] 0 [.text "u", .text "m"] ∧
    ¬∃ row, RowLabels [("i", .fac ["u", "v"]), ("j", .fac ["u", "v"])] row [.text "u", .text "m"] := by
  refine ⟨⟨_, rfl⟩, .cons ⟨_, rfl, rfl⟩ (.cons ⟨_, rfl, rfl⟩ .nil), ?_⟩
  rintro ⟨row, t, -, h⟩
  rcases t with _ | ⟨a, _ | ⟨b, t⟩⟩
  · cases h
  · have := (List.forall₂_cons.1 h).2
    cases this
  · rw [List.zip_cons_cons, List.zip_cons_cons] at h
    have h := (List.forall₂_cons.1 (List.forall₂_cons.1 h).2).1
    unfold idxLabel at h
    dsimp only at h
    rcases hm : (["u", "v"] : List String)[b - 1]? with _ | s
    · rw [hm] at h
      cases h
    rw [hm] at h
    have h : s = "m" := Label.text.inj (Option.some.inj h)
    have hs : s ∈ ["u", "v"] := List.mem_of_getElem? hm
    rw [h] at hs
    revert hs
    decide

end Verif.SubExpr
