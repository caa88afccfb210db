import Verif.Spec.ParseFormula

/-!
# C94: the model frame has the variables, the weights and the offset that were given
-/
namespace Verif.ParseFormula

open Verif Spec

/-! ## Columns -/

theorem col_mem {d : Cols} (h : (d.map Prod.fst).Nodup) {x : String} {v : List ℝ} :
    col d x = some v ↔ (x, v) ∈ d := by
  unfold col
  induction d with
  | nil => simp
  | cons c d ih =>
    simp only [List.map_cons, List.nodup_cons] at h
    rw [List.find?_cons]
    by_cases hc : c.1 = x
    · simp only [hc, decide_true, Option.map_some, Option.some.injEq, List.mem_cons]
      constructor
      · rintro rfl
        exact Or.inl (by rw [← hc])
      · rintro (e | e)
        · rw [← e]
        · exact absurd (List.mem_map_of_mem e) (by rw [← hc]; exact h.1)
    · simp only [hc, decide_false]
      rw [ih h.2, List.mem_cons]
      constructor
      · exact Or.inr
      · rintro (e | e)
        · exact absurd (by rw [← e]) hc
        · exact e

theorem col_exists {d : Cols} {x : String} (h : x ∈ d.map Prod.fst) : ∃ v, col d x = some v := by
  rcases e : d.find? fun c => decide (c.1 = x) with _ | c
  · obtain ⟨c, hc, rfl⟩ := List.mem_map.1 h
    exact absurd (List.find?_eq_none.1 e c hc) (by simp)
  · exact ⟨c.2, by rw [col, e]; rfl⟩

theorem col_put (d : Cols) (x y : String) (v : List ℝ) :
    col (put d x v) y = if y = x then some v else col d y := by
  unfold col put
  split_ifs with h1 h2 h2
  · subst h2
    induction d with
    | nil => simp at h1
    | cons c d ih =>
      rw [List.map_cons, List.find?_cons]
      by_cases hc : c.1 = y
      · simp [hc]
      · simp only [hc, if_false, decide_false]
        refine ih ?_
        simpa [hc] using h1
  · congr 1
    clear h1
    induction d with
    | nil => rfl
    | cons c d ih =>
      rw [List.map_cons, List.find?_cons, List.find?_cons, ih]
      by_cases hc : c.1 = x
      · have : ¬ c.1 = y := fun e => h2 (e.symm.trans hc)
        have h3 : ¬ x = y := fun e => h2 e.symm
        simp [hc, h3]
      · simp [hc]
  · subst h2
    rw [List.find?_append, List.find?_eq_none.2]
    · simp
    · intro c hc
      have : ¬ ∃ a ∈ d, a.1 = y := by simpa using h1
      simpa using fun e => this ⟨c, hc, e⟩
  · rw [List.find?_append]
    have h3 : ¬ x = y := fun e => h2 e.symm
    simp [h3]

theorem mapM_ok {α β : Type} {f : α → Res β} {g : α → β} :
    ∀ {l : List α}, (∀ x ∈ l, f x = Except.ok (g x)) → l.mapM f = Except.ok (l.map g)
  | [], _ => rfl
  | a :: l, h => by
    rw [List.mapM_cons, h a (by simp), res_ok_bind, mapM_ok fun x hx => h x (by simp [hx]), res_ok_bind]
    rfl

/-- Data with other columns. -/
def withCols : Data → Cols → Data
  | .frame n _, c => .frame n c
  | .list _, c => .list c

theorem withCols_cols (d : Data) (c : Cols) : (withCols d c).cols = c := by cases d <;> rfl

theorem col_find {g : String → Option (List ℝ)} {vars : List String} {x : String} :
    col (vars.filterMap fun y => (g y).map fun v => (y, v)) x = if x ∈ vars then g x else none := by
  unfold col
  induction vars with
  | nil => rfl
  | cons y vars ih =>
    rw [List.filterMap_cons]
    by_cases hy : y = x
    · subst hy
      rcases hv : g y with _ | v
      · simp only [Option.map_none, List.mem_cons, true_or, if_true]
        rw [ih]
        split_ifs
        · exact hv
        · rfl
      · simp
    · have h2 : ¬ x = y := fun e => hy e.symm
      rcases hv : g y with _ | v
      · simp only [Option.map_none, List.mem_cons, h2, false_or]
        exact ih
      · simp only [Option.map_some, List.mem_cons, h2, false_or, List.find?_cons, hy, decide_false]
        exact ih

/-- The data of the variables of the formula. -/
theorem select_ok {env : String → Option (List ℝ)} {d : Data} {f : Formula} {n : ℕ}
    (h : Covers env d f n) : ∃ c, select d f.vars = Except.ok (withCols d c) ∧
      ∀ x, col c x = if x ∈ f.vars then col d.cols x else none := by
  rcases d with ⟨m, c⟩ | c
  · refine ⟨f.vars.filterMap fun x => (col c x).map fun v => (x, v), ?_, fun x => col_find⟩
    show (f.vars.mapM _ >>= _) = _
    rw [mapM_ok (g := fun x => (x, (col c x).getD []))]
    · have e : (f.vars.map fun x => (x, (col c x).getD [])) =
          f.vars.filterMap fun x => (col c x).map fun v => (x, v) := by
        have : ∀ l : List String, (∀ x ∈ l, x ∈ c.map Prod.fst) →
            (l.map fun x => (x, (col c x).getD [])) =
            l.filterMap fun x => (col c x).map fun v => (x, v) := by
          intro l hl
          induction l with
          | nil => rfl
          | cons y l ih =>
            obtain ⟨v, hv⟩ := col_exists (hl y (by simp))
            rw [List.map_cons, List.filterMap_cons, hv, ih fun x hx => hl x (by simp [hx])]
            rfl
        exact this _ (h.frame trivial)
      rw [e]
      rfl
    · intro x hx
      obtain ⟨v, hv⟩ := col_exists (h.frame trivial x hx)
      have hv : col c x = some v := hv
      rw [hv]
      rfl
  · exact ⟨_, rfl, fun x => col_find⟩

theorem means_iff {env : String → Option (List ℝ)} {d : Data} (h : (d.cols.map Prod.fst).Nodup)
    {x : String} {v : List ℝ} : Means env d x v ↔ (col d.cols x).or (env x) = some v := by
  unfold Means
  rw [← col_mem h]
  by_cases hx : x ∈ d.cols.map Prod.fst
  · obtain ⟨u, hu⟩ := col_exists hx
    simp [hu, hx]
  · have : col d.cols x = none := by
      rcases e : col d.cols x with _ | v
      · rfl
      · exact absurd (List.mem_map_of_mem ((col_mem h).1 e)) hx
    simp [this, hx]

theorem value_iff {env : String → Option (List ℝ)} {c : Cols} {x : String} {v : List ℝ} :
    value env c x = Except.ok v ↔ (col c x).or (env x) = some v := by
  unfold value
  rcases col c x with _ | u
  · rcases env x with _ | u
    · simp [Res.raise]
    · simp
  · simp

/-- What `model.frame` returns. -/
theorem modelFrame_ok {env : String → Option (List ℝ)} {d : Data} {vars : List String}
    {weights offset : Option String} {g : String → List ℝ} {n : ℕ} (hv : vars ≠ [])
    (h : ∀ x ∈ vars, value env d.cols x = Except.ok (g x))
    (hw : ∀ x, weights = some x → value env d.cols x = Except.ok (g x))
    (ho : ∀ x, offset = some x → value env d.cols x = Except.ok (g x))
    (hn : ∀ x ∈ vars, (g x).length = n) :
    modelFrame env d vars weights offset =
      if (∀ x, weights = some x → (g x).length = n) ∧ (∀ x, offset = some x → (g x).length = n) then
        Except.ok ⟨vars.map fun x => (x, g x), weights.map g, offset.map g⟩
      else Res.raise "variable lengths differ" := by
  obtain ⟨y, vs, rfl⟩ := List.exists_cons_of_ne_nil hv
  unfold modelFrame
  rw [mapM_ok (g := fun x => (x, g x)) fun x hx => by rw [h x hx]; rfl]
  have hlen : ∀ l : List (List ℝ), (((y :: vs).map fun x => (x, g x)).map Prod.snd ++ l).all
      (fun v => v.length = ((((y :: vs).map fun x => (x, g x)).map Prod.snd ++ l).headD []).length) =
      l.all fun v => v.length = n := by
    intro l
    have e : (((y :: vs).map fun x => (x, g x)).map Prod.snd ++ l).headD [] = g y := rfl
    rw [e, hn y (by simp), List.all_append]
    have : (((y :: vs).map fun x => (x, g x)).map Prod.snd).all (fun v => decide (v.length = n)) = true := by
      simp only [List.all_eq_true, List.mem_map, decide_eq_true_eq]
      rintro _ ⟨_, ⟨x, hx, rfl⟩, rfl⟩
      exact hn x hx
    rw [this, Bool.true_and]
  have hext : ∀ a : Option String, (∀ x, a = some x → value env d.cols x = Except.ok (g x)) →
      extra env d.cols a = Except.ok (a.map g) := by
    intro a ha
    rcases a with _ | x
    · rfl
    · show (value env d.cols x >>= fun v => pure (some v)) = _
      rw [ha x rfl]
      rfl
  rw [res_ok_bind, hext _ hw, res_ok_bind, hext _ ho, res_ok_bind]
  show (if ((_ ++ _ ++ _ : List (List ℝ)).all _) = true then _ else _) = _
  rw [List.append_assoc, hlen]
  rcases weights with _ | w <;> rcases offset with _ | o <;> simp

theorem modelFrame_inv {env : String → Option (List ℝ)} {d : Data} {vars : List String}
    {weights offset : Option String} {fr : Fr} (h : modelFrame env d vars weights offset = Except.ok fr) :
    (∀ x, weights = some x → ∃ v, value env d.cols x = Except.ok v ∧ fr.weights = some v) ∧
    (∀ x, offset = some x → ∃ v, value env d.cols x = Except.ok v ∧ fr.offset = some v) := by
  unfold modelFrame at h
  rcases e : vars.mapM (fun x => do
    let v ← value env d.cols x
    pure (x, v)) with err | vs
  · rw [e] at h
    cases h
  rw [e, res_ok_bind] at h
  rcases ew : extra env d.cols weights with err | w
  · rw [ew] at h
    cases h
  rw [ew, res_ok_bind] at h
  rcases eo : extra env d.cols offset with err | o
  · rw [eo] at h
    cases h
  rw [eo, res_ok_bind] at h
  have hinv : ∀ a v, extra env d.cols a = Except.ok v → ∀ x, a = some x →
      ∃ u, value env d.cols x = Except.ok u ∧ v = some u := by
    rintro a v e x rfl
    change (value env d.cols x >>= fun v => pure (some v)) = Except.ok v at e
    rcases hu : value env d.cols x with err | u
    · rw [hu] at e
      cases e
    · rw [hu] at e
      exact ⟨u, rfl, (Except.ok.inj e).symm⟩
  simp only [res_pure] at h
  split_ifs at h
  · cases Except.ok.inj h
    exact ⟨hinv _ _ ew, hinv _ _ eo⟩
  · cases h

/-! ## Without random effects -/

/-- The value of a symbol after the assignments at lines 43, 49, 55 and 56. -/
def over (env : String → Option (List ℝ)) (d : Data) (weights off : Option (List ℝ)) (x : String) :
    Option (List ℝ) :=
  (if x = "weights" then weights else if x = "off" then off else none).or ((col d.cols x).or (env x))

theorem over_exists {env : String → Option (List ℝ)} {d : Data} {f : Formula} {n : ℕ}
    (h : Covers env d f n) {weights off : Option (List ℝ)}
    (hw : ∀ w, weights = some w → w.length = n) (ho : ∀ o, off = some o → o.length = n)
    {x : String} (hx : x ∈ f.vars) :
    over env d weights off x = some ((over env d weights off x).getD []) ∧
      ((over env d weights off x).getD []).length = n := by
  obtain ⟨v, hv, hl⟩ := h.vars x hx
  rw [means_iff h.nodup] at hv
  unfold over
  rw [hv]
  split_ifs
  · rcases weights with _ | w
    · exact ⟨rfl, hl⟩
    · exact ⟨rfl, hw w rfl⟩
  · rcases off with _ | o
    · exact ⟨rfl, hl⟩
    · exact ⟨rfl, ho o rfl⟩
  · exact ⟨rfl, hl⟩

theorem assign_ok {d : Data} {n : ℕ} (h : Rows d n) (c : Cols) (x : String) {v : List ℝ}
    (hv : v.length = n) : assign (withCols d c) x v = Except.ok (withCols d (put c x v)) := by
  rcases d with ⟨m, c'⟩ | c'
  · exact if_pos (hv.trans h.1.symm)
  · rfl

/-- The frame without random effects. -/
theorem fixed_eq (out : Outside) {d : Data} {f : Formula} {n : ℕ} (h : Covers out.env d f n)
    (hre : f.hasRe = false) {fam : FamArg} {s : String} (hfam : family out.get fam = Except.ok s)
    {weights off : Option (List ℝ)} (hw : ∀ w, weights = some w → w.length = n)
    (ho : ∀ o, off = some o → o.length = n) :
    parseFormula out f d fam weights off = Except.ok
      ⟨f.vars.map fun x => (x, (over out.env d weights off x).getD []), weights, off⟩ := by
  have key : ∀ (c : Cols) (ws os : Option String),
      (∀ x ∈ f.vars, (col c x).or (out.env x) = over out.env d weights off x) →
      (weights.isSome → ws = some "weights" ∧ col c "weights" = weights) →
      (weights = none → ws = none) →
      (off.isSome → os = some "off" ∧ col c "off" = off) → (off = none → os = none) →
      modelFrame out.env (withCols d c) f.vars ws os = Except.ok
        ⟨f.vars.map fun x => (x, (over out.env d weights off x).getD []), weights, off⟩ := by
    intro c ws os hv hws hws' hos hos'
    have e1 : ∀ x, ws = some x → ∃ w, weights = some w ∧ x = "weights" ∧
        over out.env d weights off x = some w ∧ value out.env c x = Except.ok w := by
      intro x hx
      rcases weights with _ | w
      · rw [hws' rfl] at hx
        cases hx
      · obtain ⟨h1, h2⟩ := hws rfl
        rw [h1] at hx
        cases hx
        exact ⟨w, rfl, rfl, rfl, value_iff.2 (by rw [h2]; rfl)⟩
    have e2 : ∀ x, os = some x → ∃ o, off = some o ∧ x = "off" ∧
        over out.env d weights off x = some o ∧ value out.env c x = Except.ok o := by
      intro x hx
      rcases off with _ | o
      · rw [hos' rfl] at hx
        cases hx
      · obtain ⟨h1, h2⟩ := hos rfl
        rw [h1] at hx
        cases hx
        exact ⟨o, rfl, rfl, rfl, value_iff.2 (by rw [h2]; rfl)⟩
    rw [modelFrame_ok (g := fun x => (over out.env d weights off x).getD []) (n := n) h.some
      (fun x hx => by
        rw [withCols_cols, value_iff, hv x hx]
        exact (over_exists h hw ho hx).1)
      (fun x hx => by
        obtain ⟨w, -, -, h3, h4⟩ := e1 x hx
        rw [withCols_cols, h3]
        exact h4)
      (fun x hx => by
        obtain ⟨w, -, -, h3, h4⟩ := e2 x hx
        rw [withCols_cols, h3]
        exact h4) fun x hx => (over_exists h hw ho hx).2, if_pos]
    · congr 2
      · rcases weights with _ | w
        · rw [hws' rfl]
          rfl
        · rw [(hws rfl).1]
          rfl
      · rcases off with _ | o
        · rw [hos' rfl]
          rfl
        · rw [(hos rfl).1]
          rfl
    · refine ⟨fun x hx => ?_, fun x hx => ?_⟩
      · obtain ⟨w, h1, -, h3, -⟩ := e1 x hx
        rw [h3]
        exact hw w h1
      · obtain ⟨w, h1, -, h3, -⟩ := e2 x hx
        rw [h3]
        exact ho w h1
  obtain ⟨c, hsel, hc⟩ := select_ok h
  unfold parseFormula
  rw [hsel, res_ok_bind, hfam, res_ok_bind, if_neg (by simp [hre])]
  rcases weights with _ | w <;> rcases off with _ | o
  · refine key _ _ _ (fun x hx => ?_) (by simp) (fun _ => rfl) (by simp) (fun _ => rfl)
    rw [hc, if_pos hx]
    unfold over
    rw [ite_self, ite_self, Option.none_or]
  · show (assign _ _ _ >>= _) = _
    rw [assign_ok h.rows _ _ (ho o rfl), res_ok_bind]
    refine key _ _ _ (fun x hx => ?_) (by simp) (fun _ => rfl)
      (fun _ => ⟨rfl, by rw [col_put, if_pos rfl]⟩) (by simp)
    rw [col_put, hc, if_pos hx]
    by_cases h1 : x = "off"
    · simp [over, h1]
    · rw [if_neg h1]
      unfold over
      rw [if_neg h1, ite_self, Option.none_or]
  · show (assign _ _ _ >>= _) = _
    rw [assign_ok h.rows _ _ (hw w rfl), res_ok_bind]
    refine key _ _ _ (fun x hx => ?_) (fun _ => ⟨rfl, by rw [col_put, if_pos rfl]⟩) (by simp)
      (by simp) (fun _ => rfl)
    rw [col_put, hc, if_pos hx]
    by_cases h1 : x = "weights"
    · simp [over, h1]
    · simp [over, h1]
  · show (assign _ _ _ >>= _) = _
    rw [assign_ok h.rows _ _ (ho o rfl), res_ok_bind, assign_ok h.rows _ _ (hw w rfl), res_ok_bind]
    refine key _ _ _ (fun x hx => ?_) (fun _ => ⟨rfl, by rw [col_put, if_pos rfl]⟩) (by simp)
      (fun _ => ⟨rfl, by rw [col_put, if_neg (by decide), col_put, if_pos rfl]⟩) (by simp)
    rw [col_put, col_put, hc, if_pos hx]
    by_cases h1 : x = "weights"
    · simp [over, h1]
    · by_cases h2 : x = "off" <;> simp [over, h1, h2]

/-- C94 without random effects: the weights and the offset are those given, and the variables are right
unless the formula has a variable named `off` or `weights` (and an offset or weights are given that differ
from it). -/
theorem c94_fixed_partial (out : Outside) {d : Data} {f : Formula} {n : ℕ} (h : Covers out.env d f n)
    (hre : f.hasRe = false) {fam : FamArg} {s : String} (hfam : family out.get fam = Except.ok s)
    {weights off : Option (List ℝ)} (hw : ∀ w, weights = some w → w.length = n)
    (ho : ∀ o, off = some o → o.length = n) :
    ∃ fr, parseFormula out f d fam weights off = Except.ok fr ∧ fr.weights = weights ∧
      fr.offset = off ∧ (Right out.env d f weights off fr ↔
        (∀ w, weights = some w → "weights" ∈ f.vars → Means out.env d "weights" w) ∧
        ∀ o, off = some o → "off" ∈ f.vars → Means out.env d "off" o) := by
  refine ⟨_, fixed_eq out h hre hfam hw ho, rfl, rfl, fun hr => ⟨?_, ?_⟩, fun hr => ?_⟩
  · rintro w rfl hx
    exact hr.values ("weights", _) (List.mem_map.2 ⟨"weights", hx, rfl⟩)
  · rintro o rfl hx
    exact hr.values ("off", _) (List.mem_map.2 ⟨"off", hx, rfl⟩)
  · refine ⟨?_, fun c hc => ?_, rfl, rfl⟩
    · rw [List.map_map]
      exact List.map_id _
    · obtain ⟨x, hx, rfl⟩ := List.mem_map.1 hc
      obtain ⟨v, hv, -⟩ := h.vars x hx
      have hv' := hv
      rw [means_iff h.nodup] at hv'
      unfold over
      rw [hv']
      by_cases h1 : x = "weights"
      · rw [if_pos h1]
        rcases weights with _ | w
        · exact hv
        · subst h1
          exact hr.1 w rfl hx
      · rw [if_neg h1]
        by_cases h2 : x = "off"
        · rw [if_pos h2]
          rcases off with _ | o
          · exact hv
          · subst h2
            exact hr.2 o rfl hx
        · rw [if_neg h2]
          exact hv

/-- A vector of another length is not always refused: with a data frame, one whose length divides the
number of rows is recycled. -/
theorem c94_recycled (out : Outside) {d : Data} {f : Formula} {n : ℕ} (h : Covers out.env d f n)
    (hd : IsFrame d) (hre : f.hasRe = false) {fam : FamArg} {s : String}
    (hfam : family out.get fam = Except.ok s)
    {o : List ℝ} (h0 : 0 < o.length) (hn : o.length < n) (hdvd : o.length ∣ n) :
    ∃ fr v, parseFormula out f d fam none (some o) = Except.ok fr ∧ fr.offset = some v ∧
      v.length = n ∧ ∀ i (hi : i < n) (hi' : i < v.length),
        v[i] = o[i % o.length]'(Nat.mod_lt _ h0) := by
  have hlen : (recycle o n).length = n := by simp [recycle]
  have e := fixed_eq out h hre hfam (weights := none) (off := some (recycle o n)) (by simp)
    (fun _ e => by cases e; exact hlen)
  suffices h' : parseFormula out f d fam none (some o) =
      parseFormula out f d fam none (some (recycle o n)) from
    ⟨_, recycle o n, h'.trans e, rfl, hlen, fun i hi hi' => by
      simp [recycle, List.getD_eq_getElem?_getD, Nat.mod_lt _ h0]⟩
  obtain ⟨c, hsel, -⟩ := select_ok h
  unfold parseFormula
  rw [hsel, res_ok_bind, res_ok_bind, hfam, res_ok_bind, res_ok_bind, if_neg (by simp [hre]),
    if_neg (by simp [hre])]
  show (assign _ _ _ >>= _) = (assign _ _ _ >>= _)
  congr 1
  rcases d with ⟨m, c'⟩ | c'
  · obtain rfl : m = n := h.rows.1
    show (if _ then _ else _) = (if _ then _ else _)
    rw [if_neg hn.ne, if_pos ⟨h0, hn, Nat.mod_eq_zero_of_dvd hdvd⟩, if_pos hlen]
  · exact hd.elim

/-- With a data frame and without random effects an offset of any other length is refused. -/
theorem c94_refused_frame (out : Outside) {d : Data} {f : Formula} {n : ℕ} (h : Covers out.env d f n)
    (hd : IsFrame d) (hre : f.hasRe = false) {fam : FamArg} {s : String}
    (hfam : family out.get fam = Except.ok s)
    {o : List ℝ} (hn : ¬ (o.length ∣ n ∧ o.length ≤ n)) :
    ∃ e, parseFormula out f d fam none (some o) = Except.error e := by
  have h1 : ¬ o.length = n := fun e => hn ⟨e ▸ dvd_rfl, e.le⟩
  have h2 : ¬ (0 < o.length ∧ o.length < n ∧ n % o.length = 0) :=
    fun e => hn ⟨Nat.dvd_of_mod_eq_zero e.2.2, e.2.1.le⟩
  obtain ⟨c, hsel, -⟩ := select_ok h
  unfold parseFormula
  rw [hsel, res_ok_bind, hfam, res_ok_bind, if_neg (by simp [hre])]
  show ∃ e, (assign _ _ _ >>= _) = _
  rcases d with ⟨m, c'⟩ | c'
  · obtain rfl : m = n := h.rows.1
    have : assign (withCols (.frame m c') c) "off" o =
        Res.raise "replacement has different number of rows" := (if_neg h1).trans (if_neg h2)
    rw [this]
    exact ⟨_, rfl⟩
  · exact hd.elim

/-- A frame is not made when the offset found has another length. -/
theorem refused {env : String → Option (List ℝ)} {d : Data} {f : Formula} {n : ℕ} (h : Covers env d f n)
    {c : Cols} (hc : ∀ x ∈ f.vars, col c x = col d.cols x) (hx : "off" ∉ f.vars) {o : List ℝ}
    (ho : (col c "off").or (env "off") = some o) (hn : o.length ≠ n) :
    ∃ e, modelFrame env (withCols d c) f.vars none (some "off") = Except.error e := by
  refine ⟨_, (modelFrame_ok (env := env) (d := withCols d c) (weights := none) (offset := some "off")
    (g := fun x => ((col c x).or (env x)).getD []) (n := n) h.some (fun x hx' => ?_) (by simp)
    (fun x e => ?_) fun x hx' => ?_).trans (if_neg fun e => hn ?_)⟩
  · obtain ⟨v, hv, hl⟩ := h.vars x hx'
    rw [means_iff h.nodup, ← hc x hx'] at hv
    rw [withCols_cols, value_iff, hv]
    rfl
  · cases e
    rw [withCols_cols, value_iff, ho]
    rfl
  · obtain ⟨v, hv, hl⟩ := h.vars x hx'
    rw [means_iff h.nodup, ← hc x hx'] at hv
    rw [hv]
    exact hl
  · have := e.2 "off" rfl
    rwa [ho] at this

/-- With a list and without random effects an offset of another length is refused. -/
theorem c94_refused_list (out : Outside) {d : Data} {f : Formula} {n : ℕ} (h : Covers out.env d f n)
    (hd : ¬ IsFrame d) (hre : f.hasRe = false) {fam : FamArg} {s : String}
    (hfam : family out.get fam = Except.ok s) {o : List ℝ} (hx : "off" ∉ f.vars) (hn : o.length ≠ n) :
    ∃ e, parseFormula out f d fam none (some o) = Except.error e := by
  obtain ⟨c, hsel, hc⟩ := select_ok h
  unfold parseFormula
  rw [hsel, res_ok_bind, hfam, res_ok_bind, if_neg (by simp [hre])]
  show ∃ e, (assign _ _ _ >>= _) = _
  rcases d with ⟨m, c'⟩ | c'
  · exact (hd trivial).elim
  · exact refused (c := put c "off" o) h (fun x hx' => by
      rw [col_put, if_neg (fun e : x = "off" => hx (e ▸ hx')), hc, if_pos hx']) hx
      (by rw [col_put, if_pos rfl]; rfl) hn

/-! ## With random effects -/

/-- No frame for a gaussian family with random effects. -/
theorem c94_gaussian (out : Outside) {env : String → Option (List ℝ)} {d : Data} {f : Formula} {n : ℕ}
    (h : Covers env d f n) (hre : f.hasRe = true)
    {fam : FamArg} (hfam : family out.get fam = Except.ok "gaussian") (weights off : Option (List ℝ)) :
    parseFormula out f d fam weights off =
      Res.raise "glmmsr can't yet handle family = gaussian" := by
  obtain ⟨c, hsel, -⟩ := select_ok h
  unfold parseFormula
  rw [hsel, res_ok_bind, hfam, res_ok_bind, if_pos hre, if_pos rfl]

/-- With random effects an offset of another length, found in the environment, is refused. -/
theorem c94_refused_random (out : Outside) {d : Data} {f : Formula} {n : ℕ} (h : Covers out.reEnv d f n)
    (hre : f.hasRe = true) {fam : FamArg} {s : String} (hfam : family out.get fam = Except.ok s)
    {o : List ℝ} (hx : "off" ∉ f.vars) (ho : out.reEnv "off" = some o) (hn : o.length ≠ n) :
    ∃ e, parseFormula out f d fam none (some o) = Except.error e := by
  by_cases hs : s = "gaussian"
  · subst hs
    exact ⟨_, c94_gaussian out h hre hfam _ _⟩
  obtain ⟨c, hsel, hc⟩ := select_ok h
  unfold parseFormula
  rw [hsel, res_ok_bind, hfam, res_ok_bind, if_pos hre, if_neg hs]
  exact refused h (fun x hx' => by rw [hc, if_pos hx']) hx (by rw [hc, if_neg hx]; exact ho) hn

/-- C94 with random effects: the frame is right exactly when `weights` and `off` are found, as variables
of the formula if it has a variable of that name, otherwise in the environment of the formula, with the
values given. -/
theorem c94_random_partial (out : Outside) {d : Data} {f : Formula} {n : ℕ} (h : Covers out.reEnv d f n)
    (hre : f.hasRe = true) {fam : FamArg} {s : String} (hfam : family out.get fam = Except.ok s)
    (hs : s ≠ "gaussian") {weights off : Option (List ℝ)}
    (hw : ∀ w, weights = some w → w.length = n) (ho : ∀ o, off = some o → o.length = n) :
    (∃ fr, parseFormula out f d fam weights off = Except.ok fr ∧
      Right out.reEnv d f weights off fr) ↔
      (∀ w, weights = some w →
        if "weights" ∈ f.vars then Means out.reEnv d "weights" w else out.reEnv "weights" = some w) ∧
      ∀ o, off = some o →
        if "off" ∈ f.vars then Means out.reEnv d "off" o else out.reEnv "off" = some o := by
  obtain ⟨c, hsel, hc⟩ := select_ok h
  have heq : parseFormula out f d fam weights off = modelFrame out.reEnv (withCols d c) f.vars
      (weights.map fun _ => "weights") (off.map fun _ => "off") := by
    unfold parseFormula
    rw [hsel, res_ok_bind, hfam, res_ok_bind, if_pos hre, if_neg hs]
    rcases weights with _ | w <;> rcases off with _ | o <;> rfl
  have seen : ∀ x v, (if x ∈ f.vars then Means out.reEnv d x v else out.reEnv x = some v) ↔
      value out.reEnv c x = Except.ok v := by
    intro x v
    rw [value_iff, hc]
    split_ifs with hx
    · exact means_iff h.nodup
    · rw [Option.none_or]
  rw [heq]
  simp only [seen]
  constructor
  · rintro ⟨fr, hfr, hr⟩
    obtain ⟨h1, h2⟩ := modelFrame_inv hfr
    rw [withCols_cols] at h1 h2
    constructor
    · rintro w rfl
      obtain ⟨v, e, hv⟩ := h1 "weights" rfl
      rw [hr.weights] at hv
      cases hv
      exact e
    · rintro o rfl
      obtain ⟨v, e, hv⟩ := h2 "off" rfl
      rw [hr.offset] at hv
      cases hv
      exact e
  · rintro ⟨h1, h2⟩
    let g : String → List ℝ := fun x => ((col c x).or (out.reEnv x)).getD []
    have hg : ∀ x v, value out.reEnv c x = Except.ok v → g x = v := fun x v e => by
      rw [value_iff] at e
      show ((col c x).or (out.reEnv x)).getD [] = v
      rw [e]
      rfl
    have hvars : ∀ x ∈ f.vars, ∃ v, Means out.reEnv d x v ∧ v.length = n ∧
        value out.reEnv c x = Except.ok v ∧ g x = v := fun x hx => by
      obtain ⟨v, hv, hl⟩ := h.vars x hx
      have e := (seen x v).1 (by rw [if_pos hx]; exact hv)
      exact ⟨v, hv, hl, e, hg x v e⟩
    have hwx : ∀ x, (weights.map fun _ => "weights") = some x → ∃ w, weights = some w ∧ x = "weights" := by
      intro x hx
      rcases weights with _ | w
      · cases hx
      · cases hx
        exact ⟨w, rfl, rfl⟩
    have hox : ∀ x, (off.map fun _ => "off") = some x → ∃ o, off = some o ∧ x = "off" := by
      intro x hx
      rcases off with _ | o
      · cases hx
      · cases hx
        exact ⟨o, rfl, rfl⟩
    have hm := modelFrame_ok (env := out.reEnv) (d := withCols d c) (g := g) (n := n)
      (weights := weights.map fun _ => "weights") (offset := off.map fun _ => "off") h.some
      (fun x hx => by
        obtain ⟨v, -, -, e, rfl⟩ := hvars x hx
        rw [withCols_cols]
        exact e)
      (fun x hx => by
        obtain ⟨w, e, rfl⟩ := hwx x hx
        rw [withCols_cols, hg _ _ (h1 w e)]
        exact h1 w e)
      (fun x hx => by
        obtain ⟨o, e, rfl⟩ := hox x hx
        rw [withCols_cols, hg _ _ (h2 o e)]
        exact h2 o e) fun x hx => by
          obtain ⟨v, -, hl, -, rfl⟩ := hvars x hx
          exact hl
    rw [hm, if_pos]
    · refine ⟨_, rfl, ?_, ?_, ?_, ?_⟩
      · rw [List.map_map]
        exact List.map_id _
      · rintro e he
        obtain ⟨x, hx, rfl⟩ := List.mem_map.1 he
        obtain ⟨v, hv, -, -, e⟩ := hvars x hx
        show Means _ _ x (g x)
        rw [e]
        exact hv
      · rcases weights with _ | w
        · rfl
        · exact congrArg some (hg _ _ (h1 w rfl))
      · rcases off with _ | o
        · rfl
        · exact congrArg some (hg _ _ (h2 o rfl))
    · refine ⟨fun x hx => ?_, fun x hx => ?_⟩
      · obtain ⟨w, e, rfl⟩ := hwx x hx
        rw [hg _ _ (h1 w e)]
        exact hw w e
      · obtain ⟨o, e, rfl⟩ := hox x hx
        rw [hg _ _ (h2 o e)]
        exact ho o e

/-! ## Cases -/

/-- A data frame with two rows. -/
def twoRows : Data := .frame 2 [("y", [0, 1]), ("x", [3, 4]), ("off", [1, 2])]

theorem twoRows_covers (env : String → Option (List ℝ)) {vars : List String}
    (h : ∀ x ∈ vars, x ∈ ["y", "x", "off"]) (h0 : vars ≠ []) (re : Bool) :
    Covers env twoRows ⟨vars, re⟩ 2 where
  nodup := by decide
  rows := ⟨rfl, fun e he => by
    simp only [List.mem_cons, List.not_mem_nil, or_false] at he
    rcases he with rfl | rfl | rfl <;> rfl⟩
  frame _ := h
  vars x hx := by
    have := h x hx
    simp only [List.mem_cons, List.not_mem_nil, or_false] at this
    rcases this with rfl | rfl | rfl
    · exact ⟨[0, 1], Or.inl (by simp [twoRows, Data.cols]), rfl⟩
    · exact ⟨[3, 4], Or.inl (by simp [twoRows, Data.cols]), rfl⟩
    · exact ⟨[1, 2], Or.inl (by simp [twoRows, Data.cols]), rfl⟩
  some := h0

/-- A list without the response, which is in the environment. -/
theorem list_covers {env : String → Option (List ℝ)} (hy : env "y" = some [0, 1]) (re : Bool) :
    Covers env (.list [("x", [3, 4])]) ⟨["y", "x"], re⟩ 2 where
  nodup := by decide
  rows := trivial
  frame h := h.elim
  vars x hx := by
    simp only [List.mem_cons, List.not_mem_nil, or_false] at hx
    rcases hx with rfl | rfl
    · exact ⟨[0, 1], Or.inr ⟨by decide, hy⟩, rfl⟩
    · exact ⟨[3, 4], Or.inl (by simp [Data.cols]), rfl⟩
  some := by simp

/-- `y ~ x` with an offset, no random effects. -/
example (out : Outside) : ∃ fr, parseFormula out ⟨["y", "x"], false⟩ twoRows (.fn "binomial") none
    (some [5, 6]) = Except.ok fr ∧
    Right out.env twoRows ⟨["y", "x"], false⟩ none (some [5, 6]) fr := by
  obtain ⟨fr, h1, -, -, h2⟩ := c94_fixed_partial out
    (twoRows_covers _ (vars := ["y", "x"]) (by decide) (by simp) false) rfl (fam := .fn "binomial") rfl
    (weights := none) (off := some [5, 6]) (by simp) (fun o e => by cases e; rfl)
  exact ⟨fr, h1, h2.2 ⟨by simp, fun o e h => absurd h (by decide)⟩⟩

/-- The same with a list without the response. -/
example (out : Outside) (hy : out.env "y" = some [0, 1]) :
    ∃ fr, parseFormula out ⟨["y", "x"], false⟩ (.list [("x", [3, 4])]) (.fn "binomial") none
      (some [5, 6]) = Except.ok fr ∧
    Right out.env (.list [("x", [3, 4])]) ⟨["y", "x"], false⟩ none (some [5, 6]) fr := by
  obtain ⟨fr, h1, -, -, h2⟩ := c94_fixed_partial out (list_covers hy false) rfl
    (fam := .fn "binomial") rfl (weights := none) (off := some [5, 6]) (by simp)
    (fun o e => by cases e; rfl)
  exact ⟨fr, h1, h2.2 ⟨by simp, fun o e h => absurd h (by decide)⟩⟩

/-- C94 is violated without random effects: with a variable `off` in the formula, the offset is used in
place of that variable. -/
theorem c94_violated_fixed (out : Outside) : ∃ fr, parseFormula out ⟨["y", "off"], false⟩ twoRows
    (.fn "binomial") none (some [5, 6]) = Except.ok fr ∧ ("off", [5, 6]) ∈ fr.vars ∧
    ("off", [5, 6]) ∉ twoRows.cols :=
  ⟨_, fixed_eq out (twoRows_covers _ (vars := ["y", "off"]) (by decide) (by simp) false) rfl
    (fam := .fn "binomial") rfl (by simp) (fun o e => by cases e; rfl), by simp [over], by
    simp [twoRows, Data.cols]⟩

/-- An offset with one number for two observations is accepted. -/
example (out : Outside) : ∃ fr v, parseFormula out ⟨["y", "x"], false⟩ twoRows (.fn "binomial") none
    (some [5]) = Except.ok fr ∧ fr.offset = some v ∧ v.length = 2 ∧
    ∀ i (_ : i < 2) (hi' : i < v.length), v[i] = [(5 : ℝ)][i % 1]'(Nat.mod_lt _ one_pos) :=
  c94_recycled out (twoRows_covers _ (vars := ["y", "x"]) (by decide) (by simp) false) trivial rfl
    (fam := .fn "binomial") rfl (o := [5]) (by simp) (by simp) (by simp)

/-- `y ~ x + (1 | g)` with an offset that lme4 finds in the environment. -/
example (out : Outside) (h : out.reEnv "off" = some [5, 6]) :
    ∃ fr, parseFormula out ⟨["y", "x"], true⟩ twoRows (.fn "binomial") none (some [5, 6]) =
      Except.ok fr ∧ Right out.reEnv twoRows ⟨["y", "x"], true⟩ none (some [5, 6]) fr :=
  (c94_random_partial out (twoRows_covers _ (vars := ["y", "x"]) (by decide) (by simp) true) rfl
    (fam := .fn "binomial") rfl (by decide) (by simp) (fun o e => by cases e; rfl)).2
    ⟨by simp, fun o e => by
      cases e
      rw [if_neg (by decide)]
      exact h⟩

/-- C94 is violated with random effects: with a variable `off` in the formula, that variable is used in
place of the offset, or nothing is returned. -/
theorem c94_violated_random (out : Outside) : ¬ ∃ fr, parseFormula out ⟨["y", "off"], true⟩ twoRows
    (.fn "binomial") none (some [5, 6]) = Except.ok fr ∧
    Right out.reEnv twoRows ⟨["y", "off"], true⟩ none (some [5, 6]) fr := by
  rw [c94_random_partial out (twoRows_covers _ (vars := ["y", "off"]) (by decide) (by simp) true) rfl
    (fam := .fn "binomial") rfl (by decide) (by simp) (fun o e => by cases e; rfl)]
  rintro ⟨-, h⟩
  have := h _ rfl
  rw [if_pos (by decide)] at this
  simp [Means, twoRows, Data.cols] at this

example (out : Outside) (w : Option (List ℝ)) :
    parseFormula out ⟨["y", "x"], true⟩ twoRows (.fn "gaussian") w none =
      Res.raise "glmmsr can't yet handle family = gaussian" :=
  c94_gaussian out (twoRows_covers (fun _ => none) (vars := ["y", "x"]) (by decide) (by simp) true) rfl
    rfl w none

example (out : Outside) : ∃ e, parseFormula out ⟨["y", "x"], false⟩ twoRows (.fn "binomial") none
    (some [5, 6, 7]) = Except.error e :=
  c94_refused_frame out (twoRows_covers _ (vars := ["y", "x"]) (by decide) (by simp) false) trivial rfl
    (fam := .fn "binomial") rfl (by simp)

example (out : Outside) (hy : out.env "y" = some [0, 1]) :
    ∃ e, parseFormula out ⟨["y", "x"], false⟩ (.list [("x", [3, 4])]) (.fn "binomial") none
      (some [5]) = Except.error e :=
  c94_refused_list out (list_covers hy false) id rfl (fam := .fn "binomial") rfl (by decide) (by simp)

example (out : Outside) (h : out.reEnv "off" = some [5]) :
    ∃ e, parseFormula out ⟨["y", "x"], true⟩ twoRows (.fn "binomial") none (some [5]) =
      Except.error e :=
  c94_refused_random out (twoRows_covers _ (vars := ["y", "x"]) (by decide) (by simp) true) rfl
    (fam := .fn "binomial") rfl (by decide) h (by simp)

end Verif.ParseFormula
