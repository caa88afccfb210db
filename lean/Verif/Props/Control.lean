import Verif.Model.Control

/-! # Control options (C39) -/
namespace Verif.Control

/-! ## Specification -/

/-- The methods and the options they need. -/
def needed : String → List String
  | "Laplace" => ["order", "check_Laplace", "divergence_threshold"]
  | "AGQ" => ["nAGQ"]
  | "SR" => ["nSL"]
  | "IS" => ["nIS"]
  | _ => []

/-- All methods. -/
def methods : List String := ["Laplace", "AGQ", "SR", "IS"]

/-- All options. -/
def allOptions : List String := methods.flatMap needed

/-- Default values. -/
noncomputable def dflt : String → Val
  | "order" => .num 1
  | "check_Laplace" => .bool false
  | "divergence_threshold" => .num 0.1
  | "nAGQ" => .num 15
  | "nSL" => .num 3
  | "nIS" => .num 1000
  | _ => .other 0

/-- The value the user gave for an option (the last one if there are several). -/
def given : Arg → String → Option Val
  | .unnamed _, _ => none
  | .named l, name => ((l.filter fun e => e.1 = name).getLast?).map Prod.snd

/-- The user's value if given, the default otherwise. -/
noncomputable def value (control : Arg) (name : String) : Val := (given control name).getD (dflt name)

/-! ## Proofs -/

theorem get_set (l : RList) (name nm : String) (v : Val) (hn : nm ≠ "") :
    get (set l name v) nm = if nm = name then some v else get l nm := by
  induction l with
  | nil =>
    unfold set get
    by_cases h : nm = name
    · subst h; simp
    · simp [h, Ne.symm h, show ¬ name = nm from fun h' => h h'.symm]
  | cons e rest ih =>
    unfold set
    split
    · rename_i he
      unfold get
      by_cases h : nm = name
      · subst h; simp
      · simp [h, show ¬ name = nm from fun h' => h h'.symm, he.1]
    · rename_i he
      by_cases h2 : e.1 = nm
      · have h3 : nm ≠ name := by
          rintro rfl
          exact he ⟨h2, hn⟩
        unfold get
        simp [h2, h3]
      · have h4 : ∀ l', get (e :: l') nm = get l' nm := by
          intro l'
          unfold get
          simp [h2]
        rw [h4, h4, ih]

theorem get_setAll (con : RList) (control : Arg) (nm : String) (hn : nm ≠ "") :
    get (setAll con control) nm = (given control nm).or (get con nm) := by
  rcases control with vals | l
  · rfl
  · show get (l.foldl (fun con e => set con e.1 e.2) con) nm =
      (((l.filter fun e => e.1 = nm).getLast?).map Prod.snd).or (get con nm)
    induction l using List.reverseRecOn with
    | nil => rfl
    | append_singleton l e ih =>
      rw [List.foldl_append, List.foldl_cons, List.foldl_nil, get_set _ _ _ _ hn, ih,
        List.filter_append]
      by_cases h : e.1 = nm
      · simp [h]
      · simp [h, show ¬ nm = e.1 from fun h' => h h'.symm]

theorem defaults_eq {m : String} (hm : m ∈ methods) : ∃ con, defaults m = Except.ok con ∧
    con.map Prod.fst = needed m ∧ ∀ nm ∈ needed m, get con nm = some (dflt nm) := by
  simp only [methods, List.mem_cons, List.not_mem_nil, or_false] at hm
  rcases hm with rfl | rfl | rfl | rfl
  · refine ⟨conLaplace, rfl, rfl, fun nm h => ?_⟩
    simp only [needed, List.mem_cons, List.not_mem_nil, or_false] at h
    rcases h with rfl | rfl | rfl <;> rfl
  · refine ⟨conAGQ, rfl, rfl, fun nm h => ?_⟩
    simp only [needed, List.mem_cons, List.not_mem_nil, or_false] at h
    subst h; rfl
  · refine ⟨conSR, rfl, rfl, fun nm h => ?_⟩
    simp only [needed, List.mem_cons, List.not_mem_nil, or_false] at h
    subst h; rfl
  · refine ⟨conIS, rfl, rfl, fun nm h => ?_⟩
    simp only [needed, List.mem_cons, List.not_mem_nil, or_false] at h
    subst h; rfl

theorem needed_ne {m nm : String} (hm : m ∈ methods) (h : nm ∈ needed m) : nm ≠ "" := by
  simp only [methods, List.mem_cons, List.not_mem_nil, or_false] at hm
  rcases hm with rfl | rfl | rfl | rfl <;>
  · simp only [needed, List.mem_cons, List.not_mem_nil, or_false] at h
    aesop

/-- The warnings. -/
def warnings (control : Arg) (m : String) : List Warning :=
  (if (control.names.filter fun nm => nm ∉ allOptions).length > 0 then
    [Warning.unknown (control.names.filter fun nm => nm ∉ allOptions)] else []) ++
  (if ((control.names.filter fun nm => nm ∈ allOptions).filter fun nm => nm ∉ needed m).length > 0
    then [Warning.ignored m
      ((control.names.filter fun nm => nm ∈ allOptions).filter fun nm => nm ∉ needed m)] else [])

theorem tot_names : (conLaplace ++ conAGQ ++ conSR ++ conIS).map Prod.fst = allOptions := rfl

theorem run_eq (ops : Ops) (control : Arg) {m : String} {con : RList}
    (hd : defaults m = Except.ok con) (hk : con.map Prod.fst = needed m) :
    findControlWithDefaults ops control [m] = (do
      let con ← finishSR ops m (setAll con control)
      let con ← finishLaplace ops m con
      return (con, warnings control m)) := by
  unfold findControlWithDefaults
  simp only [List.length_singleton, Nat.succ_ne_zero, if_false, res_pure, res_ok_bind,
    tot_names, hd, hk]
  rfl

theorem finishSR_get {ops : Ops} {m : String} {l con : RList}
    (h : finishSR ops m l = Except.ok con) (nm : String) (hn : nm ≠ "") (ha : nm ≠ "nAGQ" ∨ m ≠ "SR") :
    get con nm = get l nm := by
  unfold finishSR at h
  split at h
  · rename_i hm
    split at h
    · rename_i v hv
      rcases hq : quad ops v with e | q
      · rw [hq] at h; cases h
      · rw [hq] at h
        cases h
        rw [get_set _ _ _ _ hn, if_neg]
        rcases ha with ha | ha
        exacts [ha, absurd hm ha]
    · cases h
  · cases h
    rfl

theorem finishLaplace_get {ops : Ops} {m : String} {l con : RList}
    (h : finishLaplace ops m l = Except.ok con) (nm : String) (hn : nm ≠ "")
    (ha : nm ≠ "check_Laplace") : get con nm = get l nm := by
  unfold finishLaplace at h
  split at h
  · cases h
    rw [get_set _ _ _ _ hn, if_neg ha]
  · split at h
    · rename_i v hv
      rcases hq : gt1 ops v with e | q
      · rw [hq] at h; cases h
      · rw [hq] at h
        rcases q with _ | _
        · cases h; rfl
        · cases h
          rw [get_set _ _ _ _ hn, if_neg ha]
    · cases h

/-- C39, options. For every method and control list: each option the method needs has the user's
value if given and the default otherwise; for SR the quadrature size is computed from the number of
levels, whatever the user gave; `check_Laplace` is off unless the method is Laplace and the order is
not greater than 1 (then it is as given, or off by default). -/
theorem c39_values {ops : Ops} {control : Arg} {m : String} (hm : m ∈ methods) {con : RList}
    {ws : List Warning} (h : findControlWithDefaults ops control [m] = Except.ok (con, ws)) :
    (∀ nm ∈ needed m, nm ≠ "check_Laplace" → get con nm = some (value control nm)) ∧
    (m = "SR" → ∃ q, quad ops (value control "nSL") = Except.ok q ∧ get con "nAGQ" = some q) ∧
    ((m ≠ "Laplace" ∨ gt1 ops (value control "order") = Except.ok true) →
      get con "check_Laplace" = some (.bool false)) ∧
    (m = "Laplace" → gt1 ops (value control "order") = Except.ok false →
      get con "check_Laplace" = some (value control "check_Laplace")) := by
  obtain ⟨con0, hd, hk, hv⟩ := defaults_eq hm
  rw [run_eq ops control hd hk] at h
  rcases h1 : finishSR ops m (setAll con0 control) with e | con1
  · rw [h1] at h; cases h
  rw [h1] at h
  simp only [res_ok_bind] at h
  rcases h2 : finishLaplace ops m con1 with e | con2
  · rw [h2] at h; cases h
  rw [h2] at h
  cases h
  have hval : ∀ nm ∈ needed m, get (setAll con0 control) nm = some (value control nm) := by
    intro nm hn
    rw [get_setAll _ _ _ (needed_ne hm hn), hv nm hn, value]
    rcases given control nm with _ | v <;> rfl
  have hnot : ∀ nm ∈ needed m, nm ≠ "nAGQ" ∨ m ≠ "SR" := by
    intro nm hn
    by_cases hs : m = "SR"
    · subst hs
      simp only [needed, List.mem_cons, List.not_mem_nil, or_false] at hn
      subst hn
      exact Or.inl (by decide)
    · exact Or.inr hs
  refine ⟨fun nm hn hc => ?_, fun hs => ?_, fun hc => ?_, fun hl hg => ?_⟩
  · rw [finishLaplace_get h2 nm (needed_ne hm hn) hc,
      finishSR_get h1 nm (needed_ne hm hn) (hnot nm hn), hval nm hn]
  · subst hs
    rw [finishLaplace_get h2 "nAGQ" (by decide) (by decide)]
    unfold finishSR at h1
    rw [if_pos rfl, hval "nSL" (by simp [needed])] at h1
    dsimp only at h1
    rcases hq : quad ops (value control "nSL") with e | q
    · rw [hq] at h1; cases h1
    · rw [hq] at h1
      cases h1
      exact ⟨q, rfl, by rw [get_set _ _ _ _ (by decide), if_pos rfl]⟩
  · unfold finishLaplace at h2
    by_cases hl : m = "Laplace"
    · have hg : gt1 ops (value control "order") = Except.ok true := by
        rcases hc with hc | hc
        exacts [absurd hl hc, hc]
      rw [if_neg (not_not.mpr hl)] at h2
      have ho : get con1 "order" = some (value control "order") := by
        rw [finishSR_get h1 "order" (by decide) (Or.inl (by decide)),
          hval "order" (by subst hl; simp [needed])]
      rw [ho] at h2
      dsimp only at h2
      rw [hg] at h2
      cases h2
      rw [get_set _ _ _ _ (by decide), if_pos rfl]
    · rw [if_pos hl] at h2
      cases h2
      rw [get_set _ _ _ _ (by decide), if_pos rfl]
  · unfold finishLaplace at h2
    rw [if_neg (not_not.mpr hl)] at h2
    have ho : get con1 "order" = some (value control "order") := by
      rw [finishSR_get h1 "order" (by decide) (Or.inl (by decide)),
        hval "order" (by subst hl; simp [needed])]
    rw [ho] at h2
    dsimp only at h2
    rw [hg] at h2
    cases h2
    rw [finishSR_get h1 "check_Laplace" (by decide) (Or.inl (by decide)),
      hval "check_Laplace" (by subst hl; simp [needed])]

/-- C39, quadrature size: with `n` levels it is `2^(n+1) - 1`. -/
theorem c39_sr {ops : Ops} {control : Arg} {con : RList} {ws : List Warning} {n : ℕ}
    (h : findControlWithDefaults ops control ["SR"] = Except.ok (con, ws))
    (hn : value control "nSL" = .num n) :
    get con "nAGQ" = some (.num ((2 ^ (n + 1) - 1 : ℕ) : ℝ)) := by
  obtain ⟨-, h2, -, -⟩ := c39_values (by simp [methods]) h
  obtain ⟨q, hq, hg⟩ := h2 rfl
  rw [hn] at hq
  cases hq
  rw [hg, Nat.cast_sub (Nat.one_le_two_pow), Nat.cast_pow, Nat.cast_one, Nat.cast_ofNat,
    ← Real.rpow_natCast, Nat.cast_add, Nat.cast_one]

/-- The names given by the user, in order and as often as they are given. -/
def namesGiven : Arg → List String
  | .unnamed _ => []
  | .named l => l.foldr (fun e nms => e.1 :: nms) []

/-- C39, warnings: there is one about unknown names exactly when there are unknown names, listing them
all; and one about names that are ignored exactly when there are options of other methods, listing
them all; and no other. -/
theorem c39_warnings {ops : Ops} {control : Arg} {m : String} (hm : m ∈ methods) {con : RList}
    {ws : List Warning} (h : findControlWithDefaults ops control [m] = Except.ok (con, ws)) :
    (∀ w, w ∈ ws ↔
      (∃ nms, w = Warning.unknown nms ∧ nms ≠ [] ∧
        nms = (namesGiven control).filter fun nm => nm ∉ allOptions) ∨
      (∃ nms, w = Warning.ignored m nms ∧ nms ≠ [] ∧
        nms = (namesGiven control).filter fun nm => nm ∈ allOptions ∧ nm ∉ needed m)) ∧
    (ws = [] ↔ ∀ nm ∈ namesGiven control, nm ∈ needed m) := by
  have hgiven : namesGiven control = control.names := by
    clear h
    rcases control with v | l
    · rfl
    · induction l with
      | nil => rfl
      | cons e l ih => exact congrArg (e.1 :: ·) ih
  rw [hgiven]
  obtain ⟨con0, hd, hk, hv⟩ := defaults_eq hm
  rw [run_eq ops control hd hk] at h
  rcases h1 : finishSR ops m (setAll con0 control) with e | con1
  · rw [h1] at h; cases h
  rw [h1] at h
  simp only [res_ok_bind] at h
  rcases h2 : finishLaplace ops m con1 with e | con2
  · rw [h2] at h; cases h
  rw [h2] at h
  cases h
  have hf : ((control.names.filter fun nm => nm ∈ allOptions).filter fun nm => nm ∉ needed m) =
      control.names.filter fun nm => nm ∈ allOptions ∧ nm ∉ needed m := by
    rw [List.filter_filter]
    congr 1
    funext nm
    simp [Bool.and_comm]
  have hsub : ∀ nm ∈ needed m, nm ∈ allOptions := by
    intro nm hn
    exact List.mem_flatMap.mpr ⟨m, hm, hn⟩
  unfold warnings
  rw [hf]
  constructor
  · intro w
    have key : ∀ A B : List String,
        w ∈ (if A.length > 0 then [Warning.unknown A] else []) ++
          (if B.length > 0 then [Warning.ignored m B] else []) ↔
        (∃ nms, w = Warning.unknown nms ∧ nms ≠ [] ∧ nms = A) ∨
        (∃ nms, w = Warning.ignored m nms ∧ nms ≠ [] ∧ nms = B) := by
      intro A B
      rcases A with _ | ⟨a, A⟩ <;> rcases B with _ | ⟨b, B⟩ <;> simp
    exact key _ _
  · constructor
    · intro he nm hn
      by_contra hc
      by_cases ho : nm ∈ allOptions
      · have : nm ∈ control.names.filter fun nm => nm ∈ allOptions ∧ nm ∉ needed m := by
          simp [hn, ho, hc]
        have hp := List.length_pos_of_mem this
        rw [List.append_eq_nil_iff, if_pos hp] at he
        simp at he
      · have : nm ∈ control.names.filter fun nm => nm ∉ allOptions := by
          simp [hn, ho]
        have hp := List.length_pos_of_mem this
        rw [List.append_eq_nil_iff, if_pos hp] at he
        simp at he
    · intro hall
      have ha : control.names.filter (fun nm => nm ∉ allOptions) = [] := by
        rw [List.filter_eq_nil_iff]
        intro nm hn
        simp [hsub nm (hall nm hn)]
      have hb : control.names.filter (fun nm => nm ∈ allOptions ∧ nm ∉ needed m) = [] := by
        rw [List.filter_eq_nil_iff]
        intro nm hn
        simp [hall nm hn]
      rw [ha, hb]
      rfl

/-- C39, errors: no method, several methods or an unknown method stop with an error. -/
theorem c39_error (ops : Ops) (control : Arg) (method : List String)
    (h : ¬ ∃ m ∈ methods, method = [m]) :
    ∃ msg, findControlWithDefaults ops control method = Except.error (Err.throw msg) := by
  unfold findControlWithDefaults
  rcases method with _ | ⟨m, _ | ⟨m', rest⟩⟩
  · exact ⟨_, rfl⟩
  · have hm : m ∉ methods := fun hm => h ⟨m, hm, rfl⟩
    simp only [methods, List.mem_cons, List.not_mem_nil, or_false, not_or] at hm
    have hd : defaults m = Res.raise "not recognised" := by
      unfold defaults
      rw [if_neg hm.1, if_neg hm.2.1, if_neg hm.2.2.1, if_neg hm.2.2.2]
    simp only [List.length_singleton, Nat.succ_ne_zero, if_false, res_pure, res_ok_bind, hd]
    exact ⟨_, rfl⟩
  · exact ⟨_, rfl⟩

/-- C39, success: a known method always gives a result when the number of levels (for SR) and the
order (for Laplace) are numbers. -/
theorem c39_runs (ops : Ops) (control : Arg) {m : String} (hm : m ∈ methods)
    (h1 : m = "SR" → ∃ x, value control "nSL" = .num x)
    (h2 : m = "Laplace" → ∃ x, value control "order" = .num x) :
    ∃ r, findControlWithDefaults ops control [m] = Except.ok r := by
  obtain ⟨con0, hd, hk, hv⟩ := defaults_eq hm
  have hval : ∀ nm ∈ needed m, get (setAll con0 control) nm = some (value control nm) := by
    intro nm hn
    rw [get_setAll _ _ _ (needed_ne hm hn), hv nm hn, value]
    rcases given control nm with _ | v <;> rfl
  rw [run_eq ops control hd hk]
  obtain ⟨con1, e1⟩ : ∃ con1, finishSR ops m (setAll con0 control) = Except.ok con1 := by
    unfold finishSR
    split
    · rename_i hs
      obtain ⟨x, hx⟩ := h1 hs
      subst hs
      rw [hval "nSL" (by simp [needed]), hx]
      exact ⟨_, rfl⟩
    · exact ⟨_, rfl⟩
  obtain ⟨con2, e2⟩ : ∃ con2, finishLaplace ops m con1 = Except.ok con2 := by
    unfold finishLaplace
    split
    · exact ⟨_, rfl⟩
    · rename_i hl
      rw [not_not] at hl
      obtain ⟨x, hx⟩ := h2 hl
      rw [finishSR_get e1 "order" (by decide) (Or.inl (by decide)),
        hval "order" (by subst hl; simp [needed]), hx]
      dsimp only
      unfold gt1
      simp only [res_ok_bind]
      split
      · exact ⟨_, rfl⟩
      · exact ⟨_, rfl⟩
  rw [e1]
  simp only [res_ok_bind]
  rw [e2]
  exact ⟨_, rfl⟩

/-- The hypotheses are met: five levels, and an option of another method. -/
example (ops : Ops) : ∃ con ws, findControlWithDefaults ops
      (.named [("nSL", .num (5 : ℕ)), ("nAGQ", .num 2)]) ["SR"] = Except.ok (con, ws) ∧
    get con "nAGQ" = some (.num 63) ∧ ws ≠ [] := by
  obtain ⟨⟨con, ws⟩, h⟩ := c39_runs ops (.named [("nSL", .num (5 : ℕ)), ("nAGQ", .num 2)])
    (m := "SR") (by simp [methods]) (fun _ => ⟨(5 : ℕ), by simp [value, given]⟩)
    (fun h => absurd h (by decide))
  refine ⟨con, ws, h, ?_, fun hw => ?_⟩
  · rw [c39_sr h (n := 5) (by simp [value, given])]
    norm_num
  · have := (c39_warnings (by simp [methods]) h).2.mp hw "nAGQ" (by simp [namesGiven])
    simp [needed] at this

end Verif.Control
