import Verif.Props.SubExpr

/-!
# `Sub(.)` expressions: concrete cases and counterexamples
-/
namespace Verif.SubExpr

open Verif.Frames Verif.Frames.Spec Verif.SubExpr.Spec

/-- A small part of R: variables, and `ifelse(t, a, b)` when `t` is true everywhere. -/
def smallHost : Host where
  eval env e :=
    match e with
    | .name x => match env x with
      | some v => Except.ok v
      | none => Res.raise "object not found"
    | .call [.name "ifelse", .name t, .name a, _] =>
      match env t, env a with
      | some (.lgl b), some (.num v) =>
        if b.all id && v.length = b.length then Except.ok (.num v) else Res.raise "not modelled"
      | _, _ => Res.raise "not modelled"
    | _ => Res.raise "not modelled"
  congr env env' e h := by
    split
    · rename_i x
      rw [h x (by simp [names])]
    · rename_i t a _
      rw [h t (by simp [names, namesList]), h a (by simp [names, namesList])]
    · rfl
  lookup env x v h := by
    dsimp only
    rw [h]
  noFrame env e f h := by
    split
    · rename_i x
      rcases hx : env x with _ | v
      · simp [Res.raise]
      · intro hv
        have hv := Except.ok.inj hv
        exact h x (by simp [names]) f (by rw [hx, hv])
    · split
      · split <;> simp [Res.raise]
      · simp [Res.raise]
    · simp [Res.raise]

/-- Frame with one fixed effect and no random effects, in which observation `i` has the covariate
`i + 1`. -/
def lineFrame (n : ℕ) : Frame := ⟨⟨n, 1, fun i _ => i + 1⟩, none⟩

theorem lineFrame_wf (n : ℕ) : WellFormed (lineFrame n) n := ⟨rfl, fun R hR => by cases hR⟩

theorem lineFrame_lp (n : ℕ) (θ β u : ℕ → ℝ) (i : ℕ) :
    lp (lineFrame n) θ β u i = (i + 1) * β 0 := by
  rw [lp_none rfl]
  simp [lineFrame]

theorem lineFrame_predictor (n : ℕ) (θ β u : ℕ → ℝ) :
    predictor (lineFrame n) n θ β u = (List.range n).map fun i : ℕ => ((i : ℝ) + 1) * β 0 :=
  List.map_congr_left fun i _ => lineFrame_lp n θ β u i

/-- `y[i]`. -/
def at1 (y i : String) : Expr := .call [.name "[", .name y, .name i]

/-- `y[i, j]`. -/
def at2 (y i j : String) : Expr := .call [.name "[", .name y, .name i, .name j]

/-- Comparison of two players: `y[p] - y[q]`. -/
def duelData : Env := fun x =>
  if x = "p" then some (.fac [1, 3]) else if x = "q" then some (.num [2, 1]) else none

/-- The duel has the value expected, and is accepted: the hypotheses of C42, C43 and `c42_accepted`
are met. -/
example (θ β u : ℕ → ℝ) : ∃ F,
    parseSub smallHost "y" (.call [.name "-", at1 "y" "p", at1 "y" "q"]) [3] (lineFrame 3) duelData =
      Except.ok (.frame F) ∧
    predictor F 2 θ β u = [-β 0, 2 * β 0] := by
  have hv : Value smallHost duelData "y" [3] (predictor (lineFrame 3) 3 θ β u)
      (.call [.name "-", at1 "y" "p", at1 "y" "q"])
      ([β 0, 3 * β 0].zipWith (· - ·) [2 * β 0, β 0]) := by
    rw [lineFrame_predictor]
    refine .sub (.index .var (by decide) (val := .fac [1, 3]) (w := [1, 3]) (smallHost.lookup _ _ _ rfl) ?_ ?_)
      (.index .var (by decide) (val := .num [2, 1]) (w := [2, 1]) (smallHost.lookup _ _ _ rfl) ?_ ?_) rfl
    · have := Numeric.fac [1, 3]
      simpa using this
    · refine Or.inl ⟨[1, 3], by simp, by simp, ?_⟩
      simp [List.range_succ]
      norm_num
    · exact Numeric.num _
    · refine Or.inl ⟨[2, 1], by simp, by simp, ?_⟩
      simp [List.range_succ]
      norm_num
  obtain ⟨F, e1, -, e3⟩ := c42_accepted (lineFrame_wf 3) (by simp)
    (by
      intro x g
      unfold duelData
      split
      · simp
      · split <;> simp) (by decide) (by simp [NoLit, NoLitList, at1])
    (by
      intro x hx
      simp only [names, namesList, at1, List.append_nil, List.mem_append, List.mem_singleton] at hx
      rcases hx with rfl | (rfl | rfl | rfl) | rfl | rfl | rfl <;> decide)
    (by
      intro p q hp _ h2
      rcases indexedBy_two hp with h | h | h
      · omega
      · rcases indexedBy_two h with h | h | h
        · omega
        · cases h
        · cases h
      · rcases indexedBy_two h with h | h | h
        · omega
        · cases h
        · cases h) rfl hv
  refine ⟨F, e1, ?_⟩
  have e3 : predictor F 2 θ β u = [β 0 - 2 * β 0, 3 * β 0 - β 0] := e3
  rw [e3]
  congr 1
  · ring
  · congr 1
    ring

/-! ## Clashing names -/

/-- Values of four index variables. -/
def clashData : Env := fun x =>
  if x = "a_b" then some (.num [1]) else if x = "c" then some (.num [1])
  else if x = "a" then some (.num [2]) else if x = "b_c" then some (.num [2]) else none

/-- `y[a_b, c] + y[a, b_c]`. -/
def clashExpr : Expr := .call [.name "+", at2 "y" "a_b" "c", at2 "y" "a" "b_c"]

theorem flatten_pair (a b : ℝ) : Indexing.flattenVars [[a], [b]] [2, 2] =
    Except.ok [1 + ((a - 1) + (b - 1) * 2)] := by
  unfold Indexing.flattenVars Indexing.rbindVectors
  dsimp only
  rw [if_pos (by simp)]
  simp only [res_ok_bind]
  unfold Indexing.multiToFlat Mat.scale
  rw [if_neg (by norm_num), if_neg (by norm_num [Indexing.strides, Indexing.cumprod])]
  simp only [res_ok_bind]
  show Except.ok _ = _
  congr 1
  simp [Indexing.strides, Indexing.cumprod, Finset.sum_range_succ]

theorem flatVar_pair {data : Env} {s t : String} {a b : ℝ} (hs : data s = some (.num [a]))
    (ht : data t = some (.num [b])) :
    flatVar data [2, 2] [s, t] = Except.ok (joinNames [s, t], .num [1 + ((a - 1) + (b - 1) * 2)]) := by
  unfold flatVar
  have : [s, t].mapM (lookupNumeric data) = Except.ok [[a], [b]] :=
    forall2_lookup (.cons ⟨_, hs, .num _⟩ (.cons ⟨_, ht, .num _⟩ .nil))
  rw [this]
  simp only [res_ok_bind]
  rw [flatten_pair]
  rfl

theorem select_nat {n : ℕ} {js : List ℕ} (h : ∀ j ∈ js, 1 ≤ j ∧ j ≤ n) :
    select n (js.map fun j : ℕ => (j : ℝ)) = Except.ok (js.map (· - 1)) := by
  unfold select
  dsimp only
  have ht : (js.map fun j : ℕ => (j : ℝ)).map truncate = js.map fun j : ℕ => (j : ℤ) := by
    rw [List.map_map]
    exact List.map_congr_left fun j _ => truncate_nat j
  have hfil : (js.map fun j : ℕ => (j : ℤ)).filter (0 < ·) = js.map fun j : ℕ => (j : ℤ) :=
    List.filter_eq_self.2 fun z hz => by
      obtain ⟨j, hj, rfl⟩ := List.mem_map.1 hz
      have := h j hj
      simp only [decide_eq_true_eq]
      omega
  rw [ht, if_neg (by
    rw [Bool.not_eq_true, List.any_eq_false]
    intro z hz
    obtain ⟨j, -, rfl⟩ := List.mem_map.1 hz
    simp), hfil, if_neg (by
    rw [Bool.not_eq_true, List.any_eq_false]
    intro z hz
    obtain ⟨j, hj', rfl⟩ := List.mem_map.1 hz
    simpa using (h j hj').2), List.map_map]
  congr 1
  refine List.map_congr_left fun j _ => ?_
  show ((j : ℤ) - 1).toNat = j - 1
  omega

/-- C42 is violated when joined index names clash: the expression `y[a_b, c] + y[a, b_c]` is accepted,
but the first cell is counted twice and the second not at all. -/
theorem c42_clash : ∃ F, parseSub smallHost "y" clashExpr [2, 2] (lineFrame 4) clashData =
      Except.ok (.frame F) ∧ ∀ θ β u,
    Value smallHost clashData "y" [2, 2] (predictor (lineFrame 4) 4 θ β u) clashExpr
      ([β 0].zipWith (· + ·) [4 * β 0]) ∧
    predictor F 1 θ β u = [2 * β 0] := by
  have f1 := flatVar_pair (data := clashData) (s := "a_b") (t := "c") (a := 1) (b := 1) rfl rfl
  have f2 := flatVar_pair (data := clashData) (s := "a") (t := "b_c") (a := 2) (b := 2) rfl rfl
  have hsel : select 4 [(1 : ℝ)] = Except.ok [0] := by
    have := select_nat (n := 4) (js := [1]) (by simp)
    simpa using this
  have hj : joinNames ["a_b", "c"] = "a_b_c" := by decide
  have hj' : joinNames ["a", "b_c"] = "a_b_c" := by decide
  have g1 : indexFr (lineFrame 4) [1] = Except.ok ⟨(lineFrame 4).X.rows [0], none⟩ := by
    unfold indexFr
    show (do let rows ← select 4 [1]; _) = _
    rw [hsel]
    rfl
  refine ⟨⟨((lineFrame 4).X.rows [0]).add ((lineFrame 4).X.rows [0]), none⟩, ?_, fun θ β u => ⟨?_, ?_⟩⟩
  · have hm : modify "y" clashExpr = Except.ok (.call [.name "+fr",
        .call [.name "[fr", .name "y", .name (joinNames ["a_b", "c"])],
        .call [.name "[fr", .name "y", .name (joinNames ["a", "b_c"])]]) := rfl
    have hx : extract "y" clashExpr = Except.ok [["a_b", "c"], ["a", "b_c"]] := rfl
    unfold parseSub
    have hd : findDim "y" clashExpr none = Except.ok (some 2) := rfl
    rw [hd]
    simp only [res_ok_bind]
    rw [if_neg (by simp), hm, hx]
    simp only [res_ok_bind]
    rw [List.mapM_cons, f1, List.mapM_cons, f2, List.mapM_nil, hj, hj']
    simp only [res_ok_bind, res_pure]
    have ey : ∀ fl : List (String × Val), eval smallHost (subEnv "y" (lineFrame 4) fl clashData)
        (.name "y") = Except.ok (.frame (lineFrame 4)) := fun fl => by
      rw [eval]
      exact smallHost.lookup _ _ _ (by simp [subEnv])
    have ei : ∀ (v : Val) (fl : List (String × Val)),
        eval smallHost (subEnv "y" (lineFrame 4) (("a_b_c", v) :: fl) clashData) (.name "a_b_c") =
          Except.ok v := fun v fl => by
      rw [eval]
      exact smallHost.lookup _ _ _ (by simp [subEnv])
    have e1 : ∀ fl : List (String × Val), eval smallHost
        (subEnv "y" (lineFrame 4) (("a_b_c", .num [1 + ((1 - 1) + (1 - 1) * 2)]) :: fl) clashData)
        (.call [.name "[fr", .name "y", .name "a_b_c"]) =
          Except.ok (.frame ⟨(lineFrame 4).X.rows [0], none⟩) := fun fl => by
      rw [eval_frOp (op := indexVal) (by simp [frOp]) (ey _) (ei _ _)]
      unfold indexVal
      dsimp only
      rw [asNumeric]
      simp only [res_ok_bind]
      rw [show (1 + ((1 - 1) + (1 - 1) * 2) : ℝ) = 1 by norm_num, g1]
      rfl
    rw [eval_frOp (op := addVal) (by simp [frOp]) (e1 _) (e1 _)]
    rfl
  · rw [lineFrame_predictor]
    refine .add (.multi (vals := [[1], [1]]) (by simp) (by simp) (by decide)
      (.cons ⟨_, rfl, .num _⟩ (.cons ⟨_, rfl, .num _⟩ .nil)) (by simp) ?_)
      (.multi (vals := [[2], [2]]) (by simp) (by simp) (by decide)
      (.cons ⟨_, rfl, .num _⟩ (.cons ⟨_, rfl, .num _⟩ .nil)) (by simp) ?_) rfl
    · intro k hk
      have hk : k = 0 := by simpa using hk
      subst hk
      exact ⟨[1, 1], 0, rfl, by simp, by simp, by simp⟩
    · intro k hk
      have hk : k = 0 := by simpa using hk
      subst hk
      refine ⟨[2, 2], 3, rfl, by simp, by simp, ?_⟩
      simp [List.range_succ]
      norm_num
  · have : ∀ i, lp ⟨((lineFrame 4).X.rows [0]).add ((lineFrame 4).X.rows [0]), none⟩ θ β u i =
        ((lineFrame 4).X.e ([0].getD i 0) 0 + (lineFrame 4).X.e ([0].getD i 0) 0) * β 0 := by
      intro i
      rw [lp_none rfl]
      simp [Mat.add, Mat.rows, lineFrame]
    simp only [predictor, this, List.range_one, List.map_cons, List.map_nil, List.getD_cons_zero]
    simp [lineFrame]
    norm_num

/-! ## Uses in later arguments -/

/-- `y[i] * ifelse(t, k, y[i])`. -/
def hiddenExpr : Expr := .call [.name "*", at1 "y" "i",
  .call [.name "ifelse", .name "t", .name "k", at1 "y" "i"]]

/-- One observation. -/
def hiddenData : Env := fun x =>
  if x = "i" then some (.num [1]) else if x = "t" then some (.lgl [true])
  else if x = "k" then some (.num [3]) else none

/-- C43 is violated: a function of the variable is not noticed if the variable is only in its third
argument, and the expression is accepted. -/
theorem c43_violated : (∃ F, parseSub smallHost "y" hiddenExpr [1] (lineFrame 1) hiddenData =
    Except.ok (.frame F)) ∧ ¬ LinearIn "y" hiddenExpr := by
  constructor
  · have hm : modify "y" hiddenExpr = Except.ok (.call [.name "*fr",
        .call [.name "[fr", .name "y", .name "i"],
        .call [.name "ifelse", .name "t", .name "k", .call [.name "[fr", .name "y", .name "i"]]]) := rfl
    have hx : extract "y" hiddenExpr = Except.ok [] := rfl
    have hd : findDim "y" hiddenExpr none = Except.ok (some 1) := rfl
    have hsel : select 1 [(1 : ℝ)] = Except.ok [0] := by
      have := select_nat (n := 1) (js := [1]) (by simp)
      simpa using this
    have g1 : indexFr (lineFrame 1) [1] = Except.ok ⟨(lineFrame 1).X.rows [0], none⟩ := by
      unfold indexFr
      show (do let rows ← select 1 [1]; _) = _
      rw [hsel]
      rfl
    unfold parseSub
    rw [hd]
    simp only [res_ok_bind]
    rw [if_neg (by simp), hm, hx]
    simp only [res_ok_bind, List.mapM_nil, res_pure]
    have ey : eval smallHost (subEnv "y" (lineFrame 1) [] hiddenData)
        (.call [.name "[fr", .name "y", .name "i"]) =
        Except.ok (.frame ⟨(lineFrame 1).X.rows [0], none⟩) := by
      rw [eval_frOp (op := indexVal) (va := .frame (lineFrame 1)) (vb := .num [1]) (by simp [frOp]) (by
        rw [eval]
        exact smallHost.lookup _ _ _ (by simp [subEnv])) (by
        rw [eval]
        exact smallHost.lookup _ _ _ (by simp [subEnv, hiddenData]))]
      unfold indexVal
      dsimp only
      rw [asNumeric]
      simp only [res_ok_bind]
      rw [g1]
      rfl
    have ei : eval smallHost (subEnv "y" (lineFrame 1) [] hiddenData)
        (.call [.name "ifelse", .name "t", .name "k", .call [.name "[fr", .name "y", .name "i"]]) =
        Except.ok (.num [3]) := by
      rw [eval]
      · rw [frOp_none (by decide)]
        simp [smallHost, subEnv, hiddenData]
      · simp
    obtain ⟨G, hG⟩ := scaleFr_runs ⟨(lineFrame 1).X.rows [0], none⟩ 3
    refine ⟨G, ?_⟩
    rw [eval_frOp (op := mulVal) (by simp [frOp]) ey ei]
    unfold mulVal
    dsimp only
    rw [hG]
    rfl
  · intro h
    unfold hiddenExpr at h
    generalize hE : Expr.call [.name "*", at1 "y" "i",
      .call [.name "ifelse", .name "t", .name "k", at1 "y" "i"]] = E at h
    cases h with
    | mulRight h1 h2 =>
      simp only [Expr.call.injEq, List.cons.injEq, true_and, and_true] at hE
      obtain ⟨rfl, rfl⟩ := hE
      exact h2 (by decide)
    | mulLeft h1 h2 =>
      simp only [Expr.call.injEq, List.cons.injEq, true_and, and_true] at hE
      obtain ⟨rfl, rfl⟩ := hE
      exact h1 (by decide)
    | _ => simp at hE

/-! ## Logical indices -/

/-- A second, logical, index. -/
def logicalData : Env := fun x =>
  if x = "i" then some (.num [1, 2]) else if x = "j" then some (.lgl [false, true]) else none

/-- Indexing by a logical variable is taken as indexing by the numbers 0 and 1: `y[i][j]` with `j`
selecting only the second element gives the first. -/
theorem c42_logical : ∃ F, parseSub smallHost "y" (.call [.name "[", at1 "y" "i", .name "j"]) [2]
      (lineFrame 2) logicalData = Except.ok (.frame F) ∧ ∀ θ β u,
    predictor F 1 θ β u = [lp (lineFrame 2) θ β u 0] ∧
    lp (lineFrame 2) θ β u 1 = 2 * lp (lineFrame 2) θ β u 0 := by
  have s1 : select 2 [(1 : ℝ), 2] = Except.ok [0, 1] := by
    have := select_nat (n := 2) (js := [1, 2]) (by simp)
    simpa using this
  have s2 : select 2 [(0 : ℝ), 1] = Except.ok [0] := by
    have t0 := truncate_nat 0
    have t1 := truncate_nat 1
    simp only [Nat.cast_zero, Nat.cast_one] at t0 t1
    simp [select, t0, t1]
  have g1 : indexFr (lineFrame 2) [1, 2] = Except.ok ⟨(lineFrame 2).X.rows [0, 1], none⟩ := by
    unfold indexFr
    show (do let rows ← select 2 [1, 2]; _) = _
    rw [s1]
    rfl
  have g2 : indexFr ⟨(lineFrame 2).X.rows [0, 1], none⟩ [0, 1] =
      Except.ok ⟨((lineFrame 2).X.rows [0, 1]).rows [0], none⟩ := by
    unfold indexFr
    show (do let rows ← select 2 [0, 1]; _) = _
    rw [s2]
    rfl
  refine ⟨⟨((lineFrame 2).X.rows [0, 1]).rows [0], none⟩, ?_, fun θ β u => ⟨?_, ?_⟩⟩
  · have hm : modify "y" (.call [.name "[", at1 "y" "i", .name "j"]) = Except.ok (.call [.name "[fr",
        .call [.name "[fr", .name "y", .name "i"], .name "j"]) := rfl
    have hx : extract "y" (.call [.name "[", at1 "y" "i", .name "j"]) = Except.ok [] := rfl
    have hd : findDim "y" (.call [.name "[", at1 "y" "i", .name "j"]) none = Except.ok (some 1) := rfl
    unfold parseSub
    rw [hd]
    simp only [res_ok_bind]
    rw [if_neg (by simp), hm, hx]
    simp only [res_ok_bind, List.mapM_nil, res_pure]
    have ey : eval smallHost (subEnv "y" (lineFrame 2) [] logicalData)
        (.call [.name "[fr", .name "y", .name "i"]) =
        Except.ok (.frame ⟨(lineFrame 2).X.rows [0, 1], none⟩) := by
      rw [eval_frOp (op := indexVal) (va := .frame (lineFrame 2)) (vb := .num [1, 2]) (by simp [frOp]) (by
        rw [eval]
        exact smallHost.lookup _ _ _ (by simp [subEnv])) (by
        rw [eval]
        exact smallHost.lookup _ _ _ (by simp [subEnv, logicalData]))]
      unfold indexVal
      dsimp only
      rw [asNumeric]
      simp only [res_ok_bind]
      rw [g1]
      rfl
    rw [eval_frOp (op := indexVal) (vb := .lgl [false, true]) (by simp [frOp]) ey (by
        rw [eval]
        exact smallHost.lookup _ _ _ (by simp [subEnv, logicalData]))]
    unfold indexVal
    dsimp only
    rw [asNumeric]
    simp only [res_ok_bind]
    rw [show ([false, true].map fun b => if b then (1 : ℝ) else 0) = [0, 1] by simp, g2]
    rfl
  · have : ∀ i, lp ⟨((lineFrame 2).X.rows [0, 1]).rows [0], none⟩ θ β u i =
        (lineFrame 2).X.e ([0, 1].getD ([0].getD i 0) 0) 0 * β 0 := by
      intro i
      rw [lp_none rfl]
      simp [Mat.rows, lineFrame]
    simp [predictor, this, lineFrame_lp]
    simp [lineFrame]
  · rw [lineFrame_lp, lineFrame_lp]
    push_cast
    ring

/-- The hypotheses of `c56_partial` are met: `y[i] * k`. -/
example : ∃ F, parseSub smallHost "y" (.call [.name "*", .call [.name "[", .name "y", .name "i"],
    .name "k"]) [1] (lineFrame 1) hiddenData = Except.ok (.frame F) := by
  obtain ⟨⟨F, h, -⟩, -⟩ := c56_partial smallHost (y := "y") (i := "i") (k := "k") (n0 := 1) (m := 1)
    (js := [1]) (c := 3) (data := hiddenData) (lineFrame_wf 1) (by
      intro x g
      unfold hiddenData
      split
      · simp
      · split
        · simp
        · split <;> simp) ⟨by decide, by decide⟩ ⟨by decide, by decide⟩ ⟨by decide, by decide⟩
    (by decide) (by decide) (by simp [hiddenData]) (by simp) (by simp [hiddenData]) 0 0 0
  exact ⟨F, h⟩

end Verif.SubExpr
