import Verif.Props.ModFr
import Verif.Props.Indexing
import Verif.Props.SubMatch

/-!
# The package's own tests, on the model

The expected values in `/repo/tests/testthat` are values of the model's definitions. These are checks of
the model against the authors' expectations, not proofs of properties.
-/
namespace Verif.RepoTests

open Verif.SubExpr

/-- `v[i]`, `v[i, j]`, ... -/
def at' (v : String) (idx : List String) : Expr :=
  .call (.name "[" :: .name v :: idx.map .name)

/-- A call of a function of two arguments. -/
def op (f : String) (a b : Expr) : Expr := .call [.name f, a, b]

/-! ## tests/testthat/test_modify_subexpr.R -/

/-- tests/testthat/test_modify_subexpr.R:5,7-8. -/
example : modify "ability" (op "-" (at' "ability" ["player1"]) (at' "ability" ["player2"])) =
    Except.ok (op "-fr" (op "[fr" (.name "ability") (.name "player1"))
      (op "[fr" (.name "ability") (.name "player2"))) := rfl

/-- tests/testthat/test_modify_subexpr.R:6,9-10. -/
example : modify "ability" (op "+" (at' "ability" ["player1"]) (at' "stuff" ["id"])) =
    Except.ok (op "+fr" (op "[fr" (.name "ability") (.name "player1")) (at' "stuff" ["id"])) := rfl

/-- tests/testthat/test_modify_subexpr.R:11-15. -/
example : extract "ability"
    (op "-" (at' "ability" ["player1", "match"]) (at' "ability" ["player2", "match"])) =
    Except.ok [["player1", "match"], ["player2", "match"]] := rfl

/-- tests/testthat/test_modify_subexpr.R:16-18. -/
example : extract "ability" (at' "ability" ["player1", "match", "stuff"]) =
    Except.ok [["player1", "match", "stuff"]] := rfl

/-- tests/testthat/test_modify_subexpr.R:19-21. -/
example : extract "ability"
    (op "+" (at' "ability" ["player1", "match", "stuff"]) (at' "other" ["one", "two", "three"])) =
    Except.ok [["player1", "match", "stuff"]] := rfl

/-! ## tests/testthat/test_indexing.R -/

/-- tests/testthat/test_indexing.R:5,9. -/
example : findDim "ability" (op "-" (at' "ability" ["player1"]) (at' "ability" ["player2"])) none =
    Except.ok (some 1) := rfl

/-- tests/testthat/test_indexing.R:6,10. -/
example : findDim "ability"
    (op "-" (at' "ability" ["player1", "player2"]) (at' "ability" ["player2", "player1"])) none =
    Except.ok (some 2) := rfl

/-- tests/testthat/test_indexing.R:7,11-12. -/
example : let e := op "+" (at' "ability" ["player1"]) (at' "stuff" ["m1", "m2", "m3"])
    findDim "ability" e none = Except.ok (some 1) ∧ findDim "stuff" e none = Except.ok (some 3) :=
  ⟨rfl, rfl⟩

/-- tests/testthat/test_indexing.R:8,13-14. -/
example : ∃ msg, findDim "ability"
    (op "+" (at' "ability" ["player1"]) (at' "ability" ["player1", "player2"])) none =
    Res.raise msg := ⟨_, rfl⟩

/-- The two factors of tests/testthat/test_indexing.R:22-23, and `match` of line 35. -/
def data2 : Data := fun x =>
  if x = "player1" then some (.fac ["a", "b", "c", "d"] [some 1, some 2, some 3])
  else if x = "player2" then some (.fac ["a", "b", "c", "d"] [some 2, some 3, some 4])
  else if x = "match" then some (.num [1, 2, 3])
  else none

/-- `ability[player] ~ 0 + (1 | player)`, tests/testthat/test_indexing.R:20. -/
def form1 : Expr := op "~" (at' "ability" ["player"])
  (op "+" (.lit (.num 0)) (.call [.name "(", op "|" (.lit (.num 1)) (.name "player")]))

/-- `ability[p, m] ~ 0 + x[m] + (1 | p)`, tests/testthat/test_indexing.R:30. -/
def form2 : Expr := op "~" (at' "ability" ["p", "m"])
  (op "+" (op "+" (.lit (.num 0)) (at' "x" ["m"]))
    (.call [.name "(", op "|" (.lit (.num 1)) (.name "p")]))

/-- tests/testthat/test_indexing.R:18-27. -/
example (text : ℝ → String) : ∃ r, findIndicesSubform text "ability" form1
    (op "-" (at' "ability" ["player1"]) (at' "ability" ["player2"])) data2 = Except.ok r ∧
    r.2.map Prod.fst = ["player"] ∧ r.2.map (fun p => p.2.length) = [4] := by
  exact ⟨(data2, [("player", .fac ["a", "b", "c", "d"])]), rfl, rfl, rfl⟩

/-- tests/testthat/test_indexing.R:29-40. -/
example (text : ℝ → String) : ∃ r, findIndicesSubform text "ability" form2
    (op "-" (at' "ability" ["player1", "match"]) (at' "ability" ["player2", "match"])) data2 =
      Except.ok r ∧
    r.2.map Prod.fst = ["p", "m"] ∧ r.2.map (fun p => p.2.length) = [4, 3] := by
  refine ⟨(data2, [("p", .fac ["a", "b", "c", "d"]),
    ("m", .seq (IS.colon 1 ([1, 2, 3] : List ℝ).toFinset.card))]), rfl, rfl, ?_⟩
  have h : ([1, 2, 3] : List ℝ).toFinset.card = 3 := by
    rw [List.toFinset_card_of_nodup]
    · rfl
    · simp
  rw [h]
  rfl

/-- The data of tests/testthat/test_indexing.R:42-44: the levels differ. -/
def data3 : Data := fun x =>
  if x = "player1" then some (.fac ["a", "b", "c"] [some 1, some 2, some 3])
  else if x = "player2" then some (.fac ["b", "c", "d"] [some 1, some 2, some 3]) else none

/-- tests/testthat/test_indexing.R:42-46. -/
example (text : ℝ → String) : findIndicesSubform text "ability" form1
    (op "-" (at' "ability" ["player1"]) (at' "ability" ["player2"])) data3 =
    Res.raise "Indexing factors must have identical levels" := by
  have hi : indexI [.fac ["a", "b", "c"] [some 1, some 2, some 3],
      .fac ["b", "c", "d"] [some 1, some 2, some 3]] =
      Res.raise "Indexing factors must have identical levels" := by
    simp [indexI, allFactors]
  have hc : chooseIndex text "player" [("player1", .fac ["a", "b", "c"] [some 1, some 2, some 3]),
      ("player2", .fac ["b", "c", "d"] [some 1, some 2, some 3])] ⟨data3, none, []⟩ =
      Res.raise "Indexing factors must have identical levels" := by
    show (indexI [.fac ["a", "b", "c"] [some 1, some 2, some 3],
      .fac ["b", "c", "d"] [some 1, some 2, some 3]] >>= _) = _
    rw [hi]
    rfl
  have ht : indexTurn text "ability" form1
      (op "-" (at' "ability" ["player1"]) (at' "ability" ["player2"])) ⟨data3, none, []⟩ 1 =
      Res.raise "Indexing factors must have identical levels" := by
    unfold indexTurn
    rw [show findIndices 1 "ability" (op "-" (at' "ability" ["player1"])
        (at' "ability" ["player2"])) = Except.ok ["player1", "player2"] from rfl, res_ok_bind,
      show getIndices data3 ["player1", "player2"] =
        Except.ok [("player1", .fac ["a", "b", "c"] [some 1, some 2, some 3]),
          ("player2", .fac ["b", "c", "d"] [some 1, some 2, some 3])] from rfl, res_ok_bind,
      show findIndices 1 "ability" form1 = Except.ok ["player"] from rfl, res_ok_bind,
      show single ["player"] = Except.ok "player" from rfl, res_ok_bind]
    rw [hc]
    rfl
  have hf : (IS.colon 1 1).foldlM (indexTurn text "ability" form1
      (op "-" (at' "ability" ["player1"]) (at' "ability" ["player2"]))) ⟨data3, none, []⟩ =
      Res.raise "Indexing factors must have identical levels" := by
    show (indexTurn text "ability" form1
      (op "-" (at' "ability" ["player1"]) (at' "ability" ["player2"])) ⟨data3, none, []⟩ 1 >>= _) = _
    rw [ht]
    rfl
  unfold findIndicesSubform
  rw [show findDim "ability" (op "-" (at' "ability" ["player1"]) (at' "ability" ["player2"])) none =
      Except.ok (some 1) from rfl, res_ok_bind,
    show findDim "ability" form1 none = Except.ok (some 1) from rfl, res_ok_bind]
  dsimp only
  rw [if_neg (not_not.2 rfl)]
  rw [hf]
  rfl

/-- tests/testthat/test_indexing.R:49-54: rows 3, 5, 11 and 23 of the expanded grid with 3, 2 and 4
values are (3,1,1), (2,2,1), (2,2,2) and (2,2,4). -/
example : Indexing.multiToFlat ⟨3, 4, fun i j =>
      ((([[3, 1, 1], [2, 2, 1], [2, 2, 2], [2, 2, 4]] : List (List ℕ)).getD j []).getD i 0 : ℕ)⟩
    [3, 2, 4] = Except.ok [3, 5, 11, 23] := by
  have h : ∀ a : List ℝ, a = [1, 3, 6] → Frames.Mat.scale ⟨3, 4, fun i j =>
      ((([[3, 1, 1], [2, 2, 1], [2, 2, 2], [2, 2, 4]] : List (List ℕ)).getD j []).getD i 0 : ℕ) - 1⟩ a =
      Except.ok ⟨3, 4, fun i j => (((([[3, 1, 1], [2, 2, 1], [2, 2, 2], [2, 2, 4]] :
        List (List ℕ)).getD j []).getD i 0 : ℕ) - 1) * a.getD ((i + 3 * j) % 3) 0⟩ := by
    rintro a rfl
    simp [Frames.Mat.scale]
  have hs : (Indexing.strides [3, 2, 4]).map (fun x : ℕ => (x : ℝ)) = [1, 3, 6] := by
    simp [Indexing.strides, Indexing.cumprod]
  unfold Indexing.multiToFlat
  dsimp only
  rw [h _ hs, hs, res_ok_bind]
  simp [List.range_succ, Finset.sum_range_succ]
  norm_num

/-! ## tests/testthat/test_subformula.R -/

/-- tests/testthat/test_subformula.R:36-42: none, one and two `Sub(.)` terms. -/
example (a b : Expr) :
    splitFormula ⟨false, [.rest (.plain "x")]⟩ = Except.ok (⟨false, [.plain "x"]⟩, []) ∧
    splitFormula ⟨false, [.rest (.plain "x"), .sub a]⟩ = Except.ok (⟨false, [.plain "x"]⟩, [a]) ∧
    splitFormula ⟨false, [.rest (.plain "x"), .sub a, .sub b]⟩ =
      Except.ok (⟨false, [.plain "x"]⟩, [a, b]) := ⟨rfl, rfl, rfl⟩

/-- tests/testthat/test_subformula.R:141-149: the rest of the formula does not matter. -/
example (e : Expr) : ∃ r r',
    splitFormula ⟨false, [.sub e, .rest (.plain "TypeM:TypeF")]⟩ = Except.ok (r, [e]) ∧
    splitFormula ⟨false, [.rest (.plain "Cross"), .sub e]⟩ = Except.ok (r', [e]) :=
  ⟨_, _, rfl, rfl⟩

/-- tests/testthat/test_subformula.R:46-47. -/
example (rhs : Expr) : findSubvar (op "~" (at' "ability" ["player"]) rhs) = Except.ok "ability" := rfl

/-- tests/testthat/test_subformula.R:48-49. -/
example (rhs : Expr) : findSubvar (op "~"
    (op "+" (at' "ability" ["player"]) (at' "ability" ["player2"])) rhs) =
    Res.raise "Should have only a single variable on LHS of subformula" := rfl

/-- The expressions of tests/testthat/test_subformula.R:56-57. -/
def exprs : List Expr :=
  [op "-" (at' "ability" ["player1"]) (at' "ability" ["player2"]),
   op "-" (at' "stuff" ["team1", "team2"]) (op "*" (.lit (.num 3)) (at' "stuff" ["team2", "team1"]))]

/-- tests/testthat/test_subformula.R:53-61. -/
example : matchSub ["ability", "stuff"] exprs = Except.ok
    (List.zipWith (fun v e => some (v, e)) ["ability", "stuff"] exprs) := rfl

/-- tests/testthat/test_subformula.R:62-66: for the third subformula there is no expression. -/
example : matchSub ["ability", "stuff", "other"] exprs = Except.ok
    (List.zipWith (fun v e => some (v, e)) ["ability", "stuff"] exprs ++ [none]) := rfl

end Verif.RepoTests
