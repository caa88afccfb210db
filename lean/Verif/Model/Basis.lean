import Verif.Model.SparseGrid
import Mathlib.Data.Matrix.Mul
import Mathlib.LinearAlgebra.Matrix.NonsingularInverse
import Mathlib.Algebra.Order.Floor.Ring
import Mathlib.Data.Real.Archimedean

/-!
# Model of `src/BasisLevel.cpp` and `src/Basis.cpp`

`double` is `ℝ`. The function `quantile(standardNormal, p)` of Boost is the parameter `Q`.
Conversions from `double` to `int` / `unsigned int` truncate towards zero and are undefined when
the truncated value is not representable; they are parametrised by the arithmetics `ar` (int) and
`aru` (unsigned), as in `Verif.Base.Res`. Levels are natural numbers and shifts `1 << level` are
not checked for overflow (a level above 29 would need more than 2^30 stored knots).
-/
namespace Verif.BasisLevel

open Verif.SparseGrid

/-- Truncation towards zero (conversion `double` to integer). Used for src/BasisLevel.cpp:204-215. -/
noncomputable def trunc (y : ℝ) : ℤ := if 0 ≤ y then ⌊y⌋ else ⌈y⌉

/-- Conversion of the quotient `x / y` to an integer type. For `y = 0` the quotient is an infinity
or NaN and the conversion is undefined. Used for src/BasisLevel.cpp:204-215. -/
noncomputable def divToInt (ar : Arith) (x y : ℝ) : Res ℤ :=
  if y = 0 then Res.ub else ar (trunc (x / y))

/-- 32-bit `unsigned int` (range 0 .. 4294967295): conversion of anything else is undefined.
Used for src/BasisLevel.cpp:204-215. -/
def u32 : Arith := fun z => if 0 ≤ z ∧ z ≤ 4294967295 then pure z else Res.ub

/-- `scale_` (src/BasisLevel.cpp:19). -/
noncomputable def scale (levelMax : ℕ) : ℝ := 1.0 + levelMax / 2.0

/-- `initializeBandwidth` (src/BasisLevel.cpp:72-81). -/
noncomputable def bandwidth (Q : ℝ → ℝ) (levelMax : ℕ) : ℝ :=
  if levelMax > 0 then
    (scale levelMax * Q (0.5 + (2 : ℝ) ^ (-(levelMax : ℤ) - 1))) / 10
  else 0

/-- The knot number used in lines 94-95, 111-112 and 228-229 of src/BasisLevel.cpp:
`knotId = scale_ * quantile(standardNormal, prob) / bandwidth_` converted to `int`. -/
noncomputable def knotId (ar : Arith) (Q : ℝ → ℝ) (levelMax : ℕ) (prob : ℝ) : Res ℤ :=
  divToInt ar (scale levelMax * Q prob) (bandwidth Q levelMax)

/-- `initializeKnots` (src/BasisLevel.cpp:84-99). -/
noncomputable def initializeKnots (ar : Arith) (Q : ℝ → ℝ) (level levelMax : ℕ) : Res (List ℝ) :=
  let N := 2 ^ level
  (List.range N).mapM fun i : ℕ => do
    let prob : ℝ := (2.0 * i + 1.0) / (2.0 * N)
    let id ← knotId ar Q levelMax prob
    pure (id * bandwidth Q levelMax)

/-- Loop of `initializeGridIds` (src/BasisLevel.cpp:109-116): `m` iterations remain, at index `i`;
state is `knotIdPrev` and the vector. -/
noncomputable def gridIdsLoop (ar : Arith) (Q : ℝ → ℝ) (levelMax numKnots : ℕ) :
    ℕ → ℕ → ℤ → List ℕ → Res (List ℕ)
  | 0, _, _, ids => pure ids
  | m + 1, i, prev, ids => do
      let prob : ℝ := (i + 1.0) / (numKnots + 1.0)
      let id ← knotId ar Q levelMax prob
      -- the inner loop pushes `i` once for each `j` with `0 <= j < id - prev`
      gridIdsLoop ar Q levelMax numKnots m (i + 1) id (ids ++ List.replicate (id - prev).toNat i)

/-- `initializeGridIds` (src/BasisLevel.cpp:101-117). -/
noncomputable def initializeGridIds (ar : Arith) (Q : ℝ → ℝ) (level levelMax : ℕ) :
    Res (List ℕ) :=
  let numKnots := 2 * 2 ^ level - 1
  gridIdsLoop ar Q levelMax numKnots numKnots 0 0 []

/-- `findKnotsTotal` (src/BasisLevel.cpp:217-234). -/
noncomputable def findKnotsTotal (ar : Arith) (Q : ℝ → ℝ) (level levelMax : ℕ) :
    Res (List ℝ) :=
  let numKnots := 2 * 2 ^ level - 1
  (List.range numKnots).mapM fun i : ℕ => do
    let prob : ℝ := (i + 1.0) / (numKnots + 1.0)
    let id ← knotId ar Q levelMax prob
    pure (id * bandwidth Q levelMax)

/-! ### Spline coefficients

The matrices `A` and `B` of `initializeSplineCoefficients` start at zero and are filled by
assignments; each loop nest is modelled by the list of its assignments in program order. -/

/-- Perform assignments `m(key) = value` in order. Used for src/BasisLevel.cpp:129-173. -/
def assign (l : List ((ℕ × ℕ) × ℝ)) (m : ℕ × ℕ → ℝ) : ℕ × ℕ → ℝ :=
  l.foldl (fun m kv => fun key => if key = kv.1 then kv.2 else m key) m

/-- Assignments to `A` in src/BasisLevel.cpp:131-135 (interpolation conditions). `k` are the knots and `n` their
number. -/
noncomputable def assignInterpA (k : ℕ → ℝ) (n : ℕ) : List ((ℕ × ℕ) × ℝ) :=
  (List.range (n - 1)).flatMap fun i => (List.range 4).flatMap fun j =>
    [((2 * i, 4 * i + j), k i ^ j), ((2 * i + 1, 4 * i + j), k (i + 1) ^ j)]

/-- Assignments to `B` in src/BasisLevel.cpp:136-137. -/
def assignInterpB (n : ℕ) : List ((ℕ × ℕ) × ℝ) :=
  (List.range (n - 1)).flatMap fun i => [((2 * i, i), 1), ((2 * i + 1, i + 1), 1)]

/-- Assignments to `A` in src/BasisLevel.cpp:139-153 (matching derivatives at internal knots). The entries for
the piece below are the negatives of the entries just assigned for the piece above. -/
noncomputable def assignDerivA (k : ℕ → ℝ) (n : ℕ) : List ((ℕ × ℕ) × ℝ) :=
  (List.range' 1 (n - 2)).flatMap fun i => (List.range' 1 3).flatMap fun j =>
    let rowFirst := 2 * (n - 1) + i - 1
    let rowSecond := rowFirst + n - 2
    let colAbove := 4 * (i - 1) + j
    let colBelow := 4 * i + j
    [((rowFirst, colAbove), j * k i ^ (j - 1)), ((rowFirst, colBelow), -(j * k i ^ (j - 1)))] ++
    if j > 1 then
      [((rowSecond, colAbove), j * ((j : ℝ) - 1) * k i ^ (j - 2)),
        ((rowSecond, colBelow), -(j * ((j : ℝ) - 1) * k i ^ (j - 2)))]
    else []

/-- Assignments to `A` in src/BasisLevel.cpp:156-157 (end conditions). -/
def assignEndA (n : ℕ) : List ((ℕ × ℕ) × ℝ) :=
  [((4 * n - 6, 3), 6), ((4 * n - 5, 4 * (n - 2) + 3), 6)]

/-- `InitialKnotsPowers` / `FinalKnotsPowers` (src/BasisLevel.cpp:160-167), for the four knots from `s`. -/
noncomputable def knotPowers4 (k : ℕ → ℝ) (s : ℕ) : Matrix (Fin 4) (Fin 4) ℝ :=
  Matrix.of fun i j => k (s + i) ^ (j : ℕ)

/-- Assignments to `B` in src/BasisLevel.cpp:168-173. -/
noncomputable def assignEndB (k : ℕ → ℝ) (n : ℕ) : List ((ℕ × ℕ) × ℝ) :=
  ([0, 1, 2, 3] : List (Fin 4)).flatMap fun i : Fin 4 =>
    [((4 * n - 6, (i : ℕ)), 6 * (knotPowers4 k 0)⁻¹ 3 i),
      ((4 * n - 5, n - 4 + (i : ℕ)), 6 * (knotPowers4 k (n - 4))⁻¹ 3 i)]

/-- The matrix `A` after line 157 of src/BasisLevel.cpp. -/
noncomputable def splineA (k : ℕ → ℝ) (n : ℕ) : ℕ × ℕ → ℝ :=
  assign (assignInterpA k n ++ (assignDerivA k n ++ assignEndA n)) (fun _ => 0)

/-- The matrix `B` after line 173 of src/BasisLevel.cpp. -/
noncomputable def splineB (k : ℕ → ℝ) (n : ℕ) : ℕ × ℕ → ℝ :=
  assign (assignInterpB n ++ assignEndB k n) (fun _ => 0)

/-- A matrix of Eigen as a matrix of Mathlib. Used for src/BasisLevel.cpp:174. -/
def toMatrix (A : ℕ × ℕ → ℝ) (m n : ℕ) : Matrix (Fin m) (Fin n) ℝ := Matrix.of fun i j => A (i, j)

/-- `A.colPivHouseholderQr().solve(B)` (src/BasisLevel.cpp:174) in exact arithmetic for the square
matrix `A` of size `m`: the matrix `A⁻¹ B`. (It is proved that `A` is nonsingular.) -/
noncomputable def solveExact (A B : ℕ × ℕ → ℝ) (m n : ℕ) (r c : ℕ) : ℝ :=
  if h : r < m ∧ c < n then ((toMatrix A m m)⁻¹ * toMatrix B m n) ⟨r, h.1⟩ ⟨c, h.2⟩ else 0

/-- `coefficientsAllKnots` (src/BasisLevel.cpp:119-197) as a function of row and column, for a
level with total knots `k` (`n` of them). -/
noncomputable def coefficientsAllKnots (level : ℕ) (k : ℕ → ℝ) (n : ℕ) (r c : ℕ) : ℝ :=
  if level > 1 then
    let X := solveExact (splineA k n) (splineB k n) (4 * (n - 1)) n
    -- rows: top 4 rows of X, then X, then the bottom 4 rows of X
    if r < 4 then X r c
    else if r < 4 + 4 * (n - 1) then X (r - 4) c
    else X (r - (4 + 4 * (n - 1)) + (4 * (n - 1) - 4)) c
  else if level = 0 then
    if r % 4 = 0 ∧ c = 0 then 1 else 0
  else
    if h : r % 4 < 3 ∧ c < 3 then
      (Matrix.of fun i j : Fin 3 => k i ^ (j : ℕ))⁻¹ ⟨r % 4, h.1⟩ ⟨c, h.2⟩
    else 0

/-- `class BasisLevel` (inst/include/BasisLevel.h). -/
structure Level where
  level : ℕ
  knots : List ℝ
  splineCoefficients : ℕ → ℕ → ℝ
  bandwidth : ℝ
  gridIds : List ℕ

/-- Constructor `BasisLevel(level, levelMax)` (src/BasisLevel.cpp:17-26). Lines 199-201 keep the
even columns. -/
noncomputable def construct (ar : Arith) (Q : ℝ → ℝ) (level levelMax : ℕ) : Res Level := do
  let knots ← initializeKnots ar Q level levelMax
  let ids ← initializeGridIds ar Q level levelMax
  let total ← findKnotsTotal ar Q level levelMax
  let all := coefficientsAllKnots level (fun i => total.getD i 0) total.length
  pure { level := level, knots := knots, splineCoefficients := fun r i => all r (2 * i),
         bandwidth := bandwidth Q levelMax, gridIds := ids }

/-- `getKnot` (src/BasisLevel.cpp:8-11). -/
def Level.getKnot (b : Level) (position : ℕ) : Res ℝ := nth b.knots position

/-- `findIntervalId` (src/BasisLevel.cpp:204-215). -/
noncomputable def Level.findIntervalId (aru : Arith) (b : Level) (x : ℝ) : Res ℕ := do
  let k0 ← atE b.knots 0
  if x > k0 then do
    let xToGrid ← divToInt aru (x - k0) b.bandwidth
    if xToGrid < b.gridIds.length then nth b.gridIds xToGrid.toNat
    else pure (2 * 2 ^ b.level - 1)
  else pure 0

/-- Access to `splineCoefficients_`, a matrix with `4 * 2^(level+1)` rows and `2^level` columns.
Used for src/BasisLevel.cpp:28-42. -/
def Level.coef (b : Level) (r c : ℕ) : Res ℝ :=
  if r < 4 * 2 ^ (1 + b.level) ∧ c < 2 ^ b.level then pure (b.splineCoefficients r c) else Res.ub

/-- The loops of the evaluation functions: for `i` in the given list, add
`coefficient * weight i * xToPower`, then multiply the power by `x`.
Used for src/BasisLevel.cpp:28-42. -/
noncomputable def Level.polyLoop (b : Level) (interval position : ℕ) (x : ℝ) (w : ℕ → ℝ) :
    List ℕ → ℝ → ℝ → Res ℝ
  | [], ret, _ => pure ret
  | i :: is, ret, xp => do
      let c ← b.coef (4 * interval + i) position
      b.polyLoop interval position x w is (ret + c * w i * xp) (xp * x)

/-- `evaluate` (src/BasisLevel.cpp:28-42). -/
noncomputable def Level.evaluate (aru : Arith) (b : Level) (x : ℝ) (position : ℕ) : Res ℝ := do
  let id ← b.findIntervalId aru x
  if b.level > 0 then b.polyLoop id position x (fun _ => 1) [0, 1, 2, 3] 0 1 else pure 1

/-- `evaluateDerivative` (src/BasisLevel.cpp:44-56). -/
noncomputable def Level.evaluateDerivative (aru : Arith) (b : Level) (x : ℝ) (position : ℕ) :
    Res ℝ := do
  let id ← b.findIntervalId aru x
  if b.level > 0 then b.polyLoop id position x (fun i => i) [1, 2, 3] 0 1 else pure 0

/-- `evaluateSecondDerivative` (src/BasisLevel.cpp:58-70). -/
noncomputable def Level.evaluateSecondDerivative (aru : Arith) (b : Level) (x : ℝ)
    (position : ℕ) : Res ℝ := do
  let id ← b.findIntervalId aru x
  if b.level > 0 then b.polyLoop id position x (fun i => i * ((i : ℝ) - 1)) [2, 3] 0 1 else pure 0

/-- Constructor `Basis(levelMax)` (src/Basis.cpp:7-11): the list `basisLevels_`. -/
noncomputable def basisLevels (ar : Arith) (Q : ℝ → ℝ) (levelMax : ℕ) : Res (List Level) :=
  (List.range (levelMax + 1)).mapM fun l => construct ar Q l levelMax

/-- The member functions of `Basis` (src/Basis.cpp:13-31). -/
noncomputable def basis (aru : Arith) (ls : List Level) : BasisI where
  getKnot l p := nth ls l >>= fun b => b.getKnot p
  evaluate x l p := nth ls l >>= fun b => b.evaluate aru x p
  evaluateDerivative x l p := nth ls l >>= fun b => b.evaluateDerivative aru x p
  evaluateSecondDerivative x l p := nth ls l >>= fun b => b.evaluateSecondDerivative aru x p

end Verif.BasisLevel
