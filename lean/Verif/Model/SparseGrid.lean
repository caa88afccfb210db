import Verif.Model.Point
import Mathlib.Data.Real.Basic

/-!
# Model of the grid-related part of `src/Point.cpp` and of `src/SparseGrid.cpp`

`double` is modelled by `ℝ`. An `Eigen::VectorXd` is a list of reals; `x[t]` is an unchecked
access. The stored function may fail. The basis is a parameter (`BasisI`), instantiated in `Verif.Model.Basis`.
-/
namespace Verif.SparseGrid

open Verif.Point Verif.Counting

/-- The interface of `class Basis` used by the grid code (inst/include/Basis.h,
src/Basis.cpp:1-36): `getKnot`, `evaluate`, `evaluateDerivative`, `evaluateSecondDerivative`. -/
structure BasisI where
  getKnot : ℕ → ℕ → Res ℝ
  evaluate : ℝ → ℕ → ℕ → Res ℝ
  evaluateDerivative : ℝ → ℕ → ℕ → Res ℝ
  evaluateSecondDerivative : ℝ → ℕ → ℕ → Res ℝ

/-- `getGridPointInDirection` (src/Point.cpp:38-41). -/
def getGridPointInDirection (b : BasisI) (p : Pt) (t : ℕ) : Res ℝ := do
  let l ← nth p.levels t
  let q ← nth p.positions t
  b.getKnot l q

/-- `getGridPoint` (src/Point.cpp:43-50). -/
def getGridPoint (b : BasisI) (p : Pt) : Res (List ℝ) :=
  (List.range p.levels.length).mapM (getGridPointInDirection b p)

/-- `computeBasis` (src/Point.cpp:52-59). -/
def computeBasis (b : BasisI) (p : Pt) (x : List ℝ) : Res ℝ :=
  (List.range p.levels.length).foldlM (fun ret t => do
    let xt ← nth x t
    let l ← nth p.levels t
    let q ← nth p.positions t
    let v ← b.evaluate xt l q
    pure (ret * v)) 1

/-- `class SparseGrid` (inst/include/SparseGrid.h): `k_`, `d_`, `coefficients_`, `bound_`. -/
structure Grid where
  k : ℕ
  d : ℕ
  coefficients : List ℝ
  bound : ℝ

/-- Loop of `interpolate` (src/SparseGrid.cpp:35-39): `m` iterations remain, at index `i`. -/
noncomputable def interpolateLoop (ar : Arith) (b : BasisI) (g : Grid) (x : List ℝ) :
    ℕ → ℕ → ℝ → Pt → Res ℝ
  | 0, _, ret, _ => pure ret
  | m + 1, i, ret, p => do
      let c ← nth g.coefficients i
      let v ← computeBasis b p x
      let ret := ret + c * v
      if (i : ℤ) < g.coefficients.length - 1 then do
        let p ← advance ar p
        interpolateLoop ar b g x m (i + 1) ret p
      else interpolateLoop ar b g x m (i + 1) ret p

/-- `interpolate` (src/SparseGrid.cpp:31-41). -/
noncomputable def interpolate (ar : Arith) (b : BasisI) (g : Grid) (x : List ℝ) : Res ℝ := do
  let ret ← interpolateLoop ar b g x g.coefficients.length 0 0 (center g.d)
  pure (min ret g.bound)

/-- Update of the running maximum (src/SparseGrid.cpp:90-93): at slot 0 it is initialised, later
slots read it. -/
noncomputable def updateMax (i : ℕ) (mx : Option ℝ) (value : ℝ) : Res (Option ℝ) :=
  if i = 0 then pure (some value) else
    match mx with
    | none => Res.ub -- reading the uninitialised maximum
    | some y => pure (some (if value > y then value else y))

/-- Loop of `initializeStorage` (src/SparseGrid.cpp:87-95): `m` iterations remain, at index
`i`; state is the coefficient vector, the running maximum (`none` while uninitialised) and
the point. -/
noncomputable def storageLoop (ar : Arith) (b : BasisI) (f : List ℝ → Res ℝ) :
    ℕ → ℕ → List ℝ → Option ℝ → Pt → Res (List ℝ × Option ℝ)
  | 0, _, cs, mx, _ => pure (cs, mx)
  | m + 1, i, cs, mx, p => do
      let gp ← getGridPoint b p
      let fv ← f gp
      let cs ← setE cs i fv
      let value ← atE cs i
      let mx ← updateMax i mx value
      if (i : ℤ) < cs.length - 1 then do
        let p ← advance ar p
        storageLoop ar b f m (i + 1) cs mx p
      else storageLoop ar b f m (i + 1) cs mx p

/-- `initializeStorage` (src/SparseGrid.cpp:83-97) for a coefficient vector of size `n`. -/
noncomputable def initializeStorage (ar : Arith) (b : BasisI) (f : List ℝ → Res ℝ) (d n : ℕ) :
    Res (List ℝ × ℝ) := do
  let r ← storageLoop ar b f n 0 (List.replicate n 0) none (center d)
  match r.2 with
  | none => Res.ub -- `bound_` set from the uninitialised maximum
  | some y => pure (r.1, y)

/-- The `while` loop of `hierarchize` (src/SparseGrid.cpp:106-111) for slot `i`, knot `knot`
and level `lev` of the point in direction `t`. The first argument bounds the number of
iterations; running out of it is `ub` (it stands for a loop that would not end). Theorem
`c05_parent_traversal` shows `2^lev` iterations always suffice. -/
noncomputable def parentLoop (ar : Arith) (b : BasisI) (t i : ℕ) (knot : ℝ) (lev : ℕ) :
    ℕ → List ℝ → Pt → Res (List ℝ)
  | 0, _, _ => Res.ub
  | m + 1, cs, parent => do
      let pl ← atE parent.levels t
      if pl < lev then do
        let c ← (if parent.index < 0 then Res.raise "out_of_range" else atE cs parent.index.toNat)
        let q ← atE parent.positions t
        let v ← b.evaluate knot pl q
        let old ← atE cs i
        let cs ← setE cs i (old - c * v)
        let parent ← advanceInDirection ar parent t
        parentLoop ar b t i knot lev m cs parent
      else pure cs

/-- Inner `for` loop of `hierarchize` (src/SparseGrid.cpp:103-113): `m` iterations remain, at
slot `i`. -/
noncomputable def hierarchizeLoop (ar : Arith) (b : BasisI) (t : ℕ) :
    ℕ → ℕ → List ℝ → Pt → Res (List ℝ)
  | 0, _, cs, _ => pure cs
  | m + 1, i, cs, p => do
      let knot ← getGridPointInDirection b p t
      let parent ← firstParent ar p t
      let lev ← atE p.levels t
      let cs ← parentLoop ar b t i knot lev (2 ^ lev) cs parent
      let p ← advance ar p
      hierarchizeLoop ar b t m (i + 1) cs p

/-- `hierarchize` (src/SparseGrid.cpp:99-115). -/
noncomputable def hierarchize (ar : Arith) (b : BasisI) (d : ℕ) (cs : List ℝ) : Res (List ℝ) :=
  (List.range d).foldlM (fun cs t => hierarchizeLoop ar b t cs.length 0 cs (center d)) cs

/-- `SparseGrid(f, d, basis)` (src/SparseGrid.cpp:18-29, 83-115); `k` is the basis's
`getLevelMax()`. -/
noncomputable def construct (ar : Arith) (b : BasisI) (f : List ℝ → Res ℝ) (d k : ℕ) : Res Grid := do
  let n ← findNumGridPoints ar d k
  let r ← initializeStorage ar b f d n.toNat
  let cs ← hierarchize ar b d r.1
  pure { k := k, d := d, coefficients := cs, bound := r.2 }

/-! ### Derivatives

A freshly allocated `VectorXd` of size `d` or `MatrixXd` of size `d x d` is modelled as a function
of its indices; all accesses below are at loop indices bounded by the sizes. -/

/-- `ret[key] *= value` for a vector or matrix. Used for src/Point.cpp:61-79. -/
noncomputable def mulAt {K : Type} [DecidableEq K] (m : K → ℝ) (key : K) (v : ℝ) : K → ℝ :=
  fun key' => if key' = key then m key * v else m key'

/-- `computeBasisDerivative` (src/Point.cpp:61-79). -/
noncomputable def computeBasisDerivative (b : BasisI) (p : Pt) (x : List ℝ) : Res (ℕ → ℝ) :=
  let d := p.levels.length
  (List.range d).foldlM (fun ret t => do
    let xt ← nth x t
    let l ← nth p.levels t
    let q ← nth p.positions t
    let basisValue ← b.evaluate xt l q
    let basisDerivative ← b.evaluateDerivative xt l q
    pure ((List.range d).foldl (fun ret s =>
      if s = t then mulAt ret s basisDerivative else mulAt ret s basisValue) ret))
    (fun _ => (1 : ℝ))

/-- `computeBasisSecondDerivative` (src/Point.cpp:81-111); the last line takes the lower triangle
and mirrors it. -/
noncomputable def computeBasisSecondDerivative (b : BasisI) (p : Pt) (x : List ℝ) :
    Res (ℕ × ℕ → ℝ) := do
  let d := p.levels.length
  let ret ← (List.range d).foldlM (fun ret t => do
    let xt ← nth x t
    let l ← nth p.levels t
    let q ← nth p.positions t
    let basisValue ← b.evaluate xt l q
    let basisDerivative ← b.evaluateDerivative xt l q
    let basisSecondDerivative ← b.evaluateSecondDerivative xt l q
    pure ((List.range d).foldl (fun ret r =>
      (List.range (r + 1)).foldl (fun ret s =>
        if r = t then
          if s = t then mulAt ret (r, s) basisSecondDerivative
          else mulAt ret (r, s) basisDerivative
        else
          if s = t then mulAt ret (r, s) basisDerivative
          else mulAt ret (r, s) basisValue) ret) ret))
    (fun _ => (1 : ℝ))
  pure fun rs => if rs.2 ≤ rs.1 then ret rs else ret (rs.2, rs.1)

/-- The accumulation loops of `interpolateDerivative` (src/SparseGrid.cpp:49-53) and of
`interpolateSecondDerivative` (src/SparseGrid.cpp:66-70), which differ only in the function
`basisAt` that is called on the point. -/
noncomputable def accumulateLoop {K : Type} (ar : Arith) (g : Grid) (basisAt : Pt → Res (K → ℝ)) :
    ℕ → ℕ → (K → ℝ) → Pt → Res (K → ℝ)
  | 0, _, ret, _ => pure ret
  | m + 1, i, ret, p => do
      let c ← nth g.coefficients i
      let v ← basisAt p
      let ret := fun key => ret key + c * v key
      if (i : ℤ) < g.coefficients.length - 1 then do
        let p ← advance ar p
        accumulateLoop ar g basisAt m (i + 1) ret p
      else accumulateLoop ar g basisAt m (i + 1) ret p

/-- `interpolateDerivative` (src/SparseGrid.cpp:43-58). -/
noncomputable def interpolateDerivative (ar : Arith) (b : BasisI) (g : Grid) (x : List ℝ) :
    Res (ℕ → ℝ) := do
  let v ← interpolate ar b g x
  if v < g.bound then
    accumulateLoop ar g (fun p => computeBasisDerivative b p x) g.coefficients.length 0
      (fun _ => 0) (center g.d)
  else pure fun _ => 0

/-- `interpolateSecondDerivative` (src/SparseGrid.cpp:60-75). -/
noncomputable def interpolateSecondDerivative (ar : Arith) (b : BasisI) (g : Grid) (x : List ℝ) :
    Res (ℕ × ℕ → ℝ) := do
  let v ← interpolate ar b g x
  if v < g.bound then
    accumulateLoop ar g (fun p => computeBasisSecondDerivative b p x) g.coefficients.length 0
      (fun _ => 0) (center g.d)
  else pure fun _ => 0

end Verif.SparseGrid
