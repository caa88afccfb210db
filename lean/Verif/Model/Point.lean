import Verif.Model.Counting

/-!
# Model of `src/Point.cpp`

Levels and positions are `std::vector<int>`; every operation of the class keeps them
non-negative (they are only set to 0, incremented, or set to a non-zero entry minus one), so
they are modelled by `List Nat`. The running counter `index_` and the level sum are kept as
in the class. All `int` arithmetic goes through `ar`.
-/
namespace Verif.Point

open Verif.Counting

/-- `class Point` (inst/include/Point.h, src/Point.cpp): `index_`, `levels_`, `positions_`,
`levelSum_`. -/
structure Pt where
  index : Int
  levels : List Nat
  positions : List Nat
  levelSum : Nat
  deriving DecidableEq, Repr

/-- `Point(int dimension)` (src/Point.cpp:6-8). -/
def center (d : Nat) : Pt :=
  { index := 0, levels := List.replicate d 0, positions := List.replicate d 0, levelSum := 0 }

/-- `advancePositionInDirection` (src/Point.cpp:222-233). -/
def advancePositionInDirection (ar : Arith) (p : Pt) (t : Nat) : Res (Bool × Pt) := do
  let pos ← atE p.positions t
  let lev ← atE p.levels t
  let s ← shl1 ar lev
  let top ← ar (s - 1)
  if (pos : Int) < top then do
    let _ ← ar (pos + 1)
    let ps ← setE p.positions t (pos + 1)
    pure (true, { p with positions := ps })
  else do
    let ps ← setE p.positions t 0
    pure (false, { p with positions := ps })

/-- The loop of `advancePositions` (src/Point.cpp:215-218): `m` directions remain, starting
at direction `t`. -/
def advancePositionsLoop (ar : Arith) : Nat → Nat → Pt → Res (Bool × Pt)
  | 0, _, p => pure (false, p)
  | m + 1, t, p => do
      let r ← advancePositionInDirection ar p t
      if r.1 then pure r else advancePositionsLoop ar m (t + 1) r.2

/-- `advancePositions` (src/Point.cpp:210-220). -/
def advancePositions (ar : Arith) (p : Pt) : Res (Bool × Pt) :=
  advancePositionsLoop ar p.positions.length 0 p

/-- `while(levels_[t] == 0) ++t;` (src/Point.cpp:201-202), reading without a bounds check:
running past the end is `ub`. The first argument bounds the number of iterations; the read
at `t = size` gives `ub` before it is used up. -/
def skipZeros (levels : List Nat) : Nat → Nat → Res Nat
  | 0, _ => Res.ub
  | m + 1, t => do
      let x ← nth levels t
      if x = 0 then skipZeros levels m (t + 1) else pure t

/-- `advanceLevels` (src/Point.cpp:194-208). -/
def advanceLevels (ar : Arith) (p : Pt) : Res (Bool × Pt) := do
  let b ← backE p.levels
  if b < p.levelSum then do
    let old := p.levels
    let t ← skipZeros p.levels (p.levels.length + 1) 0
    let l1 ← setN p.levels t 0
    let ot ← nth old t
    let l2 ← setN l1 0 (ot - 1)
    let ot1 ← nth old (t + 1)
    let _ ← ar (ot1 + 1)
    let l3 ← setN l2 (t + 1) (ot1 + 1)
    pure (true, { p with levels := l3 })
  else
    pure (false, p)

/-- `advance` (src/Point.cpp:113-129). -/
def advance (ar : Arith) (p : Pt) : Res Pt := do
  let idx ← ar (p.index + 1)
  let p := { p with index := idx }
  let r ← advancePositions ar p
  if r.1 then pure r.2 else do
    let r2 ← advanceLevels ar r.2
    if r2.1 then pure r2.2 else do
      let p := r2.2
      let _ ← ar (p.levelSum + 1)
      let s := p.levelSum + 1
      let ls ← setE (p.levels.map fun _ => 0) 0 s
      pure { p with levelSum := s, levels := ls }

/-- `setLevelSum` (src/Point.cpp:181-187). The additions are checked in order. -/
def setLevelSum (ar : Arith) (p : Pt) : Res Pt := do
  let s ← p.levels.foldlM (fun (acc : Int) (l : Nat) => ar (acc + l)) 0
  pure { p with levelSum := s.toNat }

/-- First loop of `setIndex` (src/Point.cpp:159-162); state `(index1, multiplier)`. -/
def index1Loop (ar : Arith) (p : Pt) : Nat → Nat → Int → Int → Res Int
  | 0, _, index1, _ => pure index1
  | m + 1, t, index1, multiplier => do
      let pos ← atE p.positions t
      let pm ← ar (pos * multiplier)
      let i1 ← ar (index1 + pm)
      let lev ← atE p.levels t
      let s ← shl1 ar lev
      let mu ← ar (multiplier * s)
      index1Loop ar p m (t + 1) i1 mu

/-- Second loop of `setIndex` (src/Point.cpp:166-170); state `(sum, index2)`. -/
def index2Loop (ar : Arith) (p : Pt) : Nat → Nat → Int → Int → Res (Int × Int)
  | 0, _, sum, index2 => pure (sum, index2)
  | m + 1, t, sum, index2 => do
      let n1 ← ar (t + sum)
      let c1 ← choose ar n1 t
      let i2 ← ar (index2 - c1)
      let lev ← atE p.levels t
      let sum' ← ar (sum + lev)
      let n2 ← ar (t + sum')
      let c2 ← choose ar n2 t
      let i2' ← ar (i2 + c2)
      index2Loop ar p m (t + 1) sum' i2'

/-- Third loop of `setIndex` (src/Point.cpp:174-175): `m` iterations remain, `s` is the loop
variable. -/
def index3Loop (ar : Arith) (d : Int) : Nat → Int → Int → Res Int
  | 0, _, index3 => pure index3
  | m + 1, s, index3 => do
      let d1 ← ar (d - 1)
      let n ← ar (d1 + s)
      let c ← choose ar n d1
      let b ← shl1 ar s
      let cb ← ar (c * b)
      let i3 ← ar (index3 + cb)
      index3Loop ar d m (s + 1) i3

/-- `setIndex` (src/Point.cpp:154-178). `index2 <<= sum` is a checked multiplication by
`2^sum` (C++11: undefined if negative or not representable). -/
def setIndex (ar : Arith) (p : Pt) : Res Pt := do
  let d := p.levels.length
  let index1 ← index1Loop ar p d 0 0 1
  let l0 ← atE p.levels 0
  let r ← index2Loop ar p (d - 1) 1 l0 0
  let sum := r.1
  let index2 ← if r.2 < 0 ∨ sum < 0 then Res.ub else ar (r.2 * 2 ^ sum.toNat)
  let index3 ← index3Loop ar d sum.toNat 0 0
  let i12 ← ar (index1 + index2)
  let idx ← ar (i12 + index3)
  pure { p with index := idx }

/-- `Point(levels, positions)` (src/Point.cpp:10-15). -/
def ofLevels (ar : Arith) (levels positions : List Nat) : Res Pt := do
  let p ← setIndex ar { index := 0, levels := levels, positions := positions, levelSum := 0 }
  setLevelSum ar p

/-- `advanceInDirection` (src/Point.cpp:131-138). -/
def advanceInDirection (ar : Arith) (p : Pt) (t : Nat) : Res Pt := do
  let r ← advancePositionInDirection ar p t
  if r.1 then setIndex ar r.2 else do
    let lev ← atE r.2.levels t
    let _ ← ar (lev + 1)
    let ls ← setE r.2.levels t (lev + 1)
    let p ← setLevelSum ar { r.2 with levels := ls }
    setIndex ar p

/-- `firstParent` (src/Point.cpp:140-148). -/
def firstParent (ar : Arith) (p : Pt) (t : Nat) : Res Pt := do
  let ls ← setE p.levels t 0
  let ps ← setE p.positions t 0
  let q ← setLevelSum ar { p with levels := ls, positions := ps }
  setIndex ar q

/-- Advancing `n` times from the centre point: the states visited by every traversal loop of
`SparseGrid` (src/SparseGrid.cpp:34-39, 86-95, 103-113). -/
def advanceN (ar : Arith) (d : Nat) : Nat → Res Pt
  | 0 => pure (center d)
  | n + 1 => do
      let p ← advanceN ar d n
      advance ar p

/-- The points visited by the parent loop of `hierarchize` (src/SparseGrid.cpp:105-111): the
first parent in direction `t` and its successors in that direction while their level in `t`
is below `lev`. The first argument bounds the number of iterations (running out is `ub`). -/
def parentsFrom (ar : Arith) (t lev : Nat) : Nat → Pt → Res (List Pt)
  | 0, _ => Res.ub
  | m + 1, parent => do
      let pl ← atE parent.levels t
      if pl < lev then do
        let parent' ← advanceInDirection ar parent t
        let rest ← parentsFrom ar t lev m parent'
        pure (parent :: rest)
      else pure []

/-- All points visited by the parent loop for point `p` and direction `t`
(src/SparseGrid.cpp:105-111). -/
def parents (ar : Arith) (p : Pt) (t fuel : Nat) : Res (List Pt) := do
  let parent ← firstParent ar p t
  let lev ← atE p.levels t
  parentsFrom ar t lev fuel parent

end Verif.Point
