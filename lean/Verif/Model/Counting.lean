import Verif.Base.Res
import Mathlib.Data.Int.Init

/-!
# Model of `src/counting.cpp`

All `int` arithmetic goes through the parameter `ar` (see `Verif.Arith`).
-/
namespace Verif.Counting

/-- The loop of `choose` (src/counting.cpp:8-11): `m` iterations remain, `i` is the loop
variable, `c` the accumulator. `c *= i`, `c /= i - k` and `++i` are checked. -/
def chooseLoop (ar : Arith) (k : Int) : Nat → Int → Int → Res Int
  | 0, _, c => Except.ok c
  | m + 1, i, c => do
      let c1 ← ar (c * i)
      let j ← ar (i - k)
      let c2 ← divA ar c1 j
      let i' ← ar (i + 1)
      chooseLoop ar k m i' c2

/-- `choose(n, k)` (src/counting.cpp:5-13). The loop `for (i = k + 1; i <= n; ++i)` runs
`n - k` times (not at all when `n <= k`). -/
def choose (ar : Arith) (n k : Int) : Res Int := do
  let i0 ← ar (k + 1)
  chooseLoop ar k (n - k).toNat i0 1

/-- The loop of `findNumGridPoints` (src/counting.cpp:19-21): `m` iterations remain. -/
def gridLoop (ar : Arith) (d : Int) : Nat → Int → Int → Res Int
  | 0, _, out => Except.ok out
  | m + 1, i, out => do
      let d1 ← ar (d - 1)
      let n ← ar (d1 + i)
      let c ← choose ar n i
      let s ← shl1 ar i
      let cs ← ar (c * s)
      let out' ← ar (out + cs)
      let i' ← ar (i + 1)
      gridLoop ar d m i' out'

/-- `findNumGridPoints(d, k)` (src/counting.cpp:15-26). The loop runs `k + 1` times. -/
def findNumGridPoints (ar : Arith) (d k : Int) : Res Int :=
  if d > 0 then do
    let k1 ← ar (k + 1)
    gridLoop ar d k1.toNat 0 0
  else Except.ok 1

end Verif.Counting
