import Verif.Model.ClusterGraph

/-!
# Helpers that no other part of the package calls
-/
namespace Verif.Unused

open Verif.ClusterGraph

variable {α β : Type}

/-- `utils::combn(set, m = 2, simplify = FALSE)` for at least two elements: the pairs in
lexicographic order of the positions. Used for R/utility.R:68-74. -/
def combn2 : List α → List (List α)
  | [] => []
  | x :: xs => xs.map (fun y => [x, y]) ++ combn2 xs

/-- R/utility.R:68-74 `find_pairs`; `NULL` is `none`. -/
def findPairs (set : List α) : Option (List (List α)) :=
  if set.length > 1 then some (combn2 set) else none

/-- src/ClusterGraph.cpp:190-193 `nMessages`. -/
def nMessages (c : CG β) : ℕ := c.edges.length

/-- src/ClusterGraph.cpp:171-174 `nClusters`. -/
def nClusters (c : CG β) : ℕ := c.clusters.length

/-- src/ClusterGraph.cpp:195-201 `complexity`: the loop is commented out. -/
def complexity (_ : CG β) : ℤ := 0

end Verif.Unused
