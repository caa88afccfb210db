import Mathlib.Data.List.Basic
import Mathlib.Data.Int.Notation

/-!
# Specification of C107: every item is integrated out exactly once

Stated on plain data, as in Spec/Tree: a list `C` of item lists (clusters) and a list `E` of edges
`(source, target, separator)`.
-/
namespace Verif.Spec.Tree

/-- `vs[k]` is the only item of cluster `k` that is not in the separator of edge `k`: the item that the
message along edge `k` integrates out. These items and those of the last cluster, which are integrated
out at the end, are all different, and there are no others in `items`. -/
structure OnceEach (C : List (List ℤ)) (E : List (ℤ × ℤ × List ℤ)) (items : ℤ → Prop) (vs last : List ℤ) :
    Prop where
  count : vs.length = E.length
  only : ∀ (k : ℕ) (hk : k < vs.length) (hC : k < C.length) (hE : k < E.length) (x : ℤ),
    (x ∈ C[k] ∧ x ∉ E[k].2.2) ↔ x = vs[k]
  final : C.getLast? = some last
  once : (vs ++ last).Nodup
  all : ∀ x, x ∈ vs ++ last ↔ items x

end Verif.Spec.Tree
