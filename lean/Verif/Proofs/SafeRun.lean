import Verif.Proofs.ForwardAt
import Verif.Proofs.ClusterMsg

/-! Messages in which nothing but the test for improper beliefs can fail. -/
namespace Verif.ClusterGraph

variable {β : Type} {ops : Ops β}

/-- The operations without the test for improper beliefs. -/
def Ops.untested (ops : Ops β) : Ops β := { ops with isProper := fun _ => Except.ok true }

/-- Without the test for improper beliefs the messages can all be sent, and after every message the
test has a result for all clusters. -/
def Safe (ops : Ops β) : List Msg → CG β → Prop
  | [], _ => True
  | m :: ms, c => ∃ c1, passMessage ops.untested c m.1 m.2.1 m.2.2 = Except.ok c1 ∧
      (∀ b ∈ c1.clusters, ∃ t, ops.isProper b = Except.ok t) ∧ Safe ops ms c1

/-- The messages of `calibrateInternal`. -/
def sweep (n : ℕ) (fw na : Bool) : List Msg :=
  (if fw then List.range n else (List.range n).reverse).map fun k => (k, fw, na)

/-- Where the message needs the test, the result is the one without it. -/
theorem untested_of_run {c c1 : CG β} {r : β} {k : ℕ} {fw na : Bool}
    (h : ∀ pr : β → Res Bool, passMessage { ops with isProper := pr } c k fw na = do
        let proper ← pr r
        if proper then return c1 else Res.raise "improper cluster belief after passing message") :
    passMessage ops.untested c k fw na = Except.ok c1 := h fun _ => Except.ok true

theorem safe_congr {ops ops' : Ops β} (hp : ops.isProper = ops'.isProper) :
    ∀ {ms : List Msg} {c : CG β}, (∀ m ∈ ms, ∀ c, passMessage ops.untested c m.1 m.2.1 m.2.2 =
      passMessage ops'.untested c m.1 m.2.1 m.2.2) → Safe ops ms c → Safe ops' ms c
  | [], _, _, _ => trivial
  | m :: ms, c, h, ⟨c1, e, t, s⟩ => ⟨c1, by rw [← h m (by simp) c]; exact e, by rw [← hp]; exact t,
      safe_congr hp (fun m' hm => h m' (by simp [hm])) s⟩

theorem safe_at {P E : β → Prop} {ev : β → ℝ} {τ : List ℤ → List ℤ → ℝ}
    (A : AtPoint ops P E ev τ) : ∀ (m k : ℕ) {c : CG β}, ChainSub ops c →
    (∀ b ∈ c.clusters, P b) →
    (∀ l, k ≤ l → (h : l < c.edges.length) → E c.edges[l].belief) → k + m = c.edges.length →
    Safe ops ((List.range' k m).map fun k => (k, true, false)) c
  | 0, _, _, _, _, _, _ => trivial
  | m + 1, k, c, hc, hP, hE, hkm => by
    rw [List.range'_succ, List.map_cons]
    obtain ⟨c1, r, ⟨hr, hrun⟩, hc1, hP1, hE1, l1, -⟩ := at_ready A hc hP hE (show k < _ by omega)
    exact ⟨c1, untested_of_run hrun, fun b hb => A.proper b (hP1 b hb),
      safe_at A m (k + 1) hc1 hP1 hE1 (by omega)⟩

theorem safe_forward {P E : β → Prop} {ev : β → ℝ} {τ : List ℤ → List ℤ → ℝ}
    (A : AtPoint ops P E ev τ) {c : CG β} (hc : ChainSub ops c) (hP : ∀ b ∈ c.clusters, P b)
    (hE : ∀ e ∈ c.edges, E e.belief) : Safe ops (sweep c.edges.length true false) c := by
  rw [sweep, if_pos rfl, List.range_eq_range']
  exact safe_at A c.edges.length 0 hc hP (fun l _ h => hE _ (List.getElem_mem h)) (by omega)

end Verif.ClusterGraph
