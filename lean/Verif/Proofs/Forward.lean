import Verif.Proofs.ClusterMsg

/-! The forward sweep over clusters whose separators are all empty: the result is the sum of the
logarithms of the local integrals. -/
namespace Verif.ClusterGraph

variable {β : Type}

/-- Beliefs `P` with one item, messages `E` and unused edges `E0` without items: integrating the item
of a `P` gives an `E` with value `T`; multiplication by an `E` adds its value. `good` tells which
results of the test for improper beliefs are possible. -/
structure Single (ops : Ops β) (P E E0 : β → Prop) (good : Bool → Prop) (T ε : β → ℝ) : Prop where
  margin : ∀ b d, P b → E0 d → ∃ r, ops.margin b (ops.items d) false = Except.ok r ∧ E r ∧ ε r = T b
  mul : ∀ b d, P b → E d → ∃ r, ops.mul b d = Except.ok r ∧ P r ∧ T r = T b + ε d
  div : ∀ b d, P b → E0 d → ∃ r, ops.div b d = Except.ok r ∧ P r ∧ T r = T b - ε d
  proper : ∀ b, P b → ∃ t, good t ∧ ops.isProper b = Except.ok t
  logNorm : ∀ b, P b → ops.logNorm b = Except.ok (T b)

/-- Edge number `k` leads from cluster `k` to a later one. -/
def Chain (c : CG β) : Prop :=
  c.clusters.length = c.edges.length + 1 ∧ ∀ (k : ℕ) (h : k < c.edges.length),
    c.edges[k].first = k ∧ ∃ p : ℕ, c.edges[k].second = p ∧ k < p ∧ p < c.clusters.length

variable {ops : Ops β} {P E E0 : β → Prop} {good : Bool → Prop} {T ε : β → ℝ}

/-- The quantity kept by the sweep: clusters minus edges not yet done. -/
def rest (T ε : β → ℝ) (c : CG β) (k : ℕ) : ℝ :=
  ((c.clusters.drop k).map T).sum - ((c.edges.drop k).map fun e => ε e.belief).sum

theorem sum_drop_succ {α : Type} (f : α → ℝ) {l : List α} {k : ℕ} (h : k < l.length) :
    ((l.drop k).map f).sum = f l[k] + ((l.drop (k + 1)).map f).sum := by
  rw [List.drop_eq_getElem_cons h, List.map_cons, List.sum_cons]

theorem forward_step (S : Single ops P E E0 good T ε) {c : CG β} (hc : Chain c)
    (hP : ∀ b ∈ c.clusters, P b) {k : ℕ}
    (hE : ∀ l, k ≤ l → (h : l < c.edges.length) → E0 c.edges[l].belief) (hk : k < c.edges.length) :
    (good false ∧
      passMessage ops c k true false = Res.raise "improper cluster belief after passing message") ∨
    ∃ c', passMessage ops c k true false = Except.ok c' ∧ Chain c' ∧ (∀ b ∈ c'.clusters, P b) ∧
      (∀ l, k + 1 ≤ l → (h : l < c'.edges.length) → E0 c'.edges[l].belief) ∧
      c'.edges.length = c.edges.length ∧
      rest T ε c' (k + 1) = rest T ε c k ∧
      (∀ e, c'.edges[k]? = some e → E e.belief) ∧ ∀ l, l ≠ k → c'.edges[l]? = c.edges[l]? := by
  obtain ⟨hlen, hch⟩ := hc
  obtain ⟨h1, p, h2, hkp, hp⟩ := hch k hk
  have hkc : k < c.clusters.length := by omega
  have hPk := hP _ (List.getElem_mem hkc)
  have hPp := hP _ (List.getElem_mem hp)
  have hEk := hE k le_rfl hk
  obtain ⟨b, e1, hb, vb⟩ := S.margin _ _ hPk hEk
  obtain ⟨r1, e2, hr1, v1⟩ := S.mul _ b hPp hb
  obtain ⟨r2, e3, hr2, v2⟩ := S.div r1 _ hr1 hEk
  obtain ⟨t, ht, e4⟩ := S.proper r2 hr2
  rw [passMessage, nth_ok hk]
  simp only [res_ok_bind, ends, if_true]
  rw [h1, h2, atZ_ok hkc]
  simp only [res_ok_bind]
  rw [e1]
  simp only [res_ok_bind]
  rw [setN_ok hk]
  simp only [res_ok_bind]
  rw [atZ_ok hp]
  simp only [res_ok_bind]
  rw [e2]
  simp only [res_ok_bind]
  rw [e3]
  simp only [res_ok_bind]
  rw [setZ_ok hp]
  simp only [res_ok_bind]
  rw [e4]
  simp only [res_ok_bind]
  cases t with
  | false => exact Or.inl ⟨ht, rfl⟩
  | true =>
    refine Or.inr ⟨_, rfl, ⟨by simpa using hlen, ?_⟩, ?_, ?_, by simp, ?_, ?_, ?_⟩
    · intro l hl
      simp only [List.length_set] at hl ⊢
      rw [List.getElem_set]
      split
      · rename_i h
        subst h
        exact ⟨rfl, p, rfl, hkp, hp⟩
      · exact hch l hl
    · intro d hd
      rcases mem_set_cases hd with rfl | hd
      · exact hr2
      · exact hP d hd
    · intro l hl h
      rw [List.length_set] at h
      simp only [List.getElem_set_ne (show k ≠ l by omega)]
      exact hE l (by omega) h
    · simp only [rest]
      rw [sum_drop_succ T hkc, sum_drop_succ (fun e : Edge β => ε e.belief) hk]
      rw [List.drop_set_of_lt (by omega : k < k + 1), List.drop_set, if_neg (by omega)]
      rw [sum_set T _ _ _ (by rw [List.length_drop]; omega)]
      have : (c.clusters.drop (k + 1))[p - (k + 1)]'(by rw [List.length_drop]; omega) =
          c.clusters[p] := by
        rw [List.getElem_drop]
        congr 1
        omega
      rw [this, v2, v1, vb]
      ring
    · intro e he
      rw [List.getElem?_set_self hk] at he
      rw [← Option.some.inj he]
      exact hb
    · intro l hl
      rw [List.getElem?_set_ne (by omega)]

theorem forward_loop (S : Single ops P E E0 good T ε) : ∀ (m k : ℕ) {c : CG β}, Chain c →
    (∀ b ∈ c.clusters, P b) →
    (∀ l, k ≤ l → (h : l < c.edges.length) → E0 c.edges[l].belief) → k + m = c.edges.length →
    (good false ∧ (List.range' k m).foldlM (fun c k => passMessage ops c k true false) c =
      Res.raise "improper cluster belief after passing message") ∨
    ∃ c', (List.range' k m).foldlM (fun c k => passMessage ops c k true false) c = Except.ok c' ∧
      Chain c' ∧ (∀ b ∈ c'.clusters, P b) ∧ c'.edges.length = c.edges.length ∧
      rest T ε c' (k + m) = rest T ε c k ∧
      (∀ l e, k ≤ l → l < k + m → c'.edges[l]? = some e → E e.belief) ∧
      ∀ l, l < k → c'.edges[l]? = c.edges[l]?
  | 0, k, c, hc, hP, _, _ => Or.inr ⟨c, rfl, hc, hP, rfl, rfl, fun l e h1 h2 => by omega,
      fun _ _ => rfl⟩
  | m + 1, k, c, hc, hP, hE, hkm => by
    rw [List.range'_succ, List.foldlM_cons]
    rcases forward_step S hc hP hE (by omega) with ⟨hg, h⟩ | ⟨c1, h, hc1, hP1, hE1, l1, r1, n1, o1⟩
    · rw [h]
      exact Or.inl ⟨hg, rfl⟩
    · rw [h]
      simp only [res_ok_bind]
      rcases forward_loop S m (k + 1) hc1 hP1 hE1 (by omega) with
        h' | ⟨c2, h', hc2, hP2, l2, r2, n2, o2⟩
      · exact Or.inl h'
      · refine Or.inr ⟨c2, h', hc2, hP2, l2.trans l1, ?_, fun l e g1 g2 g3 => ?_, fun l hl => ?_⟩
        · rw [← r1, ← r2]
          congr 1
          omega
        · rcases Nat.lt_or_ge k l with hkl | hkl
          · exact n2 l e (by omega) (by omega) g3
          · obtain rfl : l = k := by omega
            rw [o2 l (by omega)] at g3
            exact n1 e g3
        · exact (o2 l (by omega)).trans (o1 l (by omega))

/-- The forward sweep and the last integral give the sum of the logarithms of the integrals of the
clusters minus the values of the edges, or the sweep stops at an improper belief. -/
theorem forward_total (S : Single ops P E E0 good T ε) {c : CG β} (hc : Chain c)
    (hP : ∀ b ∈ c.clusters, P b) (hE : ∀ e ∈ c.edges, E0 e.belief) :
    (good false ∧ (do
      let c' ← calibrateForward ops c
      logNormalizingConstant ops c') =
      Res.raise "improper cluster belief after passing message") ∨
    (do
      let c' ← calibrateForward ops c
      logNormalizingConstant ops c') =
      Except.ok ((c.clusters.map T).sum - (c.edges.map fun e => ε e.belief).sum) := by
  rw [calibrateForward, calibrateInternal]
  simp only [if_true]
  rw [List.range_eq_range']
  rcases forward_loop S c.edges.length 0 hc hP (fun l _ h => hE _ (List.getElem_mem h)) (by omega)
    with ⟨hg, h⟩ | ⟨c2, h, hc2, hP2, l2, r2, -, -⟩
  · rw [h]
    exact Or.inl ⟨hg, rfl⟩
  · rw [h]
    refine Or.inr ?_
    simp only [res_ok_bind]
    have hl : c.edges.length < c2.clusters.length := by rw [hc2.1]; omega
    rw [logNormalizingConstant,
      show ((c2.clusters.length : ℤ) - 1) = ((c.edges.length : ℕ) : ℤ) by rw [hc2.1, l2]; push_cast; ring,
      atZ_ok hl]
    simp only [res_ok_bind]
    rw [S.logNorm _ (hP2 _ (List.getElem_mem hl))]
    congr 1
    rw [rest, rest, Nat.zero_add, sum_drop_succ T hl, List.drop_eq_nil_of_le (by rw [hc2.1]; omega),
      List.drop_eq_nil_of_le (by omega)] at r2
    simpa using r2

/-- The clusters and the messages at the end of the forward sweep. -/
theorem forward_states (S : Single ops P E E0 good T ε) {c c' : CG β} (hc : Chain c)
    (hP : ∀ b ∈ c.clusters, P b) (hE : ∀ e ∈ c.edges, E0 e.belief)
    (h : calibrateForward ops c = Except.ok c') :
    (∀ b ∈ c'.clusters, P b) ∧ ∀ e ∈ c'.edges, E e.belief := by
  rw [calibrateForward, calibrateInternal] at h
  simp only [if_true] at h
  rw [List.range_eq_range'] at h
  rcases forward_loop S c.edges.length 0 hc hP (fun l _ h => hE _ (List.getElem_mem h)) (by omega)
    with ⟨hg, h'⟩ | ⟨c2, h', hc2, hP2, l2, r2, n2, -⟩
  · rw [h'] at h
    cases h
  · rw [h'] at h
    cases Except.ok.inj h
    refine ⟨hP2, fun e he => ?_⟩
    obtain ⟨l, hl, rfl⟩ := List.mem_iff_getElem.mp he
    exact n2 l _ (by omega) (by omega) (List.getElem?_eq_getElem hl)

end Verif.ClusterGraph
