import Verif.Proofs.Forward

/-! The forward sweep over clusters that are evaluated at one point only: each message adds a
constant that depends on the items of the cluster and of the edge. -/
namespace Verif.ClusterGraph

variable {β : Type}

/-- Clusters `P` and edges `E` with a log value `ev`: integration adds `τ`, multiplication adds and
division subtracts the value. -/
structure AtPoint (ops : Ops β) (P E : β → Prop) (ev : β → ℝ) (τ : List ℤ → List ℤ → ℝ) : Prop where
  margin : ∀ b d, P b → E d → (∀ x ∈ ops.items d, x ∈ ops.items b) →
    ∃ r, ops.margin b (ops.items d) false = Except.ok r ∧ E r ∧
      (∀ x, x ∈ ops.items r ↔ x ∈ ops.items d) ∧ ev r = ev b + τ (ops.items b) (ops.items d)
  mul : ∀ b d, P b → E d → (∀ x ∈ ops.items d, x ∈ ops.items b) →
    ∃ r, ops.mul b d = Except.ok r ∧ P r ∧ ops.items r = ops.items b ∧ ev r = ev b + ev d
  div : ∀ b d, P b → E d → (∀ x ∈ ops.items d, x ∈ ops.items b) →
    ∃ r, ops.div b d = Except.ok r ∧ P r ∧ ops.items r = ops.items b ∧ ev r = ev b - ev d
  proper : ∀ b, P b → ∃ t, ops.isProper b = Except.ok t
  logNorm : ∀ b, P b → ops.logNorm b = Except.ok (ev b + τ (ops.items b) [])

/-- Items of cluster number `k`. -/
def cit (ops : Ops β) (c : CG β) (k : ℕ) : List ℤ := ((c.clusters[k]?).map ops.items).getD []

/-- Items of edge number `k`. -/
def eit (ops : Ops β) (c : CG β) (k : ℕ) : List ℤ :=
  ((c.edges[k]?).map fun e => ops.items e.belief).getD []

theorem cit_eq {ops : Ops β} {c : CG β} {k : ℕ} (h : k < c.clusters.length) :
    cit ops c k = ops.items c.clusters[k] := by simp [cit, h]

theorem eit_eq {ops : Ops β} {c : CG β} {k : ℕ} (h : k < c.edges.length) :
    eit ops c k = ops.items c.edges[k].belief := by simp [eit, h]

/-- Edge number `k` leads from cluster `k` to a later one, and both contain its items. -/
def ChainSub (ops : Ops β) (c : CG β) : Prop :=
  c.clusters.length = c.edges.length + 1 ∧ ∀ (k : ℕ) (h : k < c.edges.length),
    c.edges[k].first = k ∧ ∃ p : ℕ, c.edges[k].second = p ∧ k < p ∧ p < c.clusters.length ∧
      (∀ x ∈ eit ops c k, x ∈ cit ops c k) ∧ ∀ x ∈ eit ops c k, x ∈ cit ops c p

variable {ops : Ops β} {P E : β → Prop} {ev : β → ℝ} {τ : List ℤ → List ℤ → ℝ}

/-- Everything in one message but the test for improper beliefs succeeds. -/
theorem at_ready (A : AtPoint ops P E ev τ) {c : CG β} (hc : ChainSub ops c)
    (hP : ∀ b ∈ c.clusters, P b) {k : ℕ}
    (hE : ∀ l, k ≤ l → (h : l < c.edges.length) → E c.edges[l].belief) (hk : k < c.edges.length) :
    ∃ c' r, (r ∈ c'.clusters ∧ ∀ pr : β → Res Bool,
      passMessage { ops with isProper := pr } c k true false = do
        let proper ← pr r
        if proper then return c' else Res.raise "improper cluster belief after passing message") ∧
      ChainSub ops c' ∧
      (∀ b ∈ c'.clusters, P b) ∧
      (∀ l, k + 1 ≤ l → (h : l < c'.edges.length) → E c'.edges[l].belief) ∧
      c'.edges.length = c.edges.length ∧
      rest ev ev c' (k + 1) = rest ev ev c k + τ (cit ops c k) (eit ops c k) ∧
      (∀ l, cit ops c' l = cit ops c l) ∧ ∀ l, l ≠ k → eit ops c' l = eit ops c l := by
  obtain ⟨hlen, hch⟩ := hc
  obtain ⟨h1, p, h2, hkp, hp, hs1, hs2⟩ := hch k hk
  have hkc : k < c.clusters.length := by omega
  have hPk := hP _ (List.getElem_mem hkc)
  have hPp := hP _ (List.getElem_mem hp)
  have hEk := hE k le_rfl hk
  rw [eit_eq hk, cit_eq hkc] at hs1
  rw [eit_eq hk, cit_eq hp] at hs2
  obtain ⟨b, e1, hb, ib, vb⟩ := A.margin _ _ hPk hEk hs1
  obtain ⟨r1, e2, hr1, i1, v1⟩ := A.mul _ b hPp hb fun x hx => hs2 x ((ib x).mp hx)
  obtain ⟨r2, e3, hr2, i2, v2⟩ := A.div r1 _ hr1 hEk fun x hx => by rw [i1]; exact hs2 x hx
  set c' : CG β := ⟨c.clusters.set p r2, c.edges.set k ⟨(k : ℤ), (p : ℤ), b⟩⟩ with hc'
  have hcit : ∀ l, cit ops c' l = cit ops c l := by
    intro l
    by_cases hl : p = l
    · subst hl
      rw [cit, cit_eq hp]
      simp [hc', hp, i2, i1]
    · simp [cit, hc', hl]
  have heit : ∀ l, l ≠ k → eit ops c' l = eit ops c l := by
    intro l hl
    simp [eit, hc', List.getElem?_set_ne (Ne.symm hl)]
  have heit' : ∀ l x, x ∈ eit ops c' l ↔ x ∈ eit ops c l := by
    intro l x
    by_cases hl : l = k
    · subst hl
      rw [eit_eq hk]
      have : eit ops c' l = ops.items b := by simp [eit, hc', hk]
      rw [this]
      exact ib x
    · rw [heit l hl]
  refine ⟨c', r2, ⟨List.mem_set hp _, fun pr => ?_⟩, ⟨by simpa [hc'] using hlen, ?_⟩, ?_, ?_, by simp [hc'], ?_, hcit, heit⟩
  · rw [passMessage, nth_ok hk]
    simp only [res_ok_bind, ends, if_true]
    rw [h1, h2, atZ_ok hkc]
    simp only [res_ok_bind]
    rw [e1]
    simp only [res_ok_bind]
    rw [setN_ok hk]
    simp only [res_ok_bind]
    rw [atZ_ok hp]
    simp only [res_ok_bind]
    rw [e2]
    simp only [res_ok_bind]
    rw [e3]
    simp only [res_ok_bind]
    rw [setZ_ok hp]
    simp only [res_ok_bind]
    rfl
  · intro l hl
    have hl' : l < c.edges.length := by simpa [hc'] using hl
    obtain ⟨g1, q, g2, g3, g4, g5, g6⟩ := hch l hl'
    have hq : q < c'.clusters.length := by simpa [hc'] using g4
    refine ⟨?_, q, ?_, g3, hq, ?_, ?_⟩
    · simp only [hc', List.getElem_set]
      split
      · rename_i h; subst h; rfl
      · exact g1
    · simp only [hc', List.getElem_set]
      split
      · rename_i h; subst h; exact h2.symm.trans g2
      · exact g2
    · intro x hx
      rw [hcit]
      exact g5 x ((heit' l x).mp hx)
    · intro x hx
      rw [hcit]
      exact g6 x ((heit' l x).mp hx)
  · intro d hd
    rcases mem_set_cases hd with rfl | hd
    · exact hr2
    · exact hP d hd
  · intro l hl h
    simp only [hc', List.getElem_set_ne (show k ≠ l by omega)]
    exact hE l (by omega) (by simpa [hc'] using h)
  · simp only [rest, hc']
    rw [sum_drop_succ ev hkc, sum_drop_succ (fun e : Edge β => ev e.belief) hk]
    rw [List.drop_set_of_lt (by omega : k < k + 1), List.drop_set, if_neg (by omega)]
    rw [sum_set ev _ _ _ (by rw [List.length_drop]; omega)]
    have : (c.clusters.drop (k + 1))[p - (k + 1)]'(by rw [List.length_drop]; omega) =
        c.clusters[p] := by
      rw [List.getElem_drop]
      congr 1
      omega
    rw [this, v2, v1, vb, cit_eq hkc, eit_eq hk]
    ring

theorem at_step (A : AtPoint ops P E ev τ) {c : CG β} (hc : ChainSub ops c)
    (hP : ∀ b ∈ c.clusters, P b) {k : ℕ}
    (hE : ∀ l, k ≤ l → (h : l < c.edges.length) → E c.edges[l].belief) (hk : k < c.edges.length) :
    passMessage ops c k true false = Res.raise "improper cluster belief after passing message" ∨
    ∃ c', passMessage ops c k true false = Except.ok c' ∧ ChainSub ops c' ∧
      (∀ b ∈ c'.clusters, P b) ∧
      (∀ l, k + 1 ≤ l → (h : l < c'.edges.length) → E c'.edges[l].belief) ∧
      c'.edges.length = c.edges.length ∧
      rest ev ev c' (k + 1) = rest ev ev c k + τ (cit ops c k) (eit ops c k) ∧
      (∀ l, cit ops c' l = cit ops c l) ∧ ∀ l, l ≠ k → eit ops c' l = eit ops c l := by
  obtain ⟨c', r, ⟨hr, hrun⟩, hc', hP', hrest⟩ := at_ready A hc hP hE hk
  obtain ⟨t, e⟩ := A.proper r (hP' r hr)
  have h := hrun ops.isProper
  rw [e] at h
  cases t with
  | false => exact Or.inl h
  | true => exact Or.inr ⟨c', h, hc', hP', hrest⟩

theorem at_loop (A : AtPoint ops P E ev τ) : ∀ (m k : ℕ) {c : CG β}, ChainSub ops c →
    (∀ b ∈ c.clusters, P b) →
    (∀ l, k ≤ l → (h : l < c.edges.length) → E c.edges[l].belief) → k + m = c.edges.length →
    (List.range' k m).foldlM (fun c k => passMessage ops c k true false) c =
      Res.raise "improper cluster belief after passing message" ∨
    ∃ c', (List.range' k m).foldlM (fun c k => passMessage ops c k true false) c = Except.ok c' ∧
      ChainSub ops c' ∧ (∀ b ∈ c'.clusters, P b) ∧ c'.edges.length = c.edges.length ∧
      rest ev ev c' (k + m) = rest ev ev c k +
        ((List.range' k m).map fun l => τ (cit ops c l) (eit ops c l)).sum ∧
      ∀ l, cit ops c' l = cit ops c l
  | 0, k, c, hc, hP, _, _ => Or.inr ⟨c, rfl, hc, hP, rfl, by simp, fun _ => rfl⟩
  | m + 1, k, c, hc, hP, hE, hkm => by
    rw [List.range'_succ, List.foldlM_cons]
    rcases at_step A hc hP hE (by omega) with h | ⟨c1, h, hc1, hP1, hE1, l1, r1, n1, o1⟩
    · rw [h]
      exact Or.inl rfl
    · rw [h]
      simp only [res_ok_bind]
      rcases at_loop A m (k + 1) hc1 hP1 hE1 (by omega) with h' | ⟨c2, h', hc2, hP2, l2, r2, n2⟩
      · exact Or.inl h'
      · refine Or.inr ⟨c2, h', hc2, hP2, l2.trans l1, ?_, fun l => (n2 l).trans (n1 l)⟩
        rw [show k + (m + 1) = k + 1 + m by omega, r2, r1, List.map_cons, List.sum_cons]
        have : (List.range' (k + 1) m).map (fun l => τ (cit ops c1 l) (eit ops c1 l)) =
            (List.range' (k + 1) m).map fun l => τ (cit ops c l) (eit ops c l) := by
          refine List.map_congr_left fun l hl => ?_
          have := List.mem_range'.mp hl
          rw [n1, o1 l (by omega)]
        rw [this]
        ring

/-- The forward sweep and the last integral. -/
theorem at_total (A : AtPoint ops P E ev τ) {c : CG β} (hc : ChainSub ops c)
    (hP : ∀ b ∈ c.clusters, P b) (hE : ∀ e ∈ c.edges, E e.belief) :
    (do
      let c' ← calibrateForward ops c
      logNormalizingConstant ops c') =
      Res.raise "improper cluster belief after passing message" ∨
    (do
      let c' ← calibrateForward ops c
      logNormalizingConstant ops c') =
      Except.ok ((c.clusters.map ev).sum - (c.edges.map fun e => ev e.belief).sum +
        ∑ l ∈ Finset.range c.edges.length, τ (cit ops c l) (eit ops c l) +
        τ (cit ops c c.edges.length) []) := by
  rw [calibrateForward, calibrateInternal]
  simp only [if_true]
  rw [List.range_eq_range']
  rcases at_loop A c.edges.length 0 hc hP (fun l _ h => hE _ (List.getElem_mem h)) (by omega)
    with h | ⟨c2, h, hc2, hP2, l2, r2, n2⟩
  · rw [h]
    exact Or.inl rfl
  · rw [h]
    refine Or.inr ?_
    simp only [res_ok_bind]
    have hl : c.edges.length < c2.clusters.length := by rw [hc2.1]; omega
    rw [logNormalizingConstant,
      show ((c2.clusters.length : ℤ) - 1) = ((c.edges.length : ℕ) : ℤ) by rw [hc2.1, l2]; push_cast; ring,
      atZ_ok hl]
    simp only [res_ok_bind]
    rw [A.logNorm _ (hP2 _ (List.getElem_mem hl)), ← cit_eq hl, n2]
    congr 2
    rw [rest, rest, Nat.zero_add, sum_drop_succ ev hl, List.drop_eq_nil_of_le (by rw [hc2.1]; omega),
      List.drop_eq_nil_of_le (by omega), ← List.range_eq_range'] at r2
    have hs : ∑ l ∈ Finset.range c.edges.length, τ (cit ops c l) (eit ops c l) =
        ((List.range c.edges.length).map fun l => τ (cit ops c l) (eit ops c l)).sum := by
      simp [Finset.sum, Finset.range, Multiset.range]
    rw [hs]
    simp only [List.map_nil, List.sum_nil, List.drop_zero] at r2
    linarith

end Verif.ClusterGraph
