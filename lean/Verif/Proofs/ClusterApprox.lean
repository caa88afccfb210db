import Verif.Proofs.ClusterExact
import Mathlib.Algebra.BigOperators.Intervals

/-! The forward sweep with local integrals that are only approximately right. -/
namespace Verif.ClusterGraph

open Verif.Items Verif.DepGraph MeasureTheory
open scoped ENNReal

variable {β : Type} {ops : Ops β} {WF : β → Prop} {ev : β → (ℤ → ℝ) → ℝ}

/-- `exp x` as an extended non-negative number. -/
noncomputable abbrev ex (x : ℝ) : ℝ≥0∞ := ENNReal.ofReal (Real.exp x)

theorem ex_add (x y : ℝ) : ex (x + y) = ex x * ex y := by
  rw [ex, Real.exp_add, ENNReal.ofReal_mul (Real.exp_pos _).le]

theorem ex_zero : ex 0 = 1 := by simp [ex]

theorem integ_const_mul {s : Finset ℤ} {r : ℝ≥0∞} (hr : r ≠ ⊤) (f : (ℤ → ℝ) → ℝ≥0∞) (a : ℤ → ℝ) :
    integ s (fun a => r * f a) a = r * integ s f a := by
  simp only [integ, lmarginal]
  rw [lintegral_const_mul' _ _ hr]

/-- A message changes nothing before the cluster it is sent to. -/
theorem passMessage_keeps (L : Laws ops WF ev) {factors : List (List ℤ)} {c0 c c' : CG β} {k : ℕ}
    (hB : Built ops factors c0) (inv : MsgInv ops WF c)
    (hf : c.edges.map (fun e => (e.first, e.second)) = c0.edges.map fun e => (e.first, e.second))
    (h : passMessage ops c k true false = Except.ok c') :
    MsgInv ops WF c' ∧
    (c'.edges.map (fun e => (e.first, e.second)) = c0.edges.map fun e => (e.first, e.second)) ∧
    (∀ l, l ≤ k → c'.clusters[l]? = c.clusters[l]?) ∧
    ∀ l, l ≠ k → c'.edges[l]? = c.edges[l]? := by
  obtain ⟨hke, i, j, hi, hj, b, r, hends, hsub, hm, hbw, hrw, hri, hrv, hc1, hc2, -⟩ :=
    passMessage_form L inv h
  have hlen : c.edges.length = c0.edges.length := by
    have := congrArg List.length hf
    simpa using this
  obtain ⟨hfi, p, hkp, hpn, hs, -⟩ := hB.edge k (by omega)
  have hend : (c.edges[k].first, c.edges[k].second) = (c0.edges[k].first, c0.edges[k].second) := by
    have h1 := congrArg (fun l => l[k]?) hf
    simpa [hke, hlen ▸ hke] using h1
  have hjp : j = p := by
    rw [ClusterGraph.ends, if_pos rfl, hend, hfi, hs] at hends
    simp only [Prod.mk.injEq, Nat.cast_inj] at hends
    exact hends.2.symm
  refine ⟨(passMessage_joint L inv h).1, ?_, fun l hl => ?_, fun l hl => ?_⟩
  · rw [← hf, hc2, List.map_set]
    apply List.ext_getElem?
    intro l
    by_cases hl : k = l
    · subst hl
      rw [List.getElem?_set_self (by simpa using hke)]
      simp [hke]
    · rw [List.getElem?_set_ne hl]
  · rw [hc1, List.getElem?_set_ne (by omega)]
  · rw [hc2, List.getElem?_set_ne (by omega)]

/-- What the rest of the forward sweep, from edge `k` on, leaves as it is. -/
theorem forward_keeps (L : Laws ops WF ev) {factors : List (List ℤ)} {c0 : CG β}
    (hB : Built ops factors c0) : ∀ (n k : ℕ) (c c' : CG β), MsgInv ops WF c →
    c.edges.map (fun e => (e.first, e.second)) = c0.edges.map (fun e => (e.first, e.second)) →
    (List.range' k n).foldlM (fun c k => passMessage ops c k true false) c = Except.ok c' →
    (∀ l, l ≤ k → c'.clusters[l]? = c.clusters[l]?) ∧ ∀ l, l < k → c'.edges[l]? = c.edges[l]?
  | 0, k, c, c', _, _, h => by
    cases h
    exact ⟨fun _ _ => rfl, fun _ _ => rfl⟩
  | n + 1, k, c, c', inv, hf, h => by
    rw [List.range'_succ, List.foldlM_cons] at h
    rcases hp : passMessage ops c k true false with err | c1
    · rw [hp] at h; cases h
    rw [hp] at h
    obtain ⟨inv1, hf1, k1, k2⟩ := passMessage_keeps L hB inv hf hp
    obtain ⟨r1, r2⟩ := forward_keeps L hB n (k + 1) c1 c' inv1 hf1 h
    exact ⟨fun l hl => (r1 l (by omega)).trans (k1 l hl),
      fun l hl => (r2 l (by omega)).trans (k2 l (by omega))⟩

/-- State of the forward sweep before edge `k`: `G` are the functions exact integration would have
given, and the clusters are off by factors between `exp lo` and `exp hi`. -/
structure SweepA (ops : Ops β) (WF : β → Prop) (ev : β → (ℤ → ℝ) → ℝ) (c0 c : CG β) (k : ℕ)
    (G : ℕ → (ℤ → ℝ) → ℝ≥0∞) (lo hi LO HI : ℕ → ℝ) (total : (ℤ → ℝ) → ℝ≥0∞) : Prop where
  inv : MsgInv ops WF c
  items : clusterItems ops c = clusterItems ops c0
  len : c.edges.length = c0.edges.length
  rest : ∀ l, k ≤ l → c.edges[l]? = c0.edges[l]?
  meas : ∀ j, Measurable (G j)
  loc : ∀ j (a a' : ℤ → ℝ), (∀ x ∈ cl ops c0 j, a x = a' x) → G j a = G j a'
  value : integ (later (clusterItems ops c0) k)
    (fun a => ∏ j ∈ Finset.Ico k c0.clusters.length, G j a) = total
  bounds : ∀ j, k ≤ j → (hj : j < c.clusters.length) → ∀ a,
    ex (lo j) * G j a ≤ wt (ev c.clusters[j]) a ∧ wt (ev c.clusters[j]) a ≤ ex (hi j) * G j a
  sumlo : ∑ j ∈ Finset.Ico k c0.clusters.length, lo j = ∑ l ∈ Finset.range k, LO l
  sumhi : ∑ j ∈ Finset.Ico k c0.clusters.length, hi j = ∑ l ∈ Finset.range k, HI l

theorem sweepA_step (L : Laws ops WF ev) {factors : List (List ℤ)}
    {c0 c c' : CG β} {k : ℕ} {G : ℕ → (ℤ → ℝ) → ℝ≥0∞} {lo hi LO HI : ℕ → ℝ}
    {total : (ℤ → ℝ) → ℝ≥0∞} (hB : Built ops factors c0)
    (hE : ∀ e ∈ c0.edges, ∀ a, ev e.belief a = 0) (hk : k < c0.edges.length)
    (S : SweepA ops WF ev c0 c k G lo hi LO HI total)
    (h : passMessage ops c k true false = Except.ok c')
    (hclose : ∀ (h1 : k < c'.clusters.length) (h2 : k < c'.edges.length) a,
      let s := (ops.items c'.clusters[k]).toFinset \ (ops.items c'.edges[k].belief).toFinset
      ex (LO k) * integ s (wt (ev c'.clusters[k])) a ≤ wt (ev c'.edges[k].belief) a ∧
      wt (ev c'.edges[k].belief) a ≤ ex (HI k) * integ s (wt (ev c'.clusters[k])) a) :
    ∃ G' lo' hi', SweepA ops WF ev c0 c' (k + 1) G' lo' hi' LO HI total := by
  have hlenC : c.clusters.length = c0.clusters.length := by
    have := congrArg List.length S.items
    simpa [clusterItems] using this
  have hkC : k < c.clusters.length := by rw [hlenC, ← hB.len]; omega
  obtain ⟨hke, i, j, hi', hj, b, r, hends, hsub, hm, hbw, hrw, hri, hrv, hc1, hc2, -⟩ :=
    passMessage_form L S.inv h
  obtain ⟨inv', hjoint, hit, -, -⟩ := passMessage_joint L S.inv h
  have hedge : c.edges[k] = c0.edges[k] := by
    have := S.rest k le_rfl
    rw [List.getElem?_eq_getElem hke, List.getElem?_eq_getElem hk] at this
    simpa using this
  obtain ⟨hf, p, hkp, hpn, hs, hps⟩ := hB.edge k hk
  have hij : i = k ∧ j = p := by
    rw [hedge, ClusterGraph.ends, if_pos rfl, hf, hs] at hends
    simp only [Prod.mk.injEq, Nat.cast_inj] at hends
    exact ⟨hends.1.symm, hends.2.symm⟩
  obtain ⟨rfl, rfl⟩ := hij
  have he0 : ∀ a, ev c.edges[i].belief a = 0 := by
    rw [hedge]; exact hE _ (List.getElem_mem hk)
  -- the item integrated out
  obtain ⟨v, hv1, hv2, hv3, hv4⟩ := hB.elim i hk
  have hkC0 : i < (clusterItems ops c0).length := by rw [len_ci, ← hlenC]; exact hkC
  have hitem : ops.items c.clusters[i] = cl ops c0 i := by
    rw [← clusterItems_get hkC (by rw [len_ci]; exact hkC), ← cl_eq hkC0]
    simp only [S.items]
  have hsepE : ops.items c.edges[i].belief = sp ops c0.edges i := by
    rw [hedge, sp_eq hk]
  obtain ⟨-, hbi⟩ := L.margin_items _ _ _ _ (S.inv.wfC _ (List.getElem_mem hi'))
    (L.nodup _ (S.inv.wfE _ (List.getElem_mem hke))) hsub hm
  have hset : (ops.items c.clusters[i]).toFinset \ (ops.items b).toFinset = {v} := by
    ext x
    rw [hitem, Finset.mem_sdiff, List.mem_toFinset, List.mem_toFinset, hbi x, hsepE,
      Finset.mem_singleton, hv2 x]
    constructor
    · rintro ⟨h1 | h1, h2⟩
      · exact h1
      · exact absurd h1 h2
    · rintro rfl
      exact ⟨Or.inl rfl, hv1⟩
  -- the message is close to the integral of the cluster
  have hmar : ∀ a, ex (LO i) * integ {v} (wt (ev c.clusters[i])) a ≤ wt (ev b) a ∧
      wt (ev b) a ≤ ex (HI i) * integ {v} (wt (ev c.clusters[i])) a := by
    intro a
    have h1 : i < c'.clusters.length := by rw [hc1, List.length_set]; exact hkC
    have h2 : i < c'.edges.length := by rw [hc2, List.length_set]; exact hke
    have := hclose h1 h2 a
    have e1 : c'.clusters[i] = c.clusters[i] := by
      simp only [hc1]
      exact List.getElem_set_ne (by omega) _
    have e2 : c'.edges[i].belief = b := by
      simp only [hc2, List.getElem_set_self]
    rw [e1, e2, hset] at this
    exact this
  have hvl : v ∉ later (clusterItems ops c0) (i + 1) := by
    rw [mem_later]
    rintro ⟨j', hj', h1, h2⟩
    rw [cl_eq hj'] at h2
    exact hv3 j' (by omega) h2
  have hlater : later (clusterItems ops c0) i = {v} ∪ later (clusterItems ops c0) (i + 1) := by
    ext x
    rw [Finset.mem_union, Finset.mem_singleton, mem_later, mem_later]
    constructor
    · rintro ⟨j', hj', h1, h2⟩
      rcases Nat.lt_or_ge i j' with h3 | h3
      · exact Or.inr ⟨j', hj', h3, h2⟩
      · have : j' = i := by omega
        subst this
        rw [cl_eq hj'] at h2
        rcases (hv2 x).mp h2 with h4 | h4
        · exact Or.inl h4
        · obtain ⟨l, hl, hx⟩ := hv4 x h4
          have hl' : l < (clusterItems ops c0).length := by rw [len_ci]; exact Built.lt_of_mem hx
          exact Or.inr ⟨l, hl', hl, by rw [cl_eq hl']; exact hx⟩
    · rintro (rfl | ⟨j', hj', h1, h2⟩)
      · exact ⟨i, hkC0, le_rfl, by rw [cl_eq hkC0]; exact (hv2 _).mpr (Or.inl rfl)⟩
      · exact ⟨j', hj', by omega, h2⟩
  have hEmeas : Measurable (integ {v} (G i)) := (S.meas i).lmarginal _
  have hEloc : ∀ a a' : ℤ → ℝ, (∀ x ∈ sp ops c0.edges i, a x = a' x) →
      integ {v} (G i) a = integ {v} (G i) a' := by
    intro a a' haa
    simp only [integ, lmarginal]
    refine lintegral_congr fun y => S.loc i _ _ fun x hx => ?_
    by_cases hxv : x = v
    · subst hxv
      simp [Function.updateFinset]
    · have : x ∈ sp ops c0.edges i := ((hv2 x).mp hx).resolve_left hxv
      simp [Function.updateFinset, hxv, haa x this]
  have hjIco : j ∈ Finset.Ico (i + 1) c0.clusters.length := Finset.mem_Ico.2 ⟨by omega, hpn⟩
  have hiC : i < c0.clusters.length := by omega
  refine ⟨fun l a => G l a * (if l = j then integ {v} (G i) a else 1),
    fun l => lo l + (if l = j then lo i + LO i else 0),
    fun l => hi l + (if l = j then hi i + HI i else 0),
    inv', hit.trans S.items, by rw [hc2, List.length_set, S.len], ?_, ?_, ?_, ?_, ?_, ?_, ?_⟩
  · intro l hl
    rw [hc2, List.getElem?_set_ne (by omega)]
    exact S.rest l (by omega)
  · intro l
    by_cases hlj : l = j
    · simp only [hlj, if_true]
      exact (S.meas j).mul hEmeas
    · simp only [hlj, if_false, mul_one]
      exact S.meas l
  · intro l a a' haa
    by_cases hlj : l = j
    · subst hlj
      simp only [if_true]
      rw [S.loc l a a' haa, hEloc a a' fun x hx => haa x (hps x hx)]
    · simp only [hlj, if_false, mul_one]
      exact S.loc l a a' haa
  · rw [← S.value, hlater]
    have hmeas : Measurable fun a => ∏ j ∈ Finset.Ico i c0.clusters.length, G j a :=
      Finset.measurable_fun_prod _ fun l _ => S.meas l
    have hunion := lmarginal_union' (fun _ : ℤ => (volume : Measure ℝ)) _ hmeas
      (Finset.disjoint_singleton_left.mpr hvl)
    simp only [integ] at hunion ⊢
    rw [hunion]
    congr 1
    have h1 : (fun a => ∏ j ∈ Finset.Ico i c0.clusters.length, G j a) =
        fun a => G i a * ∏ j ∈ Finset.Ico (i + 1) c0.clusters.length, G j a := by
      funext a
      rw [Finset.prod_eq_prod_Ico_succ_bot hiC]
    rw [h1]
    have h2 := integ_mul (s := {v})
      (g := fun a => ∏ j ∈ Finset.Ico (i + 1) c0.clusters.length, G j a)
      (S.meas i) (fun a a' haa => by
        refine Finset.prod_congr rfl fun l hl => S.loc l a a' fun x hx => haa x ?_
        rw [Finset.mem_singleton]
        rintro rfl
        exact hv3 l (Finset.mem_Ico.1 hl).1 hx)
    simp only [integ] at h2
    rw [h2]
    funext a
    rw [Finset.prod_mul_distrib, Finset.prod_ite_eq', if_pos hjIco, mul_comm]
  · intro l hl hl' a
    have hl2 : l < c.clusters.length := by rw [hc1, List.length_set] at hl'; exact hl'
    obtain ⟨b1, b2⟩ := S.bounds l (by omega) hl2 a
    by_cases hlj : l = j
    · subst hlj
      have e1 : c'.clusters[l] = r := by
        simp only [hc1, List.getElem_set_self]
      have e2 : wt (ev r) a = wt (ev c.clusters[l]) a * wt (ev b) a := by
        have := congrFun (wt_add (ev c.clusters[l]) (ev b)) a
        rw [← this, wt, wt, hrv a, he0 a, sub_zero]
      obtain ⟨m1, m2⟩ := hmar a
      have n1 : ex (lo i) * integ {v} (G i) a ≤ integ {v} (wt (ev c.clusters[i])) a := by
        rw [← integ_const_mul ENNReal.ofReal_ne_top]
        exact lmarginal_mono (fun a => (S.bounds i le_rfl hkC a).1) a
      have n2 : integ {v} (wt (ev c.clusters[i])) a ≤ ex (hi i) * integ {v} (G i) a := by
        rw [← integ_const_mul ENNReal.ofReal_ne_top]
        exact lmarginal_mono (fun a => (S.bounds i le_rfl hkC a).2) a
      simp only [if_true]
      rw [e1, e2]
      constructor
      · calc ex (lo l + (lo i + LO i)) * (G l a * integ {v} (G i) a)
            = (ex (lo l) * G l a) * (ex (LO i) * (ex (lo i) * integ {v} (G i) a)) := by
              rw [ex_add, ex_add]; ring
          _ ≤ _ := mul_le_mul' b1 ((mul_le_mul' le_rfl n1).trans m1)
      · calc wt (ev c.clusters[l]) a * wt (ev b) a
            ≤ (ex (hi l) * G l a) * (ex (HI i) * (ex (hi i) * integ {v} (G i) a)) :=
              mul_le_mul' b2 (m2.trans (mul_le_mul' le_rfl n2))
          _ = _ := by rw [ex_add, ex_add]; ring
    · have e1 : c'.clusters[l] = c.clusters[l] := by
        simp only [hc1]
        exact List.getElem_set_ne (by omega) _
      simp only [hlj, if_false, mul_one, add_zero]
      rw [e1]
      exact ⟨b1, b2⟩
  · have := S.sumlo
    rw [Finset.sum_eq_sum_Ico_succ_bot hiC] at this
    rw [Finset.sum_add_distrib, Finset.sum_ite_eq', if_pos hjIco, Finset.sum_range_succ, ← this]
    ring
  · have := S.sumhi
    rw [Finset.sum_eq_sum_Ico_succ_bot hiC] at this
    rw [Finset.sum_add_distrib, Finset.sum_ite_eq', if_pos hjIco, Finset.sum_range_succ, ← this]
    ring

/-- The belief on edge `k` of the calibrated graph is, up to factors between `exp LO` and `exp HI`, the
integral of cluster `k`. -/
def Close (ops : Ops β) (ev : β → (ℤ → ℝ) → ℝ) (c : CG β) (LO HI : ℕ → ℝ) (k : ℕ) : Prop :=
  ∀ (h1 : k < c.clusters.length) (h2 : k < c.edges.length) (a : ℤ → ℝ),
    let s := (ops.items c.clusters[k]).toFinset \ (ops.items c.edges[k].belief).toFinset
    ex (LO k) * integ s (wt (ev c.clusters[k])) a ≤ wt (ev c.edges[k].belief) a ∧
    wt (ev c.edges[k].belief) a ≤ ex (HI k) * integ s (wt (ev c.clusters[k])) a

theorem sweepA_all (L : Laws ops WF ev) {factors : List (List ℤ)} {c0 : CG β}
    {LO HI : ℕ → ℝ} {total : (ℤ → ℝ) → ℝ≥0∞} (hB : Built ops factors c0)
    (hE : ∀ e ∈ c0.edges, ∀ a, ev e.belief a = 0) : ∀ (n k : ℕ) (c c' : CG β)
    {G : ℕ → (ℤ → ℝ) → ℝ≥0∞} {lo hi : ℕ → ℝ},
    k + n = c0.edges.length → SweepA ops WF ev c0 c k G lo hi LO HI total →
    c.edges.map (fun e => (e.first, e.second)) = c0.edges.map (fun e => (e.first, e.second)) →
    (List.range' k n).foldlM (fun c k => passMessage ops c k true false) c = Except.ok c' →
    (∀ l, k ≤ l → Close ops ev c' LO HI l) →
    ∃ G' lo' hi', SweepA ops WF ev c0 c' (k + n) G' lo' hi' LO HI total
  | 0, k, c, c', G, lo, hi, _, S, _, h, _ => by
    cases h
    exact ⟨G, lo, hi, S⟩
  | n + 1, k, c, c', G, lo, hi, hn, S, hf, h, hcl => by
    rw [List.range'_succ, List.foldlM_cons] at h
    rcases hp : passMessage ops c k true false with err | c1
    · rw [hp] at h; cases h
    rw [hp] at h
    obtain ⟨inv1, hf1, -, -⟩ := passMessage_keeps L hB S.inv hf hp
    obtain ⟨r1, r2⟩ := forward_keeps L hB n (k + 1) c1 c' inv1 hf1 h
    obtain ⟨G1, lo1, hi1, S1⟩ := sweepA_step L hB hE (by omega) S hp (by
      intro h1 h2 a
      have e1 := r1 k (by omega)
      have e2 := r2 k (by omega)
      rw [List.getElem?_eq_getElem h1] at e1
      rw [List.getElem?_eq_getElem h2] at e2
      obtain ⟨h1', e1⟩ := List.getElem?_eq_some_iff.1 e1
      obtain ⟨h2', e2⟩ := List.getElem?_eq_some_iff.1 e2
      rw [← e1, ← e2]
      exact hcl k le_rfl h1' h2' a)
    have := sweepA_all L hB hE n (k + 1) c1 c' (by omega) S1 hf1 h fun l hl => hcl l (by omega)
    rwa [show k + (n + 1) = k + 1 + n by omega]

/-- The value read off the last cluster, when each message is close to an integral. -/
theorem forward_close (L : Laws ops WF ev) {factors : List (List ℤ)} {c0 c : CG β}
    (hB : Built ops factors c0) (inv : MsgInv ops WF c0)
    (hE : ∀ e ∈ c0.edges, ∀ a, ev e.belief a = 0)
    (hmeas : ∀ b ∈ c0.clusters, Measurable (ev b))
    (hloc : ∀ b ∈ c0.clusters, ∀ a a' : ℤ → ℝ, (∀ x ∈ ops.items b, a x = a' x) → ev b a = ev b a')
    (hc : calibrateForward ops c0 = Except.ok c) {LO HI : ℕ → ℝ} (hcl : ∀ k, Close ops ev c LO HI k)
    {v : ℝ}
    (hlast : ∀ (h : c.edges.length < c.clusters.length) a,
      let b := c.clusters[c.edges.length]
      ex (LO c.edges.length) * integ (ops.items b).toFinset (wt (ev b)) a ≤ ex v ∧
      ex v ≤ ex (HI c.edges.length) * integ (ops.items b).toFinset (wt (ev b)) a) (a : ℤ → ℝ) :
    ex (∑ k ∈ Finset.range c.clusters.length, LO k) *
        integ factors.flatten.toFinset (wt (joint ev c0)) a ≤ ex v ∧
    ex v ≤ ex (∑ k ∈ Finset.range c.clusters.length, HI k) *
        integ factors.flatten.toFinset (wt (joint ev c0)) a := by
  let G : ℕ → (ℤ → ℝ) → ℝ≥0∞ := fun j a => ((c0.clusters[j]?).map fun b => wt (ev b) a).getD 1
  have hG : ∀ j (h : j < c0.clusters.length), G j = wt (ev c0.clusters[j]) := by
    intro j h
    funext a
    simp [G, h]
  have hG' : ∀ j, ¬ j < c0.clusters.length → G j = fun _ => 1 := by
    intro j h
    funext a
    simp only [G]
    rw [List.getElem?_eq_none (by omega)]
    rfl
  have hS0 : SweepA ops WF ev c0 c0 0 G (fun _ => 0) (fun _ => 0) LO HI
      (integ factors.flatten.toFinset (wt (joint ev c0))) := by
    refine ⟨inv, rfl, rfl, fun _ _ => rfl, fun j => ?_, fun j a a' haa => ?_, ?_, ?_, by simp,
      by simp⟩
    · by_cases hj : j < c0.clusters.length
      · rw [hG j hj]
        exact wt_measurable (hmeas _ (List.getElem_mem hj))
      · rw [hG' j hj]
        exact measurable_const
    · by_cases hj : j < c0.clusters.length
      · rw [hG j hj, wt, wt, hloc _ (List.getElem_mem hj) a a' fun x hx => haa x (by
          simpa [cl, hj] using hx)]
      · rw [hG' j hj]
    · have h1 : later (clusterItems ops c0) 0 = factors.flatten.toFinset := by
        ext x
        rw [mem_later, List.mem_toFinset, List.mem_flatten]
        have := hB.items x
        constructor
        · rintro ⟨j, hj, -, hx⟩
          rw [cl_eq hj] at hx
          exact this.mp ⟨j, hx⟩
        · intro hx
          obtain ⟨j, hj⟩ := this.mpr hx
          have hjl : j < (clusterItems ops c0).length := by rw [len_ci]; exact Built.lt_of_mem hj
          exact ⟨j, hjl, Nat.zero_le _, by rw [cl_eq hjl]; exact hj⟩
      rw [h1]
      congr 1
      funext a
      have hz : (c0.edges.map fun e => ev e.belief a).sum = 0 := by
        refine List.sum_eq_zero fun y hy => ?_
        obtain ⟨e, hem, rfl⟩ := List.mem_map.mp hy
        exact hE e hem a
      rw [wt, joint, hz, sub_zero, ← Finset.range_eq_Ico]
      have : ∀ l : List β, ∏ j ∈ Finset.range l.length,
          ((l[j]?).map fun b => wt (ev b) a).getD 1 = ex ((l.map fun b => ev b a).sum) := by
        intro l
        induction l with
        | nil => simp [ex_zero]
        | cons b l ih =>
          rw [List.length_cons, Finset.prod_range_succ', List.map_cons, List.sum_cons, add_comm,
            ex_add, ← ih]
          simp [wt]
      exact this c0.clusters
    · intro j _ hj a
      rw [hG j hj, ex_zero, one_mul]
      exact ⟨le_rfl, le_rfl⟩
  rw [calibrateForward, calibrateInternal] at hc
  simp only [if_true] at hc
  rw [List.range_eq_range'] at hc
  obtain ⟨G', lo, hi, S⟩ := sweepA_all L hB hE c0.edges.length 0 c0 c (by omega) hS0 rfl hc
    fun l _ => hcl l
  rw [Nat.zero_add] at S
  have hlenC : c.clusters.length = c0.clusters.length := by
    have := congrArg List.length S.items
    simpa [clusterItems] using this
  have hl0 : c0.edges.length < c.clusters.length := by rw [hlenC, ← hB.len]; omega
  have hl := hlast (by rw [S.len]; exact hl0) a
  simp only [S.len] at hl
  have hn : c0.clusters.length = c0.edges.length + 1 := hB.len.symm
  have hslo := S.sumlo
  have hshi := S.sumhi
  have hval := S.value
  rw [hn] at hslo hshi hval
  simp only [Nat.Ico_succ_singleton, Finset.sum_singleton, Finset.prod_singleton] at hslo hshi hval
  have hdrop : c.clusters.drop c0.edges.length = [c.clusters[c0.edges.length]] := by
    rw [List.drop_eq_getElem_cons hl0, List.drop_of_length_le (by rw [hlenC, ← hB.len])]
  have hlat : later (clusterItems ops c0) c0.edges.length =
      (ops.items c.clusters[c0.edges.length]).toFinset := by
    rw [later, ← S.items, clusterItems, ← List.map_drop, hdrop]
    simp
  rw [hlat] at hval
  rw [hlenC, hn, Finset.sum_range_succ, Finset.sum_range_succ, ← hslo, ← hshi, ← hval]
  have n1 : ex (lo c0.edges.length) * integ (ops.items c.clusters[c0.edges.length]).toFinset
      (G' c0.edges.length) a ≤ integ (ops.items c.clusters[c0.edges.length]).toFinset
        (wt (ev c.clusters[c0.edges.length])) a := by
    rw [← integ_const_mul ENNReal.ofReal_ne_top]
    exact lmarginal_mono (fun a => (S.bounds _ le_rfl hl0 a).1) a
  have n2 : integ (ops.items c.clusters[c0.edges.length]).toFinset
        (wt (ev c.clusters[c0.edges.length])) a ≤
      ex (hi c0.edges.length) * integ (ops.items c.clusters[c0.edges.length]).toFinset
      (G' c0.edges.length) a := by
    rw [← integ_const_mul ENNReal.ofReal_ne_top]
    exact lmarginal_mono (fun a => (S.bounds _ le_rfl hl0 a).2) a
  constructor
  · rw [add_comm, ex_add, mul_assoc]
    exact (mul_le_mul' le_rfl n1).trans hl.1
  · rw [add_comm, ex_add, mul_assoc]
    exact hl.2.trans (mul_le_mul' le_rfl n2)

end Verif.ClusterGraph
