import Verif.Proofs.ClusterMsg
import Mathlib.MeasureTheory.Integral.Marginal
import Mathlib.MeasureTheory.Measure.Lebesgue.Basic
import Mathlib.Analysis.SpecialFunctions.Exp
import Mathlib.MeasureTheory.Function.SpecialFunctions.Basic

/-! The forward sweep with exact local integrals. -/
namespace Verif.ClusterGraph

open Verif.Items Verif.DepGraph MeasureTheory
open scoped ENNReal

variable {β : Type} {ops : Ops β} {WF : β → Prop} {ev : β → (ℤ → ℝ) → ℝ}

/-- What a message that returns normally has done. -/
theorem passMessage_form (L : Laws ops WF ev) {c c' : CG β} {k : ℕ} {fw na : Bool}
    (inv : MsgInv ops WF c) (h : passMessage ops c k fw na = Except.ok c') :
    ∃ (hk : k < c.edges.length) (i j : ℕ) (hi : i < c.clusters.length)
      (hj : j < c.clusters.length) (b r : β),
      ends c.edges[k] fw = ((i : ℤ), (j : ℤ)) ∧
      (∀ x ∈ ops.items c.edges[k].belief, x ∈ ops.items c.clusters[i]) ∧
      ops.margin c.clusters[i] (ops.items c.edges[k].belief) na = Except.ok b ∧
      WF b ∧ WF r ∧ ops.items r = ops.items c.clusters[j] ∧
      (∀ a, ev r a = ev c.clusters[j] a + ev b a - ev c.edges[k].belief a) ∧
      c'.clusters = c.clusters.set j r ∧
      c'.edges = c.edges.set k ⟨c.edges[k].first, c.edges[k].second, b⟩ ∧
      (∀ x ∈ ops.items c.edges[k].belief, x ∈ ops.items c.clusters[j]) ∧
      ∃ r1, ops.mul c.clusters[j] b = Except.ok r1 ∧
        ops.div r1 c.edges[k].belief = Except.ok r := by
  rw [passMessage] at h
  by_cases hk : k < c.edges.length
  swap
  · rw [nth, List.getElem?_eq_none (by omega)] at h
    cases h
  rw [nth_ok hk] at h
  simp only [res_ok_bind] at h
  have hem : c.edges[k] ∈ c.edges := List.getElem_mem hk
  obtain ⟨i0, j0, hi0, hj0, hf, hs, hsi, hsj⟩ := inv.ends _ hem
  obtain ⟨i, j, hi, hj, hij, hci, hcj⟩ : ∃ (i j : ℕ) (hi : i < c.clusters.length)
      (hj : j < c.clusters.length), ends c.edges[k] fw = ((i : ℤ), (j : ℤ)) ∧
      (∀ x ∈ ops.items c.edges[k].belief, x ∈ ops.items c.clusters[i]) ∧
      ∀ x ∈ ops.items c.edges[k].belief, x ∈ ops.items c.clusters[j] := by
    cases fw with
    | true => exact ⟨i0, j0, hi0, hj0, by simp [ClusterGraph.ends, hf, hs], hsi, hsj⟩
    | false => exact ⟨j0, i0, hj0, hi0, by simp [ClusterGraph.ends, hf, hs], hsj, hsi⟩
  rw [hij] at h
  simp only at h
  rw [atZ_ok hi] at h
  simp only [res_ok_bind] at h
  have hwe : WF c.edges[k].belief := inv.wfE _ hem
  rcases hm : ops.margin c.clusters[i] (ops.items c.edges[k].belief) na with err | b
  · rw [hm] at h; cases h
  rw [hm] at h
  simp only [res_ok_bind] at h
  obtain ⟨hbw, hbi⟩ := L.margin_items _ _ _ _ (inv.wfC _ (List.getElem_mem hi))
    (L.nodup _ hwe) hci hm
  rw [setN_ok hk] at h
  simp only [res_ok_bind] at h
  rw [atZ_ok hj] at h
  simp only [res_ok_bind] at h
  have hwj := inv.wfC _ (List.getElem_mem hj)
  obtain ⟨r1, e1, w1, i1, v1⟩ := L.mul_ok _ b hwj hbw fun x hx => hcj x ((hbi x).mp hx)
  rw [e1] at h
  simp only [res_ok_bind] at h
  obtain ⟨r2, e2, w2, i2, v2⟩ := L.div_ok r1 c.edges[k].belief w1 hwe fun x hx => by
    rw [i1]; exact hcj x hx
  rw [e2] at h
  simp only [res_ok_bind] at h
  rw [setZ_ok hj] at h
  simp only [res_ok_bind] at h
  rcases hpr : ops.isProper r2 with err | pr
  · rw [hpr] at h; cases h
  rw [hpr] at h
  simp only [res_ok_bind] at h
  cases pr with
  | false => cases h
  | true =>
    simp only [if_true, res_pure] at h
    cases h
    exact ⟨hk, i, j, hi, hj, b, r2, hij, hci, hm, hbw, w2, i2.trans i1,
      fun a => by rw [v2 a, v1 a], rfl, rfl, hcj, r1, e1, e2⟩

/-- The non-negative function represented by a log value. -/
noncomputable def wt (f : (ℤ → ℝ) → ℝ) (a : ℤ → ℝ) : ℝ≥0∞ := ENNReal.ofReal (Real.exp (f a))

/-- Integral over the items `s` (Lebesgue measure in each), as a function of the others. -/
noncomputable abbrev integ (s : Finset ℤ) (f : (ℤ → ℝ) → ℝ≥0∞) : (ℤ → ℝ) → ℝ≥0∞ :=
  lmarginal (fun _ => (volume : Measure ℝ)) s f

/-- Exact local operations: log values depend only on a belief's own items and are measurable;
a margin that is returned is the log of the exact integral over the items that are left out, and
the normalising constant the log of the exact integral over all items. -/
structure ExactLaws (ops : Ops β) (WF : β → Prop) (ev : β → (ℤ → ℝ) → ℝ) : Prop where
  local_ : ∀ b, WF b → ∀ a a' : ℤ → ℝ, (∀ x ∈ ops.items b, a x = a' x) → ev b a = ev b a'
  meas : ∀ b, WF b → Measurable (ev b)
  margin_exact : ∀ b l r, WF b → l.Nodup → (∀ x ∈ l, x ∈ ops.items b) →
    ops.margin b l false = Except.ok r → ∀ a,
      wt (ev r) a = integ ((ops.items b).toFinset \ l.toFinset) (wt (ev b)) a
  logNorm_exact : ∀ b v, WF b → ops.logNorm b = Except.ok v → ∀ a,
    ENNReal.ofReal (Real.exp v) = integ (ops.items b).toFinset (wt (ev b)) a

theorem wt_measurable {f : (ℤ → ℝ) → ℝ} (hf : Measurable f) : Measurable (wt f) :=
  (Real.measurable_exp.comp hf).ennreal_ofReal

theorem wt_add (f g : (ℤ → ℝ) → ℝ) : wt (fun a => f a + g a) = fun a => wt f a * wt g a := by
  funext a
  rw [wt, Real.exp_add, ENNReal.ofReal_mul (Real.exp_pos _).le]
  rfl

theorem integ_mul {s : Finset ℤ} {f g : (ℤ → ℝ) → ℝ≥0∞} (hf : Measurable f)
    (hg : ∀ a a' : ℤ → ℝ, (∀ x ∉ s, a x = a' x) → g a = g a') :
    integ s (fun a => f a * g a) = fun a => integ s f a * g a := by
  funext a
  simp only [integ, lmarginal]
  rw [← lintegral_mul_const]
  · refine lintegral_congr fun y => ?_
    congr 1
    refine hg _ _ fun x hx => ?_
    simp [Function.updateFinset, hx]
  · exact hf.comp (measurable_updateFinset)

theorem measurable_sum {f : β → (ℤ → ℝ) → ℝ} : ∀ (l : List β), (∀ b ∈ l, Measurable (f b)) →
    Measurable fun a => (l.map fun b => f b a).sum
  | [], _ => by simp
  | b :: l, h => by
    simp only [List.map_cons, List.sum_cons]
    exact (h b (by simp)).add (measurable_sum l fun b' hb' => h b' (by simp [hb']))

theorem local_sum {f : β → (ℤ → ℝ) → ℝ} {a a' : ℤ → ℝ} (l : List β)
    (h : ∀ b ∈ l, f b a = f b a') : (l.map fun b => f b a).sum = (l.map fun b => f b a').sum := by
  congr 1
  exact List.map_congr_left h

/-- Items of the clusters from number `k` on. -/
def later (C : List (List ℤ)) (k : ℕ) : Finset ℤ := (C.drop k).flatten.toFinset

theorem mem_later {C : List (List ℤ)} {k : ℕ} {x : ℤ} :
    x ∈ later C k ↔ ∃ (j : ℕ) (hj : j < C.length), k ≤ j ∧ x ∈ C[j] := by
  rw [later, List.mem_toFinset, List.mem_flatten]
  constructor
  · rintro ⟨l, hl, hx⟩
    obtain ⟨i, hi, rfl⟩ := List.mem_iff_getElem.mp hl
    rw [List.length_drop] at hi
    rw [List.getElem_drop] at hx
    exact ⟨k + i, by omega, by omega, hx⟩
  · rintro ⟨j, hj, hkj, hx⟩
    refine ⟨C[j], ?_, hx⟩
    rw [List.mem_iff_getElem]
    refine ⟨j - k, by rw [List.length_drop]; omega, ?_⟩
    rw [List.getElem_drop]
    congr 1
    omega

/-- State of the forward sweep before edge `k`. -/
structure Sweep (ops : Ops β) (WF : β → Prop) (ev : β → (ℤ → ℝ) → ℝ) (c0 c : CG β) (k : ℕ)
    (total : (ℤ → ℝ) → ℝ≥0∞) : Prop where
  inv : MsgInv ops WF c
  items : clusterItems ops c = clusterItems ops c0
  len : c.edges.length = c0.edges.length
  rest : ∀ l, k ≤ l → c.edges[l]? = c0.edges[l]?
  value : integ (later (clusterItems ops c0) k)
    (wt fun a => ((c.clusters.drop k).map fun b => ev b a).sum) = total

theorem clusterItems_get {c : CG β} {k : ℕ} (hk : k < c.clusters.length)
    (hk' : k < (clusterItems ops c).length) :
    (clusterItems ops c)[k] = ops.items c.clusters[k] := by
  simp [clusterItems]

theorem sweep_step (L : Laws ops WF ev) (X : ExactLaws ops WF ev) {factors : List (List ℤ)}
    {c0 c c' : CG β} {k : ℕ} {total : (ℤ → ℝ) → ℝ≥0∞} (hB : Built ops factors c0)
    (hE : ∀ e ∈ c0.edges, ∀ a, ev e.belief a = 0) (hk : k < c0.edges.length)
    (S : Sweep ops WF ev c0 c k total) (h : passMessage ops c k true false = Except.ok c') :
    Sweep ops WF ev c0 c' (k + 1) total := by
  have hlenC : c.clusters.length = c0.clusters.length := by
    have := congrArg List.length S.items
    simpa [clusterItems] using this
  have hkC : k < c.clusters.length := by rw [hlenC, ← hB.len]; omega
  obtain ⟨hke, i, j, hi, hj, b, r, hends, hsub, hm, hbw, hrw, hri, hrv, hc1, hc2, -⟩ :=
    passMessage_form L S.inv h
  obtain ⟨inv', hjoint, hit, -, -⟩ := passMessage_joint L S.inv h
  have hedge : c.edges[k] = c0.edges[k] := by
    have := S.rest k le_rfl
    rw [List.getElem?_eq_getElem hke, List.getElem?_eq_getElem hk] at this
    simpa using this
  obtain ⟨hf, p, hkp, hpn, hs, hps⟩ := hB.edge k hk
  have hij : i = k ∧ j = p := by
    rw [hedge, ClusterGraph.ends, if_pos rfl, hf, hs] at hends
    simp only [Prod.mk.injEq, Nat.cast_inj] at hends
    exact ⟨hends.1.symm, hends.2.symm⟩
  obtain ⟨rfl, rfl⟩ := hij
  have he0 : ∀ a, ev c.edges[i].belief a = 0 := by
    rw [hedge]; exact hE _ (List.getElem_mem hk)
  -- the item integrated out
  obtain ⟨v, hv1, hv2, hv3, hv4⟩ := hB.elim i hk
  have hkC0 : i < (clusterItems ops c0).length := by rw [len_ci, ← hlenC]; exact hkC
  have hitem : ops.items c.clusters[i] = cl ops c0 i := by
    rw [← clusterItems_get hkC (by rw [len_ci]; exact hkC), ← cl_eq hkC0]
    simp only [S.items]
  have hsepE : ops.items c.edges[i].belief = sp ops c0.edges i := by
    rw [hedge, sp_eq hk]
  have hset : (ops.items c.clusters[i]).toFinset \ (ops.items c.edges[i].belief).toFinset = {v} := by
    ext x
    rw [hitem, hsepE, Finset.mem_sdiff, List.mem_toFinset, List.mem_toFinset,
      Finset.mem_singleton, hv2 x]
    constructor
    · rintro ⟨h1 | h1, h2⟩
      · exact h1
      · exact absurd h1 h2
    · rintro rfl
      exact ⟨Or.inl rfl, hv1⟩
  have hmar : wt (ev b) = integ {v} (wt (ev c.clusters[i])) := by
    funext a
    rw [X.margin_exact _ _ _ (S.inv.wfC _ (List.getElem_mem hkC))
      (L.nodup _ (S.inv.wfE _ (List.getElem_mem hke))) hsub hm a, hset]
  have hvl : v ∉ later (clusterItems ops c0) (i + 1) := by
    rw [mem_later]
    rintro ⟨j', hj', h1, h2⟩
    rw [cl_eq hj'] at h2
    exact hv3 j' (by omega) h2
  have hlater : later (clusterItems ops c0) i = {v} ∪ later (clusterItems ops c0) (i + 1) := by
    ext x
    rw [Finset.mem_union, Finset.mem_singleton, mem_later, mem_later]
    constructor
    · rintro ⟨j', hj', h1, h2⟩
      rcases Nat.lt_or_ge i j' with h3 | h3
      · exact Or.inr ⟨j', hj', h3, h2⟩
      · have : j' = i := by omega
        subst this
        rw [cl_eq hj'] at h2
        rcases (hv2 x).mp h2 with h4 | h4
        · exact Or.inl h4
        · obtain ⟨l, hl, hx⟩ := hv4 x h4
          have hl' : l < (clusterItems ops c0).length := by rw [len_ci]; exact Built.lt_of_mem hx
          exact Or.inr ⟨l, hl', hl, by rw [cl_eq hl']; exact hx⟩
    · rintro (rfl | ⟨j', hj', h1, h2⟩)
      · exact ⟨i, hkC0, le_rfl, by rw [cl_eq hkC0]; exact (hv2 _).mpr (Or.inl rfl)⟩
      · exact ⟨j', hj', by omega, h2⟩
  -- later clusters do not involve `v`
  have hrestlocal : ∀ d ∈ c.clusters.drop (i + 1), ∀ a a' : ℤ → ℝ, (∀ x ∉ ({v} : Finset ℤ),
      a x = a' x) → ev d a = ev d a' := by
    intro d hd a a' haa
    refine X.local_ d (S.inv.wfC d (List.mem_of_mem_drop hd)) a a' fun x hx => haa x ?_
    rw [Finset.mem_singleton]
    rintro rfl
    obtain ⟨m, hm', rfl⟩ := List.mem_iff_getElem.mp hd
    rw [List.length_drop] at hm'
    rw [List.getElem_drop] at hx
    apply hvl
    rw [mem_later]
    have hl1 : i + 1 + m < (clusterItems ops c0).length := by rw [len_ci, ← hlenC]; omega
    refine ⟨i + 1 + m, hl1, by omega, ?_⟩
    have : (clusterItems ops c0)[i + 1 + m] = ops.items c.clusters[i + 1 + m] := by
      rw [← clusterItems_get (by omega) (by rw [len_ci]; omega)]
      simp only [S.items]
    rw [this]
    exact hx
  refine ⟨inv', hit.trans S.items, by rw [hc2, List.length_set, S.len], ?_, ?_⟩
  · intro l hl
    rw [hc2, List.getElem?_set_ne (by omega)]
    exact S.rest l (by omega)
  · rw [← S.value, hlater]
    have hdrop : c.clusters.drop i = c.clusters[i] :: c.clusters.drop (i + 1) :=
      List.drop_eq_getElem_cons hkC
    have hmeas : Measurable fun a => ((c.clusters.drop i).map fun b => ev b a).sum :=
      measurable_sum _ fun d hd => X.meas d (S.inv.wfC d (List.mem_of_mem_drop hd))
    have hunion := lmarginal_union' (fun _ : ℤ => (volume : Measure ℝ))
      (wt fun a => ((c.clusters.drop i).map fun b => ev b a).sum) (wt_measurable hmeas)
      (Finset.disjoint_singleton_left.mpr hvl)
    simp only [integ] at hunion ⊢
    rw [hunion]
    congr 1
    have h1 : (wt fun a => ((c.clusters.drop i).map fun b => ev b a).sum) =
        fun a => wt (ev c.clusters[i]) a *
          wt (fun a => ((c.clusters.drop (i + 1)).map fun b => ev b a).sum) a := by
      rw [← wt_add]
      simp only [hdrop, List.map_cons, List.sum_cons]
    rw [h1]
    have h2 := integ_mul (s := {v})
      (g := wt (fun a => ((c.clusters.drop (i + 1)).map fun b => ev b a).sum))
      (wt_measurable (X.meas _ (S.inv.wfC _ (List.getElem_mem hkC)))) (fun a a' haa => by
        rw [wt, wt, local_sum _ fun d hd => hrestlocal d hd a a' haa])
    simp only [integ] at h2
    rw [h2]
    have h3 : (fun a => ((c'.clusters.drop (i + 1)).map fun b => ev b a).sum) =
        fun a => ev b a + ((c.clusters.drop (i + 1)).map fun b => ev b a).sum := by
      funext a
      rw [hc1, List.drop_set, if_neg (by omega)]
      have hj' : j - (i + 1) < (c.clusters.drop (i + 1)).length := by
        rw [List.length_drop]; omega
      rw [sum_set (fun b => ev b a) _ _ r hj', List.getElem_drop, hrv a, he0 a]
      have hjj : i + 1 + (j - (i + 1)) = j := by omega
      simp only [hjj]
      ring
    rw [h3, wt_add, hmar]

theorem sweep_all (L : Laws ops WF ev) (X : ExactLaws ops WF ev) {factors : List (List ℤ)}
    {c0 : CG β} {total : (ℤ → ℝ) → ℝ≥0∞} (hB : Built ops factors c0)
    (hE : ∀ e ∈ c0.edges, ∀ a, ev e.belief a = 0) : ∀ (n k : ℕ) (c c' : CG β),
    k + n = c0.edges.length → Sweep ops WF ev c0 c k total →
    (List.range' k n).foldlM (fun c k => passMessage ops c k true false) c = Except.ok c' →
    Sweep ops WF ev c0 c' (k + n) total
  | 0, k, c, c', _, S, h => by
    cases h
    exact S
  | n + 1, k, c, c', hn, S, h => by
    rw [List.range'_succ, List.foldlM_cons] at h
    rcases hp : passMessage ops c k true false with err | c1
    · rw [hp] at h; cases h
    rw [hp] at h
    have S1 := sweep_step L X hB hE (by omega) S hp
    have := sweep_all L X hB hE n (k + 1) c1 c' (by omega) S1 h
    rwa [show k + (n + 1) = k + 1 + n by omega]

/-- The value read off the last cluster after an exact forward sweep. -/
theorem forward_exact (L : Laws ops WF ev) (X : ExactLaws ops WF ev) {factors : List (List ℤ)}
    {c0 c : CG β} (hB : Built ops factors c0) (inv : MsgInv ops WF c0)
    (hE : ∀ e ∈ c0.edges, ∀ a, ev e.belief a = 0)
    (hc : calibrateForward ops c0 = Except.ok c) {v : ℝ}
    (hv : logNormalizingConstant ops c = Except.ok v) (a : ℤ → ℝ) :
    ENNReal.ofReal (Real.exp v) = integ factors.flatten.toFinset (wt (joint ev c0)) a := by
  have hS0 : Sweep ops WF ev c0 c0 0 (integ factors.flatten.toFinset (wt (joint ev c0))) := by
    refine ⟨inv, rfl, rfl, fun _ _ => rfl, ?_⟩
    have h1 : later (clusterItems ops c0) 0 = factors.flatten.toFinset := by
      ext x
      rw [mem_later, List.mem_toFinset, List.mem_flatten]
      have := hB.items x
      constructor
      · rintro ⟨j, hj, -, hx⟩
        rw [cl_eq hj] at hx
        exact this.mp ⟨j, hx⟩
      · intro hx
        obtain ⟨j, hj⟩ := this.mpr hx
        have hjl : j < (clusterItems ops c0).length := by rw [len_ci]; exact Built.lt_of_mem hj
        exact ⟨j, hjl, Nat.zero_le _, by rw [cl_eq hjl]; exact hj⟩
    rw [h1]
    congr 1
    congr 1
    funext a
    have hz : (c0.edges.map fun e => ev e.belief a).sum = 0 := by
      refine List.sum_eq_zero fun y hy => ?_
      obtain ⟨e, hem, rfl⟩ := List.mem_map.mp hy
      exact hE e hem a
    rw [joint, hz, sub_zero, List.drop_zero]
  rw [calibrateForward, calibrateInternal] at hc
  simp only [if_true] at hc
  rw [List.range_eq_range'] at hc
  have S := sweep_all L X hB hE c0.edges.length 0 c0 c (by omega) hS0 hc
  rw [Nat.zero_add] at S
  have hlenC : c.clusters.length = c0.clusters.length := by
    have := congrArg List.length S.items
    simpa [clusterItems] using this
  have hlast : c0.edges.length < c.clusters.length := by rw [hlenC, ← hB.len]; omega
  rw [logNormalizingConstant] at hv
  rw [show ((c.clusters.length : ℤ) - 1) = ((c0.edges.length : ℕ) : ℤ) by
    rw [hlenC, ← hB.len]; push_cast; ring, atZ_ok hlast] at hv
  simp only [res_ok_bind] at hv
  have hval := X.logNorm_exact _ v (S.inv.wfC _ (List.getElem_mem hlast)) hv a
  rw [hval, ← S.value]
  have hdrop : c.clusters.drop c0.edges.length = [c.clusters[c0.edges.length]] := by
    rw [List.drop_eq_getElem_cons hlast, List.drop_of_length_le (by rw [hlenC, ← hB.len])]
  have hl : later (clusterItems ops c0) c0.edges.length =
      (ops.items c.clusters[c0.edges.length]).toFinset := by
    rw [later, ← S.items, clusterItems, ← List.map_drop, hdrop]
    simp
  rw [hl]
  congr 2
  funext a
  rw [hdrop]
  simp

end Verif.ClusterGraph
