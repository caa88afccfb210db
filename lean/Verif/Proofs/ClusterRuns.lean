import Verif.Proofs.ClusterTame

/-! The forward sweep with exact local integrals runs through: the sweep. -/
namespace Verif.ClusterGraph

open Verif.Items Verif.DepGraph MeasureTheory
open scoped ENNReal

/-- Beliefs as functions of their items. -/
abbrev Fn := List ℤ × ((ℤ → ℝ) → ℝ)

/-- Exact integration, but with `δ` added on the log scale each time. -/
noncomputable def noisyOps (δ : ℝ) : Ops (List ℤ × ((ℤ → ℝ) → ℝ)) where
  items := Prod.fst
  ofItems := exactOps.ofItems
  mul := exactOps.mul
  div := exactOps.div
  margin b l na := do
    let r ← exactOps.margin b l na
    return (r.1, fun a => r.2 a + δ)
  logNorm b := do
    let v ← exactOps.logNorm b
    return v + δ
  isProper _ := .ok true

theorem noisyOps_laws (δ : ℝ) : Laws (noisyOps δ) ExactWF Prod.snd where
  items_ofItems := exactOps_laws.items_ofItems
  ofItems_wf := exactOps_laws.ofItems_wf
  ofItems_ev := exactOps_laws.ofItems_ev
  nodup := exactOps_laws.nodup
  mul_ok := exactOps_laws.mul_ok
  div_ok := exactOps_laws.div_ok
  margin_items b l na r hb hl hs h := by
    rcases e : exactOps.margin b l na with err | r'
    · simp only [noisyOps, e] at h
      cases h
    simp only [noisyOps, e] at h
    cases Except.ok.inj h
    obtain ⟨w, i⟩ := exactOps_laws.margin_items b l na r' hb hl hs e
    exact ⟨⟨w.nodup, w.meas.add_const δ, fun a a' haa => by
      show r'.2 a + δ = r'.2 a' + δ
      rw [w.local_ a a' haa]⟩, i⟩

theorem Tame.add_const {T : Finset ℤ} {N : ℤ → ℕ} {f : (ℤ → ℝ) → ℝ} (hf : Tame T N f) (δ : ℝ) :
    Tame T N fun a => f a + δ := by
  obtain ⟨lo, hi, h⟩ := hf
  exact ⟨lo + δ, hi + δ, fun a => by obtain ⟨h1, h2⟩ := h a; constructor <;> linarith⟩

variable {δ : ℝ}

/-- A message returns normally if its margin does. -/
theorem passMessage_runs {c : CG Fn} {k : ℕ} (inv : MsgInv (noisyOps δ) ExactWF c)
    (hk : k < c.edges.length) {i j : ℕ} (hi : i < c.clusters.length) (hj : j < c.clusters.length)
    (hij : ends c.edges[k] true = ((i : ℤ), (j : ℤ)))
    {b : Fn} (hm : (noisyOps δ).margin c.clusters[i] c.edges[k].belief.1 false = Except.ok b) :
    ∃ c', passMessage (noisyOps δ) c k true false = Except.ok c' := by
  rw [passMessage, nth_ok hk]
  simp only [res_ok_bind]
  rw [hij]
  simp only
  rw [atZ_ok hi]
  simp only [res_ok_bind]
  rw [show (noisyOps δ).items c.edges[k].belief = c.edges[k].belief.1 from rfl, hm]
  simp only [res_ok_bind]
  rw [setN_ok hk]
  simp only [res_ok_bind]
  rw [atZ_ok hj]
  simp only [res_ok_bind]
  rw [show (noisyOps δ).mul c.clusters[j] b = Except.ok _ from rfl]
  simp only [res_ok_bind]
  rw [show (noisyOps δ).div _ c.edges[k].belief = Except.ok _ from rfl]
  simp only [res_ok_bind]
  rw [setZ_ok hj]
  simp only [res_ok_bind]
  exact ⟨_, rfl⟩

/-- Before edge `k`: every remaining cluster is tame with powers `N`, and every remaining item has a
positive power in a remaining cluster that contains it. -/
structure Ready (δ : ℝ) (T : Finset ℤ) (c0 c : CG Fn) (k : ℕ) (N : ℕ → ℤ → ℕ) : Prop where
  inv : MsgInv (noisyOps δ) ExactWF c
  items : clusterItems (noisyOps δ) c = clusterItems (noisyOps δ) c0
  len : c.edges.length = c0.edges.length
  rest : ∀ l, k ≤ l → c.edges[l]? = c0.edges[l]?
  tame : ∀ (l : ℕ) (hl : l < c.clusters.length), k ≤ l → Tame T (N l) c.clusters[l].2
  supp : ∀ l x, 1 ≤ N l x → x ∈ cl (noisyOps δ) c0 l
  has : ∀ x ∈ later (clusterItems (noisyOps δ) c0) k, ∃ l, k ≤ l ∧ 1 ≤ N l x

theorem ready_step {T : Finset ℤ} {factors : List (List ℤ)} {c0 c : CG Fn} {k : ℕ}
    {N : ℕ → ℤ → ℕ} (hB : Built (noisyOps δ) factors c0)
    (hE : ∀ e ∈ c0.edges, ∀ a, e.belief.2 a = 0) (hT : ∀ l x, x ∈ cl (noisyOps δ) c0 l → x ∈ T)
    (hk : k < c0.edges.length) (R : Ready δ T c0 c k N) :
    ∃ c' N', passMessage (noisyOps δ) c k true false = Except.ok c' ∧ Ready δ T c0 c' (k + 1) N' := by
  have hlenC : c.clusters.length = c0.clusters.length := by
    have := congrArg List.length R.items
    simpa [clusterItems] using this
  have hkC : k < c.clusters.length := by rw [hlenC, ← hB.len]; omega
  have hke : k < c.edges.length := by rw [R.len]; exact hk
  have hedge : c.edges[k] = c0.edges[k] := by
    have := R.rest k le_rfl
    rw [List.getElem?_eq_getElem hke, List.getElem?_eq_getElem hk] at this
    simpa using this
  obtain ⟨hf, p, hkp, hpn, hs, hps⟩ := hB.edge k hk
  have hpC : p < c.clusters.length := by rw [hlenC]; exact hpn
  have hij : ends c.edges[k] true = ((k : ℤ), (p : ℤ)) := by
    rw [hedge, ClusterGraph.ends, if_pos rfl, hf, hs]
  have he0 : ∀ a, c.edges[k].belief.2 a = 0 := by
    rw [hedge]; exact hE _ (List.getElem_mem hk)
  obtain ⟨v, hv1, hv2, hv3, hv4⟩ := hB.elim k hk
  have hkC0 : k < (clusterItems (noisyOps δ) c0).length := by rw [len_ci, ← hlenC]; exact hkC
  have hitem : c.clusters[k].1 = cl (noisyOps δ) c0 k := by
    rw [← cl_eq hkC0]
    have : (clusterItems (noisyOps δ) c0)[k] =
        (clusterItems (noisyOps δ) c)[k]'(by rw [len_ci]; exact hkC) := by
      simp only [R.items]
    rw [this, clusterItems_get hkC]
    rfl
  have hsepE : c.edges[k].belief.1 = sp (noisyOps δ) c0.edges k := by
    rw [hedge, sp_eq hk]
    rfl
  have hset : c.clusters[k].1.toFinset \ c.edges[k].belief.1.toFinset = {v} := by
    ext x
    rw [hitem, hsepE, Finset.mem_sdiff, List.mem_toFinset, List.mem_toFinset,
      Finset.mem_singleton, hv2 x]
    constructor
    · rintro ⟨h1 | h1, h2⟩
      · exact h1
      · exact absurd h1 h2
    · rintro rfl
      exact ⟨Or.inl rfl, hv1⟩
  have hvk : v ∈ cl (noisyOps δ) c0 k := (hv2 v).2 (Or.inl rfl)
  have hN : 1 ≤ N k v := by
    obtain ⟨l, hl1, hl2⟩ := R.has v (by
      rw [mem_later]
      exact ⟨k, hkC0, le_rfl, by rw [cl_eq hkC0]; exact hvk⟩)
    rcases Nat.lt_or_ge k l with h | h
    · exact absurd (R.supp l v hl2) (hv3 l h)
    · have : l = k := by omega
      rwa [this] at hl2
  have hw := R.inv.wfC _ (List.getElem_mem hkC)
  obtain ⟨h1, h2⟩ := (R.tame k hkC le_rfl).integ hw.meas {v} (N k)
    (by
      intro x hx
      rw [Finset.mem_singleton] at hx
      subst hx
      exact hT k _ hvk) (by
      intro x hx
      rw [Finset.mem_singleton] at hx
      subst hx
      exact hN)
  have hm : (noisyOps δ).margin c.clusters[k] c.edges[k].belief.1 false =
      Except.ok (c.edges[k].belief.1, fun a => logInteg {v} c.clusters[k].2 a + δ) := by
    simp only [noisyOps, exactOps]
    rw [hset, if_pos h1]
    rfl
  obtain ⟨c', hc'⟩ := passMessage_runs R.inv hke hkC hpC hij hm
  obtain ⟨inv', -, hit, -, -⟩ := passMessage_joint (noisyOps_laws δ) R.inv hc'
  obtain ⟨hke', i, j, hi, hj, b, r, hends, hsub, hm', hbw, hrw, hri, hrv, hc1, hc2, -⟩ :=
    passMessage_form (noisyOps_laws δ) R.inv hc'
  rw [hij] at hends
  simp only [Prod.mk.injEq, Nat.cast_inj] at hends
  obtain ⟨rfl, rfl⟩ := hends
  have hb : b = (c.edges[k].belief.1, fun a => logInteg {v} c.clusters[k].2 a + δ) := by
    rw [show (noisyOps δ).items c.edges[k].belief = c.edges[k].belief.1 from rfl, hm] at hm'
    exact (Except.ok.inj hm').symm
  refine ⟨c', fun l => if l = p then N p + fun x => if x ∈ ({v} : Finset ℤ) then 0 else N k x
    else N l, hc', inv', hit.trans R.items, by rw [hc2, List.length_set, R.len], ?_, ?_, ?_, ?_⟩
  · intro l hl
    rw [hc2, List.getElem?_set_ne (by omega)]
    exact R.rest l (by omega)
  · intro l hl hkl
    simp only [hc1]
    by_cases hlp : l = p
    · subst hlp
      rw [if_pos rfl, List.getElem_set_self]
      have : r.2 = fun a => c.clusters[l].2 a + (logInteg {v} c.clusters[k].2 a + δ) := by
        funext a
        rw [hrv a, he0 a, hb, sub_zero]
      rw [this]
      exact (R.tame l hj (by omega)).add (h2.add_const δ)
    · rw [if_neg hlp, List.getElem_set_ne (Ne.symm hlp)]
      rw [hc1, List.length_set] at hl
      exact R.tame l hl (by omega)
  · intro l x hx
    by_cases hlp : l = p
    · subst hlp
      rw [if_pos rfl, Pi.add_apply] at hx
      rcases Nat.eq_zero_or_pos (N l x) with h0 | h0
      · rw [h0, zero_add] at hx
        split_ifs at hx with hxv
        · omega
        · rw [Finset.mem_singleton] at hxv
          rcases (hv2 x).1 (R.supp k x hx) with h3 | h3
          · exact absurd h3 hxv
          · exact hps x h3
      · exact R.supp l x h0
    · rw [if_neg hlp] at hx
      exact R.supp l x hx
  · intro x hx
    rw [mem_later] at hx
    obtain ⟨j', hj', h3, h4⟩ := hx
    have hxv : x ≠ v := by
      rintro rfl
      rw [cl_eq hj'] at h4
      exact hv3 j' (by omega) h4
    obtain ⟨l, hl1, hl2⟩ := R.has x (mem_later.2 ⟨j', hj', by omega, h4⟩)
    rcases Nat.lt_or_ge k l with h | h
    · refine ⟨l, by omega, ?_⟩
      split_ifs with hlp
      · subst hlp
        rw [Pi.add_apply]
        omega
      · exact hl2
    · have : l = k := by omega
      subst this
      refine ⟨p, by omega, ?_⟩
      rw [if_pos rfl, Pi.add_apply, if_neg (by rwa [Finset.mem_singleton])]
      omega

theorem ready_all {T : Finset ℤ} {factors : List (List ℤ)} {c0 : CG Fn}
    (hB : Built (noisyOps δ) factors c0)
    (hE : ∀ e ∈ c0.edges, ∀ a, e.belief.2 a = 0) (hT : ∀ l x, x ∈ cl (noisyOps δ) c0 l → x ∈ T) :
    ∀ (n k : ℕ) (c : CG Fn) (N : ℕ → ℤ → ℕ), k + n = c0.edges.length → Ready δ T c0 c k N →
      ∃ c' N', (List.range' k n).foldlM (fun c k => passMessage (noisyOps δ) c k true false) c =
        Except.ok c' ∧ Ready δ T c0 c' (k + n) N'
  | 0, k, c, N, _, R => ⟨c, N, rfl, R⟩
  | n + 1, k, c, N, hn, R => by
    obtain ⟨c1, N1, e1, R1⟩ := ready_step hB hE hT (by omega) R
    obtain ⟨c2, N2, e2, R2⟩ := ready_all hB hE hT n (k + 1) c1 N1 (by omega) R1
    refine ⟨c2, N2, ?_, by rwa [show k + (n + 1) = k + 1 + n by omega]⟩
    rw [List.range'_succ, List.foldlM_cons, e1, res_ok_bind]
    exact e2

/-- Sequential reduction with exact integrals, up to a constant factor, runs through, whatever the integer arithmetic, if every belief lies
between two multiples of a product of powers of normal densities of its items, and every item has
such a power in some belief. -/
theorem noisy_runs (beliefs : List Fn) (hw : ∀ b ∈ beliefs, ExactWF b) {ar : Arith}
    (har : Suits ar (beliefs.map Prod.fst)) {T : Finset ℤ} (hT : ∀ b ∈ beliefs, ∀ x ∈ b.1, x ∈ T)
    (N : Fn → ℤ → ℕ) (hN : ∀ b ∈ beliefs, Tame T (N b) b.2 ∧ ∀ x, 1 ≤ N b x → x ∈ b.1)
    (hcov : ∀ b ∈ beliefs, ∀ x ∈ b.1, ∃ d ∈ beliefs, 1 ≤ N d x) :
    ∃ c0 c v, ofBeliefs ar (noisyOps δ) beliefs = Except.ok c0 ∧
      calibrateForward (noisyOps δ) c0 = Except.ok c ∧
      logNormalizingConstant (noisyOps δ) c = Except.ok v := by
  have hF : ∀ F ∈ beliefs.map (noisyOps δ).items, F.Nodup := by
    intro F hF
    obtain ⟨b, hbm, rfl⟩ := List.mem_map.mp hF
    exact (hw b hbm).nodup
  obtain ⟨B, hf, g1, g2, g3⟩ := Suits.fits (factors := beliefs.map (noisyOps δ).items) har hF
  obtain ⟨c0, ec, hB, inv, hE, bss, hl, hp, hk, hj⟩ :=
    ofBeliefs_ok (noisyOps_laws δ) beliefs hw hf g1 g2 g3
  have hTc : ∀ l x, x ∈ cl (noisyOps δ) c0 l → x ∈ T := by
    intro l x hx
    obtain ⟨F, hF, hxF⟩ := (hB.items x).1 ⟨l, hx⟩
    obtain ⟨b, hb, rfl⟩ := List.mem_map.1 hF
    exact hT b hb x hxF
  have hmem : ∀ l, ∀ b ∈ bss.getD l [], b ∈ beliefs := by
    intro l b hb
    refine hp.subset (List.mem_flatten.2 ⟨bss.getD l [], ?_, hb⟩)
    rw [List.getD_eq_getElem?_getD] at hb ⊢
    rcases h : bss[l]? with _ | B
    · rw [h] at hb
      simp at hb
    · exact List.mem_of_getElem? h
  have hfac : ∀ l (hl' : l < c0.clusters.length),
      (∀ b ∈ bss.getD l [], ∀ x ∈ b.1, x ∈ c0.clusters[l].1) ∧
      ∀ a, c0.clusters[l].2 a = ((bss.getD l []).map fun b => b.2 a).sum := by
    intro l hl'
    have hb' : bss[l]? = some (bss.getD l []) := by
      rw [List.getD_eq_getElem?_getD, List.getElem?_eq_getElem (by omega)]
      rfl
    obtain ⟨q1, -, q3⟩ := hk l c0.clusters[l] _ (List.getElem?_eq_getElem hl') hb'
    exact ⟨q1, q3⟩
  have hcl : ∀ l (hl' : l < c0.clusters.length), cl (noisyOps δ) c0 l = c0.clusters[l].1 := by
    intro l hl'
    rw [← cl_eq (by rw [len_ci]; exact hl'), clusterItems_get hl']
    rfl
  have R0 : Ready δ T c0 c0 0 fun l x => ((bss.getD l []).map fun b => N b x).sum := by
    refine ⟨inv, rfl, rfl, fun _ _ => rfl, ?_, ?_, ?_⟩
    · intro l hl' _
      rw [show c0.clusters[l].2 = fun a => ((bss.getD l []).map fun b => b.2 a).sum from
        funext (hfac l hl').2]
      exact Tame.sum _ fun b hb => (hN b (hmem l b hb)).1
    · intro l x hx
      have : ∃ b ∈ bss.getD l [], 1 ≤ N b x := by
        by_contra hcon
        push Not at hcon
        have : ((bss.getD l []).map fun b => N b x).sum = 0 := by
          refine List.sum_eq_zero fun y hy => ?_
          obtain ⟨b, hb, rfl⟩ := List.mem_map.1 hy
          have := hcon b hb
          omega
        omega
      obtain ⟨b, hb, hbx⟩ := this
      have hl' : l < c0.clusters.length := by
        by_contra hcon
        rw [List.getD_eq_getElem?_getD, List.getElem?_eq_none (by omega)] at hb
        cases hb
      rw [hcl l hl']
      exact (hfac l hl').1 b hb x ((hN b (hmem l b hb)).2 x hbx)
    · intro x hx
      rw [mem_later] at hx
      obtain ⟨j, hj', -, hxj⟩ := hx
      rw [cl_eq hj'] at hxj
      obtain ⟨F, hFm, hxF⟩ := (hB.items x).1 ⟨j, hxj⟩
      obtain ⟨b, hb, rfl⟩ := List.mem_map.1 hFm
      obtain ⟨d, hd, hdx⟩ := hcov b hb x hxF
      obtain ⟨B', hB', hdB⟩ := List.mem_flatten.1 (hp.symm.subset hd)
      obtain ⟨l, hll, rfl⟩ := List.mem_iff_getElem.1 hB'
      refine ⟨l, Nat.zero_le _, hdx.trans ?_⟩
      rw [List.getD_eq_getElem?_getD, List.getElem?_eq_getElem hll]
      exact List.le_sum_of_mem (List.mem_map_of_mem hdB)
  obtain ⟨c, N', e, R⟩ := ready_all hB hE hTc c0.edges.length 0 c0 _ (by omega) R0
  rw [Nat.zero_add] at R
  have hlenC : c.clusters.length = c0.clusters.length := by
    have := congrArg List.length R.items
    simpa [clusterItems] using this
  have hlast : c0.edges.length < c.clusters.length := by rw [hlenC, ← hB.len]; omega
  have hit : c.clusters[c0.edges.length].1 = cl (noisyOps δ) c0 c0.edges.length := by
    have h0 : c0.edges.length < (clusterItems (noisyOps δ) c0).length := by
      rw [len_ci, ← hlenC]; exact hlast
    rw [← cl_eq h0]
    have : (clusterItems (noisyOps δ) c0)[c0.edges.length] =
        (clusterItems (noisyOps δ) c)[c0.edges.length]'(by rw [len_ci]; exact hlast) := by
      simp only [R.items]
    rw [this, clusterItems_get hlast]
    rfl
  obtain ⟨h1, -⟩ := (R.tame _ hlast le_rfl).integ (R.inv.wfC _ (List.getElem_mem hlast)).meas
    c.clusters[c0.edges.length].1.toFinset _ (by
      intro x hx
      rw [List.mem_toFinset, hit] at hx
      exact hTc _ x hx) (by
      intro x hx
      rw [List.mem_toFinset, hit] at hx
      have h0 : c0.edges.length < (clusterItems (noisyOps δ) c0).length := by
        rw [len_ci, ← hlenC]; exact hlast
      obtain ⟨l, hl1, hl2⟩ := R.has x (mem_later.2 ⟨_, h0, le_rfl, by rw [cl_eq h0]; exact hx⟩)
      have := Built.lt_of_mem (R.supp l x hl2)
      have hll : l = c0.edges.length := by
        have := hB.len
        omega
      rwa [hll] at hl2)
  refine ⟨c0, c, logInteg c.clusters[c0.edges.length].1.toFinset c.clusters[c0.edges.length].2 0 + δ, ec,
    ?_, ?_⟩
  · rw [calibrateForward, calibrateInternal]
    simp only [if_true]
    rw [List.range_eq_range']
    exact e
  · rw [logNormalizingConstant]
    rw [show ((c.clusters.length : ℤ) - 1) = ((c0.edges.length : ℕ) : ℤ) by
      rw [hlenC, ← hB.len]; push_cast; ring, atZ_ok hlast]
    simp only [res_ok_bind]
    simp only [noisyOps, exactOps]
    rw [if_pos (h1 0)]
    rfl

theorem noisyOps_zero : noisyOps 0 = exactOps := by
  have h1 : (noisyOps 0).margin = exactOps.margin := by
    funext b l na
    simp only [noisyOps, add_zero]
    rcases exactOps.margin b l na with e | r <;> rfl
  have h2 : (noisyOps 0).logNorm = exactOps.logNorm := by
    funext b
    simp only [noisyOps, add_zero]
    rcases exactOps.logNorm b with e | r <;> rfl
  show Ops.mk _ _ _ _ (noisyOps 0).margin (noisyOps 0).logNorm _ = _
  rw [h1, h2]
  rfl

/-- Exact sequential reduction runs through, whatever the integer arithmetic, if every belief lies
between two multiples of a product of powers of normal densities of its items, and every item has
such a power in some belief. -/
theorem exact_runs (beliefs : List Fn) (hw : ∀ b ∈ beliefs, ExactWF b) {ar : Arith}
    (har : Suits ar (beliefs.map Prod.fst)) {T : Finset ℤ} (hT : ∀ b ∈ beliefs, ∀ x ∈ b.1, x ∈ T)
    (N : Fn → ℤ → ℕ) (hN : ∀ b ∈ beliefs, Tame T (N b) b.2 ∧ ∀ x, 1 ≤ N b x → x ∈ b.1)
    (hcov : ∀ b ∈ beliefs, ∀ x ∈ b.1, ∃ d ∈ beliefs, 1 ≤ N d x) :
    ∃ c0 c v, ofBeliefs ar exactOps beliefs = Except.ok c0 ∧
      calibrateForward exactOps c0 = Except.ok c ∧
      logNormalizingConstant exactOps c = Except.ok v :=
  noisyOps_zero ▸ noisy_runs beliefs hw har hT N hN hcov

/-! ### A case for C18 -/

/-- A factor of two items: two normal densities and an interaction. -/
noncomputable def cosPair (x y : ℤ) : Fn :=
  ([x, y], fun a => -(a x ^ 2 + a y ^ 2) / 2 + Real.cos (a x - a y))

/-- Four such factors on a 4-cycle. -/
noncomputable def cycle : List Fn := [cosPair 1 2, cosPair 2 3, cosPair 4 3, cosPair 1 4]

theorem cycle_runs (δ : ℝ) : (∀ b ∈ cycle, ExactWF b) ∧ Suits i32 (cycle.map Prod.fst) ∧
    ∃ c0 c v, ofBeliefs i32 (noisyOps δ) cycle = Except.ok c0 ∧
      calibrateForward (noisyOps δ) c0 = Except.ok c ∧
      logNormalizingConstant (noisyOps δ) c = Except.ok v := by
  have hall : ∀ P : Fn → Prop, P (cosPair 1 2) → P (cosPair 2 3) → P (cosPair 4 3) → P (cosPair 1 4) →
      ∀ b ∈ cycle, P b := by
    intro P h1 h2 h3 h4 b hb
    simp only [cycle, List.mem_cons, List.not_mem_nil, or_false] at hb
    rcases hb with rfl | rfl | rfl | rfl <;> assumption
  have hwf : ∀ x y : ℤ, x ≠ y → ExactWF (cosPair x y) := fun x y h => by
    refine ⟨by simpa [cosPair] using h, ?_, fun a a' haa => ?_⟩
    · have hx : Measurable fun a : ℤ → ℝ => a x := measurable_pi_apply x
      have hy : Measurable fun a : ℤ → ℝ => a y := measurable_pi_apply y
      exact (((hx.pow_const 2).add (hy.pow_const 2)).neg.div_const 2).add
        (Real.measurable_cos.comp (hx.sub hy))
    · have h1 := haa x (by simp [cosPair])
      have h2 := haa y (by simp [cosPair])
      simp only [cosPair, h1, h2]
  have htame : ∀ x y : ℤ, x ≠ y → x ∈ ({1, 2, 3, 4} : Finset ℤ) → y ∈ ({1, 2, 3, 4} : Finset ℤ) →
      Tame {1, 2, 3, 4} (fun v => if v ∈ (cosPair x y).1 then 1 else 0) (cosPair x y).2 := by
    intro x y hxy hx hy
    refine ⟨-1, 1, fun a => ?_⟩
    have hsum : ∑ v ∈ ({1, 2, 3, 4} : Finset ℤ), (((if v ∈ (cosPair x y).1 then 1 else 0 : ℕ) : ℕ) : ℝ) *
        a v ^ 2 / 2 = (a x ^ 2 + a y ^ 2) / 2 := by
      have : ∀ v : ℤ, (((if v ∈ (cosPair x y).1 then 1 else 0 : ℕ) : ℕ) : ℝ) * a v ^ 2 / 2 =
          (if v = x then a x ^ 2 / 2 else 0) + if v = y then a y ^ 2 / 2 else 0 := by
        intro v
        by_cases h1 : v = x
        · subst h1
          simp [cosPair, hxy]
        · by_cases h2 : v = y
          · subst h2
            simp [cosPair, h1]
          · simp [cosPair, h1, h2]
      rw [Finset.sum_congr rfl fun v _ => this v, Finset.sum_add_distrib, Finset.sum_ite_eq',
        Finset.sum_ite_eq', if_pos hx, if_pos hy]
      ring
    rw [hsum]
    have h1 := Real.neg_one_le_cos (a x - a y)
    have h2 := Real.cos_le_one (a x - a y)
    constructor <;> simp only [cosPair] <;> linarith
  have hw : ∀ b ∈ cycle, ExactWF b := hall _ (hwf _ _ (by decide)) (hwf _ _ (by decide))
    (hwf _ _ (by decide)) (hwf _ _ (by decide))
  have har : Suits i32 (cycle.map Prod.fst) := Or.inr ⟨rfl, by simp [cycle, cosPair]⟩
  obtain ⟨c0, c, v, h0, h1, h2⟩ := noisy_runs (δ := δ) cycle hw har (T := {1, 2, 3, 4})
    (hall _ (by simp [cosPair]) (by simp [cosPair]) (by simp [cosPair]) (by simp [cosPair]))
    (fun b v => if v ∈ b.1 then 1 else 0)
    (hall _ ⟨htame _ _ (by decide) (by decide) (by decide), fun x h => by by_contra hc; simp [hc] at h⟩
      ⟨htame _ _ (by decide) (by decide) (by decide), fun x h => by by_contra hc; simp [hc] at h⟩
      ⟨htame _ _ (by decide) (by decide) (by decide), fun x h => by by_contra hc; simp [hc] at h⟩
      ⟨htame _ _ (by decide) (by decide) (by decide), fun x h => by by_contra hc; simp [hc] at h⟩)
    (fun b hb x hx => ⟨b, hb, by simp [hx]⟩)
  exact ⟨hw, har, c0, c, v, h0, h1, h2⟩

/-- Four factors on a 4-cycle, with 32-bit integers: exact sequential reduction runs through, and
its value is the integral over all four items. -/
example : ∃ v, (∃ c0 c, ofBeliefs i32 exactOps cycle = Except.ok c0 ∧
      calibrateForward exactOps c0 = Except.ok c ∧
      logNormalizingConstant exactOps c = Except.ok v) ∧
    ENNReal.ofReal (Real.exp v) = lmarginal (fun _ => (volume : Measure ℝ)) {1, 2, 3, 4}
      (fun a => ENNReal.ofReal (Real.exp ((cosPair 1 2).2 a + (cosPair 2 3).2 a + (cosPair 4 3).2 a +
        (cosPair 1 4).2 a))) 0 := by
  obtain ⟨hw, har, c0, c, v, h0, h1, h2⟩ := cycle_runs 0
  rw [noisyOps_zero] at h0 h1 h2
  refine ⟨v, ⟨c0, c, h0, h1, h2⟩, ?_⟩
  have := c18_exact exactOps_laws exactOps_exact cycle hw har h0 h1 h2 0
  rw [this]
  have e1 : (cycle.map exactOps.items).flatten.toFinset = ({1, 2, 3, 4} : Finset ℤ) := by
    simp only [cycle, exactOps, cosPair, List.map_cons, List.map_nil]
    decide
  rw [e1]
  congr 1
  funext a
  simp only [cycle, List.map_cons, List.map_nil, List.sum_cons, List.sum_nil, add_zero]
  congr 2
  ring

end Verif.ClusterGraph
