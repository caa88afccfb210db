import Verif.Proofs.SRSingle
import Verif.Proofs.SingleInit
import Verif.Proofs.StoreFree
import Verif.Props.NormalApprox

/-! The whole of `computeLogNormalizingConstant` on beliefs with at most one item each. -/
namespace Verif.SR

open Verif.Gauss Verif.Belief Verif.ClusterGraph Verif.Store Verif.Pars Verif.Items Verif.TreeForms Matrix

section General

variable {γ : Type} {fo : FactorOps γ} {GWF : γ → Prop} {F : γ → List ℝ → ℝ} {st : Store γ NB}
  {N n : ℕ} {C S : ℕ → Set ℤ} {p : ℕ → ℕ} {mean : Fin N → ℝ} {Q : Matrix (Fin N) (Fin N) ℝ}

theorem MsgInv.mono {β : Type} {ops : Ops β} {W W' : β → Prop} (h : ∀ b, W b → W' b) {c : CG β}
    (inv : MsgInv ops W c) : MsgInv ops W' c :=
  ⟨fun b hb => h b (inv.wfC b hb), fun e he => h _ (inv.wfE e he), inv.ends⟩

/-- A normal-only schedule on a graph whose edges have no factors keeps the factors of every
cluster; the test for improper beliefs gives a `good` result. -/
theorem schedule_run (L : FLaws fo GWF F) (hst : StoreLaw fo GWF st)
    {R : (ℤ → ℝ) → ℝ} {μ : ℤ → ℝ} {V : ℕ → (ℤ → ℝ) → ℝ} {good : Bool → Prop}
    (hQ : ∀ j ≤ n, ∀ a, (∃ x ∈ C j, a x ≠ 0) → 0 < R a)
    (hgood : ∀ c1, NInv fo GWF st n C S p R μ c1 → (∀ l a, vc fo F c1 l a = V l a) →
      ∀ b ∈ c1.clusters, ∀ t, b.isProper fo NB.ops = Except.ok t → good t) :
    ∀ (ms : List Msg) {c : CG (Mixed γ NB)}, NInv fo GWF st n C S p R μ c →
      (∀ l a, vc fo F c l a = V l a) → (∀ l a, ve fo F c l a = 0) →
      (∀ m ∈ ms, m.1 < n ∧ m.2.2 = true) →
      (∃ c', passAll (Mixed.ops fo NB.ops st) c ms = Except.ok c' ∧
        NInv fo GWF st n C S p R μ c' ∧ (∀ l a, vc fo F c' l a = V l a) ∧
        ∀ l a, ve fo F c' l a = 0) ∨
      (good false ∧ passAll (Mixed.ops fo NB.ops st) c ms =
        Res.raise "improper cluster belief after passing message")
  | [], c, I, hv, he, _ => Or.inl ⟨c, rfl, I, hv, he⟩
  | m :: ms, c, I, hv, he, h => by
    obtain ⟨h1, h2⟩ := h m (by simp)
    obtain ⟨c1, ⟨r, hr, hrun⟩, I1, -, hvc, hve, -⟩ := message_total L hst m.2.1 I hQ h1
    have hr' : r ∈ c1.clusters := List.mem_of_getElem? hr
    have hv1 : ∀ l a, vc fo F c1 l a = V l a := fun l a => by
      rw [hvc F a l, he m.1 a, ite_self, sub_zero, hv]
    have he1 : ∀ l a, ve fo F c1 l a = 0 := fun l a => by
      rw [hve F a l, he l a, ite_self]
    obtain ⟨l, hl, rfl⟩ := List.mem_iff_getElem.mp hr'
    obtain ⟨t, ht, -⟩ := proper_total L (I1.inv.wfC _ hr') (I1.goodC _ hr')
      (cluster_posDef I1.shape I1.inv I1.tot I1.reach hQ hl (I1.goodC _ hr').symm)
    have hgt := hgood c1 I1 hv1 _ hr' t ht
    have hrun' := hrun (Mixed.isProper fo NB.ops)
    change passMessage (Mixed.ops fo NB.ops st) c m.1 m.2.1 true = _ at hrun'
    rw [ht] at hrun'
    simp only [res_ok_bind] at hrun'
    have e : passAll (Mixed.ops fo NB.ops st) c (m :: ms) = (do
        let c' ← passMessage (Mixed.ops fo NB.ops st) c m.1 m.2.1 m.2.2
        passAll (Mixed.ops fo NB.ops st) c' ms) := rfl
    rw [e, h2, hrun']
    cases t with
    | true =>
      simp only [if_true, res_pure, res_ok_bind]
      exact schedule_run L hst hQ hgood ms I1 hv1 he1 fun m' hm' => h m' (by simp [hm'])
    | false => exact Or.inr ⟨hgt, rfl⟩

/-- `setNormalApprox` on a graph whose edges have no factors. -/
theorem set_run (L : FLaws fo GWF F) (hst : StoreLaw fo GWF st) {c : CG (Mixed γ NB)}
    {good : Bool → Prop} (hs : Shape n C S p c)
    (inv : MsgInv (Mixed.ops fo NB.ops st) (WFn fo GWF) c)
    (hr : ∀ x ∈ covered n C, 0 ≤ x ∧ x < N) (hQ : Q.PosDef) (hz : Compatible Q n C)
    (he : ∀ l a, ve fo F c l a = 0)
    (hgood : ∀ c1, NInv fo GWF st n C S p (fun a => glob Q (covered n C) a a) (vz mean) c1 →
      (∀ l a, vc fo F c1 l a = vc fo F c l a) →
      ∀ b ∈ c1.clusters, ∀ t, b.isProper fo NB.ops = Except.ok t → good t) :
    (∃ c2, NInv fo GWF st n C S p (fun a => glob Q (covered n C) a a) (vz mean) c2 ∧
      (∀ l a, vc fo F c2 l a = vc fo F c l a) ∧ (∀ l a, ve fo F c2 l a = 0) ∧
      setNormalApprox fo st mean Q c = Except.ok ⟨c2.clusters.map Mixed.fixNormalApprox,
        c2.edges.map fun e => ⟨e.first, e.second, e.belief.fixNormalApprox⟩⟩) ∨
    (good false ∧ setNormalApprox fo st mean Q c =
        Res.raise "improper cluster belief after passing message") := by
  obtain ⟨c0, e0, I0, -, -, -, hv0, he0⟩ := init_inv (mean := mean) hs inv hr hz (posDef_symm hQ)
  have hqp := glob_posQ hQ hr
  rw [setNormalApprox, e0]
  simp only [res_ok_bind]
  rw [calibrate_is_passAll, I0.shape.lenE]
  rcases schedule_run L hst hqp hgood _ I0 (hv0 F) (fun l a => (he0 F l a).trans (he l a))
    (sweep_range (fw := true)) with ⟨c1, h1, I1, hv1, he1⟩ | ⟨hg, h1⟩
  · rw [h1]
    simp only [res_ok_bind]
    rw [calibrate_is_passAll, I1.shape.lenE]
    rcases schedule_run L hst hqp hgood _ I1 hv1 he1 (sweep_range (fw := false)) with
      ⟨c2, h2, I2, hv2, he2⟩ | ⟨hg, h2⟩
    · rw [h2]
      exact Or.inl ⟨c2, I2, hv2, he2, rfl⟩
    · rw [h2]
      exact Or.inr ⟨hg, rfl⟩
  · rw [h1]
    exact Or.inr ⟨hg, rfl⟩

theorem at_zero {l : List ℤ} {a : ℤ → ℝ} (h : ∀ x ∈ l, a x = 0) : at_ l a = 0 := by
  funext k
  exact h _ (List.getElem_mem k.isLt)

theorem bil_zero {b : NB} {a : ℤ → ℝ} (h : ∀ x ∈ b.items, a x = 0) : bil b a a = 0 := by
  rw [bil, at_zero h, zero_dotProduct]

/-- Clusters with one item each: their items. -/
theorem one_items {c : CG (Mixed γ NB)} (hs : Shape n C S p c)
    (inv : MsgInv (Mixed.ops fo NB.ops st) (WFn fo GWF) c) {k : ℕ} (hk : k < c.clusters.length)
    {x : ℤ} (hC : C k = {x}) : c.clusters[k].items = [x] := by
  have nd : c.clusters[k].items.Nodup := (inv.wfC _ (List.getElem_mem hk)).wf.nodup
  refine List.perm_singleton.mp ((List.perm_ext_iff_of_nodup nd (by simp)).mpr fun y => ?_)
  rw [hs.itemsC k hk, hC]
  simp

/-- Clusters with one item each: the edges have no items. -/
theorem one_edges {c : CG (Mixed γ NB)} (hs : Shape n C S p c) (hC : ∀ k ≤ n, ∃ x, C k = {x})
    {k : ℕ} (hk : k < c.edges.length) : c.edges[k].belief.items = [] := by
  rw [List.eq_nil_iff_forall_not_mem]
  intro x hx
  have hkn : k < n := by rw [← hs.lenE]; exact hk
  obtain ⟨v, hv1, hv2, -⟩ := hs.tree.elim k hkn
  have hxS := (hs.itemsE k hk x).mp hx
  obtain ⟨y, hy⟩ := hC k (by omega)
  have m1 := (hv2 x).mpr (Or.inr hxS)
  have m2 := (hv2 v).mpr (Or.inl rfl)
  rw [hy, Set.mem_singleton_iff] at m1 m2
  exact hv1 (m2.trans m1.symm ▸ hxS)

/-- Clusters with one item each: the items are different. -/
theorem one_distinct (T : JT n C S p) (hC : ∀ k ≤ n, ∃ x, C k = {x}) {k l : ℕ} (hkl : k < l)
    (hl : l ≤ n) {x : ℤ} (h1 : C k = {x}) (h2 : C l = {x}) : False := by
  obtain ⟨v, -, hv2, hv3⟩ := T.elim k (by omega)
  have m2 := (hv2 v).mpr (Or.inl rfl)
  rw [h1, Set.mem_singleton_iff] at m2
  refine hv3 l hkl ?_
  rw [h2, m2]
  rfl

open Classical in
/-- Clusters with one item each: the precision of a cluster. -/
theorem one_precision {c : CG (Mixed γ NB)} {μ : ℤ → ℝ}
    (I : NInv fo GWF st n C S p (fun a => glob Q (covered n C) a a) μ c)
    (hC : ∀ k ≤ n, ∃ x, C k = {x}) {k : ℕ} (hk : k < c.clusters.length) {i : Fin N}
    (hi : C k = {((i : ℕ) : ℤ)}) :
    bil c.clusters[k].normalApprox (fun x => if x = ((i : ℕ) : ℤ) then 1 else 0)
      (fun x => if x = ((i : ℕ) : ℤ) then 1 else 0) = Q i i := by
  have hkn : k ≤ n := by rw [I.shape.lenC] at hk; omega
  set a : ℤ → ℝ := fun x => if x = ((i : ℕ) : ℤ) then 1 else 0 with ha
  have ht := I.tot a
  rw [total, Finset.sum_eq_zero (s := Finset.range n), sub_zero,
    Finset.sum_eq_single k] at ht
  · rw [qc_eq hk] at ht
    rw [ht, glob]
    have : (fun j : Fin N => if (j : ℤ) ∈ covered n C then a j else 0) = Pi.single i 1 := by
      funext j
      by_cases hj : j = i
      · subst hj
        rw [Pi.single_eq_same, if_pos ⟨k, hkn, by rw [hi]; rfl⟩, ha]
        simp
      · rw [Pi.single_eq_of_ne hj, ha]
        have : ¬ ((j : ℕ) : ℤ) = ((i : ℕ) : ℤ) := fun h => hj (Fin.ext (by exact_mod_cast h))
        simp only [if_neg this, ite_self]
    rw [this]
    simp
  · intro l hl hlk
    rw [Finset.mem_range] at hl
    have hl' : l < c.clusters.length := by rw [I.shape.lenC]; exact hl
    rw [qc_eq hl']
    refine bil_zero fun x hx => ?_
    obtain ⟨y, hy⟩ := hC l (by omega)
    rw [wfn_items (I.inv.wfC _ (List.getElem_mem hl')), one_items I.shape I.inv hl' hy,
      List.mem_singleton] at hx
    rw [ha]
    refine if_neg fun h => ?_
    rw [← hx, h] at hy
    rcases lt_or_gt_of_ne hlk with h' | h'
    · exact one_distinct I.shape.tree hC h' hkn hy hi
    · exact one_distinct I.shape.tree hC h' (by omega) hi hy
  · intro h
    exact absurd (Finset.mem_range.mpr (by omega)) h
  · intro l hl
    rw [Finset.mem_range] at hl
    have hl' : l < c.edges.length := by rw [I.shape.lenE]; exact hl
    rw [qe_eq hl']
    refine bil_zero fun x hx => ?_
    rw [wfn_items (I.inv.wfE _ (List.getElem_mem hl')), one_edges I.shape hC hl'] at hx
    simp at hx

end General

/-- Standard deviation of an item. -/
noncomputable def sd {N : ℕ} (Q : Matrix (Fin N) (Fin N) ℝ) (x : ℤ) : ℝ :=
  Real.sqrt (vz (fun i => (Q i i)⁻¹) x)

theorem vz_cast {N : ℕ} (f : Fin N → ℝ) (i : Fin N) : vz f (i : ℤ) = f i := by
  rw [vz, dif_pos ⟨by omega, by omega⟩]
  congr 1

variable {lib : Lib} {pars : Parameters} {N : ℕ} {mean : Fin N → ℝ} {Q : Matrix (Fin N) (Fin N) ℝ}

theorem oneItem_of {i : Fin N} (hp : 0 < Q i i)
    (hl : Real.log (Q i i) ≠ 2 * logSqrtTwoPi) {b : Mixed Factor NB}
    (hw : WFn (Factor.ops lib pars) (Tot (Factor.ops lib pars)) b)
    (hi : b.items = [((i : ℕ) : ℤ)]) (hg : Good (vz mean) b.normalApprox)
    (hv : b.normalApprox.normal.variance = b.normalApprox.normal.precision⁻¹)
    (hb : bil b.normalApprox (fun x => if x = ((i : ℕ) : ℤ) then 1 else 0)
      (fun x => if x = ((i : ℕ) : ℤ) then 1 else 0) = Q i i) :
    OneItem lib pars (vz mean) (sd Q) b.fixNormalApprox ∧
      -(b.normalApprox.items.length : ℝ) * logSqrtTwoPi +
        0.5 * Real.log b.normalApprox.normal.precision.det ≠ 0 := by
  have hni : b.normalApprox.items = [((i : ℕ) : ℤ)] := by rw [wfn_items hw, hi]
  have key : (∃ (x : ℤ) (normal : MN 1), b.items = [x] ∧ b.normalApprox = ⟨[x], normal, 0⟩ ∧
      normal.isProper = true ∧ normal.mean 0 = vz mean x ∧ 0 < normal.variance 0 0 ∧
      Real.sqrt (normal.variance 0 0) = sd Q x) ∧
      -(b.normalApprox.items.length : ℝ) * logSqrtTwoPi +
        0.5 * Real.log b.normalApprox.normal.precision.det ≠ 0 := by
    generalize hnb : b.normalApprox = nb at *
    obtain ⟨its, nm, nc⟩ := nb
    cases hni
    obtain ⟨-, hmean, hnrm, hnc⟩ := hg
    change nc = 0 at hnc
    subst hnc
    change nm.mean = at_ [((i : ℕ) : ℤ)] (vz mean) at hmean
    change nm.normalizer = normalizerOf nm.precision at hnrm
    change nm.variance = nm.precision⁻¹ at hv
    have h00 : nm.precision 0 0 = Q i i := by
      rw [← hb]
      show _ = at_ [((i : ℕ) : ℤ)] _ ⬝ᵥ (nm.precision *ᵥ at_ [((i : ℕ) : ℤ)] _)
      have : at_ [((i : ℕ) : ℤ)] (fun x => if x = ((i : ℕ) : ℤ) then (1 : ℝ) else 0) =
          fun _ => 1 := by
        funext k
        simp [at_]
      rw [this]
      show _ = ∑ _k : Fin 1, _ * ∑ _l : Fin 1, _
      simp
    have hdet : nm.precision.det = Q i i := (Matrix.det_fin_one _).trans h00
    have hne : -(1 : ℝ) * logSqrtTwoPi + 0.5 * Real.log (Q i i) ≠ 0 := by
      intro h0
      apply hl
      linarith
    have hvar : nm.variance 0 0 = (Q i i)⁻¹ := by
      rw [hv, Matrix.inv_def, hdet]
      show Ring.inverse (Q i i) * (Matrix.adjugate (n := Fin 1) nm.precision) 0 0 = _
      rw [Matrix.adjugate_fin_one]
      simp
    refine ⟨⟨_, nm, hi, rfl, ?_, ?_, ?_, ?_⟩, ?_⟩
    · rw [MN.isProper, hnrm, normalizerOf, hdet, if_pos hp]
      push_cast [List.length_singleton]
      simpa using hne
    · rw [hmean]
      rfl
    · rw [hvar]
      exact inv_pos.mpr hp
    · rw [hvar, sd, vz_cast]
    · show -(([((i : ℕ) : ℤ)].length : ℕ) : ℝ) * logSqrtTwoPi + 0.5 * Real.log nm.precision.det ≠ 0
      rw [hdet]
      push_cast [List.length_singleton]
      exact hne
  exact ⟨⟨⟨hw.wf.nodup, hw.wf.normal, hw.wf.normalWF, hw.wf.inv, hw.wf.rel, hw.wf.sub⟩, rfl,
    key.1⟩, key.2⟩

/-- Product of the beliefs on an item, on the log scale. -/
noncomputable def group (lib : Lib) (pars : Parameters) (beliefs : List (Mixed Factor NB)) (x : ℤ)
    (t : ℝ) : ℝ :=
  ((beliefs.filter fun b => b.items = [x]).map fun b => val lib pars b fun _ => t).sum

/-- The beliefs on an item are together in one cluster. -/
theorem group_eq {bss : List (List (Mixed Factor NB))} {beliefs : List (Mixed Factor NB)}
    (hp : bss.flatten.Perm beliefs) {x : ℤ} {k : ℕ} (hk : k < bss.length)
    (h1 : ∀ b ∈ bss[k], b.items = [x])
    (h2 : ∀ l (hl : l < bss.length), l ≠ k → ∀ b ∈ bss[l], b.items ≠ [x]) (t : ℝ) :
    group lib pars beliefs x t = (bss[k].map fun b => val lib pars b fun _ => t).sum := by
  have hf : bss.flatten.filter (fun b => b.items = [x]) = bss[k] := by
    clear hp
    induction bss generalizing k with
    | nil => simp at hk
    | cons B bss ih =>
      rw [List.flatten_cons, List.filter_append]
      cases k with
      | zero =>
        rw [List.filter_eq_self.mpr fun b hb => by simpa using h1 b hb,
          List.filter_eq_nil_iff.mpr, List.append_nil]
        · rfl
        · intro b hb
          obtain ⟨B', hB', hbB⟩ := List.mem_flatten.mp hb
          obtain ⟨l, hl, rfl⟩ := List.mem_iff_getElem.mp hB'
          simpa using h2 (l + 1) (by simpa using hl) (by omega) b (by simpa using hbB)
      | succ k =>
        rw [List.filter_eq_nil_iff.mpr, List.nil_append]
        · refine ih (by simpa using hk) (by simpa using h1) fun l hl hne b hb => ?_
          exact h2 (l + 1) (by simpa using hl) (by omega) b (by simpa using hb)
        · intro b hb
          simpa using h2 0 (by simp) (by omega) b (by simpa using hb)
  rw [group, ← ((hp.filter _).map _).sum_eq, hf]

/-- Beliefs with one item each on the items `0, …, N - 1`; the normal approximation has independent
coordinates. -/
theorem single_run (lib : Lib) {pars : Parameters} (hr : RuleOk pars.quadratureRule)
    {beliefs : List (Mixed Factor NB)}
    (hb : ∀ b ∈ beliefs, WFn (Factor.ops lib pars) (Tot (Factor.ops lib pars)) b)
    (hb1 : ∀ b ∈ beliefs, b.items.length = 1) (hN : 0 < N)
    (hcov : ∀ x : ℤ, (∃ b ∈ beliefs, x ∈ b.items) ↔ 0 ≤ x ∧ x < N)
    (har : Suits lib.ar (beliefs.map Mixed.items))
    (hQ : Q.PosDef) (hd : ∀ i j, i ≠ j → Q i j = 0)
    (hl : ∀ i, Real.log (Q i i) ≠ 2 * logSqrtTwoPi) :
    ∃ c, ofBeliefs lib.ar (ops lib pars) beliefs = Except.ok c ∧
      (∀ b ∈ c.clusters, b.items.length = 1) ∧
      ((computeLogNormalizingConstant lib pars c mean Q =
          Res.raise "improper cluster belief after passing message" ∧
        ¬ ((∀ (i : Fin N) t, group lib pars beliefs i t < 0) ∧
          ∀ i : Fin N, logAgq pars.quadratureRule (mean i) (Real.sqrt (Q i i)⁻¹)
            (group lib pars beliefs i) ≤ 0)) ∨
        computeLogNormalizingConstant lib pars c mean Q = Except.ok
          (∑ i : Fin N, logAgq pars.quadratureRule (mean i) (Real.sqrt (Q i i)⁻¹)
            (group lib pars beliefs i))) ∧
      ∀ c1 c2, setNormalApprox (Factor.ops lib pars) (store lib pars) mean Q c = Except.ok c1 →
        calibrateForward (ops lib pars) c1 = Except.ok c2 →
        (∀ b ∈ c1.clusters, ∃ i : Fin N, b.items = [((i : ℕ) : ℤ)] ∧
          ∀ a, val lib pars b a = group lib pars beliefs i (a i)) ∧
        (∀ b ∈ c2.clusters, WFs lib pars b) ∧ ∀ e ∈ c2.edges, NoItem lib pars e.belief := by
  classical
  set fo := Factor.ops lib pars with hfo
  have L := tot_laws fo
  set st0 : Belief.Store Factor NB := fun _ _ _ _ _ _ => Res.ub with hst0
  have hst : StoreLaw fo (Tot fo) st0 := by
    intro k f d h n l g _ h
    cases h
  have hp : ∀ i, 0 < Q i i := fun i => hQ.diag_pos
  have hF : ∀ F ∈ beliefs.map (Mixed.ops fo NB.ops st0).items, F.Nodup := by
    intro F hF
    obtain ⟨b, hbm, rfl⟩ := List.mem_map.mp hF
    exact (hb b hbm).wf.nodup
  obtain ⟨B, hf, g1, g2, g3⟩ := Suits.fits har hF
  obtain ⟨c, ec, hB, inv, -⟩ := ofBeliefs_ok (normal_laws L hst fun _ => 0) beliefs hb hf g1 g2 g3
  obtain ⟨c_, ec_, -, -, hedge, bss, hbl, hbp, hbc, -⟩ := ofBeliefs_ok (mixed_laws L nb_laws hst)
    beliefs (fun b hbm => (hb b hbm).wf) hf g1 g2 g3
  rw [ec] at ec_
  cases ec_
  have hne : ∃ b ∈ beliefs, b.items ≠ [] := by
    obtain ⟨b, hbm, hx⟩ := (hcov 0).mpr ⟨le_rfl, by exact_mod_cast hN⟩
    exact ⟨b, hbm, fun h => by rw [h] at hx; simp at hx⟩
  have hone := ofBeliefs_single (normal_laws L hst fun _ => 0) beliefs hb
    (fun b hbm => (hb1 b hbm).le) hne hf g1 g2 g3 ec
  refine ⟨c, (ofBeliefs_store fo NB.ops _ st0 lib.ar beliefs).trans ec, hone, ?_⟩
  have hcl : ∀ k (hk : k < c.clusters.length), cl (Mixed.ops fo NB.ops st0) c k =
      c.clusters[k].items := by
    intro k hk
    simp only [cl, List.getElem?_eq_getElem hk]
    rfl
  have hocc : ∀ x, Occurs c x ↔ 0 ≤ x ∧ x < N := by
    intro x
    rw [← hcov x]
    constructor
    · rintro ⟨b, hbm, hx⟩
      obtain ⟨k, hk, rfl⟩ := List.mem_iff_getElem.mp hbm
      obtain ⟨l, hl, hxl⟩ := (hB.items x).mp ⟨k, by rw [hcl k hk]; exact hx⟩
      obtain ⟨b', hb', rfl⟩ := List.mem_map.mp hl
      exact ⟨b', hb', hxl⟩
    · rintro ⟨b, hbm, hx⟩
      obtain ⟨k, hk⟩ := (hB.items x).mpr ⟨_, List.mem_map_of_mem hbm, hx⟩
      by_cases hkl : k < c.clusters.length
      · exact ⟨_, List.getElem_mem hkl, by rwa [hcl k hkl] at hk⟩
      · rw [cl_ge _ (by omega)] at hk
        simp at hk
  have hz : ZeroApart Q c := by
    intro i j hi hj hn
    refine hd i j ?_
    rintro rfl
    obtain ⟨b, hbm, hx⟩ := hi
    exact hn b hbm ⟨hx, hx⟩
  obtain ⟨p, hs⟩ := Built.exists_shape rfl hB
  generalize hn : c.edges.length = n at hs
  generalize hCdef : (fun k => {x | x ∈ cl (Mixed.ops fo NB.ops st0) c k}) = C at hs
  generalize hSdef : (fun k => {x | x ∈ sp (Mixed.ops fo NB.ops st0) c.edges k}) = S at hs
  have hr' : ∀ x ∈ covered n C, 0 ≤ x ∧ x < N :=
    fun x hx => (hocc x).mp ((occurs_iff hs x).mpr hx)
  -- the clusters and their items
  have hCx : ∀ k ≤ n, ∃ i : Fin N, C k = {((i : ℕ) : ℤ)} := by
    intro k hk
    have hk' : k < c.clusters.length := by rw [hs.lenC]; omega
    obtain ⟨x, hx⟩ := List.length_eq_one_iff.mp
      (show c.clusters[k].items.length = 1 from hone _ (List.getElem_mem hk'))
    have hC : C k = {x} := by
      ext y
      rw [← hs.itemsC k hk', hx]
      simp
    obtain ⟨h0, h1⟩ := hr' x ⟨k, hk, by rw [hC]; rfl⟩
    refine ⟨⟨x.toNat, by omega⟩, ?_⟩
    rw [hC]
    congr 1
    simp [h0]
  have : Nonempty (Fin N) := ⟨⟨0, hN⟩⟩
  choose! it hit using hCx
  have hC : ∀ k ≤ n, ∃ x, C k = {x} := fun k hk => ⟨_, hit k hk⟩
  have hinj : ∀ k ≤ n, ∀ l ≤ n, it k = it l → k = l := by
    intro k hk l hl h
    have h1 := hit k hk
    have h2 := hit l hl
    rw [h] at h1
    rcases lt_trichotomy k l with h' | h' | h'
    · exact (one_distinct hs.tree hC h' hl h1 h2).elim
    · exact h'
    · exact (one_distinct hs.tree hC h' hk h2 h1).elim
  have hsurj : ∀ i : Fin N, ∃ k ≤ n, it k = i := by
    intro i
    obtain ⟨k, hk, hx⟩ := (occurs_iff hs _).mp ((hocc ((i : ℕ) : ℤ)).mpr ⟨by omega, by omega⟩)
    refine ⟨k, hk, ?_⟩
    rw [hit k hk, Set.mem_singleton_iff] at hx
    exact Fin.ext (by exact_mod_cast hx.symm)
  have hsumk : ∀ G : Fin N → ℝ, ∑ k ∈ Finset.range (n + 1), G (it k) = ∑ i, G i := by
    intro G
    refine Finset.sum_bij (fun k _ => it k) (fun _ _ => Finset.mem_univ _) ?_ ?_ fun _ _ => rfl
    · intro k hk l hl h
      rw [Finset.mem_range] at hk hl
      exact hinj k (by omega) l (by omega) h
    · intro i _
      obtain ⟨k, hk, h⟩ := hsurj i
      exact ⟨k, Finset.mem_range.mpr (by omega), h⟩
  -- the value of a cluster
  have hval : ∀ k (hk : k < c.clusters.length) a, val lib pars c.clusters[k] a =
      group lib pars beliefs (it k : ℕ) (a (it k : ℕ)) := by
    intro k hk a
    have hkn : k ≤ n := by rw [hs.lenC] at hk; omega
    have hk' : k < bss.length := by rw [hbl]; exact hk
    have hitem : ∀ l (hl : l < bss.length), ∀ b ∈ bss[l], b.items = [((it l : ℕ) : ℤ)] := by
      intro l hl b hbm
      have hl' : l < c.clusters.length := by rw [← hbl]; exact hl
      have hbb : b ∈ beliefs := hbp.mem_iff.mp (List.mem_flatten.mpr ⟨_, List.getElem_mem hl, hbm⟩)
      obtain ⟨x, hx⟩ := List.length_eq_one_iff.mp (hb1 b hbb)
      have hsub := (hbc l _ _ (List.getElem?_eq_getElem hl') (List.getElem?_eq_getElem hl)).1 b hbm
        x (by show x ∈ b.items; rw [hx]; simp)
      have hsub' : x ∈ c.clusters[l].items := hsub
      rw [one_items hs inv hl' (hit l (by rw [hs.lenC] at hl'; omega)),
        List.mem_singleton] at hsub'
      rw [hx, hsub']
    rw [group_eq hbp hk' (hitem k hk') fun l hl hlk b hbm h => ?_]
    · have := (hbc k _ _ (List.getElem?_eq_getElem hk) (List.getElem?_eq_getElem hk')).2.2 a
      refine Eq.trans this ?_
      congr 1
      refine List.map_congr_left fun b hbm => ?_
      have hbb : b ∈ beliefs := hbp.mem_iff.mp (List.mem_flatten.mpr ⟨_, List.getElem_mem hk', hbm⟩)
      refine value_local (hb b hbb).wf fun x hx => ?_
      rw [hitem k hk' b hbm, List.mem_singleton] at hx
      rw [hx]
    · rw [hitem l hl b hbm] at h
      have h' : ((it l : ℕ) : ℤ) = ((it k : ℕ) : ℤ) := by simpa using h
      refine hlk (hinj l ?_ k hkn (Fin.ext (by exact_mod_cast h')))
      have := hs.lenC
      omega
  have hvc : ∀ k ≤ n, ∀ a, vc fo (fval fo) c k a =
      group lib pars beliefs (it k : ℕ) (a (it k : ℕ)) := by
    intro k hk a
    have hk' : k < c.clusters.length := by rw [hs.lenC]; omega
    rw [← hval k hk' a, vc, List.getElem?_eq_getElem hk']
    rfl
  have hve : ∀ l a, ve fo (fval fo) c l a = 0 := by
    intro l a
    rw [ve]
    rcases he : c.edges[l]? with _ | e
    · rfl
    · exact hedge e (List.mem_of_getElem? he) a
  set strong : Prop := (∀ (i : Fin N) t, group lib pars beliefs i t < 0) ∧
    ∀ i : Fin N, logAgq pars.quadratureRule (mean i) (Real.sqrt (Q i i)⁻¹)
      (group lib pars beliefs i) ≤ 0 with hstrong
  have hprec : ∀ c1, NInv fo (Tot fo) st0 n C S p (fun a => glob Q (covered n C) a a) (vz mean) c1 →
      ∀ k (hk : k < c1.clusters.length), OneItem lib pars (vz mean) (sd Q)
          c1.clusters[k].fixNormalApprox ∧
        -(c1.clusters[k].normalApprox.items.length : ℝ) * logSqrtTwoPi +
          0.5 * Real.log c1.clusters[k].normalApprox.normal.precision.det ≠ 0 := by
    intro c1 I k hk
    have hkn : k ≤ n := by rw [I.shape.lenC] at hk; omega
    have hm := List.getElem_mem hk
    exact oneItem_of (hp _) (hl _) (I.inv.wfC _ hm) (one_items I.shape I.inv hk (hit k hkn))
      (I.goodC _ hm) (I.varC _ hm) (one_precision I hC hk (hit k hkn))
  have hvalc : ∀ c1 : CG (Mixed Factor NB), (∀ l a, vc fo (fval fo) c1 l a = vc fo (fval fo) c l a) →
      ∀ k (hk : k < c1.clusters.length), k ≤ n → ∀ a, val lib pars c1.clusters[k] a =
        group lib pars beliefs (it k : ℕ) (a (it k : ℕ)) := by
    intro c1 h k hk hkn a
    rw [← hvc k hkn a, ← h k a, vc, List.getElem?_eq_getElem hk]
    rfl
  have hgood : ∀ c1,
      NInv fo (Tot fo) st0 n C S p (fun a => glob Q (covered n C) a a) (vz mean) c1 →
      (∀ l a, vc fo (fval fo) c1 l a = vc fo (fval fo) c l a) →
      ∀ b ∈ c1.clusters, ∀ t, b.isProper fo NB.ops = Except.ok t → strong → t = true := by
    intro c1 I h b hbm t ht hs'
    obtain ⟨k, hk, rfl⟩ := List.mem_iff_getElem.mp hbm
    have hkn : k ≤ n := by rw [I.shape.lenC] at hk; omega
    obtain ⟨t', e', h'⟩ := proper_total L (I.inv.wfC _ hbm) (I.goodC _ hbm)
      (cluster_posDef I.shape I.inv I.tot I.reach (glob_posQ hQ hr') hk (I.goodC _ hbm).symm)
    rw [ht] at e'
    cases e'
    by_contra hf'
    rw [Bool.not_eq_true] at hf'
    rcases h'.mp hf' with ⟨-, h0⟩ | h0
    · have h1 : val lib pars c1.clusters[k] (vz mean) = 0 := h0
      rw [hvalc c1 h k hk hkn] at h1
      exact (hs'.1 _ _).ne h1
    · exact (hprec c1 I k hk).2 h0
  rw [computeLogNormalizingConstant, setNormalApprox_store _ (store lib pars) st0]
  rcases set_run (mean := mean) (good := fun t => strong → t = true) L hst hs inv hr' hQ
    (compatible_of hs hz) hve hgood with ⟨c2, I, hv2, he2, h⟩ | ⟨hg, h⟩
  swap
  · rw [h]
    refine ⟨Or.inl ⟨rfl, fun hs' => by cases hg hs'⟩, fun c1 c2 h1 => ?_⟩
    cases h1
  rw [h]
  simp only [res_ok_bind]
  set c' : CG (Mixed Factor NB) := ⟨c2.clusters.map Mixed.fixNormalApprox,
        c2.edges.map fun e => ⟨e.first, e.second, e.belief.fixNormalApprox⟩⟩ with hc'
  have hTk : ∀ k (hk : k < c2.clusters.length),
      T lib pars (vz mean) (sd Q) c2.clusters[k].fixNormalApprox =
        logAgq pars.quadratureRule (mean (it k)) (Real.sqrt (Q (it k) (it k))⁻¹)
          (group lib pars beliefs (it k : ℕ)) := by
    intro k hk
    have hkn : k ≤ n := by rw [I.shape.lenC] at hk; omega
    have hi : c2.clusters[k].fixNormalApprox.items = [((it k : ℕ) : ℤ)] :=
      one_items I.shape I.inv hk (hit k hkn)
    rw [T, hi]
    simp only [List.headD_cons, vz_cast, sd]
    congr 1
    funext t
    exact hvalc c2 hv2 k hk hkn _
  have hOne : ∀ b ∈ c'.clusters, P1 lib pars (vz mean) (sd Q) strong b := by
    intro b hbm
    obtain ⟨b', hb', rfl⟩ := List.mem_map.mp hbm
    obtain ⟨k, hk, rfl⟩ := List.mem_iff_getElem.mp hb'
    have hkn : k ≤ n := by rw [I.shape.lenC] at hk; omega
    refine ⟨(hprec c2 I k hk).1, fun hs' => ⟨fun a => ?_, ?_⟩⟩
    · have := hvalc c2 hv2 k hk hkn a
      change val lib pars c2.clusters[k] a < 0
      rw [this]
      exact hs'.1 _ _
    · rw [hTk k hk]
      exact hs'.2 _
  have hNo : ∀ e ∈ c'.edges, E2 lib pars e.belief := by
    intro e he
    obtain ⟨e', he', rfl⟩ := List.mem_map.mp he
    have hw := I.inv.wfE e' he'
    obtain ⟨k, hk, rfl⟩ := List.mem_iff_getElem.mp he'
    refine ⟨⟨⟨hw.wf.nodup, hw.wf.normal, hw.wf.normalWF, hw.wf.inv, hw.wf.rel, hw.wf.sub⟩,
      one_edges I.shape hC hk⟩, ?_⟩
    have := he2 k fun _ => 0
    rw [ve, List.getElem?_eq_getElem hk] at this
    exact this
  have hChain : Chain c' := by
    refine ⟨by simp [hc', I.shape.lenC, I.shape.lenE], fun k hk => ?_⟩
    have hk2 : k < c2.edges.length := by simpa [hc'] using hk
    have hkn : k < n := by rw [← I.shape.lenE]; exact hk2
    obtain ⟨h1, h2⟩ := I.shape.ends k hk2
    have h3 := hs.tree.lt k hkn
    refine ⟨by simpa [hc'] using h1, p k, by simpa [hc'] using h2, h3.1, ?_⟩
    simp only [hc', List.length_map, I.shape.lenC]
    omega
  refine ⟨?_, fun c1 c2 h1 h2 => ?_⟩
  swap
  · cases Except.ok.inj h1
    obtain ⟨s1, s2⟩ := forward_states (single_laws lib hr (vz mean) (sd Q) strong) hChain hOne hNo h2
    refine ⟨fun b hbm => ?_, fun b hb => (s1 b hb).1.wf, fun e he => (s2 e he).1⟩
    obtain ⟨b', hb', rfl⟩ := List.mem_map.mp hbm
    obtain ⟨k, hk, rfl⟩ := List.mem_iff_getElem.mp hb'
    have hkn : k ≤ n := by rw [I.shape.lenC] at hk; omega
    exact ⟨it k, one_items I.shape I.inv hk (hit k hkn), hvalc _ hv2 k hk hkn⟩
  rcases forward_total (single_laws lib hr (vz mean) (sd Q) strong) hChain hOne hNo with
    ⟨hg, hh⟩ | hh
  · exact Or.inl ⟨hh, fun hs' => by cases hg hs'⟩
  right
  refine hh.trans ?_
  congr 1
  have h0 : (c'.edges.map fun e => ε lib pars e.belief).sum = 0 := by
    refine List.sum_eq_zero fun v hv => ?_
    obtain ⟨e, he, rfl⟩ := List.mem_map.mp hv
    exact (hNo e he).2
  rw [h0, sub_zero, sum_eq_range, ← hsumk fun i => logAgq pars.quadratureRule (mean i)
    (Real.sqrt (Q i i)⁻¹) (group lib pars beliefs i)]
  have hlen : c'.clusters.length = n + 1 := by simp [hc', I.shape.lenC]
  rw [hlen]
  refine Finset.sum_congr rfl fun k hk => ?_
  rw [Finset.mem_range] at hk
  have hk' : k < c2.clusters.length := by rw [I.shape.lenC]; exact hk
  rw [← hTk k hk']
  simp [hc', hk']

end Verif.SR
