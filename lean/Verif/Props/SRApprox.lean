import Verif.Props.Approx

/-!
# C82 for the beliefs of the package: the error of sequential reduction of a model
-/
namespace Verif.SR

open Verif.Gauss Verif.Belief Verif.ClusterGraph Verif.Store Verif.Pars Verif.Split Verif.Items
open Verif.Split.Spec Verif.GLMM Verif.Family MeasureTheory
open scoped ENNReal

variable {q n p : ℕ} {lib : Lib} {pars : Parameters} {μ : ℝ → ℝ} {M : ModFr q n p}

/-! ## Specification -/

/-- `f` is what `evaluate` returns for the belief. -/
def Returns (lib : Lib) (pars : Parameters) (b : Mixed Factor NB) (f : (ℤ → ℝ) → ℝ) : Prop :=
  ∀ a : ℤ → ℝ, b.evaluate (Factor.ops lib pars) (b.items.map a) = Except.ok (f a)

/-- Local errors of the forward sweep, in terms of the values returned by `evaluate`. -/
def SweepErrors (lib : Lib) (pars : Parameters) (c : CG (Mixed Factor NB)) (v : ℝ) (lo hi : ℕ → ℝ) :
    Prop :=
  ∃ ev : Mixed Factor NB → (ℤ → ℝ) → ℝ, (∀ b ∈ c.clusters, Returns lib pars b (ev b)) ∧
    (∀ e ∈ c.edges, Returns lib pars e.belief (ev e.belief)) ∧
    LocalErrors Mixed.items ev c v lo hi

/-! ## The exact value -/

theorem represents_term {link : String} (hl : IsLink link μ)
    (hfam : Family.ofNames "binomial" link = Except.ok pars.family)
    (hM : WellFormed M pars.theta.length) (hb : pars.beta.length = p)
    {ext : List (List (Fin q) × List (Fin n))} {t : Term q p}
    (ht : t ∈ (ext.map fun e => Term.glmm e.1 e.2.length (findLocalTerm e.1 e.2 M)) ++
        (List.finRange q).map (fun i => Term.normal i 0 1)) :
    Represents pars t (termItems t, termValue μ pars t) := by
  rcases List.mem_append.1 ht with ht | ht
  · obtain ⟨e, -, rfl⟩ := List.mem_map.1 ht
    refine ⟨rfl, fun a => ?_⟩
    convert term_value hM hb (g := fun e y w => logLikClamped μ y w e)
      (family_clamped hl hfam) (fun i => a i) e.1 e.2 using 1
    simp only [termValue]
    refine Finset.sum_congr rfl fun i _ => ?_
    have hw : (findLocalTerm e.1 e.2 M).weights i = weight M (e.2.get i) := by
      unfold findLocalTerm weight
      dsimp only
      rcases M.weights with _ | w <;> rfl
    rw [hw]
    rfl
  · obtain ⟨i, -, rfl⟩ := List.mem_map.1 ht
    exact ⟨rfl, fun a => normal_value (fun i : Fin q => a i) i pars⟩

theorem exact_total {link : String} (hl : IsLink link μ)
    (hfam : Family.ofNames "binomial" link = Except.ok pars.family)
    (hM : WellFormed M pars.theta.length) (hc : Covered M) (hb : pars.beta.length = p)
    {ext : List (List (Fin q) × List (Fin n))}
    (h : findFactorizationTerms M = Except.ok
      ((ext.map fun e => Term.glmm e.1 e.2.length (findLocalTerm e.1 e.2 M)) ++
          (List.finRange q).map (fun i => Term.normal i 0 1)))
    (hcl : ∀ e ∈ ext, e.1.Nodup)
    {bs : List (Mixed Factor NB)} (hm : List.Forall₂ (Made lib pars μ)
      ((ext.map fun e => Term.glmm e.1 e.2.length (findLocalTerm e.1 e.2 M)) ++
          (List.finRange q).map (fun i => Term.normal i 0 1)) bs) :
    (∀ b ∈ bs, Measurable (value (Factor.ops lib pars) (fval (Factor.ops lib pars)) b)) ∧
    0 < marginal (logLikClamped μ) M pars.theta pars.beta ∧
    integral (bs.map Mixed.items).flatten.toFinset
      (fun a => (bs.map fun b => value (Factor.ops lib pars) (fval (Factor.ops lib pars)) b a).sum) 0 =
      ENNReal.ofReal (Real.exp (Real.log (marginal (logLikClamped μ) M pars.theta pars.beta) +
        q * literalError)) := by
  set ts := (ext.map fun e => Term.glmm e.1 e.2.length (findLocalTerm e.1 e.2 M)) ++
          (List.finRange q).map (fun i => Term.normal i 0 1) with hts
  have hrep : ∀ t ∈ ts, Represents pars t (termItems t, termValue μ pars t) := fun t ht =>
    represents_term hl hfam hM hb ht
  set fs : List (List ℤ × ((ℤ → ℝ) → ℝ)) := ts.map fun t => (termItems t, termValue μ pars t) with hfs
  have hr2 : List.Forall₂ (Represents pars) ts fs := by
    rw [hfs, List.forall₂_map_right_iff, List.forall₂_same]
    exact hrep
  have hwf : ∀ t ∈ ts, ExactWF (termItems t, termValue μ pars t) := by
    intro t ht
    have hr := hrep t ht
    rcases List.mem_append.1 ht with ht | ht
    · obtain ⟨e, he, rfl⟩ := List.mem_map.1 ht
      exact (glmm_wf hl hfam hM hb (hcl e he) e.2 hr ∅).1
    · obtain ⟨i, -, rfl⟩ := List.mem_map.1 ht
      exact (normal_wf hr (Finset.mem_singleton_self _)).2.1
  obtain ⟨terms, e1, -, h2⟩ := c70 hl hfam hM hc hb (ar := exactZ) (Or.inl rfl)
  rw [h] at e1
  cases Except.ok.inj e1
  obtain ⟨c0, c, v, g1, g2, g3, hpos, hv⟩ := h2 fs hr2
  have hw : ∀ b ∈ fs, ExactWF b := by
    intro b hbm
    obtain ⟨t, ht, rfl⟩ := List.mem_map.1 hbm
    exact hwf t ht
  have hval := c18_exact exactOps_laws exactOps_exact fs hw (Or.inl rfl) g1 g2 g3 0
  rw [hv] at hval
  have hi : bs.map Mixed.items = fs.map exactOps.items := by
    rw [hfs, List.map_map]
    clear hval g1 h2 e1 h hr2 hw hwf hrep hfs
    clear_value fs ts
    clear hts
    induction hm with
    | nil => rfl
    | cons h1 _ ih =>
      rw [List.map_cons, List.map_cons, ih, h1.items]
      rfl
  have hs : ∀ a, (bs.map fun b =>
      value (Factor.ops lib pars) (fval (Factor.ops lib pars)) b a).sum = (fs.map fun b => b.2 a).sum := by
    intro a
    rw [hfs, List.map_map]
    clear hval g1 h2 e1 h hr2 hw hwf hrep hfs hi
    clear_value fs ts
    clear hts
    induction hm with
    | nil => rfl
    | cons h1 _ ih =>
      rw [List.map_cons, List.map_cons, List.sum_cons, List.sum_cons, ih, h1.value]
      rfl
  refine ⟨fun b hbm => ?_, hpos, ?_⟩
  · obtain ⟨t, ht, hmade⟩ := forall₂_mem_right hm b hbm
    rw [show value _ _ b = termValue μ pars t from funext hmade.value]
    exact (hwf t ht).meas
  · rw [hval, hi]
    simp only [hs]
    rfl

/-! ## The cluster graph -/

/-- The state of the cluster graph of a model. -/
theorem graph_made {link : String} (hl : IsLink link μ)
    (hfam : Family.ofNames "binomial" link = Except.ok pars.family)
    (hM : WellFormed M pars.theta.length) (hc : Covered M)
    (hb : pars.beta.length = p) (hrd : Reads lib.rd M)
    (har : lib.ar = exactZ ∨ lib.ar = i32 ∧ q ≤ 46341) {c0 : CG (Mixed Factor NB)}
    (h0 : clusterGraph lib pars M = Except.ok c0) :
    ∃ (ext : List (List (Fin q) × List (Fin n))) (bs : List (Mixed Factor NB)),
      findFactorizationTerms M = Except.ok
        ((ext.map fun e => Term.glmm e.1 e.2.length (findLocalTerm e.1 e.2 M)) ++
          (List.finRange q).map (fun i => Term.normal i 0 1)) ∧
      List.Forall₂ (Made lib pars μ)
        ((ext.map fun e => Term.glmm e.1 e.2.length (findLocalTerm e.1 e.2 M)) ++
          (List.finRange q).map (fun i => Term.normal i 0 1)) bs ∧
      (∀ e ∈ ext, e.1.Nodup) ∧ Built (ops lib pars) (bs.map (ops lib pars).items) c0 ∧
      MsgInv (ops lib pars) (Belief.WF (Factor.ops lib pars) NB.ops (Nd lib pars) NWF) c0 ∧
      (∀ e ∈ c0.edges, ∀ a, value (Factor.ops lib pars) (fval (Factor.ops lib pars)) e.belief a = 0) ∧
      ∃ bss : List (List (Mixed Factor NB)), bss.length = c0.clusters.length ∧
        bss.flatten.Perm bs ∧
        (∀ (k : ℕ) r B, c0.clusters[k]? = some r → bss[k]? = some B →
          ∀ a, value (Factor.ops lib pars) (fval (Factor.ops lib pars)) r a = (B.map fun b =>
            value (Factor.ops lib pars) (fval (Factor.ops lib pars)) b a).sum) ∧
        ∀ a, joint (value (Factor.ops lib pars) (fval (Factor.ops lib pars))) c0 a =
          (bs.map fun b => value (Factor.ops lib pars) (fval (Factor.ops lib pars)) b a).sum := by
  obtain ⟨ext, bs, e1, e2, hmade, hp, hcont, hcl⟩ := beliefs_made (lib := lib) hl hfam hM hc hb hrd
  rw [clusterGraph, e1] at h0
  simp only [res_ok_bind] at h0
  rw [e2] at h0
  simp only [res_ok_bind] at h0
  set fo := Factor.ops lib pars with hfo
  have L : Laws (ops lib pars) (Belief.WF fo NB.ops (Nd lib pars) NWF) (value fo (fval fo)) :=
    mixed_laws_nd (fval fo) (fun g h => h) nb_laws (store_law lib pars)
  have hwf : ∀ b ∈ bs, Belief.WF fo NB.ops (Nd lib pars) NWF b := by
    intro b hbm
    obtain ⟨t, -, hm⟩ := forall₂_mem_right hmade b hbm
    exact WF.mono (fun g hg => hg.1) hm.wf.wf
  have hF : ∀ F ∈ bs.map Mixed.items, F.Nodup := by
    intro F hF
    obtain ⟨b, hbm, rfl⟩ := List.mem_map.mp hF
    exact (hwf b hbm).nodup
  have hsuits : Suits lib.ar (bs.map Mixed.items) := by
    unfold Suits
    rcases har with h | ⟨h, hq'⟩
    · exact Or.inl h
    · refine Or.inr ⟨h, le_trans (Finset.card_le_card (t := Finset.univ.image
        fun i : Fin q => ((i : ℕ) : ℤ)) fun x hx => ?_) (Finset.card_image_le.trans ?_)⟩
      · rw [List.mem_toFinset, List.mem_flatten] at hx
        obtain ⟨l, hl', hx⟩ := hx
        obtain ⟨b, hbm, rfl⟩ := List.mem_map.1 hl'
        obtain ⟨t, ht, hm⟩ := forall₂_mem_right hmade b hbm
        rw [hm.items] at hx
        rcases List.mem_append.1 ht with ht | ht
        · obtain ⟨e, -, rfl⟩ := List.mem_map.1 ht
          obtain ⟨i, -, rfl⟩ := List.mem_map.1 hx
          exact Finset.mem_image_of_mem _ (Finset.mem_univ i)
        · obtain ⟨i, -, rfl⟩ := List.mem_map.1 ht
          rw [termItems, List.mem_singleton] at hx
          rw [hx]
          exact Finset.mem_image_of_mem _ (Finset.mem_univ i)
      · simpa using hq'
  obtain ⟨B, hf, g1, g2, g3⟩ := hsuits.fits hF
  obtain ⟨c', ec, hB, inv, hE, bss, hlen, hperm, hk, hj⟩ := ofBeliefs_ok L bs hwf hf g1 g2 g3
  rw [h0] at ec
  cases ec
  exact ⟨ext, bs, e1, hmade, fun e he => (hcl e he).1, hB, inv, hE, bss, hlen, hperm,
    fun k r B u1 u2 => (hk k r B u1 u2).2.2, hj⟩

/-! ## C82 -/

/-- C82 for the package: if sequential reduction of a model returns a value, and each stored message
is the integral of its cluster up to a factor between `exp (lo k)` and `exp (hi k)`, as is the final
value, then the value is the log-likelihood of the model with means moved into `[1e-8, 1 - 1e-8]` up
to an error between the sums of the `lo k` and of the `hi k`, and the error of the literal for
`log √(2π)` (at most 2e-12 for each random effect). -/
theorem c82_model {link : String} (hl : IsLink link μ)
    (hfam : Family.ofNames "binomial" link = Except.ok pars.family)
    (hM : WellFormed M pars.theta.length) (hc : Covered M)
    (hb : pars.beta.length = p) (hrd : Reads lib.rd M)
    (har : lib.ar = exactZ ∨ lib.ar = i32 ∧ q ≤ 46341) {N : ℕ}
    {mean : Fin N → ℝ} {Q : Matrix (Fin N) (Fin N) ℝ} {c0 c1 c2 : CG (Mixed Factor NB)} {v : ℝ}
    (h0 : clusterGraph lib pars M = Except.ok c0)
    (h1 : setNormalApprox (Factor.ops lib pars) (store lib pars) mean Q c0 = Except.ok c1)
    (h2 : calibrateForward (ops lib pars) c1 = Except.ok c2)
    (h3 : logNormalizingConstant (ops lib pars) c2 = Except.ok v) {lo hi : ℕ → ℝ}
    (he : SweepErrors lib pars c2 v lo hi) :
    computeLogNormalizingConstant lib pars c0 mean Q = Except.ok v ∧
    0 < marginal (logLikClamped μ) M pars.theta pars.beta ∧
    Real.log (marginal (logLikClamped μ) M pars.theta pars.beta) + q * literalError +
        ∑ k ∈ Finset.range c0.clusters.length, lo k ≤ v ∧
    v ≤ Real.log (marginal (logLikClamped μ) M pars.theta pars.beta) + q * literalError +
        ∑ k ∈ Finset.range c0.clusters.length, hi k := by
  refine ⟨?_, ?_⟩
  · rw [computeLogNormalizingConstant, h1]
    simp only [res_ok_bind]
    rw [h2]
    simp only [res_ok_bind]
    exact h3
  obtain ⟨ext, bs, e1, hmade, hcl, hB, inv, hE, bss, hlen, hperm, hk, hj⟩ :=
    graph_made hl hfam hM hc hb hrd har h0
  obtain ⟨hmeas, hpos, htot⟩ := exact_total hl hfam hM hc hb e1 hcl hmade
  refine ⟨hpos, ?_⟩
  set fo := Factor.ops lib pars with hfo
  have L : Laws (ops lib pars) (Belief.WF fo NB.ops (Nd lib pars) NWF) (value fo (fval fo)) :=
    mixed_laws_nd (fval fo) (fun g h => h) nb_laws (store_law lib pars)
  have K := kin_setNormalApprox (F := fval fo) (GWF := Nd lib pars) (fun g h => h)
    (store_law lib pars) inv hE h1
  have hlenC : c1.clusters.length = c0.clusters.length := K.same.lenC
  have hpart : ∀ r ∈ c1.clusters, ∃ B : List (Mixed Factor NB), (∀ b ∈ B, b ∈ bs) ∧
      ∀ a, value fo (fval fo) r a = (B.map fun b => value fo (fval fo) b a).sum := by
    intro r hr
    obtain ⟨k, hkc, rfl⟩ := List.mem_iff_getElem.mp hr
    have hk0 : k < c0.clusters.length := by rw [← hlenC]; exact hkc
    have hkb : k < bss.length := by rw [hlen]; exact hk0
    have p3 := hk k _ _ (List.getElem?_eq_getElem hk0) (List.getElem?_eq_getElem hkb)
    exact ⟨_, fun b hbm => hperm.mem_iff.mp (List.mem_flatten.mpr ⟨_, List.getElem_mem hkb, hbm⟩),
      fun a => (K.val k hkc hk0 a).trans (p3 a)⟩
  have hB1 := Built.same L hB K.same
  have S2 : Same (ops lib pars) (Belief.WF fo NB.ops (Nd lib pars) NWF) c1 c2 := by
    have h2' := h2
    rw [calibrateForward, calibrate_is_passAll] at h2'
    exact same_passAll L _ ⟨K.same.inv, rfl, rfl, fun _ _ _ => ⟨rfl, rfl⟩, fun k hk x => by
      rw [sp_eq hk]⟩ h2'
  obtain ⟨ev, r1, r2, hle⟩ := he
  have v1 : ∀ b ∈ c2.clusters, ev b = value fo (fval fo) b := fun b hbm => funext fun a =>
    evaluate_value (S2.inv.wfC b hbm) (r1 b hbm a)
  have v2 : ∀ e ∈ c2.edges, ev e.belief = value fo (fval fo) e.belief := fun e hem => funext fun a =>
    evaluate_value (S2.inv.wfE e hem) (r2 e hem a)
  have key := forward_close L hB1 K.same.inv K.zero (fun r hr => by
      obtain ⟨B, q1, q3⟩ := hpart r hr
      rw [show value fo (fval fo) r = _ from funext q3]
      exact sum_measurable fun b hbm => hmeas b (q1 b hbm)) (fun r hr a a' haa =>
      value_local (K.same.inv.wfC r hr) haa)
    h2 (LO := lo) (HI := hi) (fun k e1 e2 a => by
      have := hle.edge k e1 e2 a
      rw [v1 _ (List.getElem_mem e1), v2 _ (List.getElem_mem e2)] at this
      exact this) (v := v) (fun h a => by
      have := hle.last h a
      rw [v1 _ (List.getElem_mem h)] at this
      exact this) 0
  have hjoint : ∀ a, joint (value fo (fval fo)) c1 a = (bs.map fun b => value fo (fval fo) b a).sum := by
    intro a
    rw [← hj a, joint, joint]
    congr 1
    · congr 1
      refine List.ext_getElem (by simp [hlenC]) fun k u1 u2 => ?_
      simp only [List.getElem_map]
      exact K.val k (by simpa using u1) (by simpa using u2) a
    · rw [List.sum_eq_zero, List.sum_eq_zero]
      · intro y hy
        obtain ⟨e, hem, rfl⟩ := List.mem_map.1 hy
        exact hE e hem a
      · intro y hy
        obtain ⟨e, hem, rfl⟩ := List.mem_map.1 hy
        exact K.zero e hem a
  have hw : integ (bs.map (ops lib pars).items).flatten.toFinset
      (wt (joint (value fo (fval fo)) c1)) 0 = ENNReal.ofReal (Real.exp (Real.log
        (marginal (logLikClamped μ) M pars.theta pars.beta) + q * literalError)) := by
    rw [show joint (value fo (fval fo)) c1 = _ from funext hjoint]
    exact htot
  rw [hw] at key
  obtain ⟨-, -, k3, k4⟩ := within_log key
  rw [ENNReal.toReal_ofReal (Real.exp_pos _).le, Real.log_exp] at k3 k4
  rw [show c2.clusters.length = c0.clusters.length from S2.lenC.trans hlenC] at k3 k4
  exact ⟨by linarith, by linarith⟩

/-! ## Two-level models: the local errors exist -/

theorem group_bounded (μ : ℝ → ℝ) (M : ModFr q n p) (theta beta : List ℝ) (g : Fin n → Fin q)
    (r : Fin q) : ∃ K, ∀ t, |groupLogLik (logLikClamped μ) M theta beta g r t| ≤ K := by
  choose K hK using fun j => logLikClamped_bounded μ (M.resp j) (weight M j)
  exact ⟨∑ j with g j = r, K j, fun t =>
    (Finset.abs_sum_le_sum_abs _ _).trans (Finset.sum_le_sum fun j _ => hK j _)⟩

theorem lintegral_pdf : ∫⁻ t, ENNReal.ofReal (ProbabilityTheory.gaussianPDFReal 0 1 t) = 1 :=
  ProbabilityTheory.lintegral_gaussianPDFReal_eq_one 0 one_ne_zero

theorem group_integral (μ : ℝ → ℝ) (M : ModFr q n p) (theta beta : List ℝ) (g : Fin n → Fin q)
    (r : Fin q) (s : ℝ) (a : ℤ → ℝ) :
    integral {((r : ℕ) : ℤ)} (fun a => Real.log (groupIntegrand (logLikClamped μ) M theta beta g r
      (a (r : ℕ))) + s) a ≠ 0 ∧
    integral {((r : ℕ) : ℤ)} (fun a => Real.log (groupIntegrand (logLikClamped μ) M theta beta g r
      (a (r : ℕ))) + s) a ≠ ⊤ ∧
    ∀ a', integral {((r : ℕ) : ℤ)} (fun a => Real.log (groupIntegrand (logLikClamped μ) M theta beta g r
      (a (r : ℕ))) + s) a = integral {((r : ℕ) : ℤ)} (fun a => Real.log (groupIntegrand
        (logLikClamped μ) M theta beta g r (a (r : ℕ))) + s) a' := by
  have key : ∀ a, integral {((r : ℕ) : ℤ)} (fun a => Real.log (groupIntegrand (logLikClamped μ) M
      theta beta g r (a (r : ℕ))) + s) a = ∫⁻ t, ENNReal.ofReal (Real.exp
        (groupLogLik (logLikClamped μ) M theta beta g r t + s)) *
          ENNReal.ofReal (ProbabilityTheory.gaussianPDFReal 0 1 t) := by
    intro a
    rw [ClusterGraph.integral, lmarginal_singleton]
    refine lintegral_congr fun t => ?_
    rw [Function.update_self, groupIntegrand, Real.log_mul (Real.exp_ne_zero _) (pdf_pos t).ne',
      Real.log_exp, ← ENNReal.ofReal_mul (Real.exp_pos _).le, add_right_comm, Real.exp_add _ (Real.log _),
      Real.exp_log (pdf_pos t)]
  obtain ⟨K, hK⟩ := group_bounded μ M theta beta g r
  refine ⟨?_, ?_, fun a' => by rw [key, key]⟩
  · rw [key]
    have : ENNReal.ofReal (Real.exp (-K + s)) ≤ ∫⁻ t, ENNReal.ofReal (Real.exp
        (groupLogLik (logLikClamped μ) M theta beta g r t + s)) *
          ENNReal.ofReal (ProbabilityTheory.gaussianPDFReal 0 1 t) := by
      rw [← mul_one (ENNReal.ofReal (Real.exp (-K + s))), ← lintegral_pdf,
        ← lintegral_const_mul' _ _ ENNReal.ofReal_ne_top]
      refine lintegral_mono fun t => mul_le_mul' (ENNReal.ofReal_le_ofReal (Real.exp_le_exp.2 ?_)) le_rfl
      linarith [(abs_le.1 (hK t)).1]
    intro h0
    rw [h0, nonpos_iff_eq_zero, ENNReal.ofReal_eq_zero] at this
    exact absurd this (not_le.mpr (Real.exp_pos _))
  · rw [key]
    have : ∫⁻ t, ENNReal.ofReal (Real.exp
        (groupLogLik (logLikClamped μ) M theta beta g r t + s)) *
          ENNReal.ofReal (ProbabilityTheory.gaussianPDFReal 0 1 t) ≤
        ENNReal.ofReal (Real.exp (K + s)) := by
      rw [← mul_one (ENNReal.ofReal (Real.exp (K + s))), ← lintegral_pdf,
        ← lintegral_const_mul' _ _ ENNReal.ofReal_ne_top]
      refine lintegral_mono fun t => mul_le_mul' (ENNReal.ofReal_le_ofReal (Real.exp_le_exp.2 ?_)) le_rfl
      linarith [(abs_le.1 (hK t)).2]
    exact ne_top_of_le_ne_top ENNReal.ofReal_ne_top this

theorem within_self {x : ℝ≥0∞} (h0 : x ≠ 0) (ht : x ≠ ⊤) (w : ℝ) :
    Within (w - Real.log x.toReal) (w - Real.log x.toReal) x (ENNReal.ofReal (Real.exp w)) := by
  have hp := ENNReal.toReal_pos h0 ht
  have : ENNReal.ofReal (Real.exp (w - Real.log x.toReal)) * x = ENNReal.ofReal (Real.exp w) := by
    conv_lhs => rw [← ENNReal.ofReal_toReal ht]
    rw [ENNReal.toReal_ofReal hp.le, ← ENNReal.ofReal_mul (Real.exp_pos _).le, Real.exp_sub,
      Real.exp_log hp, div_mul_cancel₀ _ hp.ne']
  rw [Within, this]
  exact ⟨le_rfl, le_rfl⟩

/-- For two-level models the hypothesis of `c82_model` on the local errors holds, with `lo = hi`. -/
theorem c82_two_level {link : String} (hl : IsLink link μ)
    (hfam : Family.ofNames "binomial" link = Except.ok pars.family)
    (hM : WellFormed M pars.theta.length) {g : Fin n → Fin q} (h2 : TwoLevel M g)
    (hb : pars.beta.length = p) (hq : 0 < q) (hrd : Reads lib.rd M)
    (har : lib.ar = exactZ ∨ lib.ar = i32 ∧ q ≤ 46341) (hr : RuleOk pars.quadratureRule)
    {mean : Fin q → ℝ} {Q : Matrix (Fin q) (Fin q) ℝ} (hQ : Q.PosDef)
    (hd : ∀ i j, i ≠ j → Q i j = 0) (hlog : ∀ i, Real.log (Q i i) ≠ 2 * logSqrtTwoPi)
    {c0 c1 c2 : CG (Mixed Factor NB)} (v : ℝ) (e0 : clusterGraph lib pars M = Except.ok c0)
    (e1 : setNormalApprox (Factor.ops lib pars) (store lib pars) mean Q c0 = Except.ok c1)
    (e2 : calibrateForward (ops lib pars) c1 = Except.ok c2) :
    ∃ lo, SweepErrors lib pars c2 v lo lo := by
  obtain ⟨c, ec, -, -, hend⟩ := two_level_run hl hfam hM h2 hb hq hrd har hr hQ hd hlog (mean := mean)
  rw [e0] at ec
  cases ec
  obtain ⟨w1, w2, w3⟩ := hend c1 c2 e1 e2
  set fo := Factor.ops lib pars with hfo
  obtain ⟨-, -, -, -, -, -, inv, hE, -⟩ := graph_made hl hfam hM
    (fun j => ⟨g j, by rw [h2 j]; rfl⟩) hb hrd har e0
  have L : Laws (ops lib pars) (Belief.WF fo NB.ops (Nd lib pars) NWF) (value fo (fval fo)) :=
    mixed_laws_nd (fval fo) (fun g h => h) nb_laws (store_law lib pars)
  have K := kin_setNormalApprox (F := fval fo) (GWF := Nd lib pars) (fun g h => h)
    (store_law lib pars) inv hE e1
  rw [calibrateForward, calibrate_is_passAll] at e2
  have S2 : Same (ops lib pars) (Belief.WF fo NB.ops (Nd lib pars) NWF) c1 c2 :=
    same_passAll L _ ⟨K.same.inv, rfl, rfl, fun _ _ _ => ⟨rfl, rfl⟩, fun k hk x => by
      rw [sp_eq hk]⟩ e2
  have hno : ∀ e ∈ c1.edges, (ops lib pars).items e.belief = [] := by
    intro e he
    obtain ⟨k, hk, rfl⟩ := List.mem_iff_getElem.mp he
    rw [List.eq_nil_iff_forall_not_mem]
    intro x hx
    have hk2 : k < c2.edges.length := by rw [S2.len]; exact hk
    have := (S2.seps k hk2 x)
    rw [sp_eq hk] at this
    have := this.2 hx
    rw [show (ops lib pars).items c2.edges[k].belief = [] from (w3 _ (List.getElem_mem hk2)).items] at this
    simp at this
  have hsh := shift_passAll L (fun b hb hi a a' => value_local hb (by
    rw [show b.items = [] from hi]; simp)) _ K.same.inv hno e2
  have hform : ∀ (k : ℕ) (hk : k < c2.clusters.length), ∃ (r : Fin q) (s : ℝ),
      c2.clusters[k].items = [((r : ℕ) : ℤ)] ∧ val lib pars c2.clusters[k] = fun a =>
        Real.log (groupIntegrand (logLikClamped μ) M pars.theta pars.beta g r (a (r : ℕ))) + s := by
    intro k hk
    have hk1 : k < c1.clusters.length := by rw [← S2.lenC]; exact hk
    obtain ⟨r, hi, hv⟩ := w1 _ (List.getElem_mem hk1)
    obtain ⟨s, hs⟩ := hsh k hk hk1
    refine ⟨r, literalError + s, ?_, funext fun a => ?_⟩
    · have := S2.cl hk
      have hk1' : k < (clusterItems (ops lib pars) c1).length := by rw [len_ci]; exact hk1
      rw [← cl_eq hk1', clusterItems_get hk1] at this
      exact this.trans hi
    · rw [← add_assoc, ← hv a]
      exact hs a
  have hone : ∀ (k : ℕ) (hk : k < c2.clusters.length), ∃ y : ℝ≥0∞, y ≠ 0 ∧ y ≠ ⊤ ∧
      ∀ a, ClusterGraph.integral c2.clusters[k].items.toFinset (val lib pars c2.clusters[k]) a = y := by
    intro k hk
    obtain ⟨r, s, hi, hv⟩ := hform k hk
    rw [hi, hv, show [((r : ℕ) : ℤ)].toFinset = {((r : ℕ) : ℤ)} from by simp]
    obtain ⟨g1, g2, g3⟩ := group_integral μ M pars.theta pars.beta g r s 0
    exact ⟨_, g1, g2, fun a => (g3 a).symm⟩
  have hY : ∃ Y : ℕ → ℝ≥0∞, ∀ (k : ℕ) (hk : k < c2.clusters.length), Y k ≠ 0 ∧ Y k ≠ ⊤ ∧
      ∀ a, ClusterGraph.integral c2.clusters[k].items.toFinset (val lib pars c2.clusters[k]) a = Y k := by
    refine ⟨fun k => if hk : k < c2.clusters.length then (hone k hk).choose else 0, fun k hk => ?_⟩
    simp only [dif_pos hk]
    exact (hone k hk).choose_spec
  obtain ⟨Y, hY⟩ := hY
  refine ⟨fun k => (if h : k < c2.edges.length then ε lib pars c2.edges[k].belief else v) -
      Real.log (Y k).toReal,
    val lib pars, fun b hbm a => evaluate_ok (tot_laws fo) (w2 b hbm) a, fun e he a =>
      evaluate_ok (tot_laws fo) (w3 e he).wf a, fun k u1 u2 a => ?_, fun h a => ?_⟩
  · obtain ⟨y1, y2, y3⟩ := hY k u1
    have hne := w3 _ (List.getElem_mem u2)
    rw [hne.items, List.toFinset_nil, Finset.sdiff_empty, y3, noItem_val hne]
    simp only [dif_pos u2]
    exact within_self y1 y2 _
  · obtain ⟨y1, y2, y3⟩ := hY _ h
    rw [y3]
    simp only [lt_irrefl, dite_false]
    exact within_self y1 y2 _

/-- The hypotheses of `c82_model` hold for the model with three observations in two groups. -/
example (lib : Lib) (har : lib.ar = i32) (hrd : lib.rd = read) :
    ∃ c0 c1 c2 v lo, clusterGraph lib twoPars twoGroups = Except.ok c0 ∧
      setNormalApprox (Factor.ops lib twoPars) (store lib twoPars) (0 : Fin 2 → ℝ) 1 c0 =
        Except.ok c1 ∧
      calibrateForward (ops lib twoPars) c1 = Except.ok c2 ∧
      logNormalizingConstant (ops lib twoPars) c2 = Except.ok v ∧
      SweepErrors lib twoPars c2 v lo lo ∧
      v = Real.log (marginal (logLikClamped expit) twoGroups [1] [0.5]) + (2 : ℕ) * literalError +
        ∑ k ∈ Finset.range c0.clusters.length, lo k := by
  have hrd' : Reads lib.rd twoGroups := by
    rw [hrd]
    exact ⟨fun _ _ _ _ => rfl, Or.inl (by simp [twoGroups])⟩
  have har' : lib.ar = exactZ ∨ lib.ar = i32 ∧ 2 ≤ 46341 := Or.inr ⟨har, by norm_num⟩
  have hlog : ∀ i : Fin 2, Real.log ((1 : Matrix (Fin 2) (Fin 2) ℝ) i i) ≠ 2 * logSqrtTwoPi :=
    fun i => by rw [Matrix.one_apply_eq, Real.log_one, logSqrtTwoPi]; norm_num
  have hcov : Covered twoGroups := fun j => ⟨![0, 0, 1] j, by rw [twoGroups_level j]; rfl⟩
  obtain ⟨c0, e0, e⟩ := c80_runs .logit (pars := twoPars) rfl twoGroups_wf twoGroups_level rfl
    two_pos hrd' har' twoPars_rule Matrix.PosDef.one (fun i j h => Matrix.one_apply_ne h) hlog
    twoGroups_resp (fun j => by rw [twoGroups_weight]; exact zero_le_one) twoGroups_agq
  obtain ⟨c1, e1, e⟩ := bind_ok e
  obtain ⟨c2, e2, e3⟩ := bind_ok e
  obtain ⟨lo, hlo⟩ := c82_two_level .logit rfl twoGroups_wf twoGroups_level rfl two_pos hrd' har'
    twoPars_rule Matrix.PosDef.one (fun i j h => Matrix.one_apply_ne h) hlog _ e0 e1 e2
  obtain ⟨-, -, b1, b2⟩ := c82_model .logit rfl twoGroups_wf
    hcov rfl hrd' har' e0 e1 e2 e3 hlo
  exact ⟨c0, c1, c2, _, lo, e0, e1, e2, e3, hlo, le_antisymm b2 b1⟩

end Verif.SR
