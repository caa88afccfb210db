import Verif.Proofs.ReorderTerms

/-!
# C97: order of the observations
-/
namespace Verif.Reorder

open Verif.Gauss Verif.Items Verif.Belief Verif.Param Verif.ClusterGraph Verif.DepGraph
open Verif.Split Verif.Grouped Verif.Reorder.Spec Verif.Pars Verif.GLMM Verif.Family

variable {q n N p : ℕ} {M : ModFr q n p} {M' : ModFr q N p} {ρ : Fin N → Fin n}

theorem mapM_perm {α β : Type} {f : α → Res β} {l l' : List α} (h : l.Perm l') :
    ∀ {r' : List β}, l'.mapM f = Except.ok r' → ∃ r, l.mapM f = Except.ok r ∧ r.Perm r' := by
  have cons_ok : ∀ {a : α} {l : List α} {r : List β}, (a :: l).mapM f = Except.ok r →
      ∃ b s, f a = Except.ok b ∧ l.mapM f = Except.ok s ∧ r = b :: s := by
    intro a l r h
    rw [List.mapM_cons] at h
    obtain ⟨b, h1, h⟩ := bind_inv h
    obtain ⟨s, h2, h⟩ := bind_inv h
    exact ⟨b, s, h1, h2, (Except.ok.inj h).symm⟩
  have mk : ∀ {a : α} {l : List α} {b : β} {s : List β}, f a = Except.ok b →
      l.mapM f = Except.ok s → (a :: l).mapM f = Except.ok (b :: s) := by
    intro a l b s h1 h2
    rw [List.mapM_cons, h1, res_ok_bind, h2]
    rfl
  induction h with
  | nil => exact fun h => ⟨_, h, .refl _⟩
  | cons a _ ih =>
    intro r' h
    obtain ⟨b, s, h1, h2, rfl⟩ := cons_ok h
    obtain ⟨s', h3, h4⟩ := ih h2
    exact ⟨_, mk h1 h3, h4.cons b⟩
  | swap a b l =>
    intro r' h
    obtain ⟨x, s, h1, h2, rfl⟩ := cons_ok h
    obtain ⟨y, t, h3, h4, rfl⟩ := cons_ok h2
    exact ⟨_, mk h3 (mk h1 h4), .swap _ _ _⟩
  | trans _ _ ih1 ih2 =>
    intro r' h
    obtain ⟨s, h1, h2⟩ := ih2 h
    obtain ⟨t, h3, h4⟩ := ih1 h1
    exact ⟨t, h3, h4.trans h2⟩

theorem beliefOf_pars (lib : SR.Lib) (pars pars' : Parameters) :
    (SR.beliefOf lib pars : Term q p → _) = SR.beliefOf lib pars' := by
  funext t
  unfold SR.beliefOf
  simp only [Lfun.ofFactor_congr (Lfun.factor_items lib pars pars')]

theorem calibrationPars_family {env : Env} {family link : String} {nSL nAGQ : ℝ}
    {pars : Parameters} (h : Lfun.calibrationPars env family link nSL nAGQ = Except.ok pars) :
    Family.ofNames family link = Except.ok pars.family := by
  unfold Lfun.calibrationPars at h
  obtain ⟨p0, -, h⟩ := bind_inv h
  obtain ⟨u, h1, h2⟩ := bind_inv h
  cases Except.ok.inj h2
  unfold Lfun.configure setParametersNSparseLevels setParametersNQuadraturePoints setParametersFamily
    setParametersLink call at h1
  rcases hr : QuadratureRule.create env.eig (Lfun.asInt nAGQ) with e | r
  · rw [hr] at h1; cases h1
  rw [hr] at h1
  rcases hb : Basis.create env.ar env.Q (Lfun.asInt nSL) with e | b
  · rw [hb] at h1; cases h1
  rw [hb] at h1
  rcases hf : FamilyGivenMean.ofName family with e | f
  · rw [hf] at h1; cases h1
  rw [hf] at h1
  rcases hl : Link.ofName link with e | l
  · rw [hl] at h1; cases h1
  rw [hl] at h1
  have hconf : (Lfun.configure env family link nSL nAGQ).exec p0 = (Except.ok (),
      ⟨p0.theta, p0.beta, ⟨l, f⟩, b, r⟩) := by
    unfold Lfun.configure setParametersNSparseLevels setParametersNQuadraturePoints
      setParametersFamily setParametersLink call
    rw [hr, hb, hf, hl]
    rfl
  unfold Family.ofNames
  rw [hl, hf, hconf]
  rfl

/-- The beliefs made of the terms are as the construction needs them. -/
theorem start_of_made {lib : SR.Lib} {pars : Parameters} {μ : ℝ → ℝ} {ts : List (Term q p)}
    {bs : List (Mixed SR.Factor NB)} (h : List.Forall₂ (SR.Made lib pars μ) ts bs) :
    Start (SR.Factor.ops lib pars) bs ∧ ∀ b ∈ bs, ∀ x ∈ b.items, 0 ≤ x ∧ x < q := by
  induction h with
  | nil => exact ⟨by simp [Start], by simp⟩
  | @cons t b _ _ h _ ih =>
    refine ⟨?_, ?_⟩
    · intro b' hb
      rcases List.mem_cons.1 hb with rfl | hb
      · have w := h.wf.wf
        refine ⟨⟨w.nodup, w.normal, w.normalWF, w.inv, w.rel, fun g hg =>
          ⟨(w.sub g hg).1.1, (w.sub g hg).2⟩⟩, fun p hp => ?_⟩
        exact (w.sub p.1 (List.of_mem_zip hp).1).1
      · exact ih.1 b' hb
    · intro b' hb x hx
      rcases List.mem_cons.1 hb with rfl | hb
      · rw [h.items] at hx
        cases t with
        | glmm C m D =>
          obtain ⟨i, -, rfl⟩ := List.mem_map.1 hx
          exact ⟨by positivity, by exact_mod_cast i.2⟩
        | normal i a b =>
          have : x = ((i : ℕ) : ℤ) := by simpa [SR.termItems] using hx
          subst this
          exact ⟨by positivity, by exact_mod_cast i.2⟩
      · exact ih.2 b' hb x hx

theorem suits_range {ar : Arith} (har : ar = exactZ ∨ ar = i32 ∧ q ≤ 46341) {fs : List (List ℤ)}
    (h : ∀ F ∈ fs, ∀ x ∈ F, 0 ≤ x ∧ x < (q : ℤ)) : Suits ar fs := by
  rcases har with h1 | ⟨h1, h2⟩
  · exact .inl h1
  · refine .inr ⟨h1, le_trans ?_ h2⟩
    have : fs.flatten.toFinset ⊆ (Finset.Ico (0 : ℤ) q) := by
      intro x hx
      rw [List.mem_toFinset, List.mem_flatten] at hx
      obtain ⟨F, hF, hx⟩ := hx
      exact Finset.mem_Ico.2 (h F hF x hx)
    have := Finset.card_le_card this
    simpa using this

/-- The values of the two cluster graphs for parameters of the right lengths. -/
def SameValues (q p nTheta : ℕ) (lib : SR.Lib) (pars : Parameters) (c c' : CG (Mixed SR.Factor NB)) :
    Prop :=
  ∀ theta beta : List ℝ, theta.length = nTheta → beta.length = p →
    ∀ (mean : Fin q → ℝ) (Q : Matrix (Fin q) (Fin q) ℝ),
      SR.computeLogNormalizingConstant lib { pars with theta := theta, beta := beta } c mean Q =
        SR.computeLogNormalizingConstant lib { pars with theta := theta, beta := beta } c' mean Q

theorem findLfunSR_same (h : Rows M M' ρ) (hs : Function.Surjective ρ) (hn : NoNested M)
    (hc : Split.Spec.Covered M) {nTheta : ℕ} (hM : Split.Spec.WellFormed M nTheta) {lib : SR.Lib}
    (hrd : SR.Reads lib.rd M) (har : lib.ar = exactZ ∨ lib.ar = i32 ∧ q ≤ 46341) (env : Env)
    (family link : String) (nSL nAGQ : ℝ) :
    RelRes (fun r r' => r.1 = r'.1 ∧ SameValues q p nTheta lib r.1 r.2 r'.2 ∧
        r.2.clusters.map Mixed.items = r'.2.clusters.map Mixed.items)
      (Lfun.findLfunSR lib env M family link nSL nAGQ)
      (Lfun.findLfunSR lib env M' family link nSL nAGQ) := by
  have ha := active_of_covered hc
  unfold Lfun.findLfunSR
  rcases hk : Lfun.checkModfrSR family link with e | u
  · exact .err e
  simp only [res_ok_bind]
  obtain ⟨rfl, μ, hl⟩ : family = "binomial" ∧ ∃ μ, IsLink link μ := by
    unfold Lfun.checkModfrSR at hk
    split_ifs at hk with h1 h2
    · cases hk
    · refine ⟨not_not.1 h1, ?_⟩
      rcases List.mem_pair.1 h2 with rfl | rfl
      · exact ⟨_, .logit⟩
      · exact ⟨_, .probit⟩
    · cases hk
  obtain ⟨f, ef⟩ : ∃ f, Family.ofNames "binomial" link = Except.ok f := by
    cases hl <;> exact ⟨_, rfl⟩
  have hM' : Split.Spec.WellFormed M' nTheta := wellFormed_rel h hM
  have hrd' : SR.Reads lib.rd M' := ⟨hrd.inside, by rw [h.Lind]; exact hrd.beyond⟩
  have hc' : Split.Spec.Covered M' := by
    intro k
    obtain ⟨r, c, h1, h2⟩ := hc (ρ k)
    exact ⟨r, c, by rw [h.lambdat]; exact h1, by rw [h.ztStored]; exact h2⟩
  obtain ⟨ts, us, us', e1, e2, htu, hp⟩ := terms_same h hs hn ha
  -- the beliefs of the second model frame
  have made : ∀ pars : Parameters, pars.family = f → pars.theta.length = nTheta →
      pars.beta.length = p → ∃ bs', us'.mapM (SR.beliefOf lib Parameters.empty) = Except.ok bs' ∧
        Start (SR.Factor.ops lib pars) bs' ∧ ∀ b ∈ bs', ∀ x ∈ b.items, 0 ≤ x ∧ x < (q : ℤ) := by
    intro pars h1 h2 h3
    obtain ⟨ext, bs', g1, g2, g3, -⟩ := SR.beliefs_made (lib := lib) (pars := pars) hl
      (by rw [h1]; exact ef) (by rw [h2]; exact hM') hc' h3 hrd'
    rw [e2] at g1
    rw [← Except.ok.inj g1] at g2 g3
    rw [beliefOf_pars lib Parameters.empty pars]
    obtain ⟨s1, s2⟩ := start_of_made g3
    exact ⟨bs', g2, s1, s2⟩
  unfold Lfun.factorizationTerms
  rw [e1, e2]
  simp only [res_ok_bind]
  have hrel : RelRes (List.Forall₂ (MixedRel (Same lib)))
      (ts.mapM (SR.beliefOf lib Parameters.empty)) (us.mapM (SR.beliefOf lib Parameters.empty)) :=
    RelRes.mapM (A := TermRel) (fun t t' ht => (factorOf_rel lib ht).bind fun g g' hg =>
      .ok (ofFactor_rel (same_good lib _) hg)) htu
  obtain ⟨bs', eb', -, hr⟩ := made ⟨List.replicate nTheta 0, List.replicate p 0, f,
    Parameters.empty.sparseBasis, Parameters.empty.quadratureRule⟩ rfl (by simp) (by simp)
  have made' : ∀ pars : Parameters, pars.family = f → pars.theta.length = nTheta →
      pars.beta.length = p → Start (SR.Factor.ops lib pars) bs' := by
    intro pars h1 h2 h3
    obtain ⟨b2, g1, g2, -⟩ := made pars h1 h2 h3
    rw [eb'] at g1
    cases Except.ok.inj g1
    exact g2
  obtain ⟨bu, eu, hbp⟩ := mapM_perm hp eb'
  rw [eb']
  rw [eu] at hrel
  rcases et : ts.mapM (SR.beliefOf lib Parameters.empty) with e | bt
  · rw [et] at hrel; cases hrel
  rw [et] at hrel
  have hbt : List.Forall₂ (MixedRel (Same lib)) bt bu := by
    cases hrel with
    | ok h => exact h
  simp only [res_ok_bind]
  rcases hcp : Lfun.calibrationPars env "binomial" link nSL nAGQ with e | pars
  · exact .err e
  simp only [res_ok_bind]
  have hpf : pars.family = f := by
    have := calibrationPars_family hcp
    rw [ef] at this
    exact (Except.ok.inj this).symm
  have hru : ∀ b ∈ bu, ∀ x ∈ b.items, 0 ≤ x ∧ x < (q : ℤ) := fun b hb =>
    hr b (hbp.mem_iff.1 hb)
  have hstart : ∀ pars : Parameters, pars.family = f → pars.theta.length = nTheta →
      pars.beta.length = p → Start (SR.Factor.ops lib pars) bu := fun pars h1 h2 h3 b hb =>
    made' pars h1 h2 h3 b (hbp.mem_iff.1 hb)
  obtain ⟨c, c', hcc, hci, hcv⟩ := order_sr lib hbp (hstart ⟨List.replicate nTheta 0,
    List.replicate p 0, f, Parameters.empty.sparseBasis, Parameters.empty.quadratureRule⟩ rfl
    (by simp) (by simp)) (suits_range har fun F hF => by
      obtain ⟨b, hb, rfl⟩ := List.mem_map.1 hF
      exact hru b hb) hru
  have hor : OpsRel (MixedRel (Same lib)) (SR.ops lib pars) := ops_rel (same_good lib pars)
  have hgr := ofBeliefs_rel (ar := lib.ar) hor hbt
  rw [(hcc pars).1] at hgr
  rw [(hcc pars).2]
  rcases hct : ofBeliefs lib.ar (SR.ops lib pars) bt with e | d
  · rw [hct] at hgr; cases hgr
  rw [hct] at hgr
  have hdc : CGRel (MixedRel (Same lib)) d c := by
    cases hgr with
    | ok h => exact h
  simp only [res_ok_bind]
  have hdi : d.clusters.map Mixed.items = c.clusters.map Mixed.items := by
    have : List.Forall₂ (fun a b : Mixed SR.Factor NB => a.items = b.items) d.clusters c.clusters :=
      hdc.1.imp fun a b h => hor.items a b h
    generalize d.clusters = l at this ⊢
    generalize c.clusters = l' at this ⊢
    induction this with
    | nil => rfl
    | cons h _ ih => simp [h, ih]
  rw [show width (SR.ops lib pars) d = width (SR.ops lib pars) c' from
    width_items (hdi.trans hci)]
  split_ifs
  · exact .err _
  · refine .ok ⟨rfl, fun theta beta h1 h2 mean Q => ?_, hdi.trans hci⟩
    rw [computeLogNormalizingConstant_rel hdc]
    exact hcv { pars with theta := theta, beta := beta }
      (hstart { pars with theta := theta, beta := beta } hpf h1 h2) mean Q

theorem take_lengths {nTheta : ℕ} (hn : 1 ≤ nTheta) {x : List ℝ} (hx : x.length = p + nTheta) :
    (Lfun.takeTheta nTheta x).length = nTheta ∧ (Lfun.dropTheta nTheta x).length = p := by
  simp [Lfun.takeTheta, Lfun.dropTheta, max_eq_right hn, hx]

/-- C97, sequential reduction: with the observations in another order the model is refused with the
same error, or the cluster graph has the same clusters and any sequence of calls of the approximate
log-likelihood has the same results. -/
theorem c97 {M' : ModFr q n p} {ρ : Fin n ≃ Fin n} (h : Reordered M M' ρ) (hn : NoNested M)
    (hc : Split.Spec.Covered M) {nTheta : ℕ} (hM : Split.Spec.WellFormed M nTheta)
    (h1 : 1 ≤ nTheta) {lib : SR.Lib} (hrd : SR.Reads lib.rd M)
    (har : lib.ar = exactZ ∨ lib.ar = i32 ∧ q ≤ 46341) (env : Env) (family link : String)
    (nSL nAGQ : ℝ) :
    (∃ e, Lfun.findLfunSR lib env M family link nSL nAGQ = Except.error e ∧
      Lfun.findLfunSR lib env M' family link nSL nAGQ = Except.error e) ∨
    ∃ pars c c', Lfun.findLfunSR lib env M family link nSL nAGQ = Except.ok (pars, c) ∧
      Lfun.findLfunSR lib env M' family link nSL nAGQ = Except.ok (pars, c') ∧
      c.clusters.map Mixed.items = c'.clusters.map Mixed.items ∧
      ∀ (devfun : List ℝ → Res (ℝ × Lfun.PP q)) (xs : List (List ℝ)),
        Lfun.calls lib p nTheta c devfun xs pars = Lfun.calls lib p nTheta c' devfun xs pars := by
  have key := findLfunSR_same h.rows ρ.surjective hn hc hM hrd har env family link nSL nAGQ
  generalize Lfun.findLfunSR lib env M family link nSL nAGQ = r at key ⊢
  generalize Lfun.findLfunSR lib env M' family link nSL nAGQ = r' at key ⊢
  cases key with
  | err e => exact .inl ⟨e, rfl, rfl⟩
  | @ok r r' hr =>
    obtain ⟨pars, c⟩ := r
    obtain ⟨pars', c'⟩ := r'
    obtain ⟨rfl, hr, hi⟩ := hr
    refine .inr ⟨pars, c, c', rfl, rfl, hi, fun devfun xs => ?_⟩
    rw [Lfun.c81_history, Lfun.c81_history]
    refine List.map_congr_left fun x _ => ?_
    rw [Lfun.exec_lfun, Lfun.exec_lfun]
    unfold Lfun.value Lfun.checkedValue
    by_cases hx : x.length = p + nTheta
    · obtain ⟨l1, l2⟩ := take_lengths h1 hx
      have hv : ∀ mean Q, SR.computeLogNormalizingConstant lib (Lfun.assign nTheta x pars) c mean Q =
          SR.computeLogNormalizingConstant lib (Lfun.assign nTheta x pars) c' mean Q :=
        hr _ _ l1 l2
      simp only [hv]
    · simp only [ne_eq, hx, not_false_eq_true, if_true]

/-- C97, sequential reduction, observations in any order and grouped (C88 without its condition on
the order): the results agree for deviance functions with the same modes. -/
theorem c97_groups (h : Rows M M' ρ) (hs : Function.Surjective ρ) (hn : NoNested M)
    (hc : Split.Spec.Covered M) {nTheta : ℕ} (hM : Split.Spec.WellFormed M nTheta)
    (h1 : 1 ≤ nTheta) {lib : SR.Lib} (hrd : SR.Reads lib.rd M)
    (har : lib.ar = exactZ ∨ lib.ar = i32 ∧ q ≤ 46341) (env : Env) (family link : String)
    (nSL nAGQ : ℝ) :
    (∃ e, Lfun.findLfunSR lib env M family link nSL nAGQ = Except.error e ∧
      Lfun.findLfunSR lib env M' family link nSL nAGQ = Except.error e) ∨
    ∃ pars c c', Lfun.findLfunSR lib env M family link nSL nAGQ = Except.ok (pars, c) ∧
      Lfun.findLfunSR lib env M' family link nSL nAGQ = Except.ok (pars, c') ∧
      ∀ (devfun devfun' : List ℝ → Res (ℝ × Lfun.PP q)), SameMode devfun devfun' → ∀ xs,
        List.Forall₂ Agree (Lfun.calls lib p nTheta c devfun xs pars)
          (Lfun.calls lib p nTheta c' devfun' xs pars) := by
  have key := findLfunSR_same h hs hn hc hM hrd har env family link nSL nAGQ
  generalize Lfun.findLfunSR lib env M family link nSL nAGQ = r at key ⊢
  generalize Lfun.findLfunSR lib env M' family link nSL nAGQ = r' at key ⊢
  cases key with
  | err e => exact .inl ⟨e, rfl, rfl⟩
  | @ok r r' hr =>
    obtain ⟨pars, c⟩ := r
    obtain ⟨pars', c'⟩ := r'
    obtain ⟨rfl, hr, hi⟩ := hr
    refine .inr ⟨pars, c, c', rfl, rfl, fun devfun devfun' hd xs => ?_⟩
    rw [Lfun.c81_history, Lfun.c81_history, List.forall₂_map_left_iff, List.forall₂_map_right_iff]
    refine List.forall₂_same.2 fun x _ => ?_
    rw [Lfun.exec_lfun, Lfun.exec_lfun]
    unfold Lfun.value
    by_cases hx : x.length = p + nTheta
    · obtain ⟨l1, l2⟩ := take_lengths h1 hx
      have hv : ∀ mean Q, SR.computeLogNormalizingConstant lib (Lfun.assign nTheta x pars) c mean Q =
          SR.computeLogNormalizingConstant lib (Lfun.assign nTheta x pars) c' mean Q :=
        hr _ _ l1 l2
      simp only [ne_eq, hx, not_true_eq_false, if_false]
      generalize devfun x = r, devfun' x = r', hd x = hd
      cases hd with
      | err e => exact .inl rfl
      | @ok r r' hrr =>
        simp only [res_ok_bind]
        unfold Lfun.checkedValue
        have h2 : (Lfun.computeNormalApprox r).2 = (Lfun.computeNormalApprox r').2 := by
          rw [Lfun.computeNormalApprox, Lfun.computeNormalApprox, hrr]
        rw [← h2, ← hv]
        rcases SR.computeLogNormalizingConstant lib (Lfun.assign nTheta x pars) c
          (Lfun.computeNormalApprox r).2.mean (Lfun.computeNormalApprox r).2.precision with e | v
        · exact .inl rfl
        · simp only [res_ok_bind]
          split_ifs
          · exact .inl rfl
          · exact .inr (.inl rfl)
          · exact .inr (.inr rfl)
          · exact .inl rfl
    · simp only [ne_eq, hx, not_false_eq_true, if_true]
      exact .inl rfl

/-- C97, the model: the log-integrand is the same function. -/
theorem c97_integrand {M' : ModFr q n p} {ρ : Fin n ≃ Fin n} (h : Reordered M M' ρ) (μ : ℝ → ℝ)
    (theta beta : List ℝ) (u : Fin q → ℝ) :
    Split.Spec.logIntegrand M' μ theta beta u = Split.Spec.logIntegrand M μ theta beta u :=
  c88_integrand h.rows μ theta beta u

/-- C97, importance sampling with the same samples and normal approximation. -/
theorem c97_IS {M' : ModFr q n p} {ρ : Fin n ≃ Fin n} (h : Reordered M M' ρ) {link : String}
    {μ : ℝ → ℝ} (hl : GLMM.IsLink link μ) {theta beta : List ℝ}
    (hM : Split.Spec.WellFormed M theta.length) (ht : theta ≠ []) (hb : beta.length = p) {r : ℕ}
    (hr : 0 < r) (chol : Matrix (Fin q) (Fin q) ℝ → Matrix (Fin q) (Fin q) ℝ)
    (approx : IS.NormalApprox q) (z : Matrix (Fin q) (Fin r) ℝ) :
    IS.lfun chol ⟨μ, IS.binomialDev⟩ M' theta.length approx z (theta ++ beta) =
      IS.lfun chol ⟨μ, IS.binomialDev⟩ M theta.length approx z (theta ++ beta) := by
  obtain ⟨v, h1, h2⟩ := c88_IS hl h.rows hM ht hb hr chol approx z
  rw [h1, h2]
  congr 2
  rw [← Equiv.sum_comp ρ (fun i => IS.Spec.saturated (M.resp i) (Split.Spec.weight M i))]
  exact Finset.sum_congr rfl fun k _ => by rw [h.resp, h.weight]

/-- C97, Laplace approximation of second order: the correction is the same. -/
theorem c97_hol {M' : ModFr q n p} {ρ : Fin n ≃ Fin n} (h : Reordered M M' ρ) {theta beta : List ℝ}
    (hM : Split.Spec.WellFormed M theta.length) (ht : theta ≠ []) (hb : beta.length = p)
    (family link : String) (approx : IS.NormalApprox q) :
    Hol.findEpsilon1 family link (theta ++ beta) M' theta.length approx =
      Hol.findEpsilon1 family link (theta ++ beta) M theta.length approx :=
  c88_hol h.rows hM ht hb family link approx

/-! ## Examples -/

/-- Three random effects with the same variance, and three observations: a chain of two pairs, the
first pair observed twice. -/
noncomputable def chain : ModFr 3 3 1 where
  X := !![1; 2; 3]
  Zt := !![1, 0, 1; 1, 1, 1; 0, 1, 0]
  ztStored := fun r j => r = ![0, 1, 0] j || r = ![1, 2, 1] j
  lambdat := [(0, 0), (1, 1), (2, 2)]
  Lind := [1, 1, 1]
  resp := ![1, 0, 1]
  weights := some ![1, 2, 3]
  offset := 0

/-- The same observations, the second one first. -/
noncomputable def chain' : ModFr 3 3 1 where
  X := !![2; 1; 3]
  Zt := !![0, 1, 1; 1, 1, 1; 1, 0, 0]
  ztStored := fun r j => r = ![1, 0, 0] j || r = ![2, 1, 1] j
  lambdat := [(0, 0), (1, 1), (2, 2)]
  Lind := [1, 1, 1]
  resp := ![0, 1, 1]
  weights := some ![2, 1, 3]
  offset := 0

theorem chain_reordered : Reordered chain chain' (Equiv.swap 0 1) where
  X k j := by fin_cases k <;> fin_cases j <;> simp [chain, chain', Equiv.swap_apply_def]
  Zt r k := by fin_cases k <;> fin_cases r <;> simp [chain, chain', Equiv.swap_apply_def]
  ztStored r k := by fin_cases k <;> fin_cases r <;> rfl
  offset k := rfl
  lambdat := rfl
  Lind := rfl
  weight k := by
    fin_cases k <;> simp [Split.Spec.weight, chain, chain', Equiv.swap_apply_def]
  resp k := by fin_cases k <;> simp [chain, chain', Equiv.swap_apply_def]

theorem chain_active (j r : Fin 3) :
    r ∈ Split.Spec.Active chain j ↔ r = ![0, 1, 0] j ∨ r = ![1, 2, 1] j := by
  constructor
  · rintro ⟨c, h, hc⟩
    have h : (r, c) ∈ [((0 : Fin 3), (0 : Fin 3)), (1, 1), (2, 2)] := h
    have hrc : r = c := by
      simp only [List.mem_cons, Prod.mk.injEq, List.not_mem_nil, or_false] at h
      rcases h with ⟨rfl, rfl⟩ | ⟨rfl, rfl⟩ | ⟨rfl, rfl⟩ <;> rfl
    subst hrc
    simpa [chain] using hc
  · intro h
    refine ⟨r, ?_, by simpa [chain] using h⟩
    show (r, r) ∈ [((0 : Fin 3), (0 : Fin 3)), (1, 1), (2, 2)]
    fin_cases r <;> simp

theorem chain_noNested : NoNested chain := by
  intro j k h
  have h' : ∀ r : Fin 3, (r = ![0, 1, 0] j ∨ r = ![1, 2, 1] j) →
      (r = ![0, 1, 0] k ∨ r = ![1, 2, 1] k) := fun r hr =>
    (chain_active k r).1 (h ((chain_active j r).2 hr))
  ext r
  rw [chain_active, chain_active]
  clear h
  revert j k r
  decide

theorem chain_covered : Split.Spec.Covered chain := fun j =>
  ⟨![0, 1, 0] j, (chain_active j _).2 (Or.inl rfl)⟩

theorem chain_wf : Split.Spec.WellFormed chain 1 where
  nodup := by decide
  diag c := by
    unfold chain
    revert c
    decide
  length := rfl
  lind := by
    unfold chain
    decide
  zt c j h := by
    fin_cases c <;> fin_cases j <;> simp [chain] at h ⊢

/-- The chain: both orders are refused with the same error or give the same log-likelihood. -/
example (lib : SR.Lib) (har : lib.ar = i32) (hrd : lib.rd = GLMM.read) (env : Env) (nSL nAGQ : ℝ) :
    (∃ e, Lfun.findLfunSR lib env chain "binomial" "logit" nSL nAGQ = Except.error e ∧
      Lfun.findLfunSR lib env chain' "binomial" "logit" nSL nAGQ = Except.error e) ∨
    ∃ pars c c', Lfun.findLfunSR lib env chain "binomial" "logit" nSL nAGQ = Except.ok (pars, c) ∧
      Lfun.findLfunSR lib env chain' "binomial" "logit" nSL nAGQ = Except.ok (pars, c') ∧
      c.clusters.map Mixed.items = c'.clusters.map Mixed.items ∧
      ∀ (devfun : List ℝ → Res (ℝ × Lfun.PP 3)) (xs : List (List ℝ)),
        Lfun.calls lib 1 1 c devfun xs pars = Lfun.calls lib 1 1 c' devfun xs pars :=
  c97 chain_reordered chain_noNested chain_covered chain_wf le_rfl
    (by rw [hrd]; exact ⟨fun _ _ _ _ => rfl, Or.inl (by simp [chain])⟩) (.inr ⟨har, by norm_num⟩) env
    _ _ _ _

example (approx : IS.NormalApprox 3) :
    Hol.findEpsilon1 "binomial" "logit" [2, 1 / 2] chain' 1 approx =
      Hol.findEpsilon1 "binomial" "logit" [2, 1 / 2] chain 1 approx :=
  c97_hol (theta := [2]) (beta := [1 / 2]) chain_reordered chain_wf (by simp) rfl _ _ _

/-- The frame with row `ρ k` of `M` in row `k`. -/
def permute (M : ModFr q n p) (ρ : Fin n ≃ Fin n) : ModFr q n p where
  X := fun k j => M.X (ρ k) j
  Zt := fun r k => M.Zt r (ρ k)
  ztStored := fun r k => M.ztStored r (ρ k)
  lambdat := M.lambdat
  Lind := M.Lind
  resp := fun k => M.resp (ρ k)
  weights := M.weights.map fun w k => w (ρ k)
  offset := fun k => M.offset (ρ k)

/-- Every order is met by the hypothesis. -/
theorem permute_reordered (M : ModFr q n p) (ρ : Fin n ≃ Fin n) : Reordered M (permute M ρ) ρ where
  X _ _ := rfl
  Zt _ _ := rfl
  ztStored _ _ := rfl
  offset _ := rfl
  lambdat := rfl
  Lind := rfl
  weight k := by
    unfold Split.Spec.weight permute
    cases M.weights <;> rfl
  resp _ := rfl

/-- The proportions of C88 are accepted in both orders and have the same log-likelihood by sequential
reduction. -/
example (lib : SR.Lib) (har : lib.ar = i32) (hrd : lib.rd = GLMM.read) :
    ∃ (env : Env) (pars : Pars.Parameters) (c c' : CG (Mixed SR.Factor NB)),
      Lfun.findLfunSR lib env proportions "binomial" "probit" 1 3 = Except.ok (pars, c) ∧
      Lfun.findLfunSR lib env (permute proportions (Equiv.swap 0 1)) "binomial" "probit" 1 3 =
        Except.ok (pars, c') ∧
      ∀ (devfun : List ℝ → Res (ℝ × Lfun.PP 2)) (xs : List (List ℝ)),
        Lfun.calls lib 1 1 c devfun xs pars = Lfun.calls lib 1 1 c' devfun xs pars := by
  obtain ⟨Qf, hQ⟩ := NormalQuantile.exists_quantile
  obtain ⟨values, vectors, he⟩ := Quad.c25_exists 2
  let eig : Eigensolver := fun m => if h : m = 3 then fun _ => h ▸ (values, vectors) else fun _ => (0, 0)
  have hr : SR.Reads lib.rd proportions := by
    rw [hrd]; exact ⟨fun _ _ _ _ => rfl, Or.inl (by simp [proportions])⟩
  obtain ⟨pars, c, rule, -, h2, -⟩ := Lfun.c81 .probit proportions_wf proportions_level two_pos
    (by norm_num) le_rfl har hr hQ (eig := eig) (k := 1) le_rfl (by norm_num) he
  have h2' : Lfun.findLfunSR lib ⟨i32, Qf, eig⟩ proportions "binomial" "probit" 1 3 =
      Except.ok (pars, c) := by
    rw [← h2]
    norm_num
  have hn : NoNested proportions := fun j k h => by
    rw [proportions_level j, proportions_level k] at h ⊢
    rw [Set.singleton_subset_iff.1 h]
  rcases c97 (permute_reordered proportions (Equiv.swap 0 1)) hn covered_proportions proportions_wf
    le_rfl hr (.inr ⟨har, by norm_num⟩) ⟨i32, Qf, eig⟩ "binomial" "probit" 1 3 with
    ⟨e, he, -⟩ | ⟨pars', c1, c1', h3, h4, -, h5⟩
  · rw [h2'] at he
    cases he
  · exact ⟨⟨i32, Qf, eig⟩, pars', c1, c1', h3, h4, h5⟩

/-- Number of observations of a factor; `none` for the normal factors. -/
def obsOf : Term q p → Option ℕ
  | .glmm _ m _ => some m
  | .normal _ _ _ => none

/-- Without the hypothesis the factors are not the same: two observations, the first depending on
one random effect, the second on two. -/
noncomputable def nested : ModFr 2 2 1 where
  X := !![1; 2]
  Zt := !![1, 1; 0, 1]
  ztStored := fun r j => r ≤ j
  lambdat := [(0, 0), (1, 1)]
  Lind := [1, 1]
  resp := ![1, 0]
  weights := none
  offset := 0

/-- The same observations in the other order. -/
noncomputable def nested' : ModFr 2 2 1 where
  X := !![2; 1]
  Zt := !![1, 1; 1, 0]
  ztStored := fun r j => r ≤ Equiv.swap 0 1 j
  lambdat := [(0, 0), (1, 1)]
  Lind := [1, 1]
  resp := ![0, 1]
  weights := none
  offset := 0

theorem nested_reordered : Reordered nested nested' (Equiv.swap 0 1) where
  X k j := by fin_cases k <;> fin_cases j <;> simp [nested, nested']
  Zt r k := by fin_cases k <;> fin_cases r <;> simp [nested, nested']
  ztStored r k := rfl
  offset k := rfl
  lambdat := rfl
  Lind := rfl
  weight k := rfl
  resp k := by fin_cases k <;> simp [nested, nested']

/-- C97, why nested active sets are left out: the observation of one random effect has a factor of
its own if it comes first, and is in the factor of both random effects if it comes last (the factor of
the one is then empty). -/
theorem c97_nested :
    (findFactorizationTerms nested).map (fun ts => ts.map obsOf) =
      Except.ok [some 1, some 1, none, none] ∧
    (findFactorizationTerms nested').map (fun ts => ts.map obsOf) =
      Except.ok [some 2, some 0, none, none] := by
  constructor <;> rfl

end Verif.Reorder
