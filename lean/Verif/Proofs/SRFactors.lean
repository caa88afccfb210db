import Verif.Proofs.BeliefTotal
import Verif.Model.SR
import Verif.Props.Reduction
import Verif.Proofs.NormalBelief

/-! The factors of a model as beliefs: they can be made, and their functions return. -/
namespace Verif.SR

open Verif.Gauss Verif.Belief Verif.ClusterGraph Verif.Store Verif.Pars Verif.Split
open Verif.Split.Spec Verif.GLMM Verif.Family

variable {q n p : ℕ}

/-- What is assumed of `theta(k)`: it is the right element when there is one. Beyond the end, nothing
is assumed when all entries of `Lind` belong to the first variance parameter, and otherwise that
something is returned (C36: the constructor of `GLMMBelief` may read beyond the end). -/
structure Reads (rd : List ℝ → ℤ → Res ℝ) (M : ModFr q n p) : Prop where
  inside : ∀ theta k, 0 ≤ k → k < theta.length → rd theta k = read theta k
  beyond : (∀ l ∈ M.Lind, l = 1) ∨ ∀ theta k, ∃ v, rd theta k = Except.ok v

theorem createWith_total {d m : ℕ} {rd : List ℝ → ℤ → Res ℝ} {D : Data d m p}
    (h : ∀ k < D.entries.length, k < D.Lind.length ∧
      ∃ v, rd (List.replicate d 0) (D.Lind.getD k 0) = Except.ok v) :
    ∃ b, createWith rd D = Except.ok b := by
  have hfill : ∀ (es : List (Fin d × Fin d)) (idx : ℕ) (m : Matrix (Fin d) (Fin d) ℝ),
      (∀ k < es.length, idx + k < D.Lind.length ∧
        ∃ v, rd (List.replicate d 0) (D.Lind.getD (idx + k) 0) = Except.ok v) →
      ∃ m', fill rd D.Lind (List.replicate d 0) es idx m = Except.ok m' := by
    intro es
    induction es with
    | nil => exact fun idx m _ => ⟨m, rfl⟩
    | cons e es ih =>
      intro idx m hk
      obtain ⟨r, c⟩ := e
      obtain ⟨h1, v, hv⟩ := hk 0 (Nat.succ_pos _)
      have h1' : idx < D.Lind.length := h1
      rw [fill, nth_ok h1', res_ok_bind, ← List.getD_eq_getElem _ 0 h1']
      rw [Nat.add_zero] at hv
      rw [hv, res_ok_bind]
      refine ih _ _ fun k hk' => ?_
      have := hk (k + 1) (Nat.succ_lt_succ hk')
      rwa [show idx + (k + 1) = idx + 1 + k by omega] at this
  obtain ⟨m', hm⟩ := hfill D.entries 0 0 fun k hk => by rw [Nat.zero_add]; exact h k hk
  unfold createWith initializeParameterDependents setLambdatThetaZtWith
  dsimp only
  rw [hm]
  simp only [res_ok_bind, timesX, List.length_replicate, if_true, res_pure]
  exact ⟨_, rfl⟩

theorem local_create {rd : List ℝ → ℤ → Res ℝ} {M : ModFr q n p} (hrd : Reads rd M) {size : ℕ}
    (hM : WellFormed M size) {C : List (Fin q)} (hC : C ≠ []) (obs : List (Fin n)) :
    ∃ b, createWith rd (findLocalTerm C obs M) = Except.ok b := by
  refine createWith_total fun k hk => ?_
  have hk' : k < (subLambdat M C).length := by simpa [findLocalTerm] using hk
  have hkl : k < (findLocalTerm C obs M).Lind.length := by simpa [findLocalTerm] using hk'
  refine ⟨hkl, ?_⟩
  rcases hrd.beyond with h1 | h1
  · have e : (findLocalTerm C obs M).Lind.getD k 0 = ((subLambdat M C)[k]).2 := by
      rw [List.getD_eq_getElem _ _ hkl]
      simp [findLocalTerm]
    obtain ⟨l, h2, h3⟩ := mem_subLambdat.1
      (show (((subLambdat M C)[k].1.1, (subLambdat M C)[k].1.2), (subLambdat M C)[k].2) ∈ _ from
        List.getElem_mem hk')
    have := h1 l (List.of_mem_zip ((lindAt_some hM).1 h2)).2
    have hpos := List.length_pos_iff.mpr hC
    rw [e, h3, this, hrd.inside _ _ (by omega) (by simp; omega),
      read_ok (by omega) (by simp; omega)]
    exact ⟨_, rfl⟩
  · exact h1 _ _

theorem family_total {link : String} {μ : ℝ → ℝ} (hl : IsLink link μ) {f : Family}
    (hf : Family.ofNames "binomial" link = Except.ok f) (m : ℕ) (eta y w : Fin m → ℝ) :
    (∃ v, f.evaluate eta y w = Except.ok v) ∧ (∃ v, f.evaluateDerivative eta y w = Except.ok v) ∧
      ∃ v, f.evaluateSecondDerivative eta y w = Except.ok v := by
  rcases hl with _ | _
  · cases Except.ok.inj hf
    exact ⟨⟨_, rfl⟩, ⟨_, rfl⟩, ⟨_, rfl⟩⟩
  · cases Except.ok.inj hf
    exact ⟨⟨_, rfl⟩, ⟨_, rfl⟩, ⟨_, rfl⟩⟩

theorem vec_total {d : ℕ} {x : List ℝ} (h : x.length = d) : ∃ v, NB.vec d x = Except.ok v :=
  ⟨_, dif_pos h⟩

theorem vec_map {α : Type} (l : List α) (f : α → ℝ) :
    NB.vec l.length (l.map f) = Except.ok fun k => f (l.get k) := by
  rw [NB.vec, dif_pos (by simp)]
  congr 1
  funext k
  simp

theorem rows_length {d : ℕ} (A : Matrix (Fin d) (Fin d) ℝ) :
    (rows A).length = d ∧ ∀ r ∈ rows A, r.length = d := by
  refine ⟨by simp [rows], fun r hr => ?_⟩
  obtain ⟨i, rfl⟩ := List.mem_ofFn.mp hr
  simp

variable {lib : Lib} {pars : Parameters}

/-- A GLMM factor. -/
theorem glmm_tot {link : String} {μ : ℝ → ℝ} (hl : IsLink link μ)
    (hfam : Family.ofNames "binomial" link = Except.ok pars.family) {d m : ℕ} {D : Data d m p}
    (hn : D.entries.Nodup) (hfit : GLMM.Spec.Fit D pars.theta pars.beta) {b : GLMM.Belief d m p}
    (hb : GLMM.Inv D b) {items : List ℤ} (hi : items.length = d) (hnd : items.Nodup) :
    Tot (Factor.ops lib pars) (Factor.glmm items d m p b) := by
  refine ⟨hnd, fun x hx => ?_⟩
  obtain ⟨v, hv⟩ := vec_total (d := d) (hx.trans hi)
  obtain ⟨h1, h2, h3⟩ := family_total hl hfam m (GLMM.Spec.eta D pars.theta pars.beta v)
    D.response D.weights
  refine ⟨?_, ?_, ?_⟩
  · obtain ⟨w, hw⟩ := h1
    obtain ⟨b', -, e⟩ := evaluate_inv hn hb hfit v
    refine ⟨w, ?_⟩
    show Factor.eval lib pars (Factor.glmm items d m p b) x = _
    rw [Factor.eval, hv]
    simp only [res_ok_bind]
    rw [e, GLMM.Spec.value, hw]
    rfl
  · obtain ⟨w, hw⟩ := h2
    obtain ⟨b', -, e⟩ := derivative_inv hn hb hfit v
    refine ⟨List.ofFn fun r => ∑ i, GLMM.Spec.design D pars.theta r i * w i, ?_, ?_⟩
    · show Factor.deriv lib pars (Factor.glmm items d m p b) x = _
      rw [Factor.deriv, hv]
      simp only [res_ok_bind]
      rw [e, GLMM.Spec.gradient, hw]
      rfl
    · rw [List.length_ofFn]
      exact hi.symm
  · obtain ⟨w, hw⟩ := h3
    obtain ⟨b', -, e⟩ := second_inv hn hb hfit v
    refine ⟨rows (Matrix.of fun r s => ∑ i, GLMM.Spec.design D pars.theta r i * w i *
      GLMM.Spec.design D pars.theta s i), ?_, ?_⟩
    · show Factor.hess lib pars (Factor.glmm items d m p b) x = _
      rw [Factor.hess, hv]
      simp only [res_ok_bind]
      rw [e, GLMM.Spec.hessian, hw]
      rfl
    · have := rows_length (Matrix.of fun r s => ∑ i, GLMM.Spec.design D pars.theta r i * w i *
        GLMM.Spec.design D pars.theta s i)
      exact ⟨this.1.trans hi.symm, fun r hr => (this.2 r hr).trans hi.symm⟩

/-- A standard normal factor: its value. -/
theorem normal_eval (i : Fin q) (t : ℝ) :
    Factor.eval lib pars (Factor.normal (normalFactor i 0 1)) [t] = Except.ok
      (Real.log (ProbabilityTheory.gaussianPDFReal 0 1 t) + literalError) := by
  have := normal_value (p := 0) (fun _ : Fin q => t) i pars
  rw [Factor.eval]
  rw [show (normalFactor i 0 1).evaluate [t] = _ from this]
  rfl

/-- A standard normal factor. -/
theorem normal_tot (i : Fin q) :
    Tot (Factor.ops lib pars) (Factor.normal (normalFactor i 0 1)) := by
  refine ⟨?_, fun x hx => ?_⟩
  · show [((i : ℕ) : ℤ)].Nodup
    simp
  · have hx' : x.length = [((i : ℕ) : ℤ)].length := hx
    obtain ⟨t, rfl⟩ := List.length_eq_one_iff.mp hx'
    obtain ⟨v, hv⟩ := vec_total (d := (normalFactor i 0 1).items.length) hx'
    refine ⟨⟨_, normal_eval (lib := lib) (pars := pars) i t⟩, ⟨List.ofFn ((normalFactor i 0 1).normal.evaluateDerivative v),
      ?_, ?_⟩, rows (normalFactor i 0 1).normal.evaluateSecondDerivative, ?_, ?_⟩
    · show Factor.deriv lib pars (Factor.normal (normalFactor i 0 1)) [t] = _
      rw [Factor.deriv, hv]
      rfl
    · rw [List.length_ofFn]
      rfl
    · show Factor.hess lib pars (Factor.normal (normalFactor i 0 1)) [t] = _
      rw [Factor.hess, hv]
      rfl
    · exact rows_length _

/-- Items of the belief of a factorization term. -/
def termItems : Term q p → List ℤ
  | .glmm C _ _ => C.map fun i : Fin q => ((i : ℕ) : ℤ)
  | .normal i _ _ => [((i : ℕ) : ℤ)]

/-- Log value of a factorization term. -/
noncomputable def termValue (μ : ℝ → ℝ) (pars : Parameters) : Term q p → (ℤ → ℝ) → ℝ
  | .glmm C _ D, a => ∑ i, logLikClamped μ (D.response i) (D.weights i)
      (GLMM.Spec.eta D pars.theta pars.beta (fun r => a (C.get r)) i)
  | .normal i _ _, a => Real.log (ProbabilityTheory.gaussianPDFReal 0 1 (a i)) + literalError

/-- A belief made of a term. -/
structure Made (lib : Lib) (pars : Parameters) (μ : ℝ → ℝ) (t : Term q p) (b : Mixed Factor NB) :
    Prop where
  wf : WFn (Factor.ops lib pars) (Tot (Factor.ops lib pars)) b
  items : b.items = termItems t
  value : ∀ a, value (Factor.ops lib pars) (fval (Factor.ops lib pars)) b a = termValue μ pars t a

theorem made_of {g : Factor} {μ : ℝ → ℝ} {t : Term q p} (h : Tot (Factor.ops lib pars) g)
    (hi : g.items = termItems t) (hv : ∀ a, Factor.eval lib pars g ((termItems t).map a) =
      Except.ok (termValue μ pars t a)) :
    Made lib pars μ t (Mixed.ofFactor (Factor.ops lib pars) NB.ops g) := by
  refine ⟨⟨wf_ofFactor (tot_laws _) nb_laws h, rfl⟩, hi, fun a => ?_⟩
  rw [value_ofFactor]
  show fval (Factor.ops lib pars) g (g.items.map a) = _
  have : (Factor.ops lib pars).eval g (g.items.map a) = _ := (hi ▸ hv a)
  rw [fval, this]

theorem made_glmm {link : String} {μ : ℝ → ℝ} (hl : IsLink link μ) {M : ModFr q n p}
    (hfam : Family.ofNames "binomial" link = Except.ok pars.family)
    (hM : WellFormed M pars.theta.length) (hb : pars.beta.length = p) (hrd : Reads lib.rd M)
    {C : List (Fin q)} (hC : C ≠ []) (hnd : C.Nodup) (obs : List (Fin n)) :
    ∃ b, beliefOf lib pars (.glmm C obs.length (findLocalTerm C obs M)) = Except.ok b ∧
      Made lib pars μ (.glmm C obs.length (findLocalTerm C obs M)) b := by
  obtain ⟨b, e⟩ := local_create hrd hM hC obs
  have hn : (findLocalTerm C obs M).entries.Nodup := subLambdat_nodup M C
  have hr := Reachable.create hrd.inside e
  refine ⟨_, ?_, made_of (g := Factor.glmm (C.map fun i : Fin q => ((i : ℕ) : ℤ)) C.length
    obs.length p b) ?_ rfl fun a => ?_⟩
  · rw [beliefOf, factorOf, e]
    rfl
  · refine glmm_tot hl hfam hn (local_fit hM hb C obs) (hr.inv hn) (by simp) ?_
    exact hnd.map fun i j hij => by simpa [Fin.ext_iff] using hij
  · obtain ⟨b', -, e'⟩ := evaluate_inv hn (hr.inv hn) (local_fit hM hb C obs)
      (fun r => a (C.get r))
    have hv := vec_map C fun i : Fin q => a ((i : ℕ) : ℤ)
    rw [Factor.eval, termItems, List.map_map]
    rw [show NB.vec C.length (C.map (a ∘ fun i : Fin q => ((i : ℕ) : ℤ))) = _ from hv]
    simp only [res_ok_bind]
    rw [e', GLMM.Spec.value, family_clamped hl hfam]
    rfl

theorem made_normal (lib : Lib) (pars : Parameters) (μ : ℝ → ℝ) (i : Fin q) :
    ∃ b, beliefOf lib pars (.normal i 0 1 : Term q p) = Except.ok b ∧
      Made lib pars μ (.normal i 0 1 : Term q p) b :=
  ⟨_, rfl, made_of (g := Factor.normal (normalFactor i 0 1)) (normal_tot i) rfl fun a =>
    normal_eval i (a i)⟩

theorem mapM_rel {α β : Type} {f : α → Res β} {R : α → β → Prop} : ∀ l : List α,
    (∀ a ∈ l, ∃ b, f a = Except.ok b ∧ R a b) →
    ∃ bs, l.mapM f = Except.ok bs ∧ List.Forall₂ R l bs
  | [], _ => ⟨[], rfl, List.Forall₂.nil⟩
  | a :: l, h => by
    obtain ⟨b, h1, h2⟩ := h a (by simp)
    obtain ⟨bs, h3, h4⟩ := mapM_rel l fun a' h' => h a' (by simp [h'])
    refine ⟨b :: bs, ?_, List.Forall₂.cons h2 h4⟩
    rw [List.mapM_cons, h1]
    simp only [res_ok_bind]
    rw [h3]
    rfl

/-- The beliefs of a model. -/
theorem beliefs_made {link : String} {μ : ℝ → ℝ} (hl : IsLink link μ) {M : ModFr q n p}
    (hfam : Family.ofNames "binomial" link = Except.ok pars.family)
    (hM : WellFormed M pars.theta.length) (hc : Covered M) (hb : pars.beta.length = p)
    (hrd : Reads lib.rd M) :
    ∃ ext beliefs, findFactorizationTerms M = Except.ok
        ((ext.map fun e => Term.glmm e.1 e.2.length (findLocalTerm e.1 e.2 M)) ++
          (List.finRange q).map (fun i => Term.normal i 0 1)) ∧
      ((ext.map fun e => Term.glmm e.1 e.2.length (findLocalTerm e.1 e.2 M)) ++
          (List.finRange q).map (fun i => Term.normal i 0 1)).mapM (beliefOf lib pars) =
        Except.ok beliefs ∧
      List.Forall₂ (Made lib pars μ)
        ((ext.map fun e => Term.glmm e.1 e.2.length (findLocalTerm e.1 e.2 M)) ++
          (List.finRange q).map (fun i => Term.normal i 0 1)) beliefs ∧
      Partition ext ∧ Contained M ext ∧
      ∀ e ∈ ext, e.1.Nodup ∧ ∃ j, ∀ r, r ∈ e.1 ↔ r ∈ Active M j := by
  obtain ⟨ext, terms, h1, rfl, hp, hcont, hcl⟩ := c40_own hc
  obtain ⟨beliefs, h2, h3⟩ := mapM_rel (f := beliefOf lib pars) (R := Made lib pars μ) _ (by
    intro t ht
    rcases List.mem_append.1 ht with ht | ht
    · obtain ⟨e, he, rfl⟩ := List.mem_map.1 ht
      obtain ⟨hn, j, hj⟩ := hcl e he
      refine made_glmm hl hfam hM hb hrd (fun h0 => ?_) hn e.2
      obtain ⟨r, hr⟩ := hc j
      have := (hj r).mpr hr
      rw [h0] at this
      simp at this
    · obtain ⟨i, -, rfl⟩ := List.mem_map.1 ht
      exact made_normal lib pars μ i)
  exact ⟨ext, beliefs, h1, h2, h3, hp, hcont, hcl⟩

end Verif.SR
