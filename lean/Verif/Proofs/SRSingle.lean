import Verif.Model.SR
import Verif.Spec.AGQ
import Verif.Proofs.Forward
import Verif.Proofs.StoreZero
import Verif.Proofs.BeliefTotal
import Verif.Proofs.NormalBelief
import Verif.Proofs.BeliefExact
import Verif.Props.Integrated

/-! Beliefs with one item: integrating it stores the logarithm of the quadrature sum. -/
namespace Verif.SR

open Verif.Gauss Verif.Belief Verif.ClusterGraph Verif.Store Verif.Pars Verif.Integrated Verif.Items

/-- The rule of the parameters as pairs. -/
def pairs (r : QuadratureRule) : List (ℝ × ℝ) := r.nodes.zip r.weights

/-- As many weights as nodes, no negative weight, not all zero. -/
structure RuleOk (r : QuadratureRule) : Prop where
  len : r.weights.length = r.nodes.length
  nonneg : ∀ w ∈ r.weights, 0 ≤ w
  pos : ∃ w ∈ r.weights, 0 < w

theorem sum_pairs {r : QuadratureRule} (h : r.weights.length = r.nodes.length) (g : ℝ → ℝ → ℝ) :
    ∑ k : Fin r.nodes.length, g ((ruleOf r).nodes k) ((ruleOf r).weights k) =
      ((pairs r).map fun q => g q.1 q.2).sum := by
  have e : ((pairs r).map fun q => g q.1 q.2) = List.ofFn fun k : Fin r.nodes.length =>
      g ((ruleOf r).nodes k) ((ruleOf r).weights k) := by
    refine List.ext_getElem (by simp [pairs, h]) fun i h1 h2 => ?_
    have hi : i < r.nodes.length := by simpa using h2
    have hi' : i < r.weights.length := by omega
    simp [pairs, ruleOf, hi']
  rw [e, List.sum_ofFn]

theorem agq_pos {r : QuadratureRule} (h : RuleOk r) {μ σ : ℝ} (hσ : 0 < σ) {f : ℝ → ℝ}
    (hf : ∀ t, 0 < f t) : 0 < Spec.agq (pairs r) μ σ f := by
  rw [Spec.agq]
  refine mul_pos (mul_pos (by positivity) hσ) ?_
  obtain ⟨w, hw, hw0⟩ := h.pos
  obtain ⟨i, hi, rfl⟩ := List.mem_iff_getElem.mp hw
  have hi' : i < r.nodes.length := by rw [← h.len]; exact hi
  have hm : (r.nodes[i], r.weights[i]) ∈ pairs r := by
    rw [List.mem_iff_getElem]
    exact ⟨i, by simp [pairs, hi, hi'], by simp [pairs]⟩
  have key : ∀ l : List (ℝ × ℝ), (∀ q ∈ l, 0 ≤ q.2) → (∃ q ∈ l, 0 < q.2) →
      0 < (l.map fun r => r.2 * Real.exp (r.1 ^ 2) * f (μ + Real.sqrt 2 * σ * r.1)).sum := by
    have nn : ∀ l : List (ℝ × ℝ), (∀ q ∈ l, 0 ≤ q.2) →
      0 ≤ (l.map fun r => r.2 * Real.exp (r.1 ^ 2) * f (μ + Real.sqrt 2 * σ * r.1)).sum := by
      intro l hl
      refine List.sum_nonneg fun y hy => ?_
      obtain ⟨q, hq, rfl⟩ := List.mem_map.mp hy
      exact mul_nonneg (mul_nonneg (hl q hq) (Real.exp_pos _).le) (hf _).le
    intro l
    induction l with
    | nil => rintro - ⟨q, hq, -⟩; simp at hq
    | cons q l ih =>
      intro hl hp
      simp only [List.map_cons, List.sum_cons]
      have hl' : ∀ q ∈ l, 0 ≤ q.2 := fun q hq => hl q (by simp [hq])
      have h0 : 0 ≤ q.2 * Real.exp (q.1 ^ 2) * f (μ + Real.sqrt 2 * σ * q.1) :=
        mul_nonneg (mul_nonneg (hl q (by simp)) (Real.exp_pos _).le) (hf _).le
      obtain ⟨q', hq', hq0⟩ := hp
      rcases List.mem_cons.mp hq' with rfl | hq'
      · have : 0 < q'.2 * Real.exp (q'.1 ^ 2) * f (μ + Real.sqrt 2 * σ * q'.1) :=
          mul_pos (mul_pos hq0 (Real.exp_pos _)) (hf _)
        have := nn l hl'
        linarith
      · have := ih hl' ⟨q', hq', hq0⟩
        linarith
  refine key _ (fun q hq => h.nonneg _ ?_) ⟨_, hm, hw0⟩
  exact (List.of_mem_zip hq).2

theorem agq_shift (rule : List (ℝ × ℝ)) (μ σ : ℝ) (f : ℝ → ℝ) (s : ℝ) :
    Spec.agq rule μ σ (fun t => Real.exp (f t + s)) =
      Real.exp s * Spec.agq rule μ σ fun t => Real.exp (f t) := by
  rw [Spec.agq, Spec.agq]
  have : (rule.map fun r => r.2 * Real.exp (r.1 ^ 2) *
      Real.exp (f (μ + Real.sqrt 2 * σ * r.1) + s)) = (rule.map fun r => Real.exp s *
      (r.2 * Real.exp (r.1 ^ 2) * Real.exp (f (μ + Real.sqrt 2 * σ * r.1)))) :=
    List.map_congr_left fun r _ => by rw [Real.exp_add]; ring
  rw [this, List.sum_map_mul_left]
  ring

/-- Logarithm of the quadrature sum of the exponential of `f`. -/
noncomputable def logAgq (r : QuadratureRule) (μ σ : ℝ) (f : ℝ → ℝ) : ℝ :=
  Real.log (Spec.agq (pairs r) μ σ fun t => Real.exp (f t))

theorem logAgq_shift {r : QuadratureRule} (h : RuleOk r) {μ σ : ℝ} (hσ : 0 < σ) (f : ℝ → ℝ)
    (s : ℝ) : logAgq r μ σ (fun t => f t + s) = logAgq r μ σ f + s := by
  rw [logAgq, agq_shift, Real.log_mul (Real.exp_ne_zero _)
    (agq_pos h hσ fun t => Real.exp_pos _).ne', Real.log_exp, add_comm]
  rfl

/-- Storing the integral of a function of one argument over it. -/
theorem storeWith_nil (lib : Lib) {pars : Parameters} (hr : RuleOk pars.quadratureRule)
    {f : List ℝ → Res ℝ} {d : List ℝ → Res (List ℝ)} {h : List ℝ → Res (List (List ℝ))}
    {φ ψ χ : ℝ → ℝ} (hf : ∀ t, f [t] = Except.ok (φ t)) (hd : ∀ t, d [t] = Except.ok [ψ t])
    (hh : ∀ t, h [t] = Except.ok [[χ t]]) {normal : MN 1} (hp : normal.isProper = true)
    (hv : 0 < normal.variance 0 0) :
    ∃ s : SparseStore 0, storeWith lib pars 0 f d h [] normal = Except.ok (Factor.sparse [] 0 s) ∧
      ∀ x, s.evaluate (gridEnv lib pars) x = Except.ok
          (logAgq pars.quadratureRule (normal.mean 0) (Real.sqrt (normal.variance 0 0)) φ) ∧
        (∃ d, s.evaluateDerivative (gridEnv lib pars) x = Except.ok d) ∧
        ∃ h, s.evaluateSecondDerivative (gridEnv lib pars) x = Except.ok h := by
  have e1 : (fun x : Fin 1 → ℝ => f (List.ofFn x)) = fun x => Except.ok (φ (x 0)) := by
    funext x
    rw [List.ofFn_succ, List.ofFn_zero, hf]
  have e2 : (fun x : Fin 1 → ℝ => do
      let r ← d (List.ofFn x)
      NB.vec 1 r) = fun x => Except.ok fun _ : Fin 1 => ψ (x 0) := by
    funext x
    rw [List.ofFn_succ, List.ofFn_zero, hd]
    simp only [res_ok_bind]
    rw [NB.vec, dif_pos (by simp)]
    congr 1
    funext i
    simp
  have e3 : (fun x : Fin 1 → ℝ => do
      let r ← h (List.ofFn x)
      mat 1 r) = fun x => Except.ok (Matrix.of fun _ _ => χ (x 0)) := by
    funext x
    rw [List.ofFn_succ, List.ofFn_zero, hh]
    simp only [res_ok_bind]
    rw [mat]
    have : [[χ (x 0)]].mapM (NB.vec 1) = Except.ok [fun _ : Fin 1 => χ (x 0)] := by
      rw [List.mapM_cons, NB.vec, dif_pos (by simp)]
      simp only [res_ok_bind, List.mapM_nil, res_pure]
      congr 2
      funext i
      simp
    rw [this]
    simp only [res_ok_bind]
    rw [dif_pos (by simp)]
    rw [res_pure]
    congr 1
    ext i j
    simp
  obtain ⟨a, ea, ha, m1, m2, mc, ms⟩ := create_ok (m := 0) (lib.junk 0) 0 (fun x => φ (x 0))
    (fun x _ => ψ (x 0)) (fun x => Matrix.of fun _ _ => χ (x 0)) normal
  have hsig : a.sigmaConditional = Real.sqrt (normal.variance 0 0) := by
    rw [ms, properNormal, if_pos hp]
    congr 1
    simp [dotProduct]
  rw [storeWith]
  simp only [List.length_nil, Nat.reduceAdd]
  rw [e1, e2, e3]
  have ea' : Integrated.create (lib.junk 0) 0 (fun y => Except.ok (φ (y 0)))
      (fun y => Except.ok fun _ => ψ (y 0)) (fun y => Except.ok (Matrix.of fun _ _ => χ (y 0)))
      normal = Except.ok a := ea
  rw [ea']
  simp only [res_ok_bind]
  have hint : ∃ nm, normal.integrate 0 (lib.junk 0).vec (lib.junk 0).mat = Except.ok nm := by
    rw [MN.integrate]
    rw [show Eigen.getMatrixWithout 0 (lib.junk 0).mat normal.variance = _ from
      Eigen.getMatrixWithout_ok (0 : Fin 1) _ _, show Eigen.getVectorWithout 0 (lib.junk 0).vec normal.mean = _ from
      Eigen.getVectorWithout_ok (0 : Fin 1) _ _]
    exact ⟨_, rfl⟩
  obtain ⟨nm, enm⟩ := hint
  rw [enm]
  simp only [res_ok_bind]
  have hI : ∀ x : Fin 0 → ℝ, a.evaluate (lib.junk 0) x (ruleOf pars.quadratureRule) = Except.ok
      (logAgq pars.quadratureRule (normal.mean 0) (Real.sqrt (normal.variance 0 0)) φ) := by
    intro x
    rw [(Integrated.evaluate_ok ha (lib.junk 0) (ruleOf pars.quadratureRule) x).1]
    congr 1
    have hσ : 0 < Real.sqrt (normal.variance 0 0) := Real.sqrt_pos.mpr hv
    have hI0 : I0 a 0 (fun x => φ (x 0)) (ruleOf pars.quadratureRule) x =
        Spec.agq (pairs pars.quadratureRule) (normal.mean 0) (Real.sqrt (normal.variance 0 0))
          fun t => Real.exp (φ t + -a.logValueAtMean) := by
      rw [I0, Spec.agq, ← List.sum_map_mul_left]
      rw [← sum_pairs hr.len (fun n w => Real.sqrt 2 * Real.sqrt (normal.variance 0 0) *
        (w * Real.exp (n ^ 2) * Real.exp (φ (normal.mean 0 + Real.sqrt 2 *
          Real.sqrt (normal.variance 0 0) * n) + -a.logValueAtMean)))]
      refine Finset.sum_congr rfl fun k _ => ?_
      rw [Integrated.wt, V, pt, findConditionalMean_eq, hsig, m1]
      simp only [Fin.insertNth_apply_same, dotProduct, Finset.univ_eq_empty, Finset.sum_empty,
        sub_zero]
      rw [add_comm (normal.mean 0), sub_eq_add_neg]
      ring
    rw [hI0]
    have := logAgq_shift hr (μ := normal.mean 0) hσ φ (-a.logValueAtMean)
    rw [logAgq] at this
    rw [this]
    ring
  obtain ⟨s, es, hs⟩ := create_zero (gridEnv lib pars) (lib.solve 0) (lib.eig 0)
    (fd := fun x => a.evaluateDerivative (lib.junk 0) x (ruleOf pars.quadratureRule))
    (fh := fun x => a.evaluateSecondDerivative (lib.junk 0) x (ruleOf pars.quadratureRule)) hI
    (fun x => ⟨_, (Integrated.evaluate_ok ha (lib.junk 0) (ruleOf pars.quadratureRule) x).2.1⟩)
    (fun x => ⟨_, (Integrated.evaluate_ok ha (lib.junk 0) (ruleOf pars.quadratureRule) x).2.2⟩) nm
  rw [es]
  exact ⟨s, rfl, hs⟩

/-! ## Beliefs with one item and without items -/

/-- Well formed for the concrete factors. -/
abbrev WFs (lib : Lib) (pars : Parameters) (m : Mixed Factor NB) : Prop :=
  WF (Factor.ops lib pars) NB.ops (Tot (Factor.ops lib pars)) NWF m

/-- Log value of the factors of a belief. -/
noncomputable abbrev val (lib : Lib) (pars : Parameters) (m : Mixed Factor NB) (a : ℤ → ℝ) : ℝ :=
  value (Factor.ops lib pars) (fval (Factor.ops lib pars)) m a

/-- One item, with a fixed proper normal approximation of mean `μ` and standard deviation `σ`. -/
structure OneItem (lib : Lib) (pars : Parameters) (μ σ : ℤ → ℝ) (m : Mixed Factor NB) : Prop where
  wf : WFs lib pars m
  fixed : m.isNormalFixed = true
  normal : ∃ (x : ℤ) (normal : MN 1), m.items = [x] ∧ m.normalApprox = ⟨[x], normal, 0⟩ ∧
    normal.isProper = true ∧ normal.mean 0 = μ x ∧ 0 < normal.variance 0 0 ∧
    Real.sqrt (normal.variance 0 0) = σ x

/-- No items. -/
structure NoItem (lib : Lib) (pars : Parameters) (m : Mixed Factor NB) : Prop where
  wf : WFs lib pars m
  items : m.items = []

/-- Logarithm of the quadrature sum over the item. -/
noncomputable def T (lib : Lib) (pars : Parameters) (μ σ : ℤ → ℝ) (m : Mixed Factor NB) : ℝ :=
  logAgq pars.quadratureRule (μ (m.items.headD 0)) (σ (m.items.headD 0))
    fun t => val lib pars m fun _ => t

/-- Value of a belief without items. -/
noncomputable def ε (lib : Lib) (pars : Parameters) (m : Mixed Factor NB) : ℝ :=
  val lib pars m fun _ => 0

variable {lib : Lib} {pars : Parameters} {μ σ : ℤ → ℝ}

theorem noItem_val {d : Mixed Factor NB} (h : NoItem lib pars d) (a : ℤ → ℝ) :
    val lib pars d a = ε lib pars d :=
  value_local h.wf (by rw [h.items]; simp)

/-- Combining with a belief without items. -/
theorem oneItem_combine (hr : RuleOk pars.quadratureRule) {b d r : Mixed Factor NB}
    (hb : OneItem lib pars μ σ b) (hd : NoItem lib pars d) {s : ℝ}
    (hw : WFs lib pars r) (hi : r.items = b.items) (hf : r.isNormalFixed = b.isNormalFixed)
    (hn : r.normalApprox = b.normalApprox)
    (hv : ∀ a, val lib pars r a = val lib pars b a + s) :
    OneItem lib pars μ σ r ∧ T lib pars μ σ r = T lib pars μ σ b + s := by
  obtain ⟨x, nm, h1, h2, h3, h4, h5, h6⟩ := hb.normal
  refine ⟨⟨hw, hf.trans hb.fixed, x, nm, hi.trans h1, hn.trans h2, h3, h4, h5, h6⟩, ?_⟩
  rw [T, T, hi, h1]
  simp only [List.headD_cons]
  have hσ : 0 < σ x := by rw [← h6]; exact Real.sqrt_pos.mpr h5
  rw [← logAgq_shift hr hσ]
  simp only [hv]

/-- A belief with one item; when `strong` holds, negative and with negative logarithm of the
quadrature sum. -/
def P1 (lib : Lib) (pars : Parameters) (μ σ : ℤ → ℝ) (strong : Prop) (b : Mixed Factor NB) : Prop :=
  OneItem lib pars μ σ b ∧ (strong → (∀ a, val lib pars b a < 0) ∧ T lib pars μ σ b ≤ 0)

/-- A message; when `strong` holds, not positive. -/
def E1 (lib : Lib) (pars : Parameters) (strong : Prop) (d : Mixed Factor NB) : Prop :=
  NoItem lib pars d ∧ (strong → ε lib pars d ≤ 0)

/-- An unused edge. -/
def E2 (lib : Lib) (pars : Parameters) (d : Mixed Factor NB) : Prop :=
  NoItem lib pars d ∧ ε lib pars d = 0

theorem single_laws (lib : Lib) {pars : Parameters} (hr : RuleOk pars.quadratureRule)
    (μ σ : ℤ → ℝ) (strong : Prop) : Single (ops lib pars) (P1 lib pars μ σ strong)
      (E1 lib pars strong) (E2 lib pars) (fun t => strong → t = true) (T lib pars μ σ)
      (ε lib pars) := by
  set fo := Factor.ops lib pars with hfo
  have L := tot_laws fo
  have X := tot_dok fo
  -- integration
  have key : ∀ b, OneItem lib pars μ σ b → ∃ r, Mixed.margin fo NB.ops (store lib pars) b [] false =
      Except.ok r ∧ NoItem lib pars r ∧ ε lib pars r = T lib pars μ σ b := by
    intro b hb
    obtain ⟨x, nm, h1, h2, h3, h4, h5, h6⟩ := hb.normal
    have hf : ∀ t : ℝ, b.evaluate fo [t] = Except.ok (val lib pars b fun _ => t) := by
      intro t
      have := Belief.evaluate_ok L hb.wf fun _ => t
      rwa [h1] at this
    have hd : ∀ t : ℝ, b.evaluateDerivative fo [t] =
        Except.ok [grad fo (fder fo) b (fun _ => t) x] := by
      intro t
      have := evaluateDerivative_ok L X hb.wf fun _ => t
      rwa [h1] at this
    have hh : ∀ t : ℝ, b.evaluateSecondDerivative fo [t] =
        Except.ok [[hessian fo (fhes fo) b (fun _ => t) x x]] := by
      intro t
      have := evaluateSecondDerivative_ok L X hb.wf fun _ => t
      rwa [h1] at this
    obtain ⟨s, es, hs⟩ := storeWith_nil lib hr hf hd hh h3 h5
    have hst : store lib pars 0 (b.evaluate fo) (b.evaluateDerivative fo)
        (b.evaluateSecondDerivative fo) b.normalApprox [] = Except.ok (Factor.sparse [] 0 s) := by
      rw [store, h2, dif_pos (by simp)]
      exact es
    have hT : Tot fo (Factor.sparse [] 0 s) := by
      refine ⟨List.nodup_nil, fun y hy => ?_⟩
      obtain rfl : y = [] := List.length_eq_zero_iff.mp hy
      have hv : NB.vec 0 ([] : List ℝ) = Except.ok fun i => i.elim0 := by
        rw [NB.vec, dif_pos List.length_nil]
        congr 1
        funext i
        exact i.elim0
      obtain ⟨q1, ⟨q2, e2⟩, q3, e3⟩ := hs fun i => i.elim0
      refine ⟨⟨logAgq pars.quadratureRule (nm.mean 0) (Real.sqrt (nm.variance 0 0))
        fun t => val lib pars b fun _ => t, ?_⟩, ⟨[], ?_, rfl⟩, [], ?_, rfl, by simp⟩
      · show Factor.eval lib pars (Factor.sparse [] 0 s) [] = _
        rw [Factor.eval, hv]
        simp only [res_ok_bind]
        exact q1
      · show Factor.deriv lib pars (Factor.sparse [] 0 s) [] = _
        rw [Factor.deriv, hv]
        simp only [res_ok_bind]
        rw [e2]
        rfl
      · show Factor.hess lib pars (Factor.sparse [] 0 s) [] = _
        rw [Factor.hess, hv]
        simp only [res_ok_bind]
        rw [e3]
        rfl
    have hint : ∃ n, Mixed.integrate fo NB.ops (store lib pars) b x = Except.ok
        (Mixed.setNormalApprox (Mixed.ofFactor fo NB.ops (Factor.sparse [] 0 s)) n) ∧
        NWF n ∧ n.items = [] := by
      rw [Mixed.integrate, h1]
      have hrel : findRelativeItem x [x] = 0 := by simp [findRelativeItem]
      rw [hrel]
      rw [show Mixed.eraseAt [x] 0 = Except.ok [] from rfl]
      simp only [res_ok_bind]
      rw [hst]
      simp only [res_ok_bind]
      have hm := margin_eq (a := b.normalApprox) (l := []) (by simp)
      rw [show NB.ops.margin b.normalApprox [] = _ from hm]
      exact ⟨_, rfl, ⟨List.nodup_nil, Or.inr rfl⟩, rfl⟩
    obtain ⟨n, en, hn1, hn2⟩ := hint
    rw [Mixed.margin, if_neg (by simp), difference_eq, h1]
    simp only [List.not_mem_nil, not_false_eq_true, decide_true, List.filter_true]
    rw [List.foldlM_cons, en]
    refine ⟨_, rfl, ⟨wf_setNormal (wf_ofFactor L nb_laws hT) hn1 hn2, ?_⟩, ?_⟩
    · rw [Mixed.setNormalApprox]
      split <;> rfl
    · rw [ε, val, value_setNormal, value_ofFactor, T, h1]
      simp only [List.headD_cons]
      show fval fo (Factor.sparse [] 0 s) [] = _
      have hv : NB.vec 0 ([] : List ℝ) = Except.ok fun i => i.elim0 := by
        rw [NB.vec, dif_pos List.length_nil]
        congr 1
        funext i
        exact i.elim0
      have : fo.eval (Factor.sparse [] 0 s) [] = Except.ok (logAgq pars.quadratureRule
          (nm.mean 0) (Real.sqrt (nm.variance 0 0)) fun t => val lib pars b fun _ => t) := by
        show Factor.eval lib pars (Factor.sparse [] 0 s) [] = _
        rw [Factor.eval, hv]
        simp only [res_ok_bind]
        exact (hs fun i => i.elim0).1
      rw [fval, this, h4, h6]
  refine ⟨?_, ?_, ?_, ?_, ?_⟩
  · rintro b d ⟨hb, hbs⟩ ⟨hd, -⟩
    show ∃ r, Mixed.margin fo NB.ops (store lib pars) b d.items false = Except.ok r ∧ _
    rw [hd.items]
    obtain ⟨r, e, h1, h2⟩ := key b hb
    exact ⟨r, e, ⟨h1, fun hs => h2.le.trans (hbs hs).2⟩, h2⟩
  · rintro b d ⟨hb, hbs⟩ ⟨hd, hds⟩
    obtain ⟨r, e, w, i, f, v⟩ := mul_ok (F := fval fo) nb_laws hb.wf hd.wf
      (by rw [hd.items]; simp)
    have hva : ∀ a, val lib pars r a = val lib pars b a + ε lib pars d := fun a => by
      rw [← noItem_val hd a]
      exact v a
    have hna : r.normalApprox = b.normalApprox := by
      rw [Mixed.mul, Mixed.combineNormal, if_pos hb.fixed] at e
      simp only [res_ok_bind] at e
      rw [flags_ok hd.wf] at e
      cases e
      rfl
    obtain ⟨o, ht⟩ := oneItem_combine hr hb hd w i f hna hva
    refine ⟨r, e, ⟨o, fun hs => ⟨fun a => ?_, ?_⟩⟩, ht⟩
    · have := (hbs hs).1 a
      have := hds hs
      rw [hva a]
      linarith
    · have := (hbs hs).2
      have := hds hs
      rw [ht]
      linarith
  · rintro b d ⟨hb, hbs⟩ ⟨hd, hd0⟩
    obtain ⟨r, e, w, i, f, v⟩ := div_ok (F := fval fo) nb_laws hb.wf hd.wf
      (by rw [hd.items]; simp)
    have hva : ∀ a, val lib pars r a = val lib pars b a + -ε lib pars d := fun a => by
      rw [← noItem_val hd a, ← sub_eq_add_neg]
      exact v a
    have hna : r.normalApprox = b.normalApprox := by
      rw [Mixed.div, Mixed.combineNormal, if_pos hb.fixed] at e
      simp only [res_ok_bind] at e
      rw [flags_ok hd.wf] at e
      cases e
      rfl
    obtain ⟨o, ht⟩ := oneItem_combine hr hb hd w i f hna hva
    rw [sub_eq_add_neg]
    refine ⟨r, e, ⟨o, fun hs => ⟨fun a => ?_, ?_⟩⟩, ht⟩
    · have := (hbs hs).1 a
      rw [hva a, hd0]
      linarith
    · have := (hbs hs).2
      rw [ht, hd0]
      linarith
  · rintro b ⟨hb, hbs⟩
    obtain ⟨x, nm, h1, h2, h3, h4, h5, h6⟩ := hb.normal
    show ∃ t, (strong → t = true) ∧ Mixed.isProper fo NB.ops b = Except.ok t
    have hm : NB.ops.mean b.normalApprox = [nm.mean 0] := by
      rw [h2]
      show List.ofFn nm.mean = _
      rw [List.ofFn_succ, List.ofFn_zero]
    have hev : b.evaluate fo [nm.mean 0] = Except.ok (val lib pars b fun _ => nm.mean 0) := by
      have := Belief.evaluate_ok L hb.wf fun _ => nm.mean 0
      rwa [h1] at this
    have hn : ∃ o, NB.ops.eval b.normalApprox [nm.mean 0] = Except.ok (some o) ∧ o ≠ 0 := by
      rw [h2]
      show ∃ o, NB.evaluate ⟨[x], nm, 0⟩ [nm.mean 0] = Except.ok (some o) ∧ o ≠ 0
      have hv : NB.vec [x].length [nm.mean 0] = Except.ok nm.mean := by
        rw [NB.vec, dif_pos (by simp)]
        congr 1
        funext i
        rw [Subsingleton.elim (α := Fin 1) i 0]
        rfl
      rw [NB.evaluate, hv]
      rw [MN.isProper] at h3
      rcases hnm : nm.normalizer with _ | v
      · rw [hnm] at h3
        cases h3
      · rw [hnm] at h3
        have h0 : v ≠ 0 := by simpa using h3
        refine ⟨v, ?_, h0⟩
        simp only [res_ok_bind, res_pure]
        rw [MN.evaluate, hnm]
        simp
    obtain ⟨o, eo, ho⟩ := hn
    have hio : Mixed.isNormalOpt (some o) = true := by
      rw [Mixed.isNormalOpt, Mixed.isNormalFp]
      simpa using ho
    rw [Mixed.isProper, Mixed.factorsProper, hm, hev]
    split
    · simp only [res_ok_bind, res_pure]
      rw [eo]
      refine ⟨_, fun hs => ?_, rfl⟩
      rw [hio, Bool.and_true, Mixed.isNormalFp]
      exact decide_eq_true ((hbs hs).1 _).ne
    · simp only [res_ok_bind, res_pure]
      rw [eo]
      exact ⟨_, fun hs => by rw [hio]; rfl, rfl⟩
  · rintro b ⟨hb, -⟩
    obtain ⟨r, e, hr1, hr2⟩ := key b hb
    show Mixed.logNorm fo NB.ops (store lib pars) b = _
    rw [Mixed.logNorm, e]
    simp only [res_ok_bind]
    have := Belief.evaluate_ok L hr1.wf fun _ => 0
    rw [hr1.items] at this
    rw [← hr2]
    exact this

end Verif.SR
