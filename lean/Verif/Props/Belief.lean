import Verif.Proofs.BeliefDeriv
import Verif.Proofs.BeliefExact
import Verif.Props.ClusterExact
import Mathlib.Analysis.Calculus.Deriv.Pow
import Mathlib.Analysis.Calculus.Deriv.Mul
import Mathlib.Analysis.SpecialFunctions.Gaussian.GaussianIntegral

/-!
# C24, C59, C54 and C16–C18 for mixed beliefs
-/
namespace Verif.Belief

open Verif.Items MeasureTheory
open scoped ENNReal

variable {γ ν : Type}

/-! ## Specification: operation histories -/

/-- A history of operations on mixed beliefs; the second argument of `mul` and `div` is itself
the result of a history. -/
inductive Hist (γ ν : Type) where
  | fresh (items : List ℤ)
  | factor (g : γ)
  | mul (h k : Hist γ ν)
  | div (h k : Hist γ ν)
  | setNormal (h : Hist γ ν) (n : ν)
  | fix (h : Hist γ ν)
  | setItems (h : Hist γ ν) (items : List ℤ)

namespace Hist

/-- The items a belief with this history should have. -/
def items (itemsOf : γ → List ℤ) : Hist γ ν → List ℤ
  | fresh l => l
  | factor g => itemsOf g
  | mul h _ => h.items itemsOf
  | div h _ => h.items itemsOf
  | setNormal h _ => h.items itemsOf
  | fix h => h.items itemsOf
  | setItems _ l => l

/-- The log value a belief with this history should have: multiplied factors are added, divided
ones subtracted, each at its own items. -/
def val (itemsOf : γ → List ℤ) (F : γ → List ℝ → ℝ) : Hist γ ν → (ℤ → ℝ) → ℝ
  | fresh _, _ => 0
  | factor g, a => F g ((itemsOf g).map a)
  | mul h k, a => h.val itemsOf F a + k.val itemsOf F a
  | div h k, a => h.val itemsOf F a - k.val itemsOf F a
  | setNormal h _, a => h.val itemsOf F a
  | fix h, a => h.val itemsOf F a
  | setItems h _, a => h.val itemsOf F a

/-- Admissible histories: no repeated items, factors and divisors only on items the belief has,
items never taken away from a belief. -/
def Valid (itemsOf : γ → List ℤ) (GWF : γ → Prop) (normalItems : ν → List ℤ) (NWF : ν → Prop) :
    Hist γ ν → Prop
  | fresh l => l.Nodup
  | factor g => GWF g
  | mul h k => h.Valid itemsOf GWF normalItems NWF ∧ k.Valid itemsOf GWF normalItems NWF ∧
      ∀ x ∈ k.items itemsOf, x ∈ h.items itemsOf
  | div h k => h.Valid itemsOf GWF normalItems NWF ∧ k.Valid itemsOf GWF normalItems NWF ∧
      ∀ x ∈ k.items itemsOf, x ∈ h.items itemsOf
  | setNormal h n => h.Valid itemsOf GWF normalItems NWF ∧ NWF n ∧
      normalItems n = h.items itemsOf
  | fix h => h.Valid itemsOf GWF normalItems NWF
  | setItems h l => h.Valid itemsOf GWF normalItems NWF ∧ l.Nodup ∧ ∀ x ∈ h.items itemsOf, x ∈ l

/-- Carrying out a history with the model's operations. -/
def run (fo : FactorOps γ) (no : NormalOps ν) : Hist γ ν → Res (Mixed γ ν)
  | fresh l => return Mixed.ofItems no l
  | factor g => return Mixed.ofFactor fo no g
  | mul h k => do
    let m ← h.run fo no
    let o ← k.run fo no
    Mixed.mul fo no m o
  | div h k => do
    let m ← h.run fo no
    let o ← k.run fo no
    Mixed.div fo no m o
  | setNormal h n => do
    let m ← h.run fo no
    return m.setNormalApprox n
  | fix h => do
    let m ← h.run fo no
    return m.fixNormalApprox
  | setItems h l => do
    let m ← h.run fo no
    return m.setItems fo no l

end Hist

variable {fo : FactorOps γ} {no : NormalOps ν} {GWF : γ → Prop} {NWF : ν → Prop}
  {F : γ → List ℝ → ℝ}

theorem run_ok (L : FLaws fo GWF F) (N : NLaws no NWF) : ∀ h : Hist γ ν,
    h.Valid fo.items GWF no.items NWF →
    ∃ m, h.run fo no = Except.ok m ∧ WF fo no GWF NWF m ∧ m.items = h.items fo.items ∧
      ∀ a, value fo F m a = h.val fo.items F a
  | .fresh l, hv => ⟨_, rfl, wf_ofItems N hv, rfl, fun a => by simp [value, Mixed.ofItems, Hist.val]⟩
  | .factor g, hv => ⟨_, rfl, wf_ofFactor L N hv, rfl, fun a => value_ofFactor g a⟩
  | .mul h k, ⟨hh, hk, hs⟩ => by
    obtain ⟨m, e1, w1, i1, v1⟩ := run_ok L N h hh
    obtain ⟨o, e2, w2, i2, v2⟩ := run_ok L N k hk
    obtain ⟨r, e, w, i, -, v⟩ := mul_ok (F := F) N w1 w2 (by rw [i1, i2]; exact hs)
    refine ⟨r, ?_, w, i.trans i1, fun a => by rw [v, v1, v2]; rfl⟩
    rw [Hist.run, e1]
    simp only [res_ok_bind]
    rw [e2]
    simp only [res_ok_bind]
    exact e
  | .div h k, ⟨hh, hk, hs⟩ => by
    obtain ⟨m, e1, w1, i1, v1⟩ := run_ok L N h hh
    obtain ⟨o, e2, w2, i2, v2⟩ := run_ok L N k hk
    obtain ⟨r, e, w, i, -, v⟩ := div_ok (F := F) N w1 w2 (by rw [i1, i2]; exact hs)
    refine ⟨r, ?_, w, i.trans i1, fun a => by rw [v, v1, v2]; rfl⟩
    rw [Hist.run, e1]
    simp only [res_ok_bind]
    rw [e2]
    simp only [res_ok_bind]
    exact e
  | .setNormal h n, ⟨hh, hn, hi⟩ => by
    obtain ⟨m, e1, w1, i1, v1⟩ := run_ok L N h hh
    refine ⟨m.setNormalApprox n, ?_, wf_setNormal w1 hn (hi.trans i1.symm), ?_, fun a => by
      rw [value_setNormal, v1]; rfl⟩
    · rw [Hist.run, e1]; rfl
    · rw [Mixed.setNormalApprox]; split <;> exact i1
  | .fix h, hh => by
    obtain ⟨m, e1, w1, i1, v1⟩ := run_ok L N h hh
    exact ⟨m.fixNormalApprox, by rw [Hist.run, e1]; rfl, wf_fix w1, i1, v1⟩
  | .setItems h l, ⟨hh, hl, hs⟩ => by
    obtain ⟨m, e1, w1, i1, v1⟩ := run_ok L N h hh
    exact ⟨m.setItems fo no l, by rw [Hist.run, e1]; rfl, wf_setItems N w1 hl (by rw [i1]; exact hs),
      rfl, v1⟩

/-! ## C24 -/

/-- C24: after every admissible history the belief has the expected items, its cached positions
are those of the factors' items (never stale), and evaluation gives the signed sum of the factors
at every assignment. -/
theorem c24_history (L : FLaws fo GWF F) (N : NLaws no NWF) (h : Hist γ ν)
    (hv : h.Valid fo.items GWF no.items NWF) :
    ∃ m, h.run fo no = Except.ok m ∧ m.items = h.items fo.items ∧
      m.relativeItems.length = m.beliefs.length ∧
      (∀ (k : ℕ) g rel, m.beliefs[k]? = some g → m.relativeItems[k]? = some rel →
        rel.map (fun p : ℕ => m.items[p]?) = (fo.items g).map some) ∧
      ∀ a : ℤ → ℝ, m.evaluate fo (m.items.map a) = Except.ok (h.val fo.items F a) := by
  obtain ⟨m, e, w, i, v⟩ := run_ok L N h hv
  refine ⟨m, e, i, by rw [w.rel]; simp, fun k g rel hg hr => ?_, fun a => by
    rw [evaluate_ok L w a, v a]⟩
  rw [w.rel, List.getElem?_map, hg] at hr
  simp only [Option.map_some, Option.some.injEq] at hr
  subst hr
  rw [findRelativeItems, List.map_map]
  refine List.map_congr_left fun x hx => ?_
  exact (relativeItem_getElem? ((w.sub g (List.mem_of_getElem? hg)).2 x hx)).1

/-- C24: multiplying and then dividing by the same belief (or the other way round) restores the
value at every point of the right dimension. -/
theorem c24_restore (L : FLaws fo GWF F) (N : NLaws no NWF) (h k : Hist γ ν)
    (hv : (Hist.mul h k).Valid fo.items GWF no.items NWF) :
    ∃ m m1 m2, h.run fo no = Except.ok m ∧ (Hist.div (.mul h k) k).run fo no = Except.ok m1 ∧
      (Hist.mul (.div h k) k).run fo no = Except.ok m2 ∧
      ∀ x : List ℝ, x.length = m.items.length →
        m1.evaluate fo x = m.evaluate fo x ∧ m2.evaluate fo x = m.evaluate fo x := by
  obtain ⟨m, e, w, i, v⟩ := run_ok L N h hv.1
  obtain ⟨m1, e1, w1, i1, v1⟩ := run_ok L N (Hist.div (.mul h k) k) ⟨hv, hv.2.1, hv.2.2⟩
  obtain ⟨m2, e2, w2, i2, v2⟩ := run_ok L N (Hist.mul (.div h k) k) ⟨hv, hv.2.1, hv.2.2⟩
  refine ⟨m, m1, m2, e, e1, e2, fun x hx => ?_⟩
  obtain ⟨a, rfl⟩ := exists_assignment w.nodup x hx
  have h1 : m1.items = m.items := by rw [i1, i]; rfl
  have h2 : m2.items = m.items := by rw [i2, i]; rfl
  rw [evaluate_ok L w a, ← h1, evaluate_ok L w1 a, h1, ← h2, evaluate_ok L w2 a, v1, v2, v]
  simp [Hist.val]

/-! ## C59: derivatives -/

/-- C59: after every admissible history the reported gradient and Hessian exist, have the
dimension of the belief, and are entry by entry the partial derivatives of the value. -/
theorem c59_derivatives {D : γ → (ℤ → ℝ) → ℤ → ℝ} {H : γ → (ℤ → ℝ) → ℤ → ℤ → ℝ}
    (L : FLaws fo GWF F) (X : DLaws fo GWF F D H) (N : NLaws no NWF) (h : Hist γ ν)
    (hv : h.Valid fo.items GWF no.items NWF) :
    ∃ m, h.run fo no = Except.ok m ∧ ∃ (G : (ℤ → ℝ) → ℤ → ℝ) (HH : (ℤ → ℝ) → ℤ → ℤ → ℝ),
      (∀ a, m.evaluateDerivative fo (m.items.map a) = Except.ok (m.items.map (G a))) ∧
      (∀ a, m.evaluateSecondDerivative fo (m.items.map a) =
        Except.ok (m.items.map fun x => m.items.map (HH a x))) ∧
      (∀ a x, HasDerivAt (fun t => h.val fo.items F (Function.update a x t)) (G a x) (a x)) ∧
      ∀ a x y, HasDerivAt (fun t => G (Function.update a y t) x) (HH a x y) (a y) := by
  obtain ⟨m, e, w, i, v⟩ := run_ok L N h hv
  refine ⟨m, e, grad fo D m, hessian fo H m, fun a => evaluateDerivative_ok L X.toDOk w a,
    fun a => evaluateSecondDerivative_ok L X.toDOk w a, fun a x => ?_, fun a x y =>
      hessian_isDeriv X w a x y⟩
  have := grad_isDeriv X w a x
  simp only [v] at this
  exact this

/-! ## C16–C18 for mixed beliefs -/

/-- C16 for mixed beliefs: every factor goes into exactly one cluster. -/
theorem c16_mixed (L : FLaws fo GWF F) (N : NLaws no NWF) {store : Store γ ν}
    (hst : StoreLaw fo GWF store) (gs : List γ) (hg : ∀ g ∈ gs, GWF g) {ar : Arith}
    (har : ClusterGraph.Suits ar (gs.map fo.items)) :
    ∃ c, ClusterGraph.ofBeliefs ar (Mixed.ops fo no store) (gs.map (Mixed.ofFactor fo no)) =
        Except.ok c ∧
      ∀ a, (c.clusters.map fun r => value fo F r a).sum =
        (gs.map fun g => F g ((fo.items g).map a)).sum := by
  obtain ⟨c, e, -, -, h⟩ := ClusterGraph.c16_populate (mixed_laws L N hst)
    (gs.map (Mixed.ofFactor fo no)) (fun b hb => by
      obtain ⟨g, hgm, rfl⟩ := List.mem_map.mp hb
      exact wf_ofFactor L N (hg g hgm)) (ar := ar) (by
        rw [List.map_map]; exact har)
  refine ⟨c, e, fun a => (h a).trans ?_⟩
  rw [List.map_map]
  congr 1
  exact List.map_congr_left fun g _ => value_ofFactor g a

/-- C17 for mixed beliefs: no message schedule changes the joint function, whatever the local
integration and storing return. -/
theorem c17_mixed (L : FLaws fo GWF F) (N : NLaws no NWF) {store : Store γ ν}
    (hst : StoreLaw fo GWF store) (gs : List γ) (hg : ∀ g ∈ gs, GWF g) {ar : Arith}
    (har : ClusterGraph.Suits ar (gs.map fo.items)) :
    ∃ c, ClusterGraph.ofBeliefs ar (Mixed.ops fo no store) (gs.map (Mixed.ofFactor fo no)) =
        Except.ok c ∧ ∀ (ms : List ClusterGraph.Msg) c',
      ClusterGraph.passAll (Mixed.ops fo no store) c ms = Except.ok c' →
      ∃ bs, ClusterGraph.extractBeliefs (Mixed.ops fo no store) c' = Except.ok bs ∧
        ∀ a, (bs.map fun b => value fo F b a).sum =
          (gs.map fun g => F g ((fo.items g).map a)).sum := by
  obtain ⟨c, e, h⟩ := ClusterGraph.c17_messages (mixed_laws L N hst)
    (gs.map (Mixed.ofFactor fo no)) (fun b hb => by
      obtain ⟨g, hgm, rfl⟩ := List.mem_map.mp hb
      exact wf_ofFactor L N (hg g hgm)) (ar := ar) (by
        rw [List.map_map]; exact har)
  refine ⟨c, e, fun ms c' hc => ?_⟩
  obtain ⟨-, bs, eb, -, hb⟩ := h ms c' hc
  refine ⟨bs, eb, fun a => (hb a).trans ?_⟩
  rw [List.map_map]
  congr 1
  exact List.map_congr_left fun g _ => value_ofFactor g a

/-- C18 for mixed beliefs: if storing a one-dimensional integral is exact, sequential reduction
returns the log of the integral of the product of all factors over all items. -/
theorem c18_mixed (L : FLaws fo GWF F) (N : NLaws no NWF) {store : Store γ ν}
    (hst : StoreLaw fo GWF store) (hx : ExactStore F store)
    (hM : ∀ g, GWF g → Measurable fun a : ℤ → ℝ => F g ((fo.items g).map a))
    (gs : List γ) (hg : ∀ g ∈ gs, GWF g) {ar : Arith}
    (har : ClusterGraph.Suits ar (gs.map fo.items)) {c0 c : ClusterGraph.CG (Mixed γ ν)} {v : ℝ}
    (h0 : ClusterGraph.ofBeliefs ar (Mixed.ops fo no store) (gs.map (Mixed.ofFactor fo no)) =
      Except.ok c0)
    (h1 : ClusterGraph.calibrateForward (Mixed.ops fo no store) c0 = Except.ok c)
    (h2 : ClusterGraph.logNormalizingConstant (Mixed.ops fo no store) c = Except.ok v)
    (a : ℤ → ℝ) :
    ENNReal.ofReal (Real.exp v) =
      lmarginal (fun _ => (volume : Measure ℝ)) (gs.map fo.items).flatten.toFinset
        (fun a => ENNReal.ofReal (Real.exp (gs.map fun g => F g ((fo.items g).map a)).sum)) a := by
  have := ClusterGraph.c18_exact (mixed_laws L N hst) (mixed_exact L N hst hx hM)
    (gs.map (Mixed.ofFactor fo no)) (fun b hb => by
      obtain ⟨g, hgm, rfl⟩ := List.mem_map.mp hb
      exact wf_ofFactor L N (hg g hgm)) (ar := ar) (by
        rw [List.map_map]; exact har) h0 h1 h2 a
  rw [this, List.map_map]
  congr 1
  funext a
  congr 3
  rw [List.map_map]
  exact List.map_congr_left fun g _ => value_ofFactor g a

/-! ## Concrete cases -/

/-- Factors `c * ∑ xᵢ²` on a list of items. -/
def sqOps : FactorOps (List ℤ × ℝ) where
  items := Prod.fst
  eval g x := if x.length = g.1.length then .ok (g.2 * (x.map (· ^ 2)).sum) else Res.ub
  deriv g x := if x.length = g.1.length then .ok (x.map fun t => 2 * g.2 * t) else Res.ub
  hess g x := if x.length = g.1.length then
    .ok (g.1.map fun i => g.1.map fun j => if i = j then 2 * g.2 else 0) else Res.ub

/-- Normal approximations reduced to their items. -/
def bareNormal : NormalOps (List ℤ) where
  items := id
  ofItems := id
  setItems _ l := l
  mul a _ := .ok a
  div a _ := .ok a
  margin _ l := .ok l
  mean a := a.map fun _ => 0
  eval _ _ := .ok (some 1)

theorem sq_laws : FLaws sqOps (fun g => g.1.Nodup) fun g x => g.2 * (x.map (· ^ 2)).sum where
  nodup _ h := h
  eval_ok g _ x hx := by rw [sqOps]; exact if_pos hx

theorem bare_laws : NLaws bareNormal List.Nodup where
  items_ofItems _ := rfl
  ofItems_wf _ h := h
  setItems_ok _ _ _ h := ⟨h, rfl⟩
  mul_ok _ _ h _ _ := ⟨_, rfl, h, rfl⟩
  div_ok _ _ h _ _ := ⟨_, rfl, h, rfl⟩
  margin_ok _ _ _ _ h _ e := by cases e; exact ⟨h, rfl⟩

theorem sum_sq_deriv (a : ℤ → ℝ) (x : ℤ) : ∀ {l : List ℤ}, l.Nodup → x ∈ l →
    HasDerivAt (fun t => ((l.map (Function.update a x t)).map (· ^ 2)).sum) (2 * a x) (a x)
  | [], _, h => by simp at h
  | y :: l, hn, h => by
    rw [List.nodup_cons] at hn
    simp only [List.map_cons, List.sum_cons]
    rcases List.mem_cons.mp h with rfl | hl
    · simp only [Function.update_self, map_update_notMem hn.1]
      simpa using (hasDerivAt_pow 2 (a x)).add_const ((l.map a).map (· ^ 2)).sum
    · have hy : y ≠ x := fun e => hn.1 (e ▸ hl)
      simp only [Function.update_of_ne hy]
      exact (sum_sq_deriv a x hn.2 hl).const_add _

theorem sq_dlaws : DLaws sqOps (fun g => g.1.Nodup) (fun g x => g.2 * (x.map (· ^ 2)).sum)
    (fun g a x => 2 * g.2 * a x) (fun g _ x y => if x = y then 2 * g.2 else 0) where
  deriv_ok g _ a := by simp [sqOps]
  hess_ok g _ a := by simp [sqOps]
  isDeriv g hg a x hx := by
    have := (sum_sq_deriv a x hg hx).const_mul g.2
    exact this.congr_deriv (by ring)
  isHess g _ a x _ y _ := by
    by_cases h : x = y
    · subst h
      simp only [Function.update_self, if_true]
      simpa using (hasDerivAt_id (a x)).const_mul (2 * g.2)
    · simp only [Function.update_of_ne h, h, if_false]
      exact hasDerivAt_const _ _
  derivLocal g _ a a' h x hx := by rw [h x hx]

/-- A history with a factor on items in another order, a product, a quotient, a fixed normal
approximation and enlarged items meets the hypotheses of C24 and C59. -/
example : (Hist.div (.mul (.setItems (.fix (.factor ([3, 1], 2))) [1, 2, 3])
      (.factor ([2, 1], 5))) (.mul (.fresh [3, 2]) (.factor ([2], -1))) :
      Hist (List ℤ × ℝ) (List ℤ)).Valid
    sqOps.items (fun g => g.1.Nodup) bareNormal.items List.Nodup := by
  simp [Hist.Valid, Hist.items, sqOps]

/-- The value C24 gives for it. -/
example (a : ℤ → ℝ) : (Hist.div (.mul (.setItems (.fix (.factor ([3, 1], 2))) [1, 2, 3])
      (.factor ([2, 1], 5))) (.mul (.fresh [3, 2]) (.factor ([2], -1))) :
      Hist (List ℤ × ℝ) (List ℤ)).val sqOps.items (fun g x => g.2 * (x.map (· ^ 2)).sum) a =
    2 * (a 3 ^ 2 + a 1 ^ 2) + 5 * (a 2 ^ 2 + a 1 ^ 2) + a 2 ^ 2 := by
  simp [Hist.val, sqOps]

/-! ## C54 -/

/-- C54 (partial): a belief is improper only if the value of its factors at the mean is exactly
zero, or the value of its normal approximation there is exactly zero or not finite (factor values
are reals here, and subnormal numbers are not modelled). -/
theorem c54_only_zero_partial (L : FLaws fo GWF F) {m : Mixed γ ν} (h : WF fo no GWF NWF m)
    (a : ℤ → ℝ) (ha : no.mean m.normalApprox = m.items.map a) {e : Option ℝ}
    (he : no.eval m.normalApprox (no.mean m.normalApprox) = Except.ok e) :
    ∃ p, m.isProper fo no = Except.ok p ∧
      (p = false ↔ (m.beliefs ≠ [] ∧ value fo F m a = 0) ∨ e = some 0 ∨ e = none) := by
  rw [Mixed.isProper, Mixed.factorsProper]
  by_cases hb : m.beliefs.length > 0
  · rw [if_pos hb, ha, evaluate_ok L h a]
    simp only [res_ok_bind, res_pure]
    rw [← ha, he]
    simp only [res_ok_bind, res_pure]
    refine ⟨_, rfl, ?_⟩
    have : m.beliefs ≠ [] := fun h => by rw [h] at hb; simp at hb
    rcases e with _ | e <;>
      simp only [Mixed.isNormalFp, Mixed.isNormalOpt, Bool.and_eq_false_iff,
        decide_eq_false_iff_not, not_not, Option.some.injEq, reduceCtorEq] <;> tauto
  · rw [if_neg hb]
    simp only [res_pure, res_ok_bind]
    rw [he]
    simp only [res_ok_bind, res_pure]
    refine ⟨_, rfl, ?_⟩
    have : m.beliefs = [] := List.eq_nil_of_length_eq_zero (by omega)
    rcases e with _ | e <;> simp [Mixed.isNormalFp, Mixed.isNormalOpt, this]

/-- C54 is violated: a finite factor whose log is zero at the mean makes message passing stop
with an error, although every value is finite. -/
theorem c54_violated : ∃ c : ClusterGraph.CG (Mixed (List ℤ × ℝ) (List ℤ)),
    (∀ b ∈ c.clusters, WF sqOps bareNormal (fun g => g.1.Nodup) List.Nodup b) ∧
    ∀ store : Store (List ℤ × ℝ) (List ℤ),
      ClusterGraph.passMessage (Mixed.ops sqOps bareNormal store) c 0 true true =
        Res.raise "improper cluster belief after passing message" := by
  refine ⟨⟨[Mixed.ofFactor sqOps bareNormal ([1, 2], 1), Mixed.ofFactor sqOps bareNormal ([2], 3)],
    [⟨0, 1, Mixed.ofItems bareNormal [2]⟩]⟩, ?_, fun store => ?_⟩
  · intro b hb
    simp only [List.mem_cons, List.not_mem_nil, or_false] at hb
    rcases hb with rfl | rfl
    · exact wf_ofFactor sq_laws bare_laws (by simp)
    · exact wf_ofFactor sq_laws bare_laws (by simp)
  · rw [ClusterGraph.passMessage]
    simp [nth, res_ok_bind, ClusterGraph.ends, ClusterGraph.atZ, ClusterGraph.setZ, setN,
      Mixed.ops, Mixed.margin, Mixed.ofItems, Mixed.ofFactor, Mixed.recomputeRelativeItems,
      bareNormal, sqOps, Mixed.setNormalApprox, res_pure, Mixed.mul, Mixed.div,
      Mixed.combineNormal, Mixed.flags, Mixed.isProper, Mixed.factorsProper, Mixed.evaluate,
      Mixed.evalStep, findSubset, Mixed.isNormalFp, Mixed.isNormalOpt, findRelativeItems, findRelativeItem, atE]
    rfl

/-! ## A store meeting the hypotheses of C18 -/

/-- Factors given by arbitrary log functions. -/
def funOps : FactorOps (List ℤ × (List ℝ → ℝ)) where
  items := Prod.fst
  eval g x := .ok (g.2 x)
  deriv _ x := .ok x
  hess _ _ := .ok []

/-- The one-dimensional integral a store has to represent. -/
noncomputable def slice (k : ℕ) (φ : List ℝ → ℝ) (x : List ℝ) : ℝ≥0∞ :=
  ∫⁻ t : ℝ, ENNReal.ofReal (Real.exp (φ (x.insertIdx k t)))

open Classical in
/-- Exact storing: refused unless all the integrals are positive and finite (and the result
measurable). -/
noncomputable def exactStore : Store (List ℤ × (List ℝ → ℝ)) (List ℤ) := fun k f _ _ _ l =>
  if h : ∃ φ : List ℝ → ℝ, (∀ x : List ℝ, x.length = l.length + 1 → f x = Except.ok (φ x)) ∧
      (∀ x : List ℝ, x.length = l.length → slice k φ x ≠ ⊤ ∧ slice k φ x ≠ 0) ∧
      Measurable fun a : ℤ → ℝ => Real.log (slice k φ (l.map a)).toReal then
    .ok (l, fun x => Real.log (slice k h.choose x).toReal)
  else Res.raise "no finite integral"

/-- Well-formed log functions. -/
def FunWF (g : List ℤ × (List ℝ → ℝ)) : Prop :=
  g.1.Nodup ∧ Measurable fun a : ℤ → ℝ => g.2 (g.1.map a)

theorem fun_laws : FLaws funOps FunWF Prod.snd where
  nodup _ h := h.1
  eval_ok _ _ _ _ := rfl

theorem exactStore_law : StoreLaw funOps FunWF exactStore := by
  intro k f d h n l g hl e
  rw [exactStore] at e
  split at e
  · rename_i hx
    cases e
    exact ⟨⟨hl, hx.choose_spec.2.2⟩, rfl⟩
  · cases e

theorem exactStore_exact : ExactStore Prod.snd exactStore := by
  intro k f d h n l g φ hk hf e x hx
  rw [exactStore] at e
  split at e
  · rename_i hex
    cases e
    obtain ⟨h1, h2, -⟩ := hex.choose_spec
    have hs : slice k hex.choose x = slice k φ x := by
      rw [slice, slice]
      refine lintegral_congr fun t => ?_
      have hl : (x.insertIdx k t).length = l.length + 1 := by
        rw [List.length_insertIdx_of_le_length (by omega), hx]
      have := (h1 _ hl).symm.trans (hf _ hl)
      simp only [Except.ok.injEq] at this
      rw [this]
    show ENNReal.ofReal (Real.exp (Real.log (slice k hex.choose x).toReal)) = slice k φ x
    rw [Real.exp_log (ENNReal.toReal_pos (h2 x hx).2 (h2 x hx).1),
      ENNReal.ofReal_toReal (h2 x hx).1, hs]
  · cases e

/-- The hypotheses of C18 for mixed beliefs are met by this store. -/
example (gs : List (List ℤ × (List ℝ → ℝ))) (hg : ∀ g ∈ gs, FunWF g)
    (har : ClusterGraph.Suits i32 (gs.map Prod.fst))
    {c0 c : ClusterGraph.CG (Mixed (List ℤ × (List ℝ → ℝ)) (List ℤ))} {v : ℝ}
    (h0 : ClusterGraph.ofBeliefs i32 (Mixed.ops funOps bareNormal exactStore)
      (gs.map (Mixed.ofFactor funOps bareNormal)) = Except.ok c0)
    (h1 : ClusterGraph.calibrateForward (Mixed.ops funOps bareNormal exactStore) c0 = Except.ok c)
    (h2 : ClusterGraph.logNormalizingConstant (Mixed.ops funOps bareNormal exactStore) c =
      Except.ok v) (a : ℤ → ℝ) :=
  c18_mixed fun_laws bare_laws exactStore_law exactStore_exact (fun _ h => h.2) gs hg har h0 h1 h2 a

/-- The exact integral of `exp(-t²)` is stored when the only item of a Gaussian factor is
integrated out. -/
theorem exactStore_runs : ∃ v, Mixed.logNorm funOps bareNormal exactStore
    (Mixed.ofFactor funOps bareNormal ([7], fun x => -(x.map (· ^ 2)).sum)) = Except.ok v ∧
    Real.exp v = Real.sqrt Real.pi := by
  have hint : slice 0 (fun x => -(x.map (· ^ 2)).sum) [] = ENNReal.ofReal (Real.sqrt Real.pi) := by
    rw [slice]
    have h1 : ∀ t : ℝ, Real.exp (-(((([] : List ℝ).insertIdx 0 t).map (· ^ 2)).sum)) =
        Real.exp (-1 * t ^ 2) := by intro t; simp
    simp only [h1]
    rw [← ofReal_integral_eq_lintegral_ofReal (integrable_exp_neg_mul_sq one_pos)
      (Filter.Eventually.of_forall fun t => (Real.exp_pos _).le), integral_gaussian]
    simp
  set m : Mixed (List ℤ × (List ℝ → ℝ)) (List ℤ) :=
    Mixed.ofFactor funOps bareNormal ([7], fun x => -(x.map (· ^ 2)).sum) with hm
  have hw : WF funOps bareNormal FunWF List.Nodup m := by
    refine wf_ofFactor fun_laws bare_laws ⟨by simp, ?_⟩
    simp only [List.map_cons, List.map_nil, List.sum_cons, List.sum_nil, add_zero]
    exact ((measurable_pi_apply 7).pow_const 2).neg
  have hf : ∀ x : List ℝ, x.length = 1 → m.evaluate funOps x =
      Except.ok (-(x.map (· ^ 2)).sum) := by
    intro x hx
    obtain ⟨a, rfl⟩ := exists_assignment hw.nodup x hx
    rw [evaluate_ok fun_laws hw a, hm, value_ofFactor]
    rfl
  have hex : ∃ φ : List ℝ → ℝ, (∀ x : List ℝ, x.length = ([] : List ℤ).length + 1 →
        m.evaluate funOps x = Except.ok (φ x)) ∧
      (∀ x : List ℝ, x.length = ([] : List ℤ).length → slice 0 φ x ≠ ⊤ ∧ slice 0 φ x ≠ 0) ∧
      Measurable fun a : ℤ → ℝ => Real.log (slice 0 φ (([] : List ℤ).map a)).toReal := by
    refine ⟨fun x => -(x.map (· ^ 2)).sum, hf, fun x hx => ?_, by simp⟩
    obtain rfl := List.eq_nil_of_length_eq_zero hx
    rw [hint]
    refine ⟨ENNReal.ofReal_ne_top, ?_⟩
    simp [Real.pi_pos]
  have hgs : ∀ (d : List ℝ → Res (List ℝ)) (h : List ℝ → Res (List (List ℝ))) n,
      ∃ g, exactStore 0 (m.evaluate funOps) d h n [] = Except.ok g ∧ g.1 = [] ∧
        Real.exp (g.2 []) = Real.sqrt Real.pi := by
    intro d h n
    have he : exactStore 0 (m.evaluate funOps) d h n [] =
        Except.ok ([], fun x => Real.log (slice 0 hex.choose x).toReal) := by
      rw [exactStore, dif_pos hex]
    refine ⟨_, he, rfl, ?_⟩
    have := exactStore_exact 0 _ d h n [] _ _ le_rfl hf he [] rfl
    rw [slice] at hint
    rw [hint] at this
    have := congrArg ENNReal.toReal this
    rwa [ENNReal.toReal_ofReal (Real.exp_pos _).le,
      ENNReal.toReal_ofReal (Real.sqrt_nonneg _)] at this
  obtain ⟨g, hg, gi, gv⟩ := hgs (m.evaluateDerivative funOps) (m.evaluateSecondDerivative funOps)
    m.normalApprox
  refine ⟨g.2 [], ?_, gv⟩
  have hint1 : Mixed.integrate funOps bareNormal exactStore m 7 =
      Except.ok (Mixed.setNormalApprox (Mixed.ofFactor funOps bareNormal g) []) := by
    rw [Mixed.integrate]
    have h1 : findRelativeItem 7 m.items = 0 := rfl
    have h2 : Mixed.eraseAt m.items 0 = Except.ok [] := rfl
    simp only [h1]
    rw [h2]
    simp only [res_ok_bind]
    rw [hg]
    rfl
  rw [Mixed.logNorm, Mixed.margin]
  have hd : findItemsDifference m.items [] = [7] := by rw [difference_eq]; rfl
  simp only [Bool.false_eq_true, if_false]
  rw [hd, List.foldlM_cons, hint1]
  obtain ⟨l, φ⟩ := g
  simp only at gi
  subst gi
  simp [res_ok_bind, res_pure, Mixed.evaluate, Mixed.setNormalApprox, Mixed.ofFactor,
    Mixed.recomputeRelativeItems, Mixed.evalStep, funOps, findRelativeItems, findSubset, atE]

end Verif.Belief
