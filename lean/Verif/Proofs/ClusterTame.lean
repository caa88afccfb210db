import Verif.Props.ClusterExact
import Mathlib.Analysis.SpecialFunctions.Gaussian.GaussianIntegral

/-! The forward sweep with exact local integrals runs through when every item has a factor that
decreases like a normal density. -/
namespace Verif.ClusterGraph

open Verif.Items Verif.DepGraph MeasureTheory
open scoped ENNReal

/-- Between two multiples of a product of powers of normal densities: `N x` is the power for item
`x`, `T` a set containing all items. -/
def Tame (T : Finset ℤ) (N : ℤ → ℕ) (f : (ℤ → ℝ) → ℝ) : Prop :=
  ∃ lo hi : ℝ, ∀ a : ℤ → ℝ, lo - ∑ x ∈ T, N x * (a x) ^ 2 / 2 ≤ f a ∧
    f a ≤ hi - ∑ x ∈ T, N x * (a x) ^ 2 / 2

theorem Tame.zero (T : Finset ℤ) : Tame T 0 fun _ => 0 := ⟨0, 0, by simp⟩

theorem Tame.add {T : Finset ℤ} {N M : ℤ → ℕ} {f g : (ℤ → ℝ) → ℝ} (hf : Tame T N f)
    (hg : Tame T M g) : Tame T (N + M) fun a => f a + g a := by
  obtain ⟨l1, h1, e1⟩ := hf
  obtain ⟨l2, h2, e2⟩ := hg
  refine ⟨l1 + l2, h1 + h2, fun a => ?_⟩
  have : ∑ x ∈ T, ((N + M) x : ℕ) * (a x) ^ 2 / 2 =
      ∑ x ∈ T, N x * (a x) ^ 2 / 2 + ∑ x ∈ T, M x * (a x) ^ 2 / 2 := by
    rw [← Finset.sum_add_distrib]
    refine Finset.sum_congr rfl fun x _ => ?_
    rw [Pi.add_apply]
    push_cast
    ring
  rw [this]
  constructor <;> linarith [(e1 a).1, (e1 a).2, (e2 a).1, (e2 a).2]

theorem Tame.sum {T : Finset ℤ} {β : Type} {N : β → ℤ → ℕ} {f : β → (ℤ → ℝ) → ℝ} :
    ∀ l : List β, (∀ b ∈ l, Tame T (N b) (f b)) →
      Tame T (fun x => (l.map fun b => N b x).sum) fun a => (l.map fun b => f b a).sum
  | [], _ => Tame.zero T
  | b :: l, h => by
    simp only [List.map_cons, List.sum_cons]
    exact (h b (by simp)).add (Tame.sum l fun b' hb' => h b' (by simp [hb']))

/-- `∫ exp(-m x² / 2)`. -/
noncomputable def gaussMass (m : ℕ) : ℝ≥0∞ := ∫⁻ x : ℝ, ENNReal.ofReal (Real.exp (-(m * x ^ 2 / 2)))

theorem gaussMass_pos (m : ℕ) : gaussMass m ≠ 0 := by
  intro h
  rw [gaussMass, lintegral_eq_zero_iff (by fun_prop)] at h
  have h1 : ∀ᵐ x : ℝ, False := by
    filter_upwards [h] with x hx
    have : ENNReal.ofReal (Real.exp (-(m * x ^ 2 / 2))) ≠ 0 := by
      rw [Ne, ENNReal.ofReal_eq_zero, not_le]
      exact Real.exp_pos _
    exact this hx
  simp at h1
  exact NeZero.ne (volume : Measure ℝ) h1

theorem gaussMass_lt {m : ℕ} (hm : 1 ≤ m) : gaussMass m ≠ ⊤ := by
  have hm' : (0 : ℝ) < m / 2 := by
    have : (1 : ℝ) ≤ m := by exact_mod_cast hm
    linarith
  have := (integrable_exp_neg_mul_sq hm').lintegral_lt_top
  refine ne_of_lt (lt_of_eq_of_lt ?_ this)
  rw [gaussMass]
  refine lintegral_congr fun x => ?_
  congr 2
  ring

theorem wt_mono {f g : (ℤ → ℝ) → ℝ} {a : ℤ → ℝ} (h : f a ≤ g a) : wt f a ≤ wt g a :=
  ENNReal.ofReal_le_ofReal (Real.exp_le_exp.2 h)

theorem sum_update {T : Finset ℤ} {v : ℤ} (hv : v ∈ T) (N : ℤ → ℕ) (a : ℤ → ℝ) (x : ℝ) :
    ∑ y ∈ T, N y * (Function.update a v x y) ^ 2 / 2 =
      ∑ y ∈ T, (Function.update N v 0 y : ℕ) * (a y) ^ 2 / 2 + N v * x ^ 2 / 2 := by
  rw [← Finset.add_sum_erase T _ hv, ← Finset.add_sum_erase (f := fun y =>
    (Function.update N v 0 y : ℕ) * (a y) ^ 2 / 2) T hv]
  simp only [Function.update_self, Nat.cast_zero, zero_mul, zero_div, zero_add]
  rw [add_comm]
  congr 1
  refine Finset.sum_congr rfl fun y hy => ?_
  rw [Function.update_of_ne (Finset.ne_of_mem_erase hy),
    Function.update_of_ne (Finset.ne_of_mem_erase hy)]

theorem integ_one (c : ℝ) {T : Finset ℤ} {v : ℤ} (hv : v ∈ T) (N : ℤ → ℕ) (a : ℤ → ℝ) :
    ∫⁻ x, wt (fun a => c - ∑ y ∈ T, N y * (a y) ^ 2 / 2) (Function.update a v x) =
      ENNReal.ofReal (Real.exp (c - ∑ y ∈ T, (Function.update N v 0 y : ℕ) * (a y) ^ 2 / 2)) *
        gaussMass (N v) := by
  rw [gaussMass, ← lintegral_const_mul _ (by fun_prop)]
  refine lintegral_congr fun x => ?_
  rw [wt, sum_update hv, ← ENNReal.ofReal_mul (Real.exp_pos _).le, ← Real.exp_add]
  congr 2
  ring

/-- Exact integration over one item. -/
theorem Tame.integ_one {T : Finset ℤ} {N : ℤ → ℕ} {f : (ℤ → ℝ) → ℝ} (hf : Tame T N f) {v : ℤ}
    (hv : v ∈ T) (h1 : 1 ≤ N v) :
    (∀ a, (∫⁻ x, wt f (Function.update a v x)) ≠ ⊤ ∧ (∫⁻ x, wt f (Function.update a v x)) ≠ 0) ∧
      Tame T (Function.update N v 0) fun a => Real.log (∫⁻ x, wt f (Function.update a v x)).toReal := by
  obtain ⟨lo, hi, h⟩ := hf
  have hlo : ∀ a : ℤ → ℝ, ENNReal.ofReal (Real.exp (lo - ∑ y ∈ T, (Function.update N v 0 y : ℕ) * (a y) ^ 2 / 2)) *
      gaussMass (N v) ≤ ∫⁻ x, wt f (Function.update a v x) := by
    intro a
    rw [← ClusterGraph.integ_one lo hv]
    exact lintegral_mono fun x => wt_mono (h _).1
  have hhi : ∀ a : ℤ → ℝ, ∫⁻ x, wt f (Function.update a v x) ≤
      ENNReal.ofReal (Real.exp (hi - ∑ y ∈ T, (Function.update N v 0 y : ℕ) * (a y) ^ 2 / 2)) *
      gaussMass (N v) := by
    intro a
    rw [← ClusterGraph.integ_one hi hv]
    exact lintegral_mono fun x => wt_mono (h _).2
  have hG0 := gaussMass_pos (N v)
  have hG1 := gaussMass_lt h1
  have hfin : ∀ a, (∫⁻ x, wt f (Function.update a v x)) ≠ ⊤ ∧
      (∫⁻ x, wt f (Function.update a v x)) ≠ 0 := by
    intro a
    refine ⟨ne_top_of_le_ne_top (ENNReal.mul_ne_top ENNReal.ofReal_ne_top hG1) (hhi a), ?_⟩
    refine (lt_of_lt_of_le (pos_iff_ne_zero.2 (mul_ne_zero ?_ hG0)) (hlo a)).ne'
    rw [Ne, ENNReal.ofReal_eq_zero, not_le]
    exact Real.exp_pos _
  refine ⟨hfin, lo + Real.log (gaussMass (N v)).toReal, hi + Real.log (gaussMass (N v)).toReal,
    fun a => ?_⟩
  have hGp := ENNReal.toReal_pos hG0 hG1
  have hlog : ∀ c : ℝ, Real.log ((ENNReal.ofReal (Real.exp (c -
      ∑ y ∈ T, (Function.update N v 0 y : ℕ) * (a y) ^ 2 / 2)) * gaussMass (N v)).toReal) =
      c + Real.log (gaussMass (N v)).toReal -
        ∑ y ∈ T, (Function.update N v 0 y : ℕ) * (a y) ^ 2 / 2 := by
    intro c
    rw [ENNReal.toReal_mul, ENNReal.toReal_ofReal (Real.exp_pos _).le,
      Real.log_mul (Real.exp_pos _).ne' hGp.ne', Real.log_exp]
    ring
  have hp := ENNReal.toReal_pos (hfin a).2 (hfin a).1
  constructor
  · rw [← hlog lo]
    refine Real.log_le_log (ENNReal.toReal_pos (mul_ne_zero ?_ hG0)
      (ENNReal.mul_ne_top ENNReal.ofReal_ne_top hG1)) (ENNReal.toReal_mono (hfin a).1 (hlo a))
    rw [Ne, ENNReal.ofReal_eq_zero, not_le]
    exact Real.exp_pos _
  · rw [← hlog hi]
    exact Real.log_le_log hp (ENNReal.toReal_mono (ENNReal.mul_ne_top ENNReal.ofReal_ne_top hG1)
      (hhi a))

theorem wt_logInteg {s : Finset ℤ} {f : (ℤ → ℝ) → ℝ} {a : ℤ → ℝ}
    (h : integ s (wt f) a ≠ ⊤ ∧ integ s (wt f) a ≠ 0) : wt (logInteg s f) a = integ s (wt f) a := by
  rw [wt, logInteg, Real.exp_log (ENNReal.toReal_pos h.2 h.1), ENNReal.ofReal_toReal h.1]

/-- Exact integration over a set of items. -/
theorem Tame.integ {T : Finset ℤ} {f : (ℤ → ℝ) → ℝ} (hm : Measurable f) :
    ∀ (s : Finset ℤ) (N : ℤ → ℕ), Tame T N f → s ⊆ T → (∀ v ∈ s, 1 ≤ N v) →
    (∀ a, ClusterGraph.integ s (wt f) a ≠ ⊤ ∧ ClusterGraph.integ s (wt f) a ≠ 0) ∧
      Tame T (fun x => if x ∈ s then 0 else N x) (logInteg s f) := by
  intro s
  induction s using Finset.induction_on with
  | empty =>
    intro N hf _ _
    have h0 : ∀ a, ClusterGraph.integ ∅ (wt f) a = wt f a := fun a => by
      rw [ClusterGraph.integ, lmarginal_empty]
    refine ⟨fun a => ?_, ?_⟩
    · rw [h0]
      refine ⟨ENNReal.ofReal_ne_top, ?_⟩
      rw [wt, Ne, ENNReal.ofReal_eq_zero, not_le]
      exact Real.exp_pos _
    · have : logInteg ∅ f = f := by
        funext a
        rw [logInteg, h0, wt, ENNReal.toReal_ofReal (Real.exp_pos _).le, Real.log_exp]
      rw [this]
      simpa using hf
  | insert v s hv ih =>
    intro N hf hs hN
    obtain ⟨i1, i2⟩ := ih N hf (fun x hx => hs (Finset.mem_insert_of_mem hx))
      fun x hx => hN x (Finset.mem_insert_of_mem hx)
    have hvT := hs (Finset.mem_insert_self v s)
    obtain ⟨j1, j2⟩ := i2.integ_one hvT (by
      rw [if_neg hv]
      exact hN v (Finset.mem_insert_self v s))
    have he : ∀ a, ClusterGraph.integ (insert v s) (wt f) a =
        ∫⁻ x, wt (logInteg s f) (Function.update a v x) := by
      intro a
      rw [ClusterGraph.integ, lmarginal_insert _ (wt_measurable hm) hv]
      refine lintegral_congr fun x => ?_
      rw [wt_logInteg (i1 _)]
    refine ⟨fun a => by rw [he]; exact j1 a, ?_⟩
    have h1 : logInteg (insert v s) f =
        fun a => Real.log (∫⁻ x, wt (logInteg s f) (Function.update a v x)).toReal := by
      funext a
      rw [logInteg, he]
    have h2 : (fun x => if x ∈ insert v s then 0 else N x) =
        Function.update (fun x => if x ∈ s then 0 else N x) v 0 := by
      funext x
      by_cases hx : x = v
      · subst hx
        simp
      · rw [Function.update_of_ne hx]
        simp [hx]
    rw [h1, h2]
    exact j2

end Verif.ClusterGraph
