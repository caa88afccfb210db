import Verif.Spec.Stream
import Verif.Proofs.ISMeasure
import Mathlib.Probability.StrongLaw
import Mathlib.Probability.Independence.InfinitePi

/-!
# Averages over columns of random numbers
-/
namespace Verif.IS

open MeasureTheory ProbabilityTheory Matrix Filter Topology

variable {Ω : Type} [MeasurableSpace Ω] {q : ℕ} {P : Measure Ω} {N : ℕ → Ω → ℝ}

/-- Column `s` of the samples. -/
def col (q : ℕ) (N : ℕ → Ω → ℝ) (s : ℕ) (ω : Ω) (i : Fin q) : ℝ := N (i + q * s) ω

theorem measurable_col (hN : Spec.Stream N P) (s : ℕ) : Measurable (col q N s) :=
  measurable_pi_iff.2 fun _ => hN.measurable _

theorem col_injective (s : ℕ) : Function.Injective fun i : Fin q => (i : ℕ) + q * s := by
  intro i j h
  exact Fin.ext (by simpa using h)

theorem col_law (hN : Spec.Stream N P) (s : ℕ) : P.map (col q N s) = Spec.stdNormal q := by
  have := hN.indep.isProbabilityMeasure
  have h := hN.indep.precomp (col_injective (q := q) s)
  have h1 := (iIndepFun_iff_map_fun_eq_pi_map fun i => (hN.measurable _).aemeasurable).1 h
  unfold Spec.stdNormal
  rw [show (fun _ : Fin q => gaussianReal 0 1) = fun i : Fin q => P.map (N (i + q * s)) from
    funext fun i => (hN.law _).symm]
  exact h1

theorem col_indep (hN : Spec.Stream N P) {s t : ℕ} (hst : s ≠ t) :
    IndepFun (col q N s) (col q N t) P := by
  classical
  let S := Finset.univ.map ⟨_, col_injective (q := q) s⟩
  let T := Finset.univ.map ⟨_, col_injective (q := q) t⟩
  have hd : Disjoint S T := by
    rw [Finset.disjoint_left]
    intro a ha hb
    simp only [S, T, Finset.mem_map, Finset.mem_univ, true_and, Function.Embedding.coeFn_mk] at ha hb
    obtain ⟨i, rfl⟩ := ha
    obtain ⟨j, hj⟩ := hb
    have hq : 0 < q := i.pos
    have h1 := congrArg (· / q) hj
    simp only [Nat.add_mul_div_left _ _ hq, Nat.div_eq_of_lt i.2, Nat.div_eq_of_lt j.2, zero_add] at h1
    exact hst h1.symm
  have h := hN.indep.indepFun_finset S T hd hN.measurable
  have hS : ∀ i : Fin q, (i : ℕ) + q * s ∈ S := fun i => Finset.mem_map_of_mem _ (Finset.mem_univ i)
  have hT : ∀ i : Fin q, (i : ℕ) + q * t ∈ T := fun i => Finset.mem_map_of_mem _ (Finset.mem_univ i)
  exact h.comp (φ := fun x i => x ⟨_, hS i⟩) (ψ := fun x i => x ⟨_, hT i⟩)
    (measurable_pi_iff.2 fun _ => measurable_pi_apply _)
    (measurable_pi_iff.2 fun _ => measurable_pi_apply _)

/-- Averages of a function of the columns converge to its mean. -/
theorem average_tendsto (hN : Spec.Stream N P) {W : (Fin q → ℝ) → ℝ} (hW : Measurable W)
    (hi : Integrable W (Spec.stdNormal q)) :
    ∀ᵐ ω ∂P, Tendsto (fun r : ℕ => (∑ s ∈ Finset.range r, W (col q N s ω)) / r) atTop
      (𝓝 (∫ z, W z ∂(Spec.stdNormal q))) := by
  have hlaw : ∀ s, P.map (W ∘ col q N s) = (Spec.stdNormal q).map W := fun s => by
    rw [← Measure.map_map hW (measurable_col hN s), col_law hN s]
  have h0 : Integrable (W ∘ col q N 0) P := by
    have := (integrable_map_measure (f := col q N 0) (μ := P) (g := W)
      (hW.aestronglyMeasurable) (measurable_col hN 0).aemeasurable).1
    rw [col_law hN 0] at this
    exact this hi
  have h := strong_law_ae_real (μ := P) (fun s => W ∘ col q N s) h0
    (fun s t hst => (col_indep hN hst).comp hW hW)
    (fun s => ⟨(hW.comp (measurable_col hN s)).aemeasurable,
      (hW.comp (measurable_col hN 0)).aemeasurable, by rw [hlaw, hlaw]⟩)
  have hm : P[W ∘ col q N 0] = ∫ z, W z ∂(Spec.stdNormal q) := by
    rw [← col_law hN 0, integral_map (measurable_col hN 0).aemeasurable hW.aestronglyMeasurable]
    rfl
  rw [hm] at h
  exact h

/-- There are such random numbers. -/
theorem exists_stream : ∃ (Ω : Type) (_ : MeasurableSpace Ω) (P : Measure Ω) (N : ℕ → Ω → ℝ),
    Spec.Stream N P := by
  refine ⟨ℕ → ℝ, inferInstance, Measure.infinitePi fun _ => gaussianReal 0 1, fun i ω => ω i,
    fun i => measurable_pi_apply i, ?_, fun i => ?_⟩
  · exact iIndepFun_infinitePi (X := fun _ x => x) fun _ => measurable_id
  · exact Measure.infinitePi_map_eval _ i

end Verif.IS
