import Verif.Props.Range
import Verif.Props.ISVariance

/-!
# C96: importance sampling with weights out of range
-/
set_option exponentiation.threshold 1100

namespace Verif.Range

open Dbl

/-- The arithmetic mean. -/
noncomputable def Spec.average (l : List ℝ) : ℝ := l.sum / l.length

theorem addLong_sum (l : List ℝ) (a : ℝ) :
    (l.map Dbl.num).foldl addLong (.num a) = .num (a + l.sum) := by
  induction l generalizing a with
  | nil => simp
  | cons b l ih =>
    rw [List.map_cons, List.foldl_cons, show addLong (.num a) (.num b) = .num (a + b) from rfl, ih,
      List.sum_cons, add_assoc]

theorem mean_num {l : List ℝ} (h : |Spec.average l| ≤ dblMax) :
    mean (l.map Dbl.num) = .num (Spec.average l) := by
  unfold mean
  rw [addLong_sum, zero_add]
  show ofReal (l.sum / (l.map Dbl.num).length) = _
  rw [List.length_map]
  exact ofReal_exact h

theorem average_le {l : List ℝ} (hl : l ≠ []) {c : ℝ} (h : ∀ x ∈ l, x ≤ c) : Spec.average l ≤ c := by
  have hp : (0 : ℝ) < l.length := by exact_mod_cast List.length_pos_iff.2 hl
  unfold Spec.average
  rw [div_le_iff₀ hp]
  have := List.sum_le_card_nsmul l c h
  rwa [nsmul_eq_mul, mul_comm] at this

theorem le_average {l : List ℝ} (hl : l ≠ []) {c : ℝ} (h : ∀ x ∈ l, c ≤ x) : c ≤ Spec.average l := by
  have hp : (0 : ℝ) < l.length := by exact_mod_cast List.length_pos_iff.2 hl
  unfold Spec.average
  rw [le_div_iff₀ hp]
  have := List.card_nsmul_le_sum l c h
  rwa [nsmul_eq_mul, mul_comm] at this

theorem addLong_inf {l : List Dbl} (hl : ∀ a ∈ l, (∃ x, a = .num x) ∨ a = .inf) :
    l.foldl addLong .inf = .inf := by
  induction l with
  | nil => rfl
  | cons b l ih =>
    rw [List.foldl_cons]
    rcases hl b List.mem_cons_self with ⟨x, rfl⟩ | rfl
    · exact ih fun a ha => hl a (List.mem_cons_of_mem _ ha)
    · exact ih fun a ha => hl a (List.mem_cons_of_mem _ ha)

theorem addLong_mem_inf {l : List Dbl} (hl : ∀ a ∈ l, (∃ x, a = .num x) ∨ a = .inf)
    (h : Dbl.inf ∈ l) (x : ℝ) : l.foldl addLong (.num x) = .inf := by
  induction l generalizing x with
  | nil => cases h
  | cons b l ih =>
    have hl' : ∀ a ∈ l, (∃ x, a = .num x) ∨ a = .inf := fun a ha => hl a (List.mem_cons_of_mem _ ha)
    rw [List.foldl_cons]
    rcases hl b List.mem_cons_self with ⟨y, rfl⟩ | rfl
    · rcases List.mem_cons.1 h with h | h
      · cases h
      · exact ih hl' h _
    · exact addLong_inf hl'

/-- The exponentials of the differences. -/
theorem exps {lw : List ℝ} (h : ∀ x ∈ lw, |x| ≤ 2 ^ 1000) (hne : lw ≠ []) :
    |Spec.average lw| ≤ 2 ^ 1000 ∧ ∀ x ∈ lw, |x - Spec.average lw| ≤ 2 ^ 1001 ∧
      exp (sub (.num x) (.num (Spec.average lw))) = ofReal (Real.exp (x - Spec.average lw)) := by
  have ha : |Spec.average lw| ≤ 2 ^ 1000 := by
    rw [abs_le]
    exact ⟨le_average hne fun x hx => (abs_le.1 (h x hx)).1, average_le hne fun x hx =>
      (abs_le.1 (h x hx)).2⟩
  refine ⟨ha, fun x hx => ?_⟩
  have hM := lt_dblMax
  have h1 : |x - Spec.average lw| ≤ 2 ^ 1001 := by
    have h2 := abs_le.1 (h x hx)
    have h3 := abs_le.1 ha
    have h4 : (2 : ℝ) ^ 1001 = 2 ^ 1000 + 2 ^ 1000 := by norm_num
    rw [abs_le]
    constructor <;> linarith
  have h5 : (2 : ℝ) ^ 1001 ≤ 2 ^ 1023 := by norm_num
  refine ⟨h1, ?_⟩
  rw [sub_exact (by linarith)]
  rfl

theorem finish {b m : ℝ} (hb : |b| ≤ 2 ^ 1000) (h1 : 1 ≤ m) (hm : m ≤ dblMax) :
    add (log (.num m)) (.num b) = .num (Real.log m + b) := by
  have hM := lt_dblMax
  have h0 : 0 ≤ Real.log m := Real.log_nonneg h1
  have h2 : Real.log m ≤ 1024 := by
    have h3 : m ≤ 2 ^ 1024 := by
      have := overflow_lt
      have := dblMax_lt
      linarith
    have h4 := Real.log_le_log (by linarith) h3
    rw [Real.log_pow] at h4
    have := Real.log_two_lt_d9
    push_cast at h4
    linarith
  have hc : (1024 : ℝ) + 2 ^ 1000 ≤ 2 ^ 1023 := by norm_num
  have hb' := abs_le.1 hb
  have e1 : log (.num m) = .num (Real.log m) := by
    show (if 0 < m then ofReal (Real.log m) else _) = _
    rw [if_pos (by linarith), ofReal_exact]
    rw [abs_le]
    constructor <;> linarith
  rw [e1, add_exact]
  rw [abs_le]
  constructor <;> linarith

theorem logMeanExp_eq {lw : List ℝ} (hne : lw ≠ []) (h : ∀ x ∈ lw, |x| ≤ 2 ^ 1000) :
    logMeanExp (lw.map Dbl.num) = add (log (mean (lw.map fun x =>
      ofReal (Real.exp (x - Spec.average lw))))) (.num (Spec.average lw)) := by
  have hM := lt_dblMax
  obtain ⟨ha, he⟩ := exps h hne
  have hmean : mean (lw.map Dbl.num) = .num (Spec.average lw) := by
    refine mean_num (ha.trans ?_)
    have : (2 : ℝ) ^ 1000 ≤ 2 ^ 1023 := by norm_num
    linarith
  have hlist : (lw.map Dbl.num).map (fun x => exp (sub x (.num (Spec.average lw)))) =
      lw.map fun x => ofReal (Real.exp (x - Spec.average lw)) := by
    rw [List.map_map]
    exact List.map_congr_left fun x hx => (he x hx).2
  unfold logMeanExp
  rw [hmean]
  dsimp only
  rw [hlist]

/-- The average of one plus the differences from the average is one. -/
theorem one_le_average {lw : List ℝ} (hne : lw ≠ []) {g : ℝ → ℝ}
    (h1 : ∀ x ∈ lw, 1 + (x - Spec.average lw) ≤ g x) : 1 ≤ Spec.average (lw.map g) := by
  have h2 : (lw.map fun x => 1 + (x - Spec.average lw)).sum ≤ (lw.map g).sum :=
    List.sum_le_sum h1
  have hp : (0 : ℝ) < lw.length := by exact_mod_cast List.length_pos_iff.2 hne
  have h3 : ∀ (c : ℝ) (l : List ℝ), (l.map fun x => 1 + (x - c)).sum =
      l.length + (l.sum - l.length * c) := by
    intro c l
    induction l with
    | nil => simp
    | cons a l ih =>
      rw [List.map_cons, List.sum_cons, ih, List.sum_cons, List.length_cons]
      push_cast
      ring
  rw [h3, Spec.average, mul_div_cancel₀ _ hp.ne', sub_self, add_zero] at h2
  unfold Spec.average
  rwa [List.length_map, le_div_iff₀ hp, one_mul]

/-- **C96.** The importance sampling approximation is a number exactly if no weight exceeds the range
when divided by the exponential of the average log-weight; otherwise it is infinite. -/
theorem c96_iff {lw : List ℝ} (hne : lw ≠ []) (h : ∀ x ∈ lw, |x| ≤ 2 ^ 1000) :
    ((∃ v, logMeanExp (lw.map Dbl.num) = .num v) ↔
      ∀ x ∈ lw, Real.exp (x - Spec.average lw) < overflow) ∧
    ((∃ x ∈ lw, overflow ≤ Real.exp (x - Spec.average lw)) →
      logMeanExp (lw.map Dbl.num) = .inf) := by
  have hM := lt_dblMax
  obtain ⟨ha, he⟩ := exps h hne
  have hval := logMeanExp_eq hne h
  have hinf : (∃ x ∈ lw, overflow ≤ Real.exp (x - Spec.average lw)) →
      logMeanExp (lw.map Dbl.num) = .inf := by
    rintro ⟨x, hx, ho⟩
    have hm : mean (lw.map fun x => ofReal (Real.exp (x - Spec.average lw))) = .inf := by
      unfold mean
      rw [addLong_mem_inf]
      · intro a ha
        obtain ⟨y, -, rfl⟩ := List.mem_map.1 ha
        by_cases hy : overflow ≤ Real.exp (y - Spec.average lw)
        · exact Or.inr (ofReal_inf hy)
        · exact Or.inl ⟨_, ofReal_lt (Real.exp_pos _).le (not_le.1 hy)⟩
      · exact List.mem_map.2 ⟨x, hx, ofReal_inf ho⟩
    rw [hval, hm]
    rfl
  refine ⟨⟨?_, fun hs => ?_⟩, hinf⟩
  · rintro ⟨v, hv⟩ x hx
    by_contra hc
    rw [hinf ⟨x, hx, not_lt.1 hc⟩] at hv
    cases hv
  · obtain ⟨g, hg⟩ : ∃ g : ℝ → ℝ, g = fun x => min (Real.exp (x - Spec.average lw)) dblMax := ⟨_, rfl⟩
    have e1 : (lw.map fun x => ofReal (Real.exp (x - Spec.average lw))) =
        (lw.map g).map Dbl.num := by
      rw [List.map_map]
      refine List.map_congr_left fun x hx => ?_
      rw [ofReal_lt (Real.exp_pos _).le (hs x hx), hg]
      rfl
    have hne' : lw.map g ≠ [] := fun hc => hne (List.map_eq_nil_iff.1 hc)
    have hup : Spec.average (lw.map g) ≤ dblMax := average_le hne' fun x hx => by
      obtain ⟨y, -, rfl⟩ := List.mem_map.1 hx
      rw [hg]
      exact min_le_right _ _
    have hlow : 1 ≤ Spec.average (lw.map g) := by
      have h1 : ∀ x ∈ lw, 1 + (x - Spec.average lw) ≤ g x := by
        intro x hx
        rw [hg]
        refine le_min ?_ ?_
        · rw [add_comm]
          exact Real.add_one_le_exp _
        · have := (abs_le.1 (he x hx).1).2
          have h5 : (1 : ℝ) + 2 ^ 1001 ≤ 2 ^ 1023 := by norm_num
          linarith
      exact one_le_average hne h1
    rw [hval, e1, mean_num (by rw [abs_of_nonneg (by linarith)]; exact hup)]
    exact ⟨_, finish ha hlow hup⟩

theorem exp_le_dblMax {x : ℝ} (h : x ≤ 709) : Real.exp x ≤ dblMax := by
  have h1 := exp_le_two_pow (x := x) (k := 1023) (by norm_num; linarith)
  exact h1.trans lt_dblMax.le

theorem overflow_le_exp {x : ℝ} (h : 710 ≤ x) : overflow ≤ Real.exp x := by
  have h1 := two_pow_le_exp (x := x) (k := 1024) (by norm_num; linarith)
  exact overflow_lt.le.trans h1

/-- **C96, partial.** If the differences from the average are in range, the value is the logarithm of
the average weight. -/
theorem c96_partial {lw : List ℝ} (hne : lw ≠ []) (h : ∀ x ∈ lw, |x| ≤ 2 ^ 1000)
    (hs : ∀ x ∈ lw, x - Spec.average lw ≤ 709) :
    logMeanExp (lw.map Dbl.num) = .num (Real.log (Spec.average (lw.map Real.exp))) := by
  have hM := lt_dblMax
  obtain ⟨ha, he⟩ := exps h hne
  have hb : ∀ x ∈ lw, Real.exp (x - Spec.average lw) ≤ dblMax := fun x hx =>
    exp_le_dblMax (hs x hx)
  obtain ⟨g, hg⟩ : ∃ g : ℝ → ℝ, g = fun x => Real.exp (x - Spec.average lw) := ⟨_, rfl⟩
  have e1 : (lw.map fun x => ofReal (Real.exp (x - Spec.average lw))) = (lw.map g).map Dbl.num := by
    rw [List.map_map]
    refine List.map_congr_left fun x hx => ?_
    rw [ofReal_exact (by rw [abs_of_pos (Real.exp_pos _)]; exact hb x hx), hg]
    rfl
  have hne' : lw.map g ≠ [] := fun hc => hne (List.map_eq_nil_iff.1 hc)
  have hup : Spec.average (lw.map g) ≤ dblMax := average_le hne' fun x hx => by
    obtain ⟨y, hy, rfl⟩ := List.mem_map.1 hx
    rw [hg]
    exact hb y hy
  have hlow : 1 ≤ Spec.average (lw.map g) := one_le_average hne fun x _ => by
    rw [hg, add_comm]
    exact Real.add_one_le_exp _
  rw [logMeanExp_eq hne h, e1, mean_num (by rw [abs_of_nonneg (by linarith)]; exact hup),
    finish ha hlow hup]
  congr 1
  have e2 : Spec.average (lw.map Real.exp) = Spec.average (lw.map g) * Real.exp (Spec.average lw) := by
    have e3 : lw.map Real.exp = lw.map fun x => g x * Real.exp (Spec.average lw) :=
      List.map_congr_left fun x _ => by rw [hg]; dsimp only; rw [← Real.exp_add, sub_add_cancel]
    rw [e3]
    generalize Real.exp (Spec.average lw) = c
    unfold Spec.average
    rw [List.sum_map_mul_right, List.length_map, List.length_map]
    ring
  rw [e2, Real.log_mul (by linarith) (Real.exp_pos _).ne', Real.log_exp]

/-- In particular if no two log-weights differ by more than 709. -/
theorem c96_spread {lw : List ℝ} (hne : lw ≠ []) (h : ∀ x ∈ lw, |x| ≤ 2 ^ 1000)
    (hs : ∀ x ∈ lw, ∀ y ∈ lw, x - y ≤ 709) :
    logMeanExp (lw.map Dbl.num) = .num (Real.log (Spec.average (lw.map Real.exp))) :=
  c96_partial hne h fun x hx => by
    have := le_average hne (c := x - 709) fun y hy => by linarith [hs x hx y hy]
    linarith

example : logMeanExp [.num (-300), .num 400] =
    .num (Real.log ((Real.exp (-300) + Real.exp 400) / 2)) := by
  have := c96_spread (lw := [-300, 400]) (by simp) (by
    intro x hx
    simp only [List.mem_cons, List.not_mem_nil, or_false] at hx
    rcases hx with rfl | rfl <;> norm_num) (by
    intro x hx y hy
    simp only [List.mem_cons, List.not_mem_nil, or_false] at hx hy
    rcases hx with rfl | rfl <;> rcases hy with rfl | rfl <;> norm_num)
  simpa [Spec.average] using this

/-- Two weights which differ by more than the range allows: the exact value is below 1500. -/
theorem c96_two : logMeanExp [.num 0, .num 1500] = .inf ∧
    Real.log (Spec.average ([0, 1500].map Real.exp)) ≤ 1500 := by
  have e : Spec.average [0, 1500] = 750 := by norm_num [Spec.average]
  constructor
  · refine (c96_iff (lw := [0, 1500]) (by simp) ?_).2 ⟨1500, by simp, ?_⟩
    · intro x hx
      simp only [List.mem_cons, List.not_mem_nil, or_false] at hx
      rcases hx with rfl | rfl <;> norm_num
    · rw [e]
      exact overflow_le_exp (by norm_num)
  · rw [Real.log_le_iff_le_exp]
    · refine average_le (by simp) fun x hx => ?_
      simp only [List.map_cons, List.map_nil, List.mem_cons, List.not_mem_nil, or_false] at hx
      rcases hx with rfl | rfl
      · exact Real.exp_le_exp.2 (by norm_num)
      · exact le_rfl
    · have : Real.exp 0 ≤ Spec.average ([0, 1500].map Real.exp) :=
        le_average (by simp) fun x hx => by
          simp only [List.map_cons, List.map_nil, List.mem_cons, List.not_mem_nil, or_false] at hx
          rcases hx with rfl | rfl
          · exact le_rfl
          · exact Real.exp_le_exp.2 (by norm_num)
      exact (Real.exp_pos _).trans_le this

/-- The closure of method "IS": whenever the log-weights do not differ by more than 709 it gives the
value of the model with real numbers. -/
theorem c96_lfun_partial {q n p r nTheta : ℕ}
    {chol : Matrix (Fin q) (Fin q) ℝ → Matrix (Fin q) (Fin q) ℝ} {fam : IS.Fam}
    {M : Split.ModFr q n p} {approx : IS.NormalApprox q} {z : Matrix (Fin q) (Fin r) ℝ}
    {pars : List ℝ} {f : ∀ r, Matrix (Fin q) (Fin r) ℝ → Fin r → ℝ} (hr : 0 < r)
    (hf : IS.findLogIntegrand fam pars M nTheta = Except.ok f)
    (h : ∀ s, |IS.findLogWeights chol z (f r) approx s| ≤ 2 ^ 1000)
    (hs : ∀ s t, IS.findLogWeights chol z (f r) approx s -
      IS.findLogWeights chol z (f r) approx t ≤ 709) :
    ∃ v, IS.lfun chol fam M nTheta approx z pars = Except.ok v ∧
      lfunIS chol fam M nTheta approx z pars = Except.ok (.num v) := by
  unfold IS.lfun lfunIS
  rw [hf, res_ok_bind, res_ok_bind]
  refine ⟨_, rfl, ?_⟩
  generalize IS.findLogWeights chol z (f r) approx = w at h hs
  have e1 : (List.ofFn fun s => Dbl.num (w s)) = (List.ofFn w).map Dbl.num := by
    rw [List.map_ofFn]
    rfl
  rw [e1, c96_spread (by simpa [List.ofFn_eq_nil_iff] using hr.ne')
    (List.forall_mem_ofFn_iff.2 h) (List.forall_mem_ofFn_iff.2 fun s =>
      List.forall_mem_ofFn_iff.2 fun t => hs s t)]
  show Except.ok _ = Except.ok _
  congr 2
  rw [IS.c47_average hr, Spec.average, List.map_ofFn, List.sum_ofFn, List.length_ofFn]
  rfl

theorem pair_logWeight {f : ∀ r, Matrix (Fin 1) (Fin r) ℝ → Fin r → ℝ}
    (hval : ∀ r (u : Matrix (Fin 1) (Fin r) ℝ) s,
      f r u s = IS.Spec.logIntegrand ⟨Family.expit, IS.binomialDev⟩ Whole.pair [2] [0] fun i => u i s)
    {r : ℕ} (z : Matrix (Fin 1) (Fin r) ℝ) (s : Fin r) :
    IS.findLogWeights Whole.chol1 z (f r) ⟨0, !![3]⟩ s =
      Real.log (Family.expit (2 * (z 0 s / √3))) + Real.log (1 - Family.expit (2 * (z 0 s / √3))) +
        z 0 s ^ 2 / 3 - Real.log 3 / 2 := by
  have hC : (Whole.chol1 !![3])⁻¹ = !![(√3)⁻¹] := by
    refine Matrix.inv_eq_right_inv ?_
    ext i j
    fin_cases i
    fin_cases j
    simp [Whole.chol1, Matrix.mul_apply]
  have hu : ∀ i, IS.transformNormal Whole.chol1 z ⟨0, !![3]⟩ i s = z 0 s / √3 := by
    intro i
    fin_cases i
    unfold IS.transformNormal
    dsimp only
    rw [hC]
    simp [Matrix.mul_apply]
    ring
  unfold IS.findLogWeights
  dsimp only
  rw [hval]
  simp only [hu]
  unfold IS.Spec.logIntegrand
  have hx := (IS.link_range GLMM.IsLink.logit).1 (2 * (z 0 s / √3))
  have e3 : √3 ^ 2 = (3 : ℝ) := Real.sq_sqrt (by norm_num)
  rw [Fin.sum_univ_two]
  simp only [Whole.pair_eta]
  generalize Family.expit (2 * (z 0 s / √3)) = m at hx
  simp [IS.binomialDev, Whole.pair, Split.Spec.weight, ← IS.logDnorm_eq, IS.logDnorm]
  have e4 : (z 0 s / √3) ^ 2 = z 0 s ^ 2 / 3 := by rw [_root_.div_pow, e3]
  rw [e4]
  ring

/-- A case of `c96_lfun_partial`: the samples 0 and 1. -/
example : ∃ v, IS.lfun Whole.chol1 ⟨Family.expit, IS.binomialDev⟩ Whole.pair 1 ⟨0, !![3]⟩ !![0, 1]
      [2, 0] = Except.ok v ∧
    lfunIS Whole.chol1 ⟨Family.expit, IS.binomialDev⟩ Whole.pair 1 ⟨0, !![3]⟩ !![0, 1] [2, 0] =
      Except.ok (.num v) := by
  obtain ⟨f, hf, hval⟩ := IS.findLogIntegrand_ok ⟨Family.expit, IS.binomialDev⟩ (M := Whole.pair)
    (theta := [2]) (beta := [0]) Whole.pair_wf (by simp) rfl
  have hw := fun s => pair_logWeight hval (!![0, 1] : Matrix (Fin 1) (Fin 2) ℝ) s
  have l2 := Real.log_two_lt_d9
  have l3 : Real.log 3 ≤ 2 := by
    have := Real.log_le_sub_one_of_pos (x := 3) (by norm_num)
    linarith
  have l3' : 0 ≤ Real.log 3 := Real.log_nonneg (by norm_num)
  have hz : ∀ s, 0 ≤ (!![0, 1] : Matrix (Fin 1) (Fin 2) ℝ) 0 s ∧
      (!![0, 1] : Matrix (Fin 1) (Fin 2) ℝ) 0 s ≤ 1 := by
    intro s
    fin_cases s <;> simp
  have hb : ∀ s, -10 ≤ IS.findLogWeights Whole.chol1 (!![0, 1] : Matrix (Fin 1) (Fin 2) ℝ) (f 2)
      ⟨0, !![3]⟩ s ∧ IS.findLogWeights Whole.chol1 (!![0, 1] : Matrix (Fin 1) (Fin 2) ℝ) (f 2)
      ⟨0, !![3]⟩ s ≤ 10 := by
    intro s
    rw [hw]
    generalize (!![0, 1] : Matrix (Fin 1) (Fin 2) ℝ) 0 s = x, hz s = hx
    have h3 : (1 : ℝ) ≤ √3 := Real.one_le_sqrt.2 (by norm_num)
    have ha : |2 * (x / √3)| ≤ 2 := by
      rw [abs_of_nonneg (mul_nonneg two_pos.le (div_nonneg hx.1 (Real.sqrt_nonneg _))),
        mul_div_assoc', div_le_iff₀ (by linarith)]
      linarith [hx.2]
    have hx' := (IS.link_range GLMM.IsLink.logit).1 (2 * (x / √3))
    have b1 := IS.log_expit (2 * (x / √3))
    have b2 := IS.log_expit (-(2 * (x / √3)))
    rw [abs_neg, ← IS.expit_neg] at b2
    have b3 := Real.log_nonpos hx'.1.le hx'.2.le
    have b4 := Real.log_nonpos (sub_pos.2 hx'.2).le
      (by linarith [hx'.1] : 1 - Family.expit (2 * (x / √3)) ≤ 1)
    constructor <;> nlinarith [hx.1, hx.2]
  have hp : (10 : ℝ) ≤ 2 ^ 1000 := by norm_num
  exact c96_lfun_partial two_pos hf
    (fun s => abs_le.2 ⟨by linarith [(hb s).1], by linarith [(hb s).2]⟩)
    fun s t => by linarith [(hb s).2, (hb t).1]

/-- C96 is violated: for two observations in a group, one success and one failure, a standard deviation
of 2 and an intercept of 0 (the mean and the precision are those of the Laplace approximation, see
`Whole.pair_mode`), the samples 0 and 100 give an infinite log-likelihood; the value for real numbers is
finite. -/
theorem c96_violated :
    lfunIS Whole.chol1 ⟨Family.expit, IS.binomialDev⟩ Whole.pair 1 ⟨0, !![3]⟩ !![0, 100] [2, 0] =
      Except.ok .inf ∧
    ∃ v ≤ 4000, IS.lfun Whole.chol1 ⟨Family.expit, IS.binomialDev⟩ Whole.pair 1 ⟨0, !![3]⟩ !![0, 100]
      [2, 0] = Except.ok v := by
  obtain ⟨f, hf, hval⟩ := IS.findLogIntegrand_ok ⟨Family.expit, IS.binomialDev⟩ (M := Whole.pair)
    (theta := [2]) (beta := [0]) Whole.pair_wf (by simp) rfl
  have hf' : IS.findLogIntegrand ⟨Family.expit, IS.binomialDev⟩ [2, 0] Whole.pair 1 = Except.ok f := hf
  have hw := fun s => pair_logWeight hval (!![0, 100] : Matrix (Fin 1) (Fin 2) ℝ) s
  unfold IS.lfun lfunIS
  rw [hf', res_ok_bind, res_ok_bind]
  generalize IS.findLogWeights Whole.chol1 (!![0, 100] : Matrix (Fin 1) (Fin 2) ℝ) (f 2) ⟨0, !![3]⟩ = w
    at hw
  have l2 := Real.log_two_lt_d9
  have l2' := Real.log_two_gt_d9
  have l3 : Real.log 3 ≤ 2 := by
    have := Real.log_le_sub_one_of_pos (x := 3) (by norm_num)
    linarith
  have l3' : 0 ≤ Real.log 3 := Real.log_nonneg (by norm_num)
  have w0 : w 0 = -2 * Real.log 2 - Real.log 3 / 2 := by
    rw [hw]
    have : Family.expit 0 = 1 / 2 := by
      unfold Family.expit
      norm_num
    have h12 : Real.log (1 / 2) = -Real.log 2 := by rw [one_div, Real.log_inv]
    have e : (!![0, 100] : Matrix (Fin 1) (Fin 2) ℝ) 0 0 = 0 := rfl
    rw [e, zero_div, mul_zero, this, show (1 : ℝ) - 1 / 2 = 1 / 2 by norm_num, h12]
    ring
  have w1 : 3000 ≤ w 1 ∧ w 1 ≤ 3400 := by
    rw [hw]
    have h3 : (1 : ℝ) ≤ √3 := Real.one_le_sqrt.2 (by norm_num)
    have ha : |2 * (100 / √3)| ≤ 125 := by
      have h4 : (1.7 : ℝ) ≤ √3 := Real.le_sqrt_of_sq_le (by norm_num)
      rw [abs_of_nonneg (by positivity), mul_div_assoc', div_le_iff₀ (by linarith)]
      linarith
    have e : (!![0, 100] : Matrix (Fin 1) (Fin 2) ℝ) 0 1 = 100 := rfl
    rw [e]
    have hx := (IS.link_range GLMM.IsLink.logit).1 (2 * (100 / √3))
    have b1 := IS.log_expit (2 * (100 / √3))
    have b2 := IS.log_expit (-(2 * (100 / √3)))
    rw [abs_neg, ← IS.expit_neg] at b2
    have b3 := Real.log_nonpos hx.1.le hx.2.le
    have b4 := Real.log_nonpos (sub_pos.2 hx.2).le (by linarith [hx.1] : 1 - Family.expit (2 * (100 / √3)) ≤ 1)
    constructor <;> nlinarith
  have hb : ∀ x ∈ [w 0, w 1], |x| ≤ 2 ^ 1000 := by
    intro x hx
    have hp : (4000 : ℝ) ≤ 2 ^ 1000 := by norm_num
    simp only [List.mem_cons, List.not_mem_nil, or_false] at hx
    rcases hx with rfl | rfl <;> rw [abs_le] <;> constructor <;> linarith [w1.1, w1.2]
  have hav : Spec.average [w 0, w 1] = (w 0 + w 1) / 2 := by simp [Spec.average]
  constructor
  · have := (c96_iff (lw := [w 0, w 1]) (by simp) hb).2 ⟨w 1, by simp, by
      rw [hav]
      exact overflow_le_exp (by linarith [w1.1])⟩
    show Except.ok (logMeanExp (List.ofFn fun s => Dbl.num (w s))) = _
    rw [← this]
    rfl
  · refine ⟨_, ?_, rfl⟩
    rw [IS.c47_average two_pos, Real.log_le_iff_le_exp, Fin.sum_univ_two]
    · have h1 : Real.exp (w 0) ≤ Real.exp 4000 := Real.exp_le_exp.2 (by linarith)
      have h2 : Real.exp (w 1) ≤ Real.exp 4000 := Real.exp_le_exp.2 (by linarith [w1.2])
      push_cast
      linarith
    · rw [Fin.sum_univ_two]
      positivity

end Verif.Range
