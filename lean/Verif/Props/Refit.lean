import Verif.Props.PrevFit

/-!
# C124: fitting again from a previous fit

`glmm` starts at the estimates of `prev_fit` (R/optimization.R:14-18). With an optimiser that never returns
something worse than its start, the estimates have at least the log-likelihood of the start, the bound 5 on
the variance parameters is kept, and a sequence of fits, each started from the one before, climbs.
-/
namespace Verif.Refit

open Verif.Fit Verif.Whole

/-! ## Specification -/

/-- An optimiser that, started from zero, returns parameters at which the value of the function is at
most that at the start, as many as there were; for every function. -/
def Descends (optim : List ℝ → Trace) : Prop :=
  ∀ (k : ℕ) (fn : List ℝ → Run (WithTop ℝ)) (out : List ℝ × List (List ℝ) × ℤ) (v0 : WithTop ℝ),
    ((optim (List.replicate k 0)).run fn).res = Except.ok out →
    (fn (List.replicate k 0)).res = Except.ok v0 →
    out.1.length = k ∧ ∃ v, (fn out.1).res = Except.ok v ∧ v ≤ v0

/-- A log-likelihood function that does not depend on the signs of the first parameters. -/
def SignFree (p_theta : ℕ) (f : List ℝ → Res ℝ) : Prop :=
  ∀ x y : List ℝ, x.length = y.length →
    (∀ i, i < p_theta → (x[i]?).map (fun v => |v|) = (y[i]?).map fun v => |v|) →
    (∀ i, p_theta ≤ i → x[i]? = y[i]?) → f x = f y

/-- Two parameter vectors have log-likelihoods, and that of the second is at least that of the first. -/
def NotLess (f : List ℝ → Res ℝ) (x y : List ℝ) : Prop :=
  ∃ l l' : ℝ, f x = Except.ok l ∧ f y = Except.ok l' ∧ l ≤ l'

/-! ## Proofs -/

theorem NotLess.trans {f : List ℝ → Res ℝ} {x y z : List ℝ} (h : NotLess f x y) (h' : NotLess f y z) :
    NotLess f x z := by
  obtain ⟨l, l', h1, h2, h3⟩ := h
  obtain ⟨m, m', h4, h5, h6⟩ := h'
  rw [h2] at h4
  cases Except.ok.inj h4
  exact ⟨l, m', h1, h5, h3.trans h6⟩

theorem start_value {B : Box} {p_theta : ℕ} (hp : 0 < p_theta) {mu : List ℝ} {k : ℕ}
    (hmu : mu.length = k) (hpk : p_theta ≤ k) (hno : ¬ Beyond p_theta mu) {d0 : WithTop ℝ}
    (h : (startValue B p_theta mu (List.replicate k 0)).res = Except.ok d0) :
    ∃ l0 : ℝ, B.lfun mu = Except.ok l0 ∧ d0 = ((-2 * l0 : ℝ) : WithTop ℝ) ∧
      ∀ s big, (devfunStd B p_theta mu (List.replicate k 0) s big).res = Except.ok d0 := by
  have h1 : (devfunStd B p_theta mu (List.replicate k 0) true ⊤).res = Except.ok d0 := by
    unfold startValue at h
    dsimp only at h
    revert h
    rcases (devfunStd B p_theta mu (List.replicate k 0) true ⊤).res with (_ | msg) | v
    · intro h; cases h
    · intro h; cases h
    · exact id
  unfold devfunStd devfunExt at h1 ⊢
  rw [PrevFit.radd_zero (by omega) (by omega)] at h1 ⊢
  obtain ⟨b, hb, h1, -⟩ := bind_ok h1
  have hb' := anyGt_beyond hp hb
  have hb0 : b = false := by
    rcases b with _ | _
    · rfl
    · exact absurd (hb'.1 rfl) hno
  subst hb0
  have hb : anyGt ((IS.index mu (IS.colon 1 p_theta)).map fun x => x.map fun v => |v|) 5 =
    Except.ok false := hb
  have h1 : (callLfun B mu true).res = Except.ok d0 := h1
  unfold callLfun at h1
  dsimp only at h1
  rcases hl : B.lfun mu with (_ | msg) | l
  · rw [hl] at h1; cases h1
  · rw [hl] at h1; cases h1
  · rw [hl] at h1
    refine ⟨l, rfl, (Except.ok.inj h1).symm, fun s big => ?_⟩
    rw [hb]
    show (callLfun B mu s).res = _
    unfold callLfun
    dsimp only
    rw [hl]
    exact h1

/-- **C124, the optimisation.** Started within the bounds, `optimize_glmm` returns estimates within the
bounds whose log-likelihood is at least that of the start. -/
theorem c124_optimize {B : Box} {p_beta p_theta : ℕ} (hp : 0 < p_theta) (hd : Descends B.optim)
    {prev_fit : Option (List ℝ)} (hprev : ∀ e, prev_fit = some e → e.length = p_theta + p_beta)
    (hno : ¬ Beyond p_theta (startPars p_beta p_theta prev_fit)) {opt : Opt}
    (h : (optimizeGlmm B p_beta p_theta prev_fit).res = Except.ok opt) :
    opt.estim.length = p_theta + p_beta ∧ ¬ Beyond p_theta opt.estim ∧
      NotLess B.lfun (startPars p_beta p_theta prev_fit) opt.estim := by
  have hlen := start_length p_beta p_theta hprev
  unfold optimizeGlmm at h
  dsimp only at h
  obtain ⟨d0, h0, h, -⟩ := bind_ok h
  obtain ⟨_, -, h, -⟩ := bind_ok h
  obtain ⟨⟨par, hessian, convergence⟩, hr, h, -⟩ := bind_ok h
  obtain ⟨_, -, h, -⟩ := bind_ok h
  obtain ⟨inv, -, h, -⟩ := bind_ok h
  obtain ⟨_, -, h, -⟩ := bind_ok h
  have h := (Except.ok.inj h).symm
  subst h
  obtain ⟨l0, hl0, hd0, hval⟩ := start_value hp hlen (by omega) hno h0
  obtain ⟨hpar, v, hv, hle⟩ := hd _ _ _ _ hr (hval false (d0 + 100))
  have hpar : par.length = p_theta + p_beta := hpar
  have htold := devfunStd_told hp (hpar.trans hlen.symm) hv
  dsimp only
  rw [radd_eq (hpar.trans hlen.symm)]
  have hnb : ¬ Beyond p_theta (List.zipWith (· + ·) par (startPars p_beta p_theta prev_fit)) := by
    intro hB
    rw [htold.beyond hB, hd0] at hle
    have hle : ((-2 * l0 + 100 : ℝ) : WithTop ℝ) ≤ ((-2 * l0 : ℝ) : WithTop ℝ) := hle
    rw [WithTop.coe_le_coe] at hle
    linarith
  refine ⟨by rw [List.length_zipWith, hpar, hlen, min_self], hnb, ?_⟩
  rcases htold.value hnb with ⟨l, hl, hv'⟩ | ⟨msg, -, hv'⟩
  · rw [hv', hd0, WithTop.coe_le_coe] at hle
    exact ⟨l0, l, hl0, hl, by linarith⟩
  · rw [hv', hd0] at hle
    exact absurd (top_le_iff.1 hle) (WithTop.coe_ne_top)

/-- The usual start is within the bounds. -/
theorem start_within (p_beta p_theta : ℕ) : ¬ Beyond p_theta (startPars p_beta p_theta none) := by
  rintro ⟨i, hi, v, hv, h⟩
  have : (startPars p_beta p_theta none)[i]? = some 0.5 := by
    unfold startPars
    dsimp only
    rw [List.getElem?_append_left (by simpa using hi), List.getElem?_replicate, if_pos hi]
  rw [this] at hv
  cases hv
  norm_num [abs_of_pos] at h

/-- **C124.** A fit started from a previous one (or from the usual start) has estimates whose
log-likelihood is at least that of the estimates it was started from, and they can serve as a start
again. -/
theorem c124 {B : Box} {lower : List ℝ} (hl : ∀ x ∈ lower, x = 0) {p_beta p_theta : ℕ}
    (hp : 0 < p_theta) (hd : Descends B.optim) (hs : SignFree p_theta B.lfun)
    {prev_fit : Option (List ℝ)} (hprev : ∀ e, prev_fit = some e → e.length = p_theta + p_beta)
    (hno : ∀ e, prev_fit = some e → ¬ Beyond p_theta e) {threshold : Option ℝ}
    {divergence : Opt → Res ℝ} {r : Result}
    (h : (glmm B lower p_beta p_theta prev_fit threshold divergence).res = Except.ok r) :
    ∃ f, r = .glmmFit f ∧ f.estim.length = p_theta + p_beta ∧ ¬ Beyond p_theta f.estim ∧
      NotLess B.lfun (startPars p_beta p_theta prev_fit) f.estim := by
  obtain ⟨f, opt, hr, ho, h1, -, h3, -, -⟩ := c50 B hl p_beta hp prev_fit threshold divergence h
  have hno' : ¬ Beyond p_theta (startPars p_beta p_theta prev_fit) := by
    rcases prev_fit with _ | e
    · exact start_within p_beta p_theta
    · exact hno e rfl
  obtain ⟨g1, g2, l0, l, g3, g4, g5⟩ := c124_optimize hp hd hprev hno' ho
  have hlen : f.estim.length = opt.estim.length := by
    apply le_antisymm
    · by_contra hlt
      have h := h3 opt.estim.length (by omega)
      rw [List.getElem?_eq_none le_rfl, List.getElem?_eq_none_iff] at h
      omega
    · by_contra hlt
      by_cases hlt' : p_theta ≤ f.estim.length
      · have h := h3 f.estim.length hlt'
        rw [List.getElem?_eq_none le_rfl] at h
        have := List.getElem?_eq_none_iff.1 h.symm
        omega
      · obtain ⟨v, -, hv⟩ := h1 f.estim.length (by omega)
        rw [List.getElem?_eq_none le_rfl] at hv
        cases hv
  have heq : B.lfun f.estim = B.lfun opt.estim := by
    refine hs _ _ hlen (fun i hi => ?_) h3
    obtain ⟨v, hv, hv'⟩ := h1 i hi
    rw [hv, hv', Option.map_some, Option.map_some, abs_abs]
  refine ⟨f, hr, hlen.trans g1, ?_, l0, l, g3, heq.trans g4, g5⟩
  rintro ⟨i, hi, v, hv, hgt⟩
  obtain ⟨w, hw, hw'⟩ := h1 i hi
  rw [hw'] at hv
  cases Option.some.inj hv
  rw [abs_abs] at hgt
  exact g2 ⟨i, hi, w, hw, hgt⟩

/-- A sequence of fits: the first from the usual start, each of the others from the one before. -/
def Sequence (B : Box) (lower : List ℝ) (p_beta p_theta : ℕ) (threshold : Option ℝ)
    (divergence : Opt → Res ℝ) (N : ℕ) (fit : ℕ → Opt) : Prop :=
  (glmm B lower p_beta p_theta none threshold divergence).res = Except.ok (.glmmFit (fit 0)) ∧
  ∀ n < N, (glmm B lower p_beta p_theta (some (fit n).estim) threshold divergence).res =
    Except.ok (.glmmFit (fit (n + 1)))

theorem sequence_within {B : Box} {lower : List ℝ} (hl : ∀ x ∈ lower, x = 0) {p_beta p_theta : ℕ}
    (hp : 0 < p_theta) (hd : Descends B.optim) (hs : SignFree p_theta B.lfun) {threshold : Option ℝ}
    {divergence : Opt → Res ℝ} {N : ℕ} {fit : ℕ → Opt}
    (h : Sequence B lower p_beta p_theta threshold divergence N fit) :
    ∀ n ≤ N, (fit n).estim.length = p_theta + p_beta ∧ ¬ Beyond p_theta (fit n).estim := by
  intro n
  induction n with
  | zero =>
    intro _
    obtain ⟨f, hf, h1, h2, -⟩ := c124 hl hp hd hs (fun e he => by cases he) (fun e he => by cases he) h.1
    cases hf
    exact ⟨h1, h2⟩
  | succ n ih =>
    intro hn
    obtain ⟨i1, i2⟩ := ih (by omega)
    obtain ⟨f, hf, h1, h2, -⟩ := c124 hl hp hd hs (fun e he => by cases he; exact i1)
      (fun e he => by cases he; exact i2) (h.2 n (by omega))
    cases hf
    exact ⟨h1, h2⟩

/-- **C124, repeated.** The log-likelihood does not go down along a sequence of fits, of any length. -/
theorem c124_sequence {B : Box} {lower : List ℝ} (hl : ∀ x ∈ lower, x = 0) {p_beta p_theta : ℕ}
    (hp : 0 < p_theta) (hd : Descends B.optim) (hs : SignFree p_theta B.lfun) {threshold : Option ℝ}
    {divergence : Opt → Res ℝ} {N : ℕ} {fit : ℕ → Opt}
    (h : Sequence B lower p_beta p_theta threshold divergence N fit) {m n : ℕ} (hmn : m < n)
    (hn : n ≤ N) : NotLess B.lfun (fit m).estim (fit n).estim := by
  have hw := sequence_within hl hp hd hs h
  have step : ∀ k < N, NotLess B.lfun (fit k).estim (fit (k + 1)).estim := by
    intro k hk
    obtain ⟨f, hf, -, -, h3⟩ := c124 hl hp hd hs (fun e he => by cases he; exact (hw k hk.le).1)
      (fun e he => by cases he; exact (hw k hk.le).2) (h.2 k hk)
    cases hf
    exact h3
  induction n with
  | zero => omega
  | succ n ih =>
    rcases Nat.lt_succ_iff_lt_or_eq.1 hmn with h' | rfl
    · exact (ih h' (by omega)).trans (step n (by omega))
    · exact step m (by omega)

/-- **C124 for the whole of `glmm`**, with the likelihood function of the method and options asked for;
without the condition on signs for models with correlated random effects, whose estimates are not
altered. -/
theorem c124_glmm {q n p : ℕ} {X : Ext q} {R : Routines} {modfr : Res (Modfr q n p)}
    {method : List String} {control : Control.Arg} {weights : List ℝ} {prev_fit : Option (List ℝ)}
    {r : Result} (hd : Descends R.optim)
    (h : (Whole.glmm X R modfr method control weights prev_fit).res = Except.ok r) :
    ∃ F s f, modfr = Except.ok (.random F) ∧ findLfunGlmm X F method control = Except.ok (s, f) ∧
      (0 < F.nTheta → (∀ e, prev_fit = some e → e.length = F.nTheta + p ∧ ¬ Beyond F.nTheta e) →
        ((∀ x ∈ F.lower, x = 0) → SignFree F.nTheta (fun x => ((f x).exec s).1) →
          ∃ fit, r = .glmmFit fit ∧ ¬ Beyond F.nTheta fit.estim ∧
            NotLess (fun x => ((f x).exec s).1) (startPars p F.nTheta prev_fit) fit.estim) ∧
        ((¬ ∀ x ∈ F.lower, x = 0) → ∃ opt, r = .opt opt ∧ ¬ Beyond F.nTheta opt.estim ∧
            NotLess (fun x => ((f x).exec s).1) (startPars p F.nTheta prev_fit) opt.estim)) := by
  obtain ⟨m, F, con, ws, d1, ⟨s, f⟩, t, -, -, -, hmf, -, -, hlf, -, hfit, -⟩ := glmm_ok h
  refine ⟨F, s, f, hmf, hlf, fun hp hprev => ⟨fun hl hs => ?_, fun hl => ?_⟩⟩
  · obtain ⟨fit, h1, -, h3, h4⟩ := c124 (B := boxOf R (s, f)) hl hp hd hs
      (fun e he => (hprev e he).1) (fun e he => (hprev e he).2) hfit
    exact ⟨fit, h1, h3, h4⟩
  · unfold Fit.glmm at hfit
    obtain ⟨opt, ho, hfit, -⟩ := bind_ok hfit
    obtain ⟨_, -, hfit, -⟩ := bind_ok hfit
    have hno : ¬ Beyond F.nTheta (startPars p F.nTheta prev_fit) := by
      rcases prev_fit with _ | e
      · exact start_within p F.nTheta
      · exact (hprev e rfl).2
    obtain ⟨-, g2, g3⟩ := c124_optimize (B := boxOf R (s, f)) hp hd
      (fun e he => (hprev e he).1) hno ho
    refine ⟨opt, ?_, g2, g3⟩
    have hall : (F.lower.all fun x => decide (x = 0)) = false := by
      rw [← Bool.not_eq_true, List.all_eq_true]
      simpa using hl
    unfold finish at hfit
    rw [hall] at hfit
    exact (Except.ok.inj hfit).symm

/-! ## A concrete case -/

/-- An optimiser that tries one step and takes it if it is an improvement. -/
noncomputable def oneStep (step : ℕ → List ℝ) (hess : List (List ℝ)) (par0 : List ℝ) : Trace :=
  .ask par0 fun v0 => .ask (step par0.length) fun v =>
    open Classical in
    if v ≤ v0 ∧ (step par0.length).length = par0.length then .done (step par0.length) hess 0
    else .done par0 hess 1

theorem oneStep_descends (step : ℕ → List ℝ) (hess : List (List ℝ)) :
    Descends (oneStep step hess) := by
  intro k fn out v0 h h0
  unfold oneStep at h
  obtain ⟨w0, hw0, h, -⟩ := bind_ok (show ((fn _) >>= fun v => _).res = Except.ok out from h)
  rw [h0] at hw0
  cases Except.ok.inj hw0
  obtain ⟨v, hv, h, -⟩ := bind_ok (show ((fn _) >>= fun v => _).res = Except.ok out from h)
  dsimp only at h
  split_ifs at h with hc
  · have h : (Except.ok _ : Res _) = Except.ok out := h
    cases Except.ok.inj h
    exact ⟨hc.2.trans (by simp), v, hv, hc.1⟩
  · have h : (Except.ok _ : Res _) = Except.ok out := h
    cases Except.ok.inj h
    exact ⟨by simp, v0, h0, le_rfl⟩

/-- A log-likelihood of a standard deviation and a fixed effect, best at 1 and 3, and steps of one for
the fixed effect. -/
noncomputable def model : Box where
  lfun x := Except.ok (-(|x.getD 0 0| - 1) ^ 2 - (x.getD 1 0 - 3) ^ 2)
  optim := oneStep (fun _ => [0, 1]) [[4, 0], [0, 4]]
  solve H := open Classical in
    if H = [[4, 0], [0, 4]] then Except.ok [[0.25, 0], [0, 0.25]] else Res.raise "singular"
  smallEigenvalue _ := false

theorem model_signFree : SignFree 1 model.lfun := by
  intro x y _ h1 h2
  have e0 : |x.getD 0 0| = |y.getD 0 0| := by
    have h := h1 0 (by simp)
    rw [List.getD_eq_getElem?_getD, List.getD_eq_getElem?_getD]
    rcases hx : x[0]? with _ | a <;> rcases hy : y[0]? with _ | b <;> rw [hx, hy] at h <;>
      simp_all
  have e1 : x.getD 1 0 = y.getD 1 0 := by
    rw [List.getD_eq_getElem?_getD, List.getD_eq_getElem?_getD, h2 1 le_rfl]
  show (Except.ok _ : Res ℝ) = Except.ok _
  rw [e0, e1]

theorem model_dev (c d x y : ℝ) (s : Bool) (big : WithTop ℝ) (h : |x + c| ≤ 5) :
    devfunStd model 1 [c, d] [x, y] s big = ⟨[[x + c, y + d]], [],
      Except.ok ((-2 * (-(|x + c| - 1) ^ 2 - (y + d - 3) ^ 2) : ℝ) : WithTop ℝ)⟩ := by
  rw [devfun_two, if_neg (not_lt.2 h)]
  rfl

/-- One fit moves the fixed effect by one, as long as that is an improvement. -/
theorem model_run {prev_fit : Option (List ℝ)} {b : ℝ} (div : Opt → Res ℝ) (hb : b ≤ 2)
    (hstart : startPars 1 1 prev_fit = [0.5, b]) :
    (glmm model [0] 1 1 prev_fit none div).res =
      Except.ok (.glmmFit ⟨[0.5, b + 1], [[some 0.5, some 0], [some 0, some 0.5]]⟩) := by
  have habs : |(0 : ℝ) + 0.5| ≤ 5 := by norm_num [abs_of_pos]
  have h0 := fun s big => model_dev 0.5 b 0 0 s big habs
  have hS : startValue model 1 [0.5, b] [0, 0] = ⟨[[0 + 0.5, 0 + b]], [],
      Except.ok ((-2 * (-(|0 + 0.5| - 1) ^ 2 - (0 + b - 3) ^ 2) : ℝ) : WithTop ℝ)⟩ := by
    unfold startValue
    dsimp only
    rw [h0]
  have hrun : ∀ big, (model.optim [0, 0]).run (fun x => devfunStd model 1 [0.5, b] x false big) =
      ⟨[[0 + 0.5, 0 + b], [0 + 0.5, 1 + b]], [], Except.ok ([0, 1], [[4, 0], [0, 4]], 0)⟩ := by
    intro big
    have h1 := model_dev 0.5 b 0 1 false big habs
    show (oneStep (fun _ => [0, 1]) [[4, 0], [0, 4]] [0, 0]).run _ = _
    unfold oneStep
    simp only [Trace.run]
    rw [h0]
    simp only [Run.bind, h1]
    rw [if_pos]
    · simp [Trace.run, pure]
    · refine ⟨?_, rfl⟩
      rw [WithTop.coe_le_coe]
      nlinarith
  have hopt : ∃ calls, optimizeGlmm model 1 1 prev_fit = ⟨calls, [],
      Except.ok ⟨[0.5, b + 1], [[some 0.5, some 0], [some 0, some 0.5]]⟩⟩ := by
    unfold optimizeGlmm
    dsimp only
    rw [hstart, show List.replicate (1 + 1) (0 : ℝ) = [0, 0] from rfl, bind_eq hS, bind_eq (h0 _ _),
      bind_eq (hrun _), radd_two]
    simp only [Run.warnIf, Run.lift, model, Bind.bind, Run.bind, pure]
    refine ⟨[[0 + 0.5, 0 + b], [0 + 0.5, 0 + b], [0 + 0.5, 0 + b], [0 + 0.5, 1 + b]], ?_⟩
    norm_num [add_comm]
  obtain ⟨calls, hopt⟩ := hopt
  unfold Fit.glmm
  rw [bind_eq hopt, bind_eq (show checkLaplace none _ _ = ⟨[], [], Except.ok ()⟩ from rfl)]
  unfold finish
  rw [if_pos (by simp)]
  have habs : absTheta [0.5, b + 1] 1 = Except.ok [0.5, b + 1] := by
    unfold absTheta
    rw [if_neg (by simp)]
    simp [IS.colon, List.range_succ]
    norm_num
  have hany : anyGt (IS.index [0.5, b + 1] (IS.colon 1 1)) 4.9 = Except.ok false := by
    unfold anyGt
    rw [index_first one_pos, if_neg, if_neg (by simp)]
    rintro ⟨v, hv, hgt⟩
    have : v = 0.5 := by simpa using hv
    rw [this] at hgt
    norm_num at hgt
  dsimp only
  rw [habs]
  simp only [Run.warnIf, Run.lift, Bind.bind, Run.bind, pure, hany]
  simp

/-- Three fits of this model: the fixed effect is 1, 2 and 3. -/
theorem model_sequence : Sequence model [0] 1 1 none (fun _ => Except.ok 0) 2
    fun n => ⟨[0.5, n + 1], [[some 0.5, some 0], [some 0, some 0.5]]⟩ := by
  refine ⟨?_, fun n hn => ?_⟩
  · rw [model_run (b := 0) _ (by norm_num) rfl]
    simp
  · rw [model_run (b := n + 1) _ (by interval_cases n <;> norm_num) rfl]
    simp

example : NotLess model.lfun [0.5, 1] [0.5, 3] := by
  have h := c124_sequence (by simp) one_pos (oneStep_descends (fun _ => [0, 1]) [[4, 0], [0, 4]])
    model_signFree model_sequence (m := 0) (n := 2) (by simp) le_rfl
  norm_num at h ⊢
  exact h

open Verif.Lfun Verif.SR Verif.Pars

/-- A model whose deviance is that of `model`, and the routines of `model`. -/
noncomputable def ext (lib : Lib) (env : Env) (ops : Control.Ops) : Ext 2 where
  lib := lib
  env := env
  ops := ops
  devfun _ := Except.ok fun x =>
    Except.ok (2 * ((abs (x.getD 0 0) - 1) ^ 2 + (x.getD 1 0 - 3) ^ 2), twoPP)
  rnorm m := List.replicate m 0
  chol A := A
  grad _ _ _ := Except.ok 0
  hessian _ _ _ := Except.ok 0

noncomputable def routines : Routines := ⟨model.optim, model.solve, model.smallEigenvalue⟩

/-- A run of `glmm` with a previous fit. -/
theorem whole_run (lib : Lib) (env : Env) (ops : Control.Ops) :
    (Whole.glmm (ext lib env ops) routines (Except.ok (.random twoFrame)) ["Laplace"]
      (.named [("nIS", .num 5)]) [1, 2, 3] (some [0.5, 1])).res =
      Except.ok (.glmmFit ⟨[0.5, 1 + 1], [[some 0.5, some 0], [some 0, some 0.5]]⟩) := by
  have hw : checkWeights [1, 2, 3] = Except.ok () := by
    rw [c81_weights]
    intro w hw
    simp only [List.mem_cons, List.not_mem_nil, or_false] at hw
    rcases hw with rfl | rfl | rfl
    · exact ⟨1, by norm_num⟩
    · exact ⟨2, by norm_num⟩
    · exact ⟨3, by norm_num⟩
  obtain ⟨con, hc⟩ : ∃ con, Control.findControlWithDefaults (ext lib env ops).ops
      (.named [("nIS", .num 5)]) ["Laplace"] =
      Except.ok (con, [Control.Warning.ignored "Laplace" ["nIS"]]) := by
    obtain ⟨con0, hd, hk, -⟩ := Control.defaults_eq (m := "Laplace") (by simp [Control.methods])
    obtain ⟨⟨con, ws⟩, h⟩ := Control.c39_runs (ext lib env ops).ops (.named [("nIS", .num 5)])
      (m := "Laplace") (by simp [Control.methods]) (fun h => absurd h (by decide))
      (fun _ => ⟨1, by simp [Control.value, Control.given, Control.dflt]⟩)
    refine ⟨con, ?_⟩
    rw [h]
    rw [Control.run_eq _ _ hd hk] at h
    rcases h1 : Control.finishSR (ext lib env ops).ops "Laplace"
      (Control.setAll con0 (.named [("nIS", .num 5)])) with e | con1
    · rw [h1] at h; cases h
    rw [h1] at h
    simp only [res_ok_bind] at h
    rcases h2 : Control.finishLaplace (ext lib env ops).ops "Laplace" con1 with e | con2
    · rw [h2] at h; cases h
    rw [h2] at h
    have := Except.ok.inj h
    have hws : ws = Control.warnings (.named [("nIS", .num 5)]) "Laplace" :=
      (congrArg Prod.snd this).symm
    rw [hws]
    rfl
  have ho : Control.value (.named [("nIS", .num 5)]) "order" = .num 1 := by
    simp [Control.value, Control.given, Control.dflt]
  have hchk := (Control.c39_values (by simp [Control.methods]) hc).2.2.2 rfl (by
    rw [ho, Control.gt1]
    simp)
  obtain ⟨s, f, hlf, hval⟩ := c85_laplace (ext lib env ops) twoFrame ho rfl
  rw [find_eq _ _ hc rfl] at hlf
  have hbox : boxOf routines (s, f) = model := by
    unfold boxOf routines
    have : (fun x => ((f x).exec s).1) = model.lfun := by
      funext x
      rw [hval x s]
      show Except.ok _ = Except.ok _
      congr 1
      ring
    rw [this]
  have ht : threshold con = Except.ok none := by
    unfold threshold
    rw [hchk]
    simp [Control.value, Control.given, Control.dflt]
  have hfit := model_run (prev_fit := some [0.5, 1]) (b := 1) (divergence (ext lib env ops) twoFrame fun x =>
    Except.ok (2 * ((abs (x.getD 0 0) - 1) ^ 2 + (x.getD 1 0 - 3) ^ 2), twoPP)) (by norm_num) rfl
  have hlift : ∀ {α β : Type} (a : α) (f : α → Run β), (Run.lift (Except.ok a) >>= f) = f a :=
    fun _ _ => rfl
  have hmain : (do
      let opt ← optimizeGlmm (boxOf routines (s, f)) 1 twoFrame.nTheta (some [0.5, 1])
      let t ← Run.lift (threshold con)
      checkLaplace t (divergence (ext lib env ops) twoFrame fun x =>
        Except.ok (2 * ((abs (x.getD 0 0) - 1) ^ 2 + (x.getD 1 0 - 3) ^ 2), twoPP)) opt
      Fit.finish twoFrame.lower twoFrame.nTheta opt) =
      Fit.glmm model [0] 1 1 (some [0.5, 1]) none (divergence (ext lib env ops) twoFrame fun x =>
        Except.ok (2 * ((abs (x.getD 0 0) - 1) ^ 2 + (x.getD 1 0 - 3) ^ 2), twoPP)) := by
    simp only [ht, hlift, hbox]
    rfl
  unfold Whole.glmm
  rw [hw, hc]
  simp only [hlift]
  rw [show (ext lib env ops).devfun 1 = Except.ok fun x =>
    Except.ok (2 * ((abs (x.getD 0 0) - 1) ^ 2 + (x.getD 1 0 - 3) ^ 2), twoPP) from rfl]
  simp only [hlift, List.getD_cons_zero]
  rw [hlf]
  simp only [hlift]
  rw [hmain]
  exact hfit

example : Descends routines.optim := oneStep_descends (fun _ => [0, 1]) [[4, 0], [0, 4]]

end Verif.Refit
