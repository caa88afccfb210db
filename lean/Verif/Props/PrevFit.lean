import Verif.Props.Whole

/-!
# C123: a previous fit of a model with another number of parameters

`optimize_glmm` starts at the estimates of a previous fit, if one is given (R/optimization.R:14-18), and
adds them to what the optimiser asks for (R/optimization.R:46). Nothing checks their number.
-/
namespace Verif.PrevFit

open Verif.Fit Verif.Whole

/-! ## Specification -/

/-- A vector repeated up to a given length. -/
def Repeats (mu full : List ℝ) : Prop :=
  ∀ i < full.length, full[i]? = mu[i % mu.length]?

/-- An optimiser that keeps to the number of parameters it was given. -/
inductive Keeps (k : ℕ) : Trace → Prop
  | done (par : List ℝ) (hessian : List (List ℝ)) (convergence : ℤ) : par.length = k →
    Keeps k (.done par hessian convergence)
  | stop (msg : String) : Keeps k (.stop msg)
  | ask (x : List ℝ) (next : WithTop ℝ → Trace) : x.length = k → (∀ v, Keeps k (next v)) →
    Keeps k (.ask x next)

/-- A likelihood function that stops for another number of parameters, as that of the sequential
reduction does (`lfun_checks`). -/
def Checks (k : ℕ) (f : List ℝ → Res ℝ) : Prop :=
  ∀ x : List ℝ, x.length ≠ k → ∃ msg, f x = Res.raise msg

/-! ## Fewer parameters -/

theorem radd_repeats {x mu full : List ℝ} (hx : x.length = full.length) (h0 : mu ≠ [])
    (hle : mu.length ≤ full.length) (hr : Repeats mu full) : radd x mu = radd x full := by
  have hpos : 0 < mu.length := List.length_pos_iff.2 h0
  have hx0 : x ≠ [] := List.length_pos_iff.1 (by omega)
  have hf0 : full ≠ [] := List.length_pos_iff.1 (by omega)
  unfold radd
  rw [if_neg (by simp [hx0, h0]), if_neg (by simp [hx0, hf0]), hx, max_eq_left hle, max_self]
  apply List.map_congr_left
  intro i hi
  rw [List.mem_range] at hi
  rw [Nat.mod_eq_of_lt hi, List.getD_eq_getElem?_getD, List.getD_eq_getElem?_getD,
    List.getD_eq_getElem?_getD, hr i hi]

theorem run_congr {k : ℕ} {f g : List ℝ → Run (WithTop ℝ)} (h : ∀ x : List ℝ, x.length = k → f x = g x)
    {t : Trace} (ht : Keeps k t) : t.run f = t.run g := by
  induction ht with
  | done => rfl
  | stop => rfl
  | ask x next hx _ ih =>
    unfold Trace.run
    rw [h x hx]
    congr 1
    funext v
    exact ih v

theorem run_length {k : ℕ} {f : List ℝ → Run (WithTop ℝ)} {t : Trace} (ht : Keeps k t)
    {out : List ℝ × List (List ℝ) × ℤ} (h : (t.run f).res = Except.ok out) : out.1.length = k := by
  induction ht with
  | done par hessian convergence hl =>
    have h : (Except.ok (par, hessian, convergence) : Res _) = Except.ok out := h
    cases Except.ok.inj h
    exact hl
  | stop => cases h
  | ask x next _ _ ih =>
    obtain ⟨v, -, h, -⟩ := bind_ok (show ((f x) >>= fun v => (next v).run f).res = _ from h)
    exact ih v h

theorem bind_congr {α β : Type} {x : Run α} {f g : α → Run β}
    (h : ∀ a, x.res = Except.ok a → f a = g a) : x >>= f = x >>= g := by
  show Run.bind x f = Run.bind x g
  unfold Run.bind
  split
  · rfl
  · next a ha => rw [h a ha]

/-- **C123, violated.** A previous fit with fewer parameters is accepted: its estimates are repeated up
to the number of parameters, whatever they stand for, and the fit is that started there: the same calls
of the likelihood function, the same warnings and the same result. -/
theorem c123_short {B : Box} {p_beta p_theta : ℕ} {mu full : List ℝ} (h0 : mu ≠ [])
    (hle : mu.length ≤ p_theta + p_beta) (hfull : full.length = p_theta + p_beta)
    (hr : Repeats mu full)
    (hk : Keeps (p_theta + p_beta) (B.optim (List.replicate (p_theta + p_beta) 0))) :
    optimizeGlmm B p_beta p_theta (some mu) = optimizeGlmm B p_beta p_theta (some full) := by
  have hdev : ∀ x : List ℝ, x.length = p_theta + p_beta → ∀ s big,
      devfunStd B p_theta mu x s big = devfunStd B p_theta full x s big := by
    intro x hx s big
    unfold devfunStd
    rw [radd_repeats (hx.trans hfull.symm) h0 (by omega) hr]
  have hz := hdev (List.replicate (p_theta + p_beta) 0) (by simp)
  unfold optimizeGlmm
  simp only [startPars, startValue, hz]
  apply bind_congr
  intro d0 _
  apply bind_congr
  intro _ _
  rw [run_congr (fun x hx => hdev x hx false (d0 + 100)) hk]
  apply bind_congr
  intro out hout
  rw [radd_repeats ((run_length hk hout).trans hfull.symm) h0 (by omega) hr]

/-- There is always such a vector of starting parameters. -/
theorem repeats_exists {mu : List ℝ} (h0 : mu ≠ []) (k : ℕ) :
    ∃ full : List ℝ, full.length = k ∧ Repeats mu full := by
  have hpos : 0 < mu.length := List.length_pos_iff.2 h0
  refine ⟨(List.range k).map fun i => mu.getD (i % mu.length) 0, by simp, fun i hi => ?_⟩
  have hi' : i < k := by simpa using hi
  have hm := Nat.mod_lt i hpos
  rw [List.getElem?_map, List.getElem?_range hi', Option.map_some, List.getD_eq_getElem?_getD,
    List.getElem?_eq_getElem hm, Option.getD_some]

/-! ## More parameters -/

theorem radd_zero {k : ℕ} {mu : List ℝ} (hk : 0 < k) (h : k ≤ mu.length) :
    radd (List.replicate k 0) mu = mu := by
  have h0 : mu ≠ [] := List.length_pos_iff.1 (by omega)
  unfold radd
  rw [if_neg (by simp [h0]; omega), List.length_replicate, max_eq_right h]
  apply List.ext_getElem?
  intro i
  by_cases hi : i < mu.length
  · rw [List.getElem?_map, List.getElem?_range hi, Option.map_some, Nat.mod_eq_of_lt hi,
      List.getD_eq_getElem?_getD, List.getD_eq_getElem?_getD, List.getElem?_eq_getElem hi,
      List.getElem?_replicate, if_pos (Nat.mod_lt i hk)]
    simp
  · rw [List.getElem?_eq_none (by simp; omega), List.getElem?_eq_none (by omega)]

/-- **C123, the part that holds.** A previous fit with more parameters is refused, if the likelihood
function checks their number and no variance parameter is beyond 5: the fit stops at the starting
parameters, before the optimiser is called. For estimates beyond 5 see `c123_long`. What is missing for
the property is a previous fit with fewer parameters (`c123_short`). -/
theorem c123_partial {B : Box} {p_beta p_theta : ℕ} {mu : List ℝ} (hp : 0 < p_theta)
    (hlong : p_theta + p_beta < mu.length) (hc : Checks (p_theta + p_beta) B.lfun)
    (hB : ¬ Beyond p_theta mu) :
    optimizeGlmm B p_beta p_theta (some mu) = ⟨[mu], [],
      Res.raise "Could not approximate the likelihood at the starting parameters"⟩ := by
  obtain ⟨msg, hmsg⟩ := hc mu (by omega)
  have hany : anyGt ((IS.index mu (IS.colon 1 p_theta)).map fun x => x.map fun v => |v|) 5 =
      Except.ok false := by
    have hnone : none ∉ (IS.index mu (IS.colon 1 p_theta)).map fun x => x.map fun v => |v| := by
      rw [index_first hp]
      simp only [List.mem_map, List.mem_range, not_exists, not_and]
      rintro _ ⟨i, hi, rfl⟩
      rw [List.getElem?_eq_getElem (by omega)]
      simp
    rcases h : anyGt ((IS.index mu (IS.colon 1 p_theta)).map fun x => x.map fun v => |v|) 5
      with e | b
    · unfold anyGt at h
      split_ifs at h
    · rcases b with _ | _
      · exact h
      · exact absurd ((anyGt_beyond hp h).1 rfl) hB
  have hstart : startValue B p_theta mu (List.replicate (p_theta + p_beta) 0) = ⟨[mu], [],
      Res.raise "Could not approximate the likelihood at the starting parameters"⟩ := by
    have hd : devfunStd B p_theta mu (List.replicate (p_theta + p_beta) 0) true ⊤ =
        ⟨[mu], [], Res.raise msg⟩ := by
      unfold devfunStd devfunExt
      rw [radd_zero (by omega) (by omega), hany]
      show Run.bind (Run.lift (Except.ok false)) _ = _
      simp [Run.bind, Run.lift, callLfun, hmsg, Res.raise]
    unfold startValue
    rw [hd]
    rfl
  unfold optimizeGlmm
  simp only [startPars, hstart]
  rfl

/-- An optimiser that asks for the value at the starting parameters first, and stops if it is infinite.
The method BFGS of `optim` does (initial value in 'vmmin' is not finite). -/
def RefusesInfinite (optim : List ℝ → Trace) : Prop :=
  ∀ par0, ∃ next msg, optim par0 = .ask par0 next ∧ next ⊤ = .stop msg

/-- A previous fit with more parameters never leads to a fit, whatever its estimates are: with a variance
parameter beyond 5 the value at the start is infinite, and the optimiser refuses it. -/
theorem c123_long {B : Box} {p_beta p_theta : ℕ} {mu : List ℝ} (hp : 0 < p_theta)
    (hlong : p_theta + p_beta < mu.length) (hc : Checks (p_theta + p_beta) B.lfun)
    (ho : RefusesInfinite B.optim) :
    ∃ msg, (optimizeGlmm B p_beta p_theta (some mu)).res = Res.raise msg := by
  by_cases hB : Beyond p_theta mu
  · have hany : anyGt ((IS.index mu (IS.colon 1 p_theta)).map fun x => x.map fun v => |v|) 5 =
        Except.ok true := by
      unfold anyGt
      rw [if_pos]
      obtain ⟨i, hi, v, hv, h⟩ := hB
      refine ⟨|v|, ?_, h⟩
      rw [index_first hp]
      simp only [List.mem_map, List.mem_range]
      exact ⟨some v, ⟨i, hi, hv⟩, rfl⟩
    have hd : ∀ s big, devfunStd B p_theta mu (List.replicate (p_theta + p_beta) 0) s big =
        ⟨[], [], Except.ok big⟩ := by
      intro s big
      unfold devfunStd devfunExt
      rw [radd_zero (by omega) (by omega), hany]
      rfl
    obtain ⟨next, msg, h1, h2⟩ := ho (List.replicate (p_theta + p_beta) 0)
    refine ⟨msg, ?_⟩
    have hrun : (B.optim (List.replicate (p_theta + p_beta) 0)).run
        (fun x => devfunStd B p_theta mu x false (⊤ + 100)) = ⟨[], [], Res.raise msg⟩ := by
      rw [h1]
      unfold Trace.run
      rw [hd, top_add]
      simp only [Run.bind, h2]
      rfl
    have hs : startValue B p_theta mu (List.replicate (p_theta + p_beta) 0) =
        ⟨[], [], Except.ok ⊤⟩ := by
      unfold startValue
      rw [hd]
    unfold optimizeGlmm
    simp only [startPars, hs, hd]
    show (Run.bind _ fun d0 => Run.bind _ fun _ => Run.bind _ _).res = _
    simp only [Run.bind, hrun, Res.raise]
  · exact ⟨_, by rw [c123_partial hp hlong hc hB]⟩

/-- The likelihood function of the sequential reduction checks the number of parameters
(R/loglikelihood.R:61-65), for every state of the object it keeps. -/
theorem lfun_checks {q : ℕ} (lib : SR.Lib) (nFixed nTheta : ℕ)
    (c : ClusterGraph.CG (Belief.Mixed SR.Factor Gauss.NB))
    (devfun : List ℝ → Res (ℝ × Lfun.PP q)) (s : Pars.Parameters) :
    Checks (nTheta + nFixed) fun x => ((Lfun.lfun lib nFixed nTheta c devfun x).exec s).1 := by
  intro x hx
  refine ⟨"cannot compute loglikelihood for parameter of this length", ?_⟩
  show ((Lfun.lfun lib nFixed nTheta c devfun x).exec s).1 = _
  rw [Lfun.exec_lfun]
  unfold Lfun.value
  rw [if_pos (by omega)]

/-! ## Concrete cases -/

/-- A likelihood of two parameters, and an optimiser that asks for one value and stays at the start. -/
noncomputable def model : Box where
  lfun x := if x.length = 2 then Except.ok (-(x.getD 0 0) ^ 2 - (x.getD 1 0 - 1) ^ 2)
    else Res.raise "length"
  optim _ := .ask [1, 0] fun _ => .done [0, 0] [[4, 0], [0, 4]] 0
  solve _ := Except.ok [[0.25, 0], [0, 0.25]]
  smallEigenvalue _ := false

/-- A standard deviation of 2 of a model without fixed effects becomes the starting value of the fixed
effect of this model too. -/
example : optimizeGlmm model 1 1 (some [2]) = optimizeGlmm model 1 1 (some [2, 2]) :=
  c123_short (by simp) (by simp) (by simp)
    (by intro i hi; simp only [List.length_cons, List.length_nil] at hi; interval_cases i <;> rfl)
    (.ask _ _ rfl fun _ => .done _ _ _ rfl)

theorem model_checks : Checks 2 model.lfun := fun x hx => ⟨"length", by
  show (if x.length = 2 then _ else _) = _
  rw [if_neg hx]⟩

/-- Estimates of a model with another fixed effect are refused. -/
example : optimizeGlmm model 1 1 (some [2, 1, 3]) = ⟨[[2, 1, 3]], [],
    Res.raise "Could not approximate the likelihood at the starting parameters"⟩ := by
  refine c123_partial (by simp) (by simp) model_checks ?_
  rintro ⟨i, hi, v, hv, h⟩
  interval_cases i
  cases hv
  norm_num at h

/-- The same model, with an optimiser that refuses an infinite value at the start. -/
noncomputable def careful : Box :=
  { model with optim := fun par0 => .ask par0 fun v =>
      if v = ⊤ then .stop "initial value is not finite" else .done par0 [[4, 0], [0, 4]] 0 }

/-- A fixed effect of 7 in the place of the standard deviation is refused too. -/
example : ∃ msg, (optimizeGlmm careful 1 1 (some [7, 1, 3])).res = Res.raise msg :=
  c123_long (by simp) (by simp) model_checks fun par0 => ⟨_, _, rfl, if_pos rfl⟩

end Verif.PrevFit
