import Verif.Props.Dispatch

/-!
# C85 (history) and C86: `glmm` as a whole
-/
namespace Verif.Whole

open Verif.Pars Verif.SR Verif.Lfun Verif.Fit Matrix Verif.ClusterGraph Verif.Belief Verif.Gauss

variable {q n p : ℕ}

/-! ## History -/

/-- Likelihood functions that leave the object alone. -/
theorem calls_of_pure {f : LFun} (hf : ∀ x s, ((f x).exec s).2 = s) (xs : List (List ℝ))
    (s : Parameters) : calls f xs s = xs.map fun x => ((f x).exec s).1 := by
  induction xs with
  | nil => rfl
  | cons x xs ih =>
    rw [calls, List.map_cons, hf, ih]

theorem calls_sr (lib : Lib) (nFixed nTheta : ℕ) (c : CG (Mixed Factor NB))
    (devfun : List ℝ → Res (ℝ × PP q)) (xs : List (List ℝ)) (s : Parameters) :
    calls (fun x => Lfun.lfun lib nFixed nTheta c devfun x) xs s =
      Lfun.calls lib nFixed nTheta c devfun xs s := by
  induction xs generalizing s with
  | nil => rfl
  | cons x xs ih =>
    rw [calls, Lfun.calls, ih]

/-- The likelihood function leaves the object alone, or it is that of sequential reduction. -/
theorem internal_cases {X : Ext q} {F : Frame q n p} {m : String} {con : Control.RList}
    {d1 : List ℝ → Res (ℝ × PP q)} {s : Parameters} {f : LFun}
    (h : findLfunGlmmInternal X F m con d1 = Except.ok (s, f)) :
    (∀ x s', ((f x).exec s').2 = s') ∨
      ∃ c, f = fun x => Lfun.lfun X.lib p F.nTheta c d1 x := by
  rw [findLfunGlmmInternal] at h
  split_ifs at h with h1 h2 h3 h4
  · left
    rcases ho : number con "order" with e | o
    · rw [ho] at h; cases h
    rw [ho] at h
    simp only [res_ok_bind] at h
    rcases hf : findLfunLaplace F d1 o with e | g
    · rw [hf] at h; cases h
    rw [hf] at h
    cases Except.ok.inj h
    unfold findLfunLaplace at hf
    split_ifs at hf with h5 h6
    · cases Except.ok.inj hf
      exact fun _ _ => rfl
    · rcases hc : checkIfOrderImplemented F.family F.link o with e | u
      · rw [hc] at hf; cases hf
      rw [hc] at hf
      cases Except.ok.inj hf
      exact fun _ _ => rfl
    · rcases hc : checkIfOrderImplemented F.family F.link o with e | u
      · rw [hc] at hf; cases hf
      · rw [hc] at hf; cases hf
  · left
    rcases ho : number con "nAGQ" with e | o
    · rw [ho] at h; cases h
    rw [ho] at h
    simp only [res_ok_bind, findLfunAGQ] at h
    rcases hf : X.devfun o with e | g
    · rw [hf] at h; cases h
    rw [hf] at h
    cases Except.ok.inj h
    exact fun _ _ => rfl
  · right
    rcases ho : number con "nSL" with e | o
    · rw [ho] at h; cases h
    rw [ho] at h
    simp only [res_ok_bind] at h
    rcases ha : number con "nAGQ" with e | a
    · rw [ha] at h; cases h
    rw [ha] at h
    simp only [res_ok_bind, findLfunSR] at h
    rcases hf : Lfun.findLfunSR X.lib X.env F.M F.family F.link o a with e | g
    · rw [hf] at h; cases h
    rw [hf] at h
    cases Except.ok.inj h
    exact ⟨_, rfl⟩
  · left
    rcases ho : number con "nIS" with e | o
    · rw [ho] at h; cases h
    rw [ho] at h
    simp only [res_ok_bind, findLfunIS] at h
    rcases hf : samples X o with e | g
    · rw [hf] at h; cases h
    rw [hf] at h
    cases Except.ok.inj h
    exact fun _ _ => rfl
  · cases h

/-- C85, history: for every method the results of any sequence of calls of the likelihood function,
some of which may fail, are those of the same calls on the original object. -/
theorem c85_history {X : Ext q} {F : Frame q n p} {method : List String} {control : Control.Arg}
    {s : Parameters} {f : LFun} (h : findLfunGlmm X F method control = Except.ok (s, f))
    (xs : List (List ℝ)) : calls f xs s = xs.map fun x => ((f x).exec s).1 := by
  rw [findLfunGlmm] at h
  rcases hd : X.devfun 1 with e | d1
  · rw [hd] at h; cases h
  rw [hd] at h
  simp only [res_ok_bind] at h
  rcases hc : Control.findControlWithDefaults X.ops control method with e | con
  · rw [hc] at h; cases h
  rw [hc] at h
  simp only [res_ok_bind] at h
  rcases method with _ | ⟨m, _ | ⟨m', ms⟩⟩
  · cases h
  · simp only [res_ok_bind] at h
    rcases internal_cases h with hf | ⟨c, rfl⟩
    · exact calls_of_pure hf xs s
    · rw [calls_sr, c81_history]
  · cases h

/-! ## C86: specification -/

/-- Some variance parameter is beyond 5 in absolute value. -/
def Beyond (nTheta : ℕ) (y : List ℝ) : Prop := ∃ i < nTheta, ∃ v, y[i]? = some v ∧ 5 < |v|

/-- What the optimiser is told about a point, for a log-likelihood function, the starting parameters
`mu` and the value `d0` there: minus twice the log-likelihood, infinity if that stops, `d0 + 100` if a
variance parameter is beyond 5. -/
structure Told (f : List ℝ → Res ℝ) (nTheta : ℕ) (mu : List ℝ) (d0 : WithTop ℝ) (x : List ℝ)
    (v : WithTop ℝ) : Prop where
  beyond : Beyond nTheta (List.zipWith (· + ·) x mu) → v = d0 + 100
  value : ¬ Beyond nTheta (List.zipWith (· + ·) x mu) →
    (∃ l : ℝ, f (List.zipWith (· + ·) x mu) = Except.ok l ∧ v = ((-2 * l : ℝ) : WithTop ℝ)) ∨
    (∃ msg, f (List.zipWith (· + ·) x mu) = Res.raise msg ∧ v = ⊤)

/-- An optimiser ends with a result when all it is told is allowed by `ok`. -/
inductive Reaches (ok : List ℝ → WithTop ℝ → Prop) :
    Trace → List ℝ × List (List ℝ) × ℤ → Prop
  | done (par : List ℝ) (hessian : List (List ℝ)) (convergence : ℤ) :
    Reaches ok (.done par hessian convergence) (par, hessian, convergence)
  | ask (x : List ℝ) (next : WithTop ℝ → Trace) (v : WithTop ℝ)
    (out : List ℝ × List (List ℝ) × ℤ) : ok x v → Reaches ok (next v) out →
    Reaches ok (.ask x next) out

/-- The correction of the second order at given parameters, at lme4's normal approximation. -/
noncomputable def correction (F : Frame q n p) (d1 : List ℝ → Res (ℝ × PP q)) (x : List ℝ) :
    Res ℝ := do
  let r ← d1 x
  Hol.findEpsilon1 F.family F.link x F.M F.nTheta
    ⟨r.2.delu, r.2.Pᵀ * (r.2.L * r.2.Lᵀ) * r.2.P⟩

/-- The check of the first-order Laplace approximation is asked for and fails: half of the quadratic
form of the covariance matrix and the gradient of the correction is above the threshold. By C72 it is
the Kullback-Leibler divergence between the normal approximations to the distributions of the two
estimators. -/
def Unreliable (X : Ext q) (F : Frame q n p) (d1 : List ℝ → Res (ℝ × PP q))
    (method : List String) (control : Control.Arg) (opt : Opt) : Prop :=
  method = ["Laplace"] ∧ Control.value control "order" = .num 1 ∧
    Control.value control "check_Laplace" = .bool true ∧
    ∃ t delta, Control.value control "divergence_threshold" = .num t ∧
      X.grad opt.estim.length (fun x => correction F d1 (List.ofFn x)) (fun i => opt.estim[i]) =
        Except.ok delta ∧
      t < 1 / 2 * ∑ i, ∑ j : Fin opt.estim.length, delta i * ((opt.Sigma.getD j []).getD i none).getD 0 * delta j

/-! ## C86: proofs -/

theorem radd_eq {x y : List ℝ} (h : x.length = y.length) :
    radd x y = List.zipWith (· + ·) x y := by
  unfold radd
  split_ifs with h0
  · rcases h0 with rfl | rfl
    · rfl
    · simp
  · rw [not_or] at h0
    apply List.ext_getElem?
    intro i
    rw [List.getElem?_map, List.getElem?_zipWith]
    by_cases hi : i < x.length
    · rw [List.getElem?_range (by omega), Option.map_some, Nat.mod_eq_of_lt hi,
        Nat.mod_eq_of_lt (by omega), List.getElem?_eq_getElem hi,
        List.getElem?_eq_getElem (by omega)]
      simp [hi, show i < y.length by omega]
    · rw [List.getElem?_eq_none (by simp; omega), List.getElem?_eq_none (by omega)]
      rfl

theorem anyGt_beyond {nTheta : ℕ} (hp : 0 < nTheta) {y : List ℝ} {b : Bool}
    (h : anyGt ((IS.index y (IS.colon 1 nTheta)).map fun x => x.map fun v => |v|) 5 =
      Except.ok b) : b = true ↔ Beyond nTheta y := by
  rw [index_first hp] at h
  have hmem : ∀ v, some v ∈ (((List.range nTheta).map fun i => y[i]?).map fun x =>
      x.map fun v => |v|) ↔ ∃ i < nTheta, ∃ w, y[i]? = some w ∧ |w| = v := by
    intro v
    simp only [List.mem_map, List.mem_range, exists_exists_and_eq_and, Option.map_eq_some_iff]
  rcases b with _ | _
  · refine ⟨fun h => absurd h (by simp), fun ⟨i, hi, v, hv, hgt⟩ => ?_⟩
    obtain ⟨w, hw, hle⟩ := anyGt_false h _ ((hmem _).2 ⟨i, hi, v, hv, rfl⟩)
    cases Option.some.inj hw
    exact absurd hgt (not_lt.2 hle)
  · refine ⟨fun _ => ?_, fun _ => rfl⟩
    obtain ⟨v, hv, hgt⟩ := anyGt_true h
    obtain ⟨i, hi, w, hw, rfl⟩ := (hmem _).1 hv
    exact ⟨i, hi, w, hw, hgt⟩

/-- Values of the function given to the optimiser. -/
theorem devfunStd_told {B : Box} {nTheta : ℕ} (hp : 0 < nTheta) {mu x : List ℝ}
    (hx : x.length = mu.length) {d0 : WithTop ℝ} {v : WithTop ℝ}
    (h : (devfunStd B nTheta mu x false (d0 + 100)).res = Except.ok v) :
    Told B.lfun nTheta mu d0 x v := by
  unfold devfunStd devfunExt at h
  obtain ⟨b, hb, h, -⟩ := bind_ok h
  rw [radd_eq hx] at hb h
  have hb' := anyGt_beyond hp hb
  rcases b with _ | _
  · have hno : ¬ Beyond nTheta (List.zipWith (· + ·) x mu) := fun hB => by
      have := hb'.2 hB
      cases this
    refine ⟨fun hB => absurd hB hno, fun _ => ?_⟩
    have h : (callLfun B (List.zipWith (· + ·) x mu) false).res = Except.ok v := h
    unfold callLfun at h
    dsimp only at h
    rcases hl : B.lfun (List.zipWith (· + ·) x mu) with (_ | msg) | l
    · rw [hl] at h; cases h
    · rw [hl] at h
      cases Except.ok.inj h
      exact Or.inr ⟨msg, rfl, rfl⟩
    · rw [hl] at h
      cases Except.ok.inj h
      exact Or.inl ⟨l, rfl, rfl⟩
  · have hB := hb'.1 rfl
    exact ⟨fun _ => (Except.ok.inj h).symm, fun hno => absurd hB hno⟩

theorem run_reaches {fn : List ℝ → Run (WithTop ℝ)} {ok : List ℝ → WithTop ℝ → Prop}
    (hfn : ∀ x v, (fn x).res = Except.ok v → ok x v) (t : Trace)
    {out : List ℝ × List (List ℝ) × ℤ} (h : (t.run fn).res = Except.ok out) :
    Reaches ok t out := by
  induction t with
  | done par hessian convergence =>
    have h : (Except.ok (par, hessian, convergence) : Res _) = Except.ok out := h
    cases Except.ok.inj h
    exact .done _ _ _
  | stop msg => cases h
  | ask x next ih =>
    obtain ⟨v, hv, h, -⟩ := bind_ok (show ((fn x) >>= fun v => (next v).run fn).res = _ from h)
    exact .ask x next v out (hfn x v hv) (ih v h)

/-- The starting parameters are within the bounds, or those of a previous fit. -/
theorem start_length (p_beta p_theta : ℕ) {prev_fit : Option (List ℝ)}
    (hprev : ∀ e, prev_fit = some e → e.length = p_theta + p_beta) :
    (startPars p_beta p_theta prev_fit).length = p_theta + p_beta := by
  unfold startPars
  rcases prev_fit with _ | e
  · simp
  · exact hprev e rfl

/-- What `optimize_glmm` returns. -/
theorem devfunStd_warnings (B : Box) (p_theta : ℕ) (mu x : List ℝ) (s : Bool) (big : WithTop ℝ) :
    (devfunStd B p_theta mu x s big).warnings = [] := by
  unfold devfunStd devfunExt
  rcases hb : anyGt ((IS.index (radd x mu) (IS.colon 1 p_theta)).map fun x => x.map fun v => |v|) 5
    with e | b
  · rw [hb]; rfl
  · rw [hb]; rcases b with _ | _ <;> rfl

theorem run_warnings {fn : List ℝ → Run (WithTop ℝ)} (h : ∀ x, (fn x).warnings = []) :
    ∀ t : Trace, (t.run fn).warnings = []
  | .done _ _ _ => rfl
  | .stop _ => rfl
  | .ask x next => by
    unfold Trace.run Run.bind
    rcases hx : (fn x).res with e | v
    · exact h x
    · dsimp only
      rw [h x, run_warnings h (next v)]
      rfl

theorem optimize_spec {B : Box} {p_beta p_theta : ℕ} (hp : 0 < p_theta)
    {prev_fit : Option (List ℝ)} (hprev : ∀ e, prev_fit = some e → e.length = p_theta + p_beta)
    {opt : Opt} (h : (optimizeGlmm B p_beta p_theta prev_fit).res = Except.ok opt) :
    ∃ d0 par hessian convergence inv,
      (¬ Beyond p_theta (startPars p_beta p_theta prev_fit) →
        ∃ l0 : ℝ, B.lfun (startPars p_beta p_theta prev_fit) = Except.ok l0 ∧
          d0 = ((-2 * l0 : ℝ) : WithTop ℝ)) ∧
      Reaches (fun x v => x.length = p_theta + p_beta →
          Told B.lfun p_theta (startPars p_beta p_theta prev_fit) d0 x v)
        (B.optim (List.replicate (p_theta + p_beta) 0)) (par, hessian, convergence) ∧
      (par.length = p_theta + p_beta →
        opt.estim = List.zipWith (· + ·) par (startPars p_beta p_theta prev_fit)) ∧
      B.solve hessian = Except.ok inv ∧
      opt.Sigma = inv.map (fun row => row.map fun x => some (2 * x)) ∧
      (optimizeGlmm B p_beta p_theta prev_fit).warnings =
        (if convergence = 0 then [] else ["optim did not converge"]) ++
        (if B.smallEigenvalue (inv.map fun row => row.map fun x => 2 * x) = true then
          ["May have problem in convergence"] else []) := by
  have hlen := start_length p_beta p_theta hprev
  unfold optimizeGlmm at h ⊢
  dsimp only at h ⊢
  obtain ⟨d0, h0, h, w1⟩ := bind_ok h
  obtain ⟨_, -, h, w2⟩ := bind_ok h
  obtain ⟨⟨par, hessian, convergence⟩, hr, h, w3⟩ := bind_ok h
  obtain ⟨_, -, h, w4⟩ := bind_ok h
  obtain ⟨inv, hinv, h, w5⟩ := bind_ok h
  obtain ⟨_, -, h, w6⟩ := bind_ok h
  rw [w1, w2, w3, w4, w5, w6]
  have h := (Except.ok.inj h).symm
  subst h
  refine ⟨d0, par, hessian, convergence, inv, fun hno => ?_, ?_, fun hpar => ?_, hinv, ?_, ?_⟩
  · unfold startValue at h0
    dsimp only at h0
    have hz : radd (List.replicate (p_theta + p_beta) 0) (startPars p_beta p_theta prev_fit) =
        startPars p_beta p_theta prev_fit := by
      rw [radd_eq (by simp [hlen])]
      apply List.ext_getElem?
      intro i
      rw [List.getElem?_zipWith, List.getElem?_replicate]
      by_cases hi : i < p_theta + p_beta
      · rw [if_pos hi, List.getElem?_eq_getElem (by omega)]
        simp
      · rw [if_neg hi, List.getElem?_eq_none (by omega)]
    have h1 : (devfunStd B p_theta (startPars p_beta p_theta prev_fit)
        (List.replicate (p_theta + p_beta) 0) true ⊤).res = Except.ok d0 := by
      revert h0
      rcases (devfunStd B p_theta (startPars p_beta p_theta prev_fit)
        (List.replicate (p_theta + p_beta) 0) true ⊤).res with (_ | msg) | v
      · intro h; cases h
      · intro h; cases h
      · exact id
    unfold devfunStd devfunExt at h1
    rw [hz] at h1
    obtain ⟨b, hb, h1, -⟩ := bind_ok h1
    have hb' := anyGt_beyond hp hb
    rcases b with _ | _
    · have h1 : (callLfun B (startPars p_beta p_theta prev_fit) true).res = Except.ok d0 := h1
      unfold callLfun at h1
      dsimp only at h1
      rcases hl : B.lfun (startPars p_beta p_theta prev_fit) with (_ | msg) | l
      · rw [hl] at h1; cases h1
      · rw [hl] at h1; cases h1
      · rw [hl] at h1
        exact ⟨l, rfl, (Except.ok.inj h1).symm⟩
    · exact absurd (hb'.1 rfl) hno
  · refine run_reaches (fun x v hv => ?_) _ hr
    intro hx
    exact devfunStd_told hp (hx.trans hlen.symm) hv
  · exact radd_eq (hpar.trans hlen.symm)
  · rw [List.map_map]
    refine List.map_congr_left fun row _ => ?_
    rw [Function.comp, List.map_map]
    rfl
  · have e1 : (startValue B p_theta (startPars p_beta p_theta prev_fit)
        (List.replicate (p_theta + p_beta) 0)).warnings = [] := devfunStd_warnings _ _ _ _ _ _
    rw [e1, devfunStd_warnings, run_warnings (fun x => devfunStd_warnings _ _ _ _ _ _)]
    simp only [Run.warnIf, Run.lift, List.nil_append]
    congr 1
    · by_cases hz : convergence = 0
      · rw [if_pos hz, if_neg (fun hne => hne hz)]
      · rw [if_neg hz, if_pos hz]
    · exact List.append_nil _

/-- The parts of a run of `glmm` that returns. -/
theorem glmm_ok {X : Ext q} {R : Routines} {modfr : Res (Modfr q n p)} {method : List String}
    {control : Control.Arg} {weights : List ℝ} {prev_fit : Option (List ℝ)} {r : Result}
    (h : (glmm X R modfr method control weights prev_fit).res = Except.ok r) :
    ∃ m F con ws d1 lf t, method = [m] ∧ m ∈ Control.methods ∧
      checkWeights weights = Except.ok () ∧ modfr = Except.ok (.random F) ∧
      Control.findControlWithDefaults X.ops control [m] = Except.ok (con, ws) ∧
      X.devfun 1 = Except.ok d1 ∧ findLfunGlmm X F method control = Except.ok lf ∧
      threshold con = Except.ok t ∧
      (Fit.glmm (boxOf R lf) F.lower p F.nTheta prev_fit t (divergence X F d1)).res =
        Except.ok r ∧
      (glmm X R modfr method control weights prev_fit).warnings = ws.map message ++
        (Fit.glmm (boxOf R lf) F.lower p F.nTheta prev_fit t (divergence X F d1)).warnings := by
  unfold glmm at h ⊢
  obtain ⟨_, hw, h, w1⟩ := bind_ok h
  obtain ⟨⟨con, ws⟩, hc, h, w2⟩ := bind_ok h
  obtain ⟨_, -, h, w3⟩ := bind_ok h
  obtain ⟨mf, hmf, h, w4⟩ := bind_ok h
  rw [w1, w2, w3, w4]
  have hw : checkWeights weights = Except.ok () := hw
  have hc : Control.findControlWithDefaults X.ops control method = Except.ok (con, ws) := hc
  have hmf : modfr = Except.ok mf := hmf
  have hm : ∃ m ∈ Control.methods, method = [m] := by
    by_contra hno
    obtain ⟨msg, he⟩ := Control.c39_error X.ops control method hno
    rw [hc] at he
    cases he
  obtain ⟨m, hm, rfl⟩ := hm
  rcases mf with _ | F
  · cases h
  dsimp only at h ⊢
  obtain ⟨d1, hd, h, w5⟩ := bind_ok h
  obtain ⟨lf, hlf, h, w6⟩ := bind_ok h
  obtain ⟨opt, ho, h, w7⟩ := bind_ok h
  obtain ⟨t, ht, h, w8⟩ := bind_ok h
  obtain ⟨_, hk, h, w9⟩ := bind_ok h
  have hd : X.devfun 1 = Except.ok d1 := hd
  have hlf : findLfunGlmmInternal X F m con d1 = Except.ok lf := hlf
  have ht : threshold con = Except.ok t := ht
  have hfit : (Fit.glmm (boxOf R lf) F.lower p F.nTheta prev_fit t (divergence X F d1)).res =
      Except.ok r ∧
      (Fit.glmm (boxOf R lf) F.lower p F.nTheta prev_fit t (divergence X F d1)).warnings =
        (optimizeGlmm (boxOf R lf) p F.nTheta prev_fit).warnings ++
        ((checkLaplace t (divergence X F d1) opt).warnings ++
          (finish F.lower F.nTheta opt).warnings) := by
    unfold Fit.glmm
    have hx : optimizeGlmm (boxOf R lf) p F.nTheta prev_fit =
        ⟨(optimizeGlmm (boxOf R lf) p F.nTheta prev_fit).calls,
          (optimizeGlmm (boxOf R lf) p F.nTheta prev_fit).warnings, Except.ok opt⟩ := by
      rw [← ho]
    have hy : checkLaplace t (divergence X F d1) opt =
        ⟨(checkLaplace t (divergence X F d1) opt).calls,
          (checkLaplace t (divergence X F d1) opt).warnings, Except.ok ()⟩ := by
      rw [← hk]
    rw [bind_eq hx]
    dsimp only
    rw [bind_eq hy]
    exact ⟨h, rfl⟩
  refine ⟨m, F, con, ws, d1, lf, t, rfl, hm, hw, hmf, hc, hd, ?_, ht, hfit.1, ?_⟩
  · rw [find_eq X F hc hd, hlf]
  · rw [hfit.2, w5, w6, w7, w8, w9]
    rfl

theorem check_spec {X : Ext q} {F : Frame q n p} {m : String} {method : List String}
    {control : Control.Arg} {con : Control.RList} {ws : List Control.Warning}
    {d1 : List ℝ → Res (ℝ × PP q)} {lf : Parameters × LFun} {t : Option ℝ} {opt : Opt}
    (hc : Control.findControlWithDefaults X.ops control [m] = Except.ok (con, ws))
    (ht : threshold con = Except.ok t) (hlf : findLfunGlmm X F method control = Except.ok lf)
    (hm : method = [m]) (hk : (checkLaplace t (divergence X F d1) opt).res = Except.ok ()) :
    (Unreliable X F d1 method control opt → (checkLaplace t (divergence X F d1) opt).warnings =
      ["Inference using the first-order Laplace approximation may be unreliable"]) ∧
    (¬ Unreliable X F d1 method control opt →
      (checkLaplace t (divergence X F d1) opt).warnings = []) := by
  subst hm
  by_cases hL : m = "Laplace" ∧ Control.value control "order" = .num 1
  · obtain ⟨rfl, ho⟩ := hL
    have hv := Control.c39_values (by simp [Control.methods]) hc
    have h1 := hv.2.2.2 rfl (by
      rw [ho, Control.gt1]
      simp)
    have h2 := hv.1 "divergence_threshold" (by simp [Control.needed]) (by decide)
    unfold threshold at ht
    rw [h1] at ht
    rcases hb : Control.value control "check_Laplace" with x | b | x
    · rw [hb] at ht; cases ht
    · rw [hb] at ht
      rcases b with _ | _
      · cases Except.ok.inj ht
        refine ⟨fun hU => ?_, fun _ => rfl⟩
        have := hU.2.2.1
        rw [hb] at this
        cases this
      · dsimp only at ht
        unfold number at ht
        rw [h2] at ht
        rcases hth : Control.value control "divergence_threshold" with y | y | y
        · rw [hth] at ht
          cases Except.ok.inj ht
          unfold checkLaplace at hk ⊢
          dsimp only at hk ⊢
          obtain ⟨d, hdv, -, w1⟩ := bind_ok hk
          rw [w1]
          have hdv : divergence X F d1 opt = Except.ok d := hdv
          unfold divergence Hol.findLaplaceDivergence at hdv
          dsimp only at hdv
          rcases hg : X.grad opt.estim.length (fun x => epsilonAt F d1 (List.ofFn x))
            (fun i => opt.estim[i]) with e | delta
          · rw [hg] at hdv; cases hdv
          rw [hg] at hdv
          simp only [res_ok_bind, Bool.false_eq_true, if_false, res_pure] at hdv
          have hd := (Except.ok.inj hdv).symm
          have hsum : d = 1 / 2 * ∑ i, ∑ j : Fin opt.estim.length, delta i *
              ((opt.Sigma.getD j []).getD i none).getD 0 * delta j := by
            rw [hd]
            congr 1
            · norm_num
            · refine Finset.sum_congr rfl fun i _ => ?_
              simp only [Matrix.mulVec, dotProduct, Matrix.transpose_apply, Matrix.of_apply,
                Finset.mul_sum, mul_assoc]
          constructor
          · rintro ⟨-, -, -, t', delta', e1, e2, e3⟩
            rw [hth] at e1
            cases e1
            have e2 := hg.symm.trans e2
            cases Except.ok.inj e2
            simp only [Run.lift, Run.warnIf, List.nil_append]
            rw [if_pos (by rw [hsum]; exact e3)]
          · intro hU
            simp only [Run.lift, Run.warnIf, List.nil_append]
            rw [if_neg]
            intro hgt
            exact hU ⟨rfl, ho, hb, y, delta, hth, hg, hsum ▸ hgt⟩
        all_goals (rw [hth] at ht; cases ht)
    · rw [hb] at ht; cases ht
  · have ht : t = none := by
      have hmem : m ∈ Control.methods := by
        by_contra hno
        obtain ⟨msg, he⟩ := Control.c39_error X.ops control [m]
          (fun ⟨m', hm', e⟩ => hno ((List.cons.inj e).1 ▸ hm'))
        rw [hc] at he
        cases he
      have h1 := (Control.c39_values hmem hc).2.2.1 (by
        by_cases hmL : m = "Laplace"
        · right
          rcases c85_only X F hlf with h | h | h | h
          · rcases h.2 with h | h
            · exact absurd ⟨hmL, h⟩ hL
            · rw [h.1, Control.gt1]
              norm_num
          all_goals
            have := (List.cons.inj h.1).1
            rw [hmL] at this
            exact absurd this (by decide)
        · exact Or.inl hmL)
      unfold threshold at ht
      rw [h1] at ht
      exact (Except.ok.inj ht).symm
    subst ht
    exact ⟨fun hU => absurd ⟨(List.cons.inj hU.1).1, hU.2.1⟩ hL, fun _ => rfl⟩

/-- C86. If `glmm` returns a result, then: the weights are close to integers, the method is one of the
four, the model has random effects, and there is a likelihood function of this method; the optimiser was
started at 0 and was told, for each point it asked about (of the right length), minus twice the
log-likelihood of the method at the point plus the starting parameters, infinity if that stops, and the
starting value plus 100 if a variance parameter is beyond 5 in absolute value; the estimates are the
point where it ended plus the starting parameters, the covariance matrix is twice the inverse of its
Hessian matrix. For uncorrelated random effects the variance parameters are made non-negative, and if
one exceeds 4.9 the covariance matrix is missing. The warnings are, in this order: those about the
options (C39), no convergence, a small eigenvalue, the unreliable Laplace approximation, and the one of
the last step. -/
theorem c86 {X : Ext q} {R : Routines} {modfr : Res (Modfr q n p)} {method : List String}
    {control : Control.Arg} {weights : List ℝ} {prev_fit : Option (List ℝ)} {r : Result}
    (h : (glmm X R modfr method control weights prev_fit).res = Except.ok r) :
    (∀ w ∈ weights, ∃ k : ℤ, |w - k| < (2 : ℝ)⁻¹ ^ 26) ∧ (∃ m ∈ Control.methods, method = [m]) ∧
    ∃ F s f, modfr = Except.ok (.random F) ∧
      findLfunGlmm X F method control = Except.ok (s, f) ∧
      (0 < F.nTheta → (∀ e, prev_fit = some e → e.length = F.nTheta + p) →
        ∃ opt d0 par hessian convergence inv,
        (¬ Beyond F.nTheta (startPars p F.nTheta prev_fit) →
          ∃ l0 : ℝ, ((f (startPars p F.nTheta prev_fit)).exec s).1 = Except.ok l0 ∧
            d0 = ((-2 * l0 : ℝ) : WithTop ℝ)) ∧
        Reaches (fun x v => x.length = F.nTheta + p →
            Told (fun y => ((f y).exec s).1) F.nTheta (startPars p F.nTheta prev_fit) d0 x v)
          (R.optim (List.replicate (F.nTheta + p) 0)) (par, hessian, convergence) ∧
        (par.length = F.nTheta + p →
          opt.estim = List.zipWith (· + ·) par (startPars p F.nTheta prev_fit)) ∧
        R.solve hessian = Except.ok inv ∧
        opt.Sigma = inv.map (fun row => row.map fun x => some (2 * x)) ∧
        ((¬ ∀ x ∈ F.lower, x = 0) → r = .opt opt) ∧
        ((∀ x ∈ F.lower, x = 0) → ∃ fit, r = .glmmFit fit ∧
          (∀ i < F.nTheta, ∃ v, opt.estim[i]? = some v ∧ fit.estim[i]? = some |v|) ∧
          (∀ i, F.nTheta ≤ i → fit.estim[i]? = opt.estim[i]?) ∧
          (Fit.Spec.Large F.nTheta fit.estim → Fit.Spec.AllMissing fit.estim.length fit.Sigma) ∧
          (¬ Fit.Spec.Large F.nTheta fit.estim → fit.Sigma = opt.Sigma)) ∧
        ∃ con ws d1 wl wf,
          Control.findControlWithDefaults X.ops control method = Except.ok (con, ws) ∧
          X.devfun 1 = Except.ok d1 ∧
          (glmm X R modfr method control weights prev_fit).warnings = ws.map message ++
            ((if convergence = 0 then [] else ["optim did not converge"]) ++
            (if R.smallEigenvalue (inv.map fun row => row.map fun x => 2 * x) = true then
              ["May have problem in convergence"] else []) ++ (wl ++ wf)) ∧
          (Unreliable X F d1 method control opt →
            wl = ["Inference using the first-order Laplace approximation may be unreliable"]) ∧
          (¬ Unreliable X F d1 method control opt → wl = []) ∧
          ((¬ ∀ x ∈ F.lower, x = 0) →
            wf = ["proper print and summary method not yet implemented for correlated random effects"]) ∧
          (∀ fit, r = .glmmFit fit → Fit.Spec.Large F.nTheta fit.estim →
            wf = ["The approximate MLE might not be finite"]) ∧
          (∀ fit, r = .glmmFit fit → ¬ Fit.Spec.Large F.nTheta fit.estim → wf = [])) := by
  obtain ⟨m, F, con, ws, d1, ⟨s, f⟩, t, hm, hmem, hw, hmf, hc, hd, hlf, ht, hfit, hwarn⟩ := glmm_ok h
  refine ⟨(c81_weights _).1 hw, ⟨m, hmem, hm⟩, F, s, f, hmf, hlf, fun hp hprev => ?_⟩
  obtain ⟨opt, ho, hk, hrest, hfw⟩ : ∃ opt,
      (optimizeGlmm (boxOf R (s, f)) p F.nTheta prev_fit).res = Except.ok opt ∧
      (checkLaplace t (divergence X F d1) opt).res = Except.ok () ∧
      (finish F.lower F.nTheta opt).res = Except.ok r ∧
      (Fit.glmm (boxOf R (s, f)) F.lower p F.nTheta prev_fit t (divergence X F d1)).warnings =
        (optimizeGlmm (boxOf R (s, f)) p F.nTheta prev_fit).warnings ++
          ((checkLaplace t (divergence X F d1) opt).warnings ++
            (finish F.lower F.nTheta opt).warnings) := by
    unfold Fit.glmm at hfit ⊢
    obtain ⟨opt, ho, hfit, w1⟩ := bind_ok hfit
    obtain ⟨_, hk, hfit, w2⟩ := bind_ok hfit
    exact ⟨opt, ho, hk, hfit, by rw [w1, w2]⟩
  obtain ⟨d0, par, hessian, convergence, inv, h1, h2, h3, h4, h5, h6⟩ := optimize_spec hp hprev ho
  have hall : ∀ {P : Prop}, (¬ ∀ x ∈ F.lower, x = 0) →
      (((F.lower.all fun x => decide (x = 0)) = false) → P) → P := by
    intro P hl hP
    refine hP ?_
    rw [← Bool.not_eq_true, List.all_eq_true]
    simpa using hl
  refine ⟨opt, d0, par, hessian, convergence, inv, h1, h2, h3, h4, h5, fun hl => ?_, fun hl => ?_, ?_⟩
  · unfold Fit.finish at hrest
    refine hall hl fun hall => ?_
    rw [hall] at hrest
    exact (Except.ok.inj hrest).symm
  · obtain ⟨fit, opt', hr, ho', g1, g2, g3, g4, g5⟩ := c50 (boxOf R (s, f)) hl p hp prev_fit t
      (divergence X F d1) hfit
    rw [ho] at ho'
    cases Except.ok.inj ho'
    exact ⟨fit, hr, g1, g3, fun hL => (g4 hL).1, g5⟩
  · have hcheck := check_spec hc ht hlf (by rw [hm]) hk
    refine ⟨con, ws, d1, _, (Fit.finish F.lower F.nTheta opt).warnings, hm ▸ hc, hd, ?_, hcheck.1, hcheck.2, fun hl => ?_, fun fit hr hL => ?_,
      fun fit hr hL => ?_⟩
    · rw [hwarn, hfw, h6]
      rfl
    · unfold Fit.finish
      refine hall hl fun hall => ?_
      rw [hall]
      rfl
    all_goals
      have hl : ∀ x ∈ F.lower, x = 0 := by
        by_contra hno
        unfold Fit.finish at hrest
        refine hall hno fun hall => ?_
        rw [hall, hr] at hrest
        cases Except.ok.inj hrest
      obtain ⟨fit', hr', -, -, -, g4, g5⟩ := finish_spec hp hl hrest
      rw [hr] at hr'
      cases hr'
    · exact (g4 hL).2
    · exact (g5 hL).2

/-- When the likelihood is evaluated at all. -/
theorem glmm_calls {X : Ext q} {R : Routines} {modfr : Res (Modfr q n p)} {method : List String}
    {control : Control.Arg} {weights : List ℝ} {prev_fit : Option (List ℝ)} {c : List ℝ}
    (h : c ∈ (glmm X R modfr method control weights prev_fit).calls) :
    ∃ F lf, checkWeights weights = Except.ok () ∧ modfr = Except.ok (.random F) ∧
      findLfunGlmm X F method control = Except.ok lf ∧
      c ∈ (optimizeGlmm (boxOf R lf) p F.nTheta prev_fit).calls := by
  unfold glmm at h
  rcases bind_calls h with h | ⟨_, hw, h⟩
  · cases h
  rcases bind_calls h with h | ⟨⟨con, ws⟩, hc, h⟩
  · cases h
  rcases bind_calls h with h | ⟨_, -, h⟩
  · cases h
  rcases bind_calls h with h | ⟨mf, hmf, h⟩
  · cases h
  have hw : checkWeights weights = Except.ok () := hw
  have hc : Control.findControlWithDefaults X.ops control method = Except.ok (con, ws) := hc
  have hmf : modfr = Except.ok mf := hmf
  rcases mf with _ | F
  · cases h
  dsimp only at h
  rcases bind_calls h with h | ⟨d1, hd, h⟩
  · cases h
  rcases bind_calls h with h | ⟨lf, hlf, h⟩
  · cases h
  obtain ⟨m, hm⟩ : ∃ m, method = [m] := by
    by_contra hno
    obtain ⟨msg, he⟩ := Control.c39_error X.ops control method fun ⟨m, _, h⟩ => hno ⟨m, h⟩
    rw [hc] at he
    cases he
  have hd : X.devfun 1 = Except.ok d1 := hd
  refine ⟨F, lf, hw, hmf, ?_, ?_⟩
  · rw [hm] at hc hlf ⊢
    rw [find_eq X F hc hd]
    exact hlf
  rcases bind_calls h with h | ⟨opt, -, h⟩
  · exact h
  exfalso
  rcases bind_calls h with h | ⟨t, -, h⟩
  · cases h
  rcases bind_calls h with h | ⟨_, -, h⟩
  · unfold checkLaplace at h
    rcases t with _ | t
    · cases h
    · rcases bind_calls h with h | ⟨_, -, h⟩ <;> cases h
  · unfold Fit.finish at h
    split_ifs at h
    · rcases bind_calls h with h | ⟨_, -, h⟩
      · cases h
      rcases bind_calls h with h | ⟨_, -, h⟩
      · cases h
      rcases bind_calls h with h | ⟨_, -, h⟩ <;> cases h
    · rcases bind_calls h with h | ⟨_, -, h⟩ <;> cases h

/-- C86, bound: also when `glmm` stops, the likelihood is only ever evaluated with variance parameters
of absolute value at most 5. -/
theorem c86_bound {X : Ext q} {R : Routines} {F : Frame q n p} (hp : 0 < F.nTheta)
    {method : List String} {control : Control.Arg} {weights : List ℝ}
    {prev_fit : Option (List ℝ)} {c : List ℝ}
    (h : c ∈ (glmm X R (Except.ok (.random F)) method control weights prev_fit).calls) :
    Fit.Spec.InBounds F.nTheta c := by
  obtain ⟨F', lf, -, hmf, -, hcalls⟩ := glmm_calls h
  cases Except.ok.inj hmf
  exact optimize_calls _ _ hp _ _ hcalls

/-- C86, refusals: weights that are not close to integers, a method that is not one of the four, a
model without random effects, and a model for which the method gives no likelihood function stop
`glmm` before the likelihood is evaluated. -/
theorem c86_refused (X : Ext q) (R : Routines) (modfr : Res (Modfr q n p)) (method : List String)
    (control : Control.Arg) (weights : List ℝ) (prev_fit : Option (List ℝ))
    (hbad : (¬ ∀ w ∈ weights, ∃ k : ℤ, |w - k| < (2 : ℝ)⁻¹ ^ 26) ∨
      (¬ ∃ m ∈ Control.methods, method = [m]) ∨ (¬ ∃ F, modfr = Except.ok (.random F)) ∨
      ∃ F e, modfr = Except.ok (.random F) ∧
        findLfunGlmm X F method control = Except.error e) :
    (∃ e, (glmm X R modfr method control weights prev_fit).res = Except.error e) ∧
      (glmm X R modfr method control weights prev_fit).calls = [] := by
  constructor
  · rcases hr : (glmm X R modfr method control weights prev_fit).res with e | r
    · exact ⟨e, rfl⟩
    · exfalso
      obtain ⟨h1, h2, F, s, f, h3, h4, -⟩ := c86 hr
      rcases hbad with h | h | h | ⟨F', e, h5, h6⟩
      · exact h h1
      · exact h h2
      · exact h ⟨F, h3⟩
      · rw [h3] at h5
        cases Except.ok.inj h5
        rw [h4] at h6
        cases h6
  · rw [List.eq_nil_iff_forall_not_mem]
    intro c hc
    obtain ⟨F, lf, h1, h3, h4, -⟩ := glmm_calls hc
    rcases hbad with h | h | h | ⟨F', e, h5, h6⟩
    · exact h ((c81_weights _).1 h1)
    · refine h ?_
      rcases c85_only X F h4 with h | h | h | h
      · exact ⟨_, by simp [Control.methods], h.1⟩
      · exact ⟨_, by simp [Control.methods], h.1⟩
      · exact ⟨_, by simp [Control.methods], h.1⟩
      · exact ⟨_, by simp [Control.methods], h.1⟩
    · exact h ⟨F, h3⟩
    · rw [h3] at h5
      cases Except.ok.inj h5
      rw [h4] at h6
      cases h6

/-- C86 for sequential reduction of a binomial two-level model with between 1 and 25 levels `k`: the
log-likelihood that the optimiser is told about is the sum over the groups of the logarithms of the
adaptive quadrature approximations with `2^(k+1) - 1` points (up to the error of a literal), unless one
of two checks stops it. -/
theorem c86_sr {X : Ext q} {F : Frame q n p} {μ : ℝ → ℝ} (hl : GLMM.IsLink F.link μ)
    (hf : F.family = "binomial") (hM : Split.Spec.WellFormed F.M F.nTheta) {g : Fin n → Fin q}
    (h2 : TwoLevel F.M g) (hq : 0 < q) (hq' : q ≤ 46341) (hn : 1 ≤ F.nTheta)
    (har : X.lib.ar = i32) (hrd : Reads X.lib.rd F.M) (henv : X.env.ar = i32)
    (hQ : Verif.Spec.IsNormalQuantile X.env.Q) {control : Control.Arg} {k : ℕ} (hk : 1 ≤ k)
    (hk' : k ≤ 25) (hctl : Control.value control "nSL" = .num k)
    (heig : Quad.IsEigen (Quad.hermiteJacobi (2 ^ (k + 1) - 2 + 1))
      (X.env.eig _ (Quad.hermiteJacobi (2 ^ (k + 1) - 2 + 1))).1
      (X.env.eig _ (Quad.hermiteJacobi (2 ^ (k + 1) - 2 + 1))).2)
    {d1 : List ℝ → Res (ℝ × PP q)} (hd : X.devfun 1 = Except.ok d1) :
    ∃ s f rule, QuadratureRule.create X.env.eig ((2 ^ (k + 1) - 1 : ℕ) : ℤ) = Except.ok rule ∧
      findLfunGlmm X F ["SR"] control = Except.ok (s, f) ∧
      ∀ x d W pp, x.length = p + F.nTheta → d1 x = Except.ok (d, pp) →
        Laplace F.M (x.take F.nTheta) W pp →
        (∀ i, Real.log ((computeNormalApprox (d, pp)).2.precision i i) ≠ 2 * logSqrtTwoPi) →
        ((f x).exec s).1 = Res.raise "Suspect sequential reduction approximation is unstable" ∨
        ((f x).exec s).1 = Res.raise "improper cluster belief after passing message" ∨
        ((f x).exec s).1 = Except.ok (∑ r, Real.log (groupAgq rule pp.delu
          (computeNormalApprox (d, pp)).2.precision
          (groupIntegrand (Split.Spec.logLikClamped μ) F.M (x.take F.nTheta) (x.drop F.nTheta) g) r) +
            q * Split.literalError) := by
  rcases hX : X.env with ⟨ar, Qf, eig⟩
  rw [hX] at henv hQ heig
  dsimp only at henv hQ heig
  subst henv
  obtain ⟨pars0, c, rule, hr, hS, hv⟩ := c81 hl hM h2 hq hq' hn har hrd hQ hk hk' heig
  refine ⟨pars0, fun x => Lfun.lfun X.lib p F.nTheta c d1 x, rule, hr, ?_, ?_⟩
  · refine (c85_sr X F hctl hd).2 pars0 c ?_
    rw [hX, hf]
    exact hS
  · intro x d W pp hx hdx hL hne
    obtain ⟨v, hv, h | h | h⟩ := (hv d1 x).2 d W pp hx hdx hL hne
    · right; right
      rw [h.1, hv]
    · exact Or.inl h.1
    · exact Or.inr (Or.inl h.1)

/-! ## A case -/

/-- The two groups of `Proofs/SR`, with logit link. -/
noncomputable def twoFrame : Frame 2 3 1 :=
  ⟨twoGroups, 1, [0], "binomial", "logit", ⟨Family.expit, fun _ _ _ => 0⟩⟩

/-- A deviance function that depends on the variance parameter. -/
noncomputable def twoExt (lib : Lib) (env : Env) (ops : Control.Ops) : Ext 2 where
  lib := lib
  env := env
  ops := ops
  devfun _ := Except.ok fun x => Except.ok (2 * x.getD 0 0 ^ 2, twoPP)
  rnorm m := List.replicate m 0
  chol A := A
  grad _ _ _ := Except.ok 0
  hessian _ _ _ := Except.ok 0

/-- The optimiser of `Fit.box`. -/
noncomputable def twoRoutines : Routines :=
  ⟨(box [-6, 1]).optim, (box [-6, 1]).solve, (box [-6, 1]).smallEigenvalue⟩

/-- A run of `glmm` that returns, with an option of another method. -/
theorem two_run (lib : Lib) (env : Env) (ops : Control.Ops) :
    glmm (twoExt lib env ops) twoRoutines (Except.ok (.random twoFrame)) ["Laplace"]
      (.named [("nIS", .num 5)]) [1, 2, 3] none =
    ⟨[[0.5, 0], [0.5, 0], [-2.5, 1]],
      ["For method = Laplaceparts of control were ignored: nIS",
        "The approximate MLE might not be finite"],
      Except.ok (.glmmFit ⟨[5.5, 1], [[none, none], [none, none]]⟩)⟩ := by
  have hw : checkWeights [1, 2, 3] = Except.ok () := by
    rw [c81_weights]
    intro w hw
    simp only [List.mem_cons, List.not_mem_nil, or_false] at hw
    rcases hw with rfl | rfl | rfl
    · exact ⟨1, by norm_num⟩
    · exact ⟨2, by norm_num⟩
    · exact ⟨3, by norm_num⟩
  obtain ⟨con, hc⟩ : ∃ con, Control.findControlWithDefaults (twoExt lib env ops).ops
      (.named [("nIS", .num 5)]) ["Laplace"] =
      Except.ok (con, [Control.Warning.ignored "Laplace" ["nIS"]]) := by
    obtain ⟨con0, hd, hk, -⟩ := Control.defaults_eq (m := "Laplace") (by simp [Control.methods])
    obtain ⟨⟨con, ws⟩, h⟩ := Control.c39_runs (twoExt lib env ops).ops (.named [("nIS", .num 5)])
      (m := "Laplace") (by simp [Control.methods]) (fun h => absurd h (by decide))
      (fun _ => ⟨1, by simp [Control.value, Control.given, Control.dflt]⟩)
    refine ⟨con, ?_⟩
    rw [h]
    rw [Control.run_eq _ _ hd hk] at h
    rcases h1 : Control.finishSR (twoExt lib env ops).ops "Laplace"
      (Control.setAll con0 (.named [("nIS", .num 5)])) with e | con1
    · rw [h1] at h; cases h
    rw [h1] at h
    simp only [res_ok_bind] at h
    rcases h2 : Control.finishLaplace (twoExt lib env ops).ops "Laplace" con1 with e | con2
    · rw [h2] at h; cases h
    rw [h2] at h
    have := Except.ok.inj h
    have hws : ws = Control.warnings (.named [("nIS", .num 5)]) "Laplace" :=
      (congrArg Prod.snd this).symm
    rw [hws]
    rfl
  have ho : Control.value (.named [("nIS", .num 5)]) "order" = .num 1 := by
    simp [Control.value, Control.given, Control.dflt]
  have hchk := (Control.c39_values (by simp [Control.methods]) hc).2.2.2 rfl (by
    rw [ho, Control.gt1]
    simp)
  obtain ⟨s, f, hlf, hval⟩ := c85_laplace (twoExt lib env ops) twoFrame ho rfl
  rw [find_eq _ _ hc rfl] at hlf
  have hbox : boxOf twoRoutines (s, f) = box [-6, 1] := by
    unfold boxOf twoRoutines
    have : (fun x => ((f x).exec s).1) = (box [-6, 1]).lfun := by
      funext x
      rw [hval x s]
      show Except.ok _ = Except.ok _
      congr 1
      ring
    rw [this]
  have ht : threshold con = Except.ok none := by
    unfold threshold
    rw [hchk]
    simp [Control.value, Control.given, Control.dflt]
  have hfit := box_run (divergence (twoExt lib env ops) twoFrame fun x =>
    Except.ok (2 * x.getD 0 0 ^ 2, twoPP))
  have hlift : ∀ {α β : Type} (a : α) (f : α → Run β), (Run.lift (Except.ok a) >>= f) = f a :=
    fun _ _ => rfl
  have hmain : (do
      let opt ← optimizeGlmm (boxOf twoRoutines (s, f)) 1 twoFrame.nTheta none
      let t ← Run.lift (threshold con)
      checkLaplace t (divergence (twoExt lib env ops) twoFrame fun x =>
        Except.ok (2 * x.getD 0 0 ^ 2, twoPP)) opt
      Fit.finish twoFrame.lower twoFrame.nTheta opt) =
      Fit.glmm (box [-6, 1]) [0] 1 1 none none (divergence (twoExt lib env ops) twoFrame fun x =>
        Except.ok (2 * x.getD 0 0 ^ 2, twoPP)) := by
    simp only [ht, hlift, hbox]
    rfl
  unfold glmm
  rw [hw, hc]
  simp only [hlift]
  rw [show (twoExt lib env ops).devfun 1 = Except.ok fun x => Except.ok (2 * x.getD 0 0 ^ 2, twoPP)
    from rfl]
  simp only [hlift, List.getD_cons_zero]
  rw [hlf]
  simp only [hlift]
  rw [hmain, hfit]
  rfl

example (lib : Lib) (env : Env) (ops : Control.Ops) :
    ∃ r, (glmm (twoExt lib env ops) twoRoutines (Except.ok (.random twoFrame)) ["Laplace"]
      (.named [("nIS", .num 5)]) [1, 2, 3] none).res = Except.ok r := by
  rw [two_run]
  exact ⟨_, rfl⟩

example (lib : Lib) (env : Env) (ops : Control.Ops) : [-2.5, 1] ∈
    (glmm (twoExt lib env ops) twoRoutines (Except.ok (.random twoFrame)) ["Laplace"]
      (.named [("nIS", .num 5)]) [1, 2, 3] none).calls := by
  rw [two_run]
  simp

/-- The options that the theorems of C85 are about, for the two groups. -/
example (lib : Lib) (env : Env) (ops : Control.Ops) :
    (∃ s f, findLfunGlmm (twoExt lib env ops) twoFrame ["Laplace"] (.named []) =
        Except.ok (s, f) ∧ Gives f [3, 1] (Except.ok (-9))) ∧
    (∃ s f, findLfunGlmm (twoExt lib env ops) twoFrame ["AGQ"] (.named [("nAGQ", .num 11)]) =
        Except.ok (s, f) ∧ Gives f [3, 1] (Except.ok (-9))) ∧
    (∃ s f, findLfunGlmm (twoExt lib env ops) twoFrame ["Laplace"] (.named [("order", .num 2)]) =
        Except.ok (s, f) ∧ Gives f [3, 1] (mapRes (fun ε => -18 / 2 + ε)
          (Hol.findEpsilon1 "binomial" "logit" [3, 1] twoGroups 1
            ⟨twoPP.delu, twoPP.Pᵀ * (twoPP.L * twoPP.Lᵀ) * twoPP.P⟩))) ∧
    (∃ s f, findLfunGlmm (twoExt lib env ops) twoFrame ["IS"] (.named [("nIS", .num (5 : ℕ))]) =
        Except.ok (s, f) ∧ Gives f [3, 1] (IS.lfun (fun A => A) ⟨Family.expit, fun _ _ _ => 0⟩
          twoGroups 1 ⟨twoPP.delu, twoPP.Pᵀ * (twoPP.L * twoPP.Lᵀ) * twoPP.P⟩
          (Matrix.of fun (i : Fin 2) (s : Fin 5) =>
            (List.replicate (2 * 5) (0 : ℝ)).getD (i + 2 * s) 0) [3, 1])) := by
  refine ⟨?_, ?_, ?_, ?_⟩
  · obtain ⟨s, f, h, hv⟩ := c85_laplace (twoExt lib env ops) twoFrame (control := .named [])
      (by simp [Control.value, Control.given, Control.dflt]) rfl
    refine ⟨s, f, h, ?_⟩
    have := hv [3, 1]
    simp only [mapRes, List.getD_cons_zero] at this
    norm_num at this
    exact this
  · obtain ⟨s, f, h, hv⟩ := (c85_agq (twoExt lib env ops) twoFrame (k := 11)
      (control := .named [("nAGQ", .num 11)])
      (by simp [Control.value, Control.given]) rfl).2 _ rfl
    refine ⟨s, f, h, ?_⟩
    have := hv [3, 1]
    simp only [mapRes, List.getD_cons_zero] at this
    norm_num at this
    exact this
  · obtain ⟨s, f, h, -, hv⟩ := c85_laplace2 (twoExt lib env ops) twoFrame
      (control := .named [("order", .num 2)])
      (by simp [Control.value, Control.given]) .binomial rfl
    refine ⟨s, f, h, ?_⟩
    have := hv [3, 1] 18 twoPP (by simp only [List.getD_cons_zero]; norm_num)
    exact this
  · obtain ⟨s, f, h, hv⟩ := c85_is (twoExt lib env ops) twoFrame two_pos (k := 5)
      (control := .named [("nIS", .num (5 : ℕ))]) (by norm_num)
      (by simp [Control.value, Control.given]) rfl
    exact ⟨s, f, h, (hv [3, 1]).2 _ twoPP rfl⟩

/-- An order that does not exist, and order 2 for a link that is not canonical. -/
example (lib : Lib) (env : Env) (ops : Control.Ops) :
    (∃ msg, findLfunGlmm (twoExt lib env ops) twoFrame ["Laplace"] (.named [("order", .num 3)]) =
      Res.raise msg) ∧
    ∃ msg, findLfunGlmm (twoExt lib env ops) { twoFrame with link := "probit" } ["Laplace"]
      (.named [("order", .num 2)]) = Res.raise msg :=
  ⟨c85_laplace_refused _ _ (o := 3) (by simp [Control.value, Control.given])
      ⟨by norm_num, Or.inl (by norm_num)⟩ rfl,
    c85_laplace_refused _ _ (o := 2) (by simp [Control.value, Control.given])
      ⟨by norm_num, Or.inr fun h => by
        generalize hf : ({ twoFrame with link := "probit" } : Frame 2 3 1).family = a at h
        generalize hl : ({ twoFrame with link := "probit" } : Frame 2 3 1).link = b at h
        have ha : a = "binomial" := hf.symm
        have hb : b = "probit" := hl.symm
        cases h <;> simp at ha hb⟩ rfl⟩

/-- `glmm` stops for a method that is not one of the four. -/
example (lib : Lib) (env : Env) (ops : Control.Ops) :
    (glmm (twoExt lib env ops) twoRoutines (Except.ok (.random twoFrame)) ["laplace"]
      (.named []) [1, 2, 3] none).calls = [] :=
  (c86_refused _ _ _ _ _ _ _ (Or.inr (Or.inl (by
    rintro ⟨m, hm, h⟩
    cases h
    simp [Control.methods] at hm)))).2

/-- Sequential reduction with one level, for the two groups. -/
example (lib : Lib) (ops : Control.Ops) (har : lib.ar = i32) (hrd : lib.rd = GLMM.read) :
    ∃ (env : Env) (s : Parameters) (f : LFun) (rule : QuadratureRule),
      rule.nodes.length = 3 ∧
      findLfunGlmm (twoExt lib env ops) twoFrame ["SR"] (.named [("nSL", .num (1 : ℕ))]) =
        Except.ok (s, f) ∧
      (((f [1, 0.5]).exec s).1 = Res.raise "Suspect sequential reduction approximation is unstable" ∨
        ((f [1, 0.5]).exec s).1 = Res.raise "improper cluster belief after passing message" ∨
        ((f [1, 0.5]).exec s).1 = Except.ok (∑ r, Real.log (groupAgq rule twoPP.delu ((4 : ℝ) • 1)
          (groupIntegrand (Split.Spec.logLikClamped Family.expit) twoGroups [1] [0.5] ![0, 0, 1]) r) +
            (2 : ℕ) * Split.literalError)) := by
  obtain ⟨Qf, hQ⟩ := NormalQuantile.exists_quantile
  obtain ⟨values, vectors, he⟩ := Quad.c25_exists 2
  let eig : Eigensolver := fun m =>
    if h : m = 3 then fun _ => h ▸ (values, vectors) else fun _ => (0, 0)
  have hprec : ∀ d : ℝ, (computeNormalApprox (d, twoPP)).2.precision = (4 : ℝ) • 1 := by
    intro d
    simp [computeNormalApprox, twoPP, smul_smul]
    norm_num
  obtain ⟨s, f, rule, h1, h2, h3⟩ := c86_sr (X := twoExt lib ⟨i32, Qf, eig⟩ ops) (F := twoFrame)
    .logit rfl twoGroups_wf twoGroups_level two_pos (by norm_num) le_rfl har
    (by
      show Reads lib.rd _
      rw [hrd]; exact ⟨fun _ _ _ _ => rfl, Or.inl (by simp [twoFrame, twoGroups])⟩)
    rfl hQ (k := 1) (control := .named [("nSL", .num (1 : ℕ))]) le_rfl (by norm_num)
    (by simp [Control.value, Control.given]) he rfl
  refine ⟨⟨i32, Qf, eig⟩, s, f, rule, ?_, h2, ?_⟩
  · have := create_ok (levels := -1) (ar := exactZ) (Q := Qf) (b := ⟨[], -1⟩) rfl h1
    have := this.2
    norm_num at this
    exact_mod_cast this
  · have := h3 [1, 0.5] _ twoW twoPP rfl rfl twoGroups_laplace (by
      intro i
      rw [hprec, Matrix.smul_apply, Matrix.one_apply_eq, smul_eq_mul, mul_one]
      have : Real.log 4 ≤ 3 / 2 := by
        rw [show (4 : ℝ) = 2 ^ 2 by norm_num, Real.log_pow]
        have := Real.log_two_lt_d9
        push_cast
        linarith
      rw [logSqrtTwoPi]
      intro h
      rw [h] at this
      norm_num at this)
    rw [hprec] at this
    exact this

/-- The texts of the warnings about options. -/
example : message (.unknown ["nSl", "x"]) = "unknown names in control: nSl, x" ∧
    message (.ignored "SR" ["nIS"]) = "For method = SRparts of control were ignored: nIS" := by
  constructor <;> rfl

end Verif.Whole
