import Verif.Model.Whole
import Verif.Props.Lfun
import Verif.Props.Fit
import Verif.Props.Hol

/-!
# C85, C86: choice of the likelihood approximation, and `glmm` as a whole
-/
namespace Verif.Whole

open Verif.Pars Verif.SR Verif.Lfun Verif.Fit Matrix Verif.ClusterGraph Verif.Belief

variable {q n p : ℕ}

/-! ## Specification -/

/-- Families and their canonical links. -/
inductive Canonical : String → String → Prop
  | binomial : Canonical "binomial" "logit"
  | gaussian : Canonical "gaussian" "identity"
  | gamma : Canonical "Gamma" "inverse"
  | inverseGaussian : Canonical "inverse.gaussian" "1/mu^2"
  | poisson : Canonical "poisson" "log"
  | quasi : Canonical "quasi" "identity"
  | quasibinomial : Canonical "quasibinomial" "logit"
  | quasipoisson : Canonical "quasipoisson" "log"

/-- The result of a call of a likelihood function, on any object. -/
def Gives (f : LFun) (x : List ℝ) (r : Res ℝ) : Prop := ∀ s, ((f x).exec s).1 = r

/-- The result of a computation applied to a function. -/
def mapRes {α β : Type} (g : α → β) : Res α → Res β
  | Except.ok a => Except.ok (g a)
  | Except.error e => Except.error e

/-! ## Proofs -/

theorem exec_call {σ α : Type} (r : Res α) (s : σ) : (call r : Prog σ α).exec s = (r, s) := rfl

theorem isCanonical_iff (family link : String) :
    isCanonical family link = Except.ok true ↔ Canonical family link := by
  constructor
  · intro h
    unfold isCanonical defaultLink at h
    split at h
    all_goals first
      | (cases h)
      | (have h' := Except.ok.inj h
         rw [decide_eq_true_eq] at h'
         subst h'
         constructor)
  · intro h
    cases h <;> rfl

theorem halfDeviance_eq (devfun : List ℝ → Res (ℝ × PP q)) (x : List ℝ) :
    halfDeviance devfun x = mapRes (fun r => -r.1 / 2) (devfun x) := by
  unfold halfDeviance
  rcases devfun x with e | r <;> rfl

theorem number_ok {control : Control.RList} {name : String} {x : ℝ}
    (h : number control name = Except.ok x) : Control.get control name = some (.num x) := by
  unfold number at h
  split at h
  · rename_i y hy
    cases Except.ok.inj h
    exact hy
  · cases h

theorem number_eq {control : Control.RList} {name : String} {x : ℝ}
    (h : Control.get control name = some (.num x)) : number control name = Except.ok x := by
  unfold number
  rw [h]

/-- The likelihood function for a known method. -/
theorem find_eq (X : Ext q) (F : Frame q n p) {m : String} {control : Control.Arg}
    {con : Control.RList} {ws : List Control.Warning}
    (hc : Control.findControlWithDefaults X.ops control [m] = Except.ok (con, ws))
    {d1 : List ℝ → Res (ℝ × PP q)} (hd : X.devfun 1 = Except.ok d1) :
    findLfunGlmm X F [m] control = findLfunGlmmInternal X F m con d1 := by
  unfold findLfunGlmm
  rw [hd]
  simp only [res_ok_bind]
  rw [hc]
  rfl

/-- C85, Laplace approximation of order 1 (the default): half the negative deviance of lme4. -/
theorem c85_laplace (X : Ext q) (F : Frame q n p) {control : Control.Arg}
    (ho : Control.value control "order" = .num 1)
    {d1 : List ℝ → Res (ℝ × PP q)} (hd : X.devfun 1 = Except.ok d1) :
    ∃ s f, findLfunGlmm X F ["Laplace"] control = Except.ok (s, f) ∧
      ∀ x, Gives f x (mapRes (fun r => -r.1 / 2) (d1 x)) := by
  obtain ⟨⟨con, ws⟩, h⟩ := Control.c39_runs X.ops control (m := "Laplace")
    (by simp [Control.methods]) (fun h => absurd h (by decide)) (fun _ => ⟨_, ho⟩)
  have h1 := (Control.c39_values (by simp [Control.methods]) h).1 "order" (by simp [Control.needed])
    (by decide)
  rw [ho] at h1
  refine ⟨Parameters.empty, fun x => call (halfDeviance d1 x), ?_, fun x s => ?_⟩
  · rw [find_eq X F h hd, findLfunGlmmInternal, if_pos rfl, number_eq h1]
    simp only [res_ok_bind]
    rw [findLfunLaplace, if_pos rfl]
    rfl
  · rw [exec_call, halfDeviance_eq]

/-- C85, Laplace approximation of order 2, for canonical links: the value of order 1 plus the
correction `find_epsilon_1` at the normal approximation of lme4. -/
theorem c85_laplace2 (X : Ext q) (F : Frame q n p) {control : Control.Arg}
    (ho : Control.value control "order" = .num 2) (hl : Canonical F.family F.link)
    {d1 : List ℝ → Res (ℝ × PP q)} (hd : X.devfun 1 = Except.ok d1) :
    ∃ s f, findLfunGlmm X F ["Laplace"] control = Except.ok (s, f) ∧
      (∀ x e, d1 x = Except.error e → Gives f x (Except.error e)) ∧
      ∀ x d pp, d1 x = Except.ok (d, pp) →
        Gives f x (mapRes (fun ε => -d / 2 + ε) (Hol.findEpsilon1 F.family F.link x F.M F.nTheta
          ⟨pp.delu, pp.Pᵀ * (pp.L * pp.Lᵀ) * pp.P⟩)) := by
  obtain ⟨⟨con, ws⟩, h⟩ := Control.c39_runs X.ops control (m := "Laplace")
    (by simp [Control.methods]) (fun h => absurd h (by decide)) (fun _ => ⟨_, ho⟩)
  have h1 := (Control.c39_values (by simp [Control.methods]) h).1 "order" (by simp [Control.needed])
    (by decide)
  rw [ho] at h1
  have hchk : checkIfOrderImplemented F.family F.link 2 = Except.ok () := by
    unfold checkIfOrderImplemented
    rw [if_neg (by norm_num), (isCanonical_iff _ _).2 hl]
    simp only [res_ok_bind]
    rw [if_neg (by simp)]
    rfl
  refine ⟨Parameters.empty, fun x => call (do
        let epsilon_1 ← epsilonAt F d1 x
        let l ← halfDeviance d1 x
        return l + epsilon_1), ?_, fun x e he s => ?_, fun x d pp hx s => ?_⟩
  · rw [find_eq X F h hd, findLfunGlmmInternal, if_pos rfl, number_eq h1]
    simp only [res_ok_bind]
    rw [findLfunLaplace, if_neg (by norm_num), hchk]
    simp only [res_ok_bind]
    rw [if_pos trivial]
    rfl
  · rw [exec_call, epsilonAt, he]
    rfl
  · rw [exec_call, epsilonAt, halfDeviance, hx]
    simp only [res_ok_bind]
    show (do let epsilon_1 ← Hol.findEpsilon1 F.family F.link x F.M F.nTheta
              (computeNormalApprox (d, pp)).2
             _) = _
    unfold computeNormalApprox
    rcases Hol.findEpsilon1 F.family F.link x F.M F.nTheta
      ⟨pp.delu, pp.Pᵀ * (pp.L * pp.Lᵀ) * pp.P⟩ with e | ε <;> rfl

/-- C85: any other order, and order 2 without a canonical link, stops (before any evaluation). -/
theorem c85_laplace_refused (X : Ext q) (F : Frame q n p) {control : Control.Arg} {o : ℝ}
    (ho : Control.value control "order" = .num o)
    (hbad : o ≠ 1 ∧ (o ≠ 2 ∨ ¬ Canonical F.family F.link))
    {d1 : List ℝ → Res (ℝ × PP q)} (hd : X.devfun 1 = Except.ok d1) :
    ∃ msg, findLfunGlmm X F ["Laplace"] control = Res.raise msg := by
  obtain ⟨⟨con, ws⟩, h⟩ := Control.c39_runs X.ops control (m := "Laplace")
    (by simp [Control.methods]) (fun h => absurd h (by decide)) (fun _ => ⟨_, ho⟩)
  have h1 := (Control.c39_values (by simp [Control.methods]) h).1 "order" (by simp [Control.needed])
    (by decide)
  rw [ho] at h1
  rw [find_eq X F h hd, findLfunGlmmInternal, if_pos rfl, number_eq h1]
  simp only [res_ok_bind]
  rw [findLfunLaplace, if_neg hbad.1]
  unfold checkIfOrderImplemented
  by_cases h2 : o > 2
  · rw [if_pos h2]
    exact ⟨_, rfl⟩
  rw [if_neg h2]
  rcases hc : isCanonical F.family F.link with e | c
  · have : ∃ msg, e = .throw msg := by
      unfold isCanonical defaultLink at hc
      split at hc
      all_goals first
        | (exact ⟨_, (Except.error.inj hc).symm⟩)
        | (cases hc)
    obtain ⟨msg, rfl⟩ := this
    exact ⟨msg, rfl⟩
  simp only [res_ok_bind]
  by_cases h3 : o > 1 ∧ ¬ c
  · rw [if_pos h3]
    exact ⟨_, rfl⟩
  rw [if_neg h3]
  simp only [res_pure, res_ok_bind]
  rw [if_neg]
  · exact ⟨_, rfl⟩
  · rintro rfl
    rcases hbad.2 with h4 | h4
    · exact h4 rfl
    · rcases c with _ | _
      · exact h3 ⟨by norm_num, by simp⟩
      · exact h4 ((isCanonical_iff _ _).1 hc)

/-- C85, adaptive Gaussian quadrature: half the negative deviance of lme4 with the number of points
given, 15 otherwise. -/
theorem c85_agq (X : Ext q) (F : Frame q n p) {control : Control.Arg} {k : ℝ}
    (hk : Control.value control "nAGQ" = .num k)
    {d1 : List ℝ → Res (ℝ × PP q)} (hd : X.devfun 1 = Except.ok d1) :
    (∀ e, X.devfun k = Except.error e → findLfunGlmm X F ["AGQ"] control = Except.error e) ∧
    ∀ dk, X.devfun k = Except.ok dk →
      ∃ s f, findLfunGlmm X F ["AGQ"] control = Except.ok (s, f) ∧
        ∀ x, Gives f x (mapRes (fun r => -r.1 / 2) (dk x)) := by
  obtain ⟨⟨con, ws⟩, h⟩ := Control.c39_runs X.ops control (m := "AGQ")
    (by simp [Control.methods]) (fun h => absurd h (by decide)) (fun h => absurd h (by decide))
  have h1 := (Control.c39_values (by simp [Control.methods]) h).1 "nAGQ" (by simp [Control.needed])
    (by decide)
  rw [hk] at h1
  have hrun : findLfunGlmm X F ["AGQ"] control = do
      let f ← findLfunAGQ X k
      return (Parameters.empty, f) := by
    rw [find_eq X F h hd, findLfunGlmmInternal, if_neg (by decide), if_pos rfl, number_eq h1]
    rfl
  refine ⟨fun e he => ?_, fun dk hdk => ⟨Parameters.empty, fun x => call (halfDeviance dk x), ?_,
    fun x s => ?_⟩⟩
  · rw [hrun, findLfunAGQ, he]
    rfl
  · rw [hrun, findLfunAGQ, hdk]
    rfl
  · rw [exec_call, halfDeviance_eq]

/-- C85, sequential reduction: the likelihood function of C81, with the number of levels given, 3
otherwise, and `2^(levels + 1) - 1` quadrature points whatever the control list says. -/
theorem c85_sr (X : Ext q) (F : Frame q n p) {control : Control.Arg} {k : ℕ}
    (hk : Control.value control "nSL" = .num k)
    {d1 : List ℝ → Res (ℝ × PP q)} (hd : X.devfun 1 = Except.ok d1) :
    (∀ e, Lfun.findLfunSR X.lib X.env F.M F.family F.link k ((2 ^ (k + 1) - 1 : ℕ) : ℝ) =
        Except.error e → findLfunGlmm X F ["SR"] control = Except.error e) ∧
    ∀ pars0 c, Lfun.findLfunSR X.lib X.env F.M F.family F.link k ((2 ^ (k + 1) - 1 : ℕ) : ℝ) =
        Except.ok (pars0, c) →
      findLfunGlmm X F ["SR"] control =
        Except.ok (pars0, fun x => Lfun.lfun X.lib p F.nTheta c d1 x) := by
  obtain ⟨⟨con, ws⟩, h⟩ := Control.c39_runs X.ops control (m := "SR")
    (by simp [Control.methods]) (fun _ => ⟨_, hk⟩) (fun h => absurd h (by decide))
  have h1 := (Control.c39_values (by simp [Control.methods]) h).1 "nSL" (by simp [Control.needed])
    (by decide)
  rw [hk] at h1
  have h2 := Control.c39_sr h hk
  have hrun : findLfunGlmm X F ["SR"] control =
      findLfunSR X F d1 k ((2 ^ (k + 1) - 1 : ℕ) : ℝ) := by
    rw [find_eq X F h hd, findLfunGlmmInternal, if_neg (by decide), if_neg (by decide), if_pos rfl,
      number_eq h1, number_eq h2]
    rfl
  refine ⟨fun e he => ?_, fun pars0 c hc => ?_⟩
  · rw [hrun, findLfunSR, he]
    rfl
  · rw [hrun, findLfunSR, hc]
    rfl

/-- The samples for a whole number. -/
theorem samples_nat (X : Ext q) (hq : 0 < q) (r : ℕ) :
    samples X r = Except.ok ⟨r, Matrix.of fun i s => (X.rnorm (q * r)).getD (i + q * s) 0⟩ := by
  have hm : ⌊(q : ℝ) * r⌋₊ = q * r := by
    rw [← Nat.cast_mul, Nat.floor_natCast]
  have hc : (q * r + q - 1) / q = r := by
    rw [Nat.div_eq_iff hq]
    constructor
    · have := Nat.mul_comm r q
      omega
    · have := Nat.mul_comm r q
      omega
  unfold samples
  rw [if_neg (not_lt.2 (by positivity)), hm]
  dsimp only
  show Except.ok _ = _
  congr 1
  have key : ∀ c : ℕ, c = r → (⟨c, Matrix.of fun (i : Fin q) (s : Fin c) =>
      (X.rnorm (q * r)).getD ((i + q * s) % (q * r)) 0⟩ : Σ r : ℕ, Matrix (Fin q) (Fin r) ℝ) =
      ⟨r, Matrix.of fun i s => (X.rnorm (q * r)).getD (i + q * s) 0⟩ := by
    rintro c rfl
    congr 1
    ext i s
    show (X.rnorm (q * c)).getD ((i + q * s) % (q * c)) 0 = (X.rnorm (q * c)).getD (i + q * s) 0
    rw [Nat.mod_eq_of_lt]
    calc (i : ℕ) + q * s < q + q * s := by have := i.2; omega
      _ = q * (s + 1) := by ring
      _ ≤ q * c := Nat.mul_le_mul_left _ s.2
  exact key _ hc

/-- C85, importance sampling: the function of C47 with the number of samples given, 1000 otherwise,
all different random numbers, used for all parameters. -/
theorem c85_is (X : Ext q) (F : Frame q n p) (hq : 0 < q) {control : Control.Arg} {k : ℕ}
    (hk0 : 0 < k) (hk : Control.value control "nIS" = .num k)
    {d1 : List ℝ → Res (ℝ × PP q)} (hd : X.devfun 1 = Except.ok d1) :
    ∃ s f, findLfunGlmm X F ["IS"] control = Except.ok (s, f) ∧
      ∀ x, (∀ e, d1 x = Except.error e → Gives f x (Except.error e)) ∧
        ∀ d pp, d1 x = Except.ok (d, pp) → Gives f x
          (IS.lfun X.chol F.fam F.M F.nTheta ⟨pp.delu, pp.Pᵀ * (pp.L * pp.Lᵀ) * pp.P⟩
            (Matrix.of fun (i : Fin q) (s : Fin k) => (X.rnorm (q * k)).getD (i + q * s) 0) x) := by
  obtain ⟨⟨con, ws⟩, h⟩ := Control.c39_runs X.ops control (m := "IS")
    (by simp [Control.methods]) (fun h => absurd h (by decide)) (fun h => absurd h (by decide))
  have h1 := (Control.c39_values (by simp [Control.methods]) h).1 "nIS" (by simp [Control.needed])
    (by decide)
  rw [hk] at h1
  refine ⟨Parameters.empty, fun x => call (do
    let r ← d1 x
    if k = 0 then Res.raise "NaN"
    else
      IS.lfun X.chol F.fam F.M F.nTheta (computeNormalApprox r).2
        (Matrix.of fun (i : Fin q) (s : Fin k) => (X.rnorm (q * k)).getD (i + q * s) 0) x), ?_,
    fun x => ⟨fun e he s => ?_, fun d pp hx s => ?_⟩⟩
  · rw [find_eq X F h hd, findLfunGlmmInternal, if_neg (by decide), if_neg (by decide),
      if_neg (by decide), if_pos rfl, number_eq h1]
    simp only [res_ok_bind]
    rw [findLfunIS, samples_nat X hq]
    rfl
  · rw [exec_call, he]
    rfl
  · rw [exec_call, hx]
    simp only [res_ok_bind]
    rw [if_neg hk0.ne']
    rfl

/-- C85: whatever the control list and the method, if a likelihood function is returned then the
method is one of the four, and the options it needs are numbers that it can use. -/
theorem c85_only (X : Ext q) (F : Frame q n p) {method : List String} {control : Control.Arg}
    {r : Parameters × LFun} (h : findLfunGlmm X F method control = Except.ok r) :
    (method = ["Laplace"] ∧ (Control.value control "order" = .num 1 ∨
      Control.value control "order" = .num 2 ∧ Canonical F.family F.link)) ∨
    (method = ["AGQ"] ∧ ∃ k, Control.value control "nAGQ" = .num k) ∨
    (method = ["SR"] ∧ (∃ k, Control.value control "nSL" = .num k) ∧ F.family = "binomial" ∧
      (F.link = "logit" ∨ F.link = "probit")) ∨
    (method = ["IS"] ∧ ∃ k, Control.value control "nIS" = .num k) := by
  rcases hd : X.devfun 1 with e | d1
  · rw [findLfunGlmm, hd] at h; cases h
  by_cases hm : ∃ m ∈ Control.methods, method = [m]
  swap
  · obtain ⟨msg, he⟩ := Control.c39_error X.ops control method hm
    rw [findLfunGlmm, hd] at h
    simp only [res_ok_bind] at h
    rw [he] at h
    cases h
  obtain ⟨m, hm, rfl⟩ := hm
  rcases hc : Control.findControlWithDefaults X.ops control [m] with e | ⟨con, ws⟩
  · rw [findLfunGlmm, hd] at h
    simp only [res_ok_bind] at h
    rw [hc] at h
    cases h
  rw [find_eq X F hc hd] at h
  have hv := (Control.c39_values hm hc).1
  simp only [Control.methods, List.mem_cons, List.not_mem_nil, or_false] at hm
  rcases hm with rfl | rfl | rfl | rfl
  · left
    refine ⟨rfl, ?_⟩
    rw [findLfunGlmmInternal, if_pos rfl] at h
    rcases ho : number con "order" with e | o
    · rw [ho] at h; cases h
    have h1 := hv "order" (by simp [Control.needed]) (by decide)
    rw [number_ok ho] at h1
    have h1 := (Option.some.inj h1).symm
    by_contra hno
    rw [not_or, not_and, h1] at hno
    obtain ⟨msg, he⟩ := c85_laplace_refused X F h1 (o := o)
      ⟨fun h => hno.1 (by rw [h]), by
        by_cases h2 : o = 2
        · exact Or.inr (hno.2 (by rw [h2]))
        · exact Or.inl h2⟩ hd
    rw [find_eq X F hc hd, findLfunGlmmInternal, if_pos rfl, h] at he
    cases he
  · right; left
    refine ⟨rfl, ?_⟩
    rw [findLfunGlmmInternal, if_neg (by decide), if_pos rfl] at h
    rcases ho : number con "nAGQ" with e | o
    · rw [ho] at h; cases h
    have h1 := hv "nAGQ" (by simp [Control.needed]) (by decide)
    rw [number_ok ho] at h1
    exact ⟨o, (Option.some.inj h1).symm⟩
  · right; right; left
    rw [findLfunGlmmInternal, if_neg (by decide), if_neg (by decide), if_pos rfl] at h
    rcases ho : number con "nSL" with e | o
    · rw [ho] at h; cases h
    rw [ho] at h
    simp only [res_ok_bind] at h
    have h1 := hv "nSL" (by simp [Control.needed]) (by decide)
    rw [number_ok ho] at h1
    rcases hA : number con "nAGQ" with e | a
    · rw [hA] at h; cases h
    rw [hA] at h
    simp only [res_ok_bind] at h
    refine ⟨rfl, ⟨o, (Option.some.inj h1).symm⟩, ?_⟩
    by_contra hno
    obtain ⟨msg, he⟩ := c81_refused X.lib X.env F.M (family := F.family) (link := F.link)
      (by
        by_cases hf : F.family = "binomial"
        · right
          constructor
          · exact fun hl => hno ⟨hf, Or.inl hl⟩
          · exact fun hl => hno ⟨hf, Or.inr hl⟩
        · exact Or.inl hf) o a
    rw [findLfunSR, he] at h
    cases h
  · right; right; right
    refine ⟨rfl, ?_⟩
    rw [findLfunGlmmInternal, if_neg (by decide), if_neg (by decide), if_neg (by decide),
      if_pos rfl] at h
    rcases ho : number con "nIS" with e | o
    · rw [ho] at h; cases h
    have h1 := hv "nIS" (by simp [Control.needed]) (by decide)
    rw [number_ok ho] at h1
    exact ⟨o, (Option.some.inj h1).symm⟩

end Verif.Whole
