import Verif.Model.Fit
import Verif.Proofs.IS

/-!
# C49 (coefficients), C50 (variance parameters), C65 (covariance matrix)
-/
namespace Verif.Fit

open Verif.IS

/-! ## C49 -/

theorem colon_first (p : ℕ) : colon 1 (p + 1) = (List.range (p + 1)).map fun i => 1 + i := by
  have := colon_up 0 p
  rwa [Nat.zero_add, Nat.zero_add] at this

theorem index_first {x : List ℝ} {k : ℕ} (hk : 0 < k) :
    index x (colon 1 k) = (List.range k).map fun i => x[i]? := by
  obtain ⟨m, rfl⟩ : ∃ m, k = m + 1 := ⟨k - 1, by omega⟩
  rw [colon_first]
  unfold index
  rw [List.filter_eq_self.2, List.map_map]
  · refine List.map_congr_left fun i _ => ?_
    simp
  · intro a ha
    obtain ⟨i, -, rfl⟩ := List.mem_map.1 ha
    simp

/-- Specification: the vector of coefficients is the vector of estimates, nothing is missing. -/
def Spec.AllEstimates (estim : List ℝ) (out : List (Option ℝ)) : Prop := out = estim.map some

theorem coefRandom_eq {theta beta : List ℝ} (ht : theta ≠ []) :
    coefRandom (theta ++ beta) theta.length = theta.map some := by
  have h := index_append [] theta beta ht
  rw [List.length_nil, Nat.zero_add, Nat.zero_add, List.nil_append] at h
  exact h

/-- Without fixed effects `coef` gives two more values: a missing one and the last variance parameter
again. -/
theorem c49_none {theta : List ℝ} (ht : theta ≠ []) :
    coef theta theta.length 0 = theta.map some ++ [none, some (theta.getLast ht)] := by
  have h1 := coefRandom_eq (beta := []) ht
  rw [List.append_nil] at h1
  unfold coef
  rw [h1]
  congr 1
  unfold coefFixed
  have hpos := List.length_pos_iff.2 ht
  have hc : colon (theta.length + 1) (0 + theta.length) = [theta.length + 1, theta.length] := by
    unfold colon
    rw [Nat.zero_add, if_neg (by omega), show theta.length + 1 - theta.length + 1 = 2 by omega]
    simp [List.range_succ]
  rw [hc]
  unfold index
  rw [List.filter_eq_self.2 (by intro a ha; simp at ha; simp; omega)]
  simp only [List.map_cons, List.map_nil, List.cons.injEq, and_true]
  refine ⟨?_, ?_⟩
  · rw [List.getElem?_eq_none_iff]
    omega
  · rw [List.getLast_eq_getElem, List.getElem?_eq_getElem (by omega)]

/-- C49, exact domain: for every number of variance parameters (at least one) and of fixed effects,
`coef` gives the estimates in order if and only if there are fixed effects. -/
theorem c49_iff {theta beta : List ℝ} (ht : theta ≠ []) :
    Spec.AllEstimates (theta ++ beta) (coef (theta ++ beta) theta.length beta.length) ↔
      beta ≠ [] := by
  constructor
  · rintro h rfl
    unfold Spec.AllEstimates at h
    rw [List.append_nil, List.length_nil, c49_none ht] at h
    have := congrArg List.length h
    simp at this
  · intro hb
    unfold Spec.AllEstimates coef coefFixed
    rw [coefRandom_eq ht, Nat.add_comm beta.length]
    have h := index_append theta beta [] hb
    rw [List.append_nil] at h
    rw [h, List.map_append]

/-- C49, the part that holds: models with fixed effects. Missing: models without fixed effects
(`c49_none`, `c49_violated`). -/
theorem c49_partial {theta beta : List ℝ} (ht : theta ≠ []) (hb : beta ≠ []) :
    Spec.AllEstimates (theta ++ beta) (coef (theta ++ beta) theta.length beta.length) :=
  (c49_iff ht).2 hb

/-- The violation of C49. -/
theorem c49_violated : coef [1, 2] 2 0 = [some 1, some 2, none, some 2] :=
  c49_none (theta := [1, 2]) (by simp)

/-- Two variance parameters, three fixed effects. -/
example : coef [1, 2, 3, 4, 5] 2 3 = [some 1, some 2, some 3, some 4, some 5] :=
  c49_partial (theta := [1, 2]) (beta := [3, 4, 5]) (by simp) (by simp)

/-! ## C65: the covariance matrix -/

/-- A square matrix with one row for each estimate. -/
def Spec.Square (opt : Opt) : Prop :=
  opt.Sigma.length = opt.estim.length ∧ ∀ row ∈ opt.Sigma, row.length = opt.estim.length

/-- C65, exact domain: `vcov` gives the matrix of the fit if there are fixed effects, and stops if
there are none. -/
theorem c65_iff {theta beta : List ℝ} (ht : theta ≠ []) {Sigma : List (List (Option ℝ))}
    (h : Spec.Square ⟨theta ++ beta, Sigma⟩) :
    vcov ⟨theta ++ beta, Sigma⟩ theta.length beta.length = Except.ok Sigma ↔ beta ≠ [] := by
  obtain ⟨h1, h2⟩ := h
  constructor
  · rintro hv rfl
    unfold vcov at hv
    dsimp only at hv h1
    rw [if_pos] at hv
    · cases hv
    · left
      rw [h1, List.append_nil, List.length_nil, c49_none ht]
      simp
  · intro hb
    have hc : (coef (theta ++ beta) theta.length beta.length).length = (theta ++ beta).length := by
      rw [(c49_iff ht).2 hb, List.length_map]
    unfold vcov
    dsimp only at h1 h2 ⊢
    rw [if_neg]
    rintro (hl | ⟨row, hrow, hl⟩)
    · exact hl (hc.trans h1.symm)
    · exact hl (hc.trans (h2 row hrow).symm)

/-- C65, the part that holds. Missing: models without fixed effects (`c65_iff`). -/
theorem c65_partial {theta beta : List ℝ} (ht : theta ≠ []) (hb : beta ≠ [])
    {Sigma : List (List (Option ℝ))} (h : Spec.Square ⟨theta ++ beta, Sigma⟩) :
    vcov ⟨theta ++ beta, Sigma⟩ theta.length beta.length = Except.ok Sigma :=
  (c65_iff ht h).2 hb

/-- The violation of C65: one variance parameter, no fixed effects. -/
theorem c65_violated : Spec.Square ⟨[1], [[some 2]]⟩ ∧
    ∃ msg, vcov ⟨[1], [[some 2]]⟩ 1 0 = Except.error (.throw msg) := by
  refine ⟨⟨rfl, by simp⟩, "length of 'dimnames' not equal to array extent", ?_⟩
  unfold vcov
  dsimp only
  rw [if_pos]
  · rfl
  · left
    rw [show coef [1] 1 0 = _ from c49_none (theta := [1]) (by simp)]
    simp

example : vcov ⟨[1] ++ [2], [[some 1, some 0.5], [some 0.5, some 2]]⟩ 1 1 =
    Except.ok [[some 1, some 0.5], [some 0.5, some 2]] :=
  c65_partial (theta := [1]) (beta := [2]) (by simp) (by simp) ⟨rfl, by simp⟩

/-! ## C50: calls of the likelihood -/

/-- Specification: the variance parameters are all there and at most 5 in absolute value. -/
def Spec.InBounds (p_theta : ℕ) (x : List ℝ) : Prop :=
  ∀ i < p_theta, ∃ v, x[i]? = some v ∧ |v| ≤ 5

theorem anyGt_false {x : List (Option ℝ)} {b : ℝ} (h : anyGt x b = Except.ok false) :
    ∀ o ∈ x, ∃ v, o = some v ∧ v ≤ b := by
  unfold anyGt at h
  split_ifs at h with h1 h2
  · cases h
  · cases h
  · intro o ho
    rcases o with _ | v
    · exact absurd ho h2
    · exact ⟨v, rfl, not_lt.1 fun hv => h1 ⟨v, ho, hv⟩⟩

theorem anyGt_true {x : List (Option ℝ)} {b : ℝ} (h : anyGt x b = Except.ok true) :
    ∃ v, some v ∈ x ∧ b < v := by
  unfold anyGt at h
  split_ifs at h with h1 h2
  · exact h1
  · cases h
  · cases h

theorem bind_calls {α β : Type} {x : Run α} {f : α → Run β} {c : List ℝ}
    (h : c ∈ (x >>= f).calls) : c ∈ x.calls ∨ ∃ a, x.res = Except.ok a ∧ c ∈ (f a).calls := by
  change c ∈ (Run.bind x f).calls at h
  unfold Run.bind at h
  rcases hx : x.res with e | a
  · rw [hx] at h
    exact Or.inl h
  · rw [hx] at h
    rcases List.mem_append.1 h with h | h
    · exact Or.inl h
    · exact Or.inr ⟨a, rfl, h⟩

theorem bind_ok {α β : Type} {x : Run α} {f : α → Run β} {b : β}
    (h : (x >>= f).res = Except.ok b) : ∃ a, x.res = Except.ok a ∧ (f a).res = Except.ok b ∧
      (x >>= f).warnings = x.warnings ++ (f a).warnings := by
  change (Run.bind x f).res = Except.ok b at h
  change ∃ a, x.res = Except.ok a ∧ (f a).res = Except.ok b ∧
    (Run.bind x f).warnings = x.warnings ++ (f a).warnings
  unfold Run.bind at h ⊢
  rcases hx : x.res with e | a
  · rw [hx] at h
    cases h
  · rw [hx] at h
    exact ⟨a, rfl, h, rfl⟩

theorem bind_eq {α β : Type} {x : Run α} {f : α → Run β} {c : List (List ℝ)} {w : List String}
    {a : α} (h : x = ⟨c, w, Except.ok a⟩) :
    (x >>= f) = ⟨c ++ (f a).calls, w ++ (f a).warnings, (f a).res⟩ := by
  subst h
  rfl

theorem devfunExt_calls {B : Box} {p_theta : ℕ} (hp : 0 < p_theta) {param : List ℝ} {s : Bool}
    {big : WithTop ℝ} {c : List ℝ} (h : c ∈ (devfunExt B p_theta param s big).calls) :
    Spec.InBounds p_theta c := by
  unfold devfunExt at h
  rcases bind_calls h with h | ⟨a, ha, h⟩
  · cases h
  · rcases a with _ | _
    · have hc : c = param := by
        simpa [callLfun] using h
      subst hc
      intro i hi
      have hall := anyGt_false ha
      rw [index_first hp, List.map_map] at hall
      obtain ⟨v, hv, hle⟩ := hall ((c[i]?).map fun v => |v|)
        (List.mem_map.2 ⟨i, List.mem_range.2 hi, rfl⟩)
      obtain ⟨w, hw, rfl⟩ := Option.map_eq_some_iff.1 hv
      exact ⟨w, hw, hle⟩
    · cases h

theorem run_calls {fn : List ℝ → Run (WithTop ℝ)} {P : List ℝ → Prop}
    (hfn : ∀ x, ∀ c ∈ (fn x).calls, P c) (t : Trace) : ∀ c ∈ (t.run fn).calls, P c := by
  induction t with
  | done par hessian convergence =>
    intro c h
    cases h
  | stop msg =>
    intro c h
    cases h
  | ask x next ih =>
    intro c h
    rcases bind_calls (x := fn x) (f := fun v => (next v).run fn) h with h | ⟨a, -, h⟩
    · exact hfn x c h
    · exact ih a c h

theorem optimize_calls (B : Box) (p_beta : ℕ) {p_theta : ℕ} (hp : 0 < p_theta)
    (prev_fit : Option (List ℝ)) :
    ∀ c ∈ (optimizeGlmm B p_beta p_theta prev_fit).calls, Spec.InBounds p_theta c := by
  intro c h
  unfold optimizeGlmm at h
  dsimp only at h
  rcases bind_calls h with h | ⟨d0, -, h⟩
  · exact devfunExt_calls hp h
  rcases bind_calls h with h | ⟨_, -, h⟩
  · exact devfunExt_calls hp h
  rcases bind_calls h with h | ⟨out, -, h⟩
  · exact run_calls (fun x c hc => devfunExt_calls hp hc) _ c h
  rcases bind_calls h with h | ⟨_, -, h⟩
  · cases h
  rcases bind_calls h with h | ⟨_, -, h⟩
  · cases h
  rcases bind_calls h with h | ⟨_, -, h⟩
  · cases h
  · cases h

/-- C50, bound: whatever the optimiser and the likelihood function do (also if they fail), for every
model the likelihood function is called only with variance parameters of absolute value at most 5. -/
theorem c50_bound (B : Box) (lower : List ℝ) (p_beta : ℕ) {p_theta : ℕ} (hp : 0 < p_theta)
    (prev_fit : Option (List ℝ)) (threshold : Option ℝ) (divergence : Opt → Res ℝ) :
    ∀ c ∈ (glmm B lower p_beta p_theta prev_fit threshold divergence).calls,
      Spec.InBounds p_theta c := by
  intro c h
  unfold glmm at h
  rcases bind_calls h with h | ⟨opt, -, h⟩
  · exact optimize_calls B p_beta hp prev_fit c h
  rcases bind_calls h with h | ⟨_, -, h⟩
  · exfalso
    unfold checkLaplace at h
    rcases threshold with _ | t
    · cases h
    · rcases bind_calls h with h | ⟨_, -, h⟩ <;> cases h
  · exfalso
    unfold finish at h
    split_ifs at h
    · rcases bind_calls h with h | ⟨_, -, h⟩
      · cases h
      rcases bind_calls h with h | ⟨_, -, h⟩
      · cases h
      rcases bind_calls h with h | ⟨_, -, h⟩ <;> cases h
    · rcases bind_calls h with h | ⟨_, -, h⟩ <;> cases h

/-! ## C50: the returned estimates -/

theorem absTheta_get {estim out : List ℝ} {p_theta : ℕ} (hp : 0 < p_theta)
    (h : absTheta estim p_theta = Except.ok out) :
    out.length = estim.length ∧ p_theta ≤ estim.length ∧
    ∀ i, out[i]? = (estim[i]?).map fun v => if i < p_theta then |v| else v := by
  unfold absTheta at h
  split_ifs at h with hlen
  · cases h
  have h := (Except.ok.inj h).symm
  subst h
  refine ⟨List.length_mapIdx, not_lt.1 hlen, ?_⟩
  intro i
  rw [List.getElem?_mapIdx]
  have hm : i + 1 ∈ colon 1 p_theta ↔ i < p_theta := by
    obtain ⟨m, rfl⟩ : ∃ m, p_theta = m + 1 := ⟨p_theta - 1, by omega⟩
    rw [colon_first, List.mem_map]
    constructor
    · rintro ⟨j, hj, hij⟩
      have := List.mem_range.1 hj
      omega
    · intro hi
      exact ⟨i, List.mem_range.2 hi, Nat.add_comm 1 i⟩
  simp only [hm]

/-- Specification: some variance-parameter estimate exceeds 4.9. -/
def Spec.Large (p_theta : ℕ) (estim : List ℝ) : Prop :=
  ∃ i < p_theta, ∃ v, estim[i]? = some v ∧ 4.9 < v

/-- Specification: a square matrix of missing values. -/
def Spec.AllMissing (k : ℕ) (S : List (List (Option ℝ))) : Prop :=
  S.length = k ∧ ∀ row ∈ S, row.length = k ∧ ∀ x ∈ row, x = none

theorem finish_spec {lower : List ℝ} {p_theta : ℕ} (hp : 0 < p_theta)
    (hl : ∀ x ∈ lower, x = 0) {opt : Opt} {r : Result}
    (h : (finish lower p_theta opt).res = Except.ok r) :
    ∃ f, r = .glmmFit f ∧ f.estim.length = opt.estim.length ∧ p_theta ≤ opt.estim.length ∧
      (∀ i, f.estim[i]? = (opt.estim[i]?).map fun v => if i < p_theta then |v| else v) ∧
      (Spec.Large p_theta f.estim → Spec.AllMissing f.estim.length f.Sigma ∧
        (finish lower p_theta opt).warnings = ["The approximate MLE might not be finite"]) ∧
      (¬ Spec.Large p_theta f.estim → f.Sigma = opt.Sigma ∧
        (finish lower p_theta opt).warnings = []) := by
  have hall : (lower.all fun x => decide (x = 0)) = true := by
    rw [List.all_eq_true]
    intro x hx
    simpa using hl x hx
  unfold finish at h ⊢
  rw [if_pos hall] at h ⊢
  obtain ⟨estim, he, h, hw1⟩ := bind_ok h
  obtain ⟨large, hL, h, hw2⟩ := bind_ok h
  obtain ⟨_, _, h, hw3⟩ := bind_ok h
  rw [hw1, hw2, hw3]
  have h := (Except.ok.inj h).symm
  subst h
  obtain ⟨h1, h2, h3⟩ := absTheta_get hp he
  refine ⟨_, rfl, h1, h2, h3, ?_, ?_⟩
  · rintro ⟨i, hi, v, hv, hgt⟩
    have hlarge : large = true := by
      rcases large with _ | _
      · exfalso
        have hf := anyGt_false hL
        rw [index_first hp] at hf
        obtain ⟨w, hw, hle⟩ := hf (estim[i]?) (List.mem_map.2 ⟨i, List.mem_range.2 hi, rfl⟩)
        have hv' : estim[i]? = some v := hv
        rw [hv'] at hw
        cases hw
        linarith
      · rfl
    subst hlarge
    refine ⟨⟨?_, ?_⟩, rfl⟩
    · show (List.replicate estim.length (List.replicate estim.length (none : Option ℝ))).length = _
      rw [List.length_replicate]
    · intro row hrow
      have hrow : row ∈ List.replicate estim.length (List.replicate estim.length none) := hrow
      rw [List.eq_of_mem_replicate hrow]
      exact ⟨List.length_replicate, fun x hx => List.eq_of_mem_replicate hx⟩
  · intro hno
    have hlarge : large = false := by
      rcases large with _ | _
      · rfl
      · exfalso
        obtain ⟨v, hv, hgt⟩ := anyGt_true hL
        rw [index_first hp] at hv
        obtain ⟨i, hi, hiv⟩ := List.mem_map.1 hv
        exact hno ⟨i, List.mem_range.1 hi, v, hiv, hgt⟩
    subst hlarge
    exact ⟨rfl, rfl⟩

/-- C50: for every model with uncorrelated random effects (at least one), every optimiser, likelihood
function, inversion, previous fit and check, if `glmm` returns then the returned variance-parameter
estimates are there and non-negative; if one of them exceeds 4.9 the covariance matrix is all missing
and there is a warning; and only then. -/
theorem c50 (B : Box) {lower : List ℝ} (hl : ∀ x ∈ lower, x = 0) (p_beta : ℕ) {p_theta : ℕ}
    (hp : 0 < p_theta) (prev_fit : Option (List ℝ)) (threshold : Option ℝ)
    (divergence : Opt → Res ℝ) {r : Result}
    (h : (glmm B lower p_beta p_theta prev_fit threshold divergence).res = Except.ok r) :
    ∃ f opt, r = .glmmFit f ∧
      (optimizeGlmm B p_beta p_theta prev_fit).res = Except.ok opt ∧
      (∀ i < p_theta, ∃ v, opt.estim[i]? = some v ∧ f.estim[i]? = some |v|) ∧
      (∀ i < p_theta, ∃ v, f.estim[i]? = some v ∧ 0 ≤ v) ∧
      (∀ i, p_theta ≤ i → f.estim[i]? = opt.estim[i]?) ∧
      (Spec.Large p_theta f.estim → Spec.AllMissing f.estim.length f.Sigma ∧
        "The approximate MLE might not be finite" ∈
          (glmm B lower p_beta p_theta prev_fit threshold divergence).warnings) ∧
      (¬ Spec.Large p_theta f.estim → f.Sigma = opt.Sigma) := by
  unfold glmm at h ⊢
  obtain ⟨opt, ho, h, hw1⟩ := bind_ok h
  obtain ⟨_, _, h, hw2⟩ := bind_ok h
  obtain ⟨f, hr, h1, h2, h3, h4, h5⟩ := finish_spec hp hl h
  have hth : ∀ i < p_theta, ∃ v, opt.estim[i]? = some v ∧ f.estim[i]? = some |v| := by
    intro i hi
    refine ⟨opt.estim[i], List.getElem?_eq_getElem (by omega), ?_⟩
    rw [h3, List.getElem?_eq_getElem (by omega), Option.map_some, if_pos hi]
  refine ⟨f, opt, hr, ho, hth, ?_, ?_, ?_, fun hno => (h5 hno).1⟩
  · intro i hi
    obtain ⟨v, -, hv⟩ := hth i hi
    exact ⟨|v|, hv, abs_nonneg v⟩
  · intro i hi
    rw [h3]
    rcases opt.estim[i]? with _ | v
    · rfl
    · rw [Option.map_some, if_neg (not_lt.2 hi)]
  · intro hL
    refine ⟨(h4 hL).1, ?_⟩
    rw [hw1, hw2, (h4 hL).2]
    simp

/-! ## Cases -/

/-- A likelihood, and an optimiser that asks for the value outside and inside the bound, then goes to
given parameters. -/
noncomputable def box (par : List ℝ) : Box where
  lfun x := Except.ok (-(x.getD 0 0) ^ 2)
  optim _ := .ask [6, 0] fun v => .ask [-3, 1] fun _ =>
    if v = (100.5 : ℝ) then .done par [[2, 0], [0, 4]] 0 else .stop "unexpected"
  solve _ := Except.ok [[0.5, 0], [0, 0.25]]
  smallEigenvalue _ := false

theorem radd_two (a b c d : ℝ) : radd [a, b] [c, d] = [a + c, b + d] := by
  unfold radd
  rw [if_neg (by simp)]
  simp [List.range_succ]

theorem devfun_two (B : Box) (a b c d : ℝ) (s : Bool) (big : WithTop ℝ) :
    devfunStd B 1 [c, d] [a, b] s big = if |a + c| > 5 then pure big else
      callLfun B [a + c, b + d] s := by
  unfold devfunStd devfunExt
  rw [radd_two, index_first one_pos]
  have : anyGt (((List.range 1).map fun i => [a + c, b + d][i]?).map fun x => x.map fun v => |v|) 5 =
      Except.ok (decide (|a + c| > 5)) := by
    unfold anyGt
    by_cases h : |a + c| > 5
    · rw [if_pos ⟨|a + c|, by simp, h⟩, decide_eq_true h]
    · rw [if_neg, if_neg (by simp), decide_eq_false h]
      rintro ⟨v, hv, hgt⟩
      have : v = |a + c| := by simpa using hv
      exact h (this ▸ hgt)
  rw [this]
  by_cases h : |a + c| > 5
  · rw [if_pos h, decide_eq_true h]
    rfl
  · rw [if_neg h, decide_eq_false h]
    change Run.bind _ _ = _
    simp [Run.lift, Run.bind]

/-- A run that meets the hypotheses: the point beyond the bound is not passed to the likelihood, the
estimate -5.5 becomes 5.5, the covariance matrix is missing. -/
theorem box_run (div : Opt → Res ℝ) : glmm (box [-6, 1]) [0] 1 1 none none div =
    ⟨[[0.5, 0], [0.5, 0], [-2.5, 1]], ["The approximate MLE might not be finite"],
      Except.ok (.glmmFit ⟨[5.5, 1], [[none, none], [none, none]]⟩)⟩ := by
  have hstart : startPars 1 1 none = [0.5, 0] := rfl
  have h0 : devfunStd (box [-6, 1]) 1 [0.5, 0] [0, 0] true ⊤ =
      ⟨[[0.5, 0]], [], Except.ok ((0.5 : ℝ) : WithTop ℝ)⟩ := by
    rw [devfun_two, if_neg (by norm_num [abs_of_pos])]
    simp only [callLfun, box, zero_add, List.getD_cons_zero]
    norm_num
  have h1 : devfunStd (box [-6, 1]) 1 [0.5, 0] [0, 0] false ⊤ =
      ⟨[[0.5, 0]], [], Except.ok ((0.5 : ℝ) : WithTop ℝ)⟩ := by
    rw [devfun_two, if_neg (by norm_num [abs_of_pos])]
    simp only [callLfun, box, zero_add, List.getD_cons_zero]
    norm_num
  have hS : startValue (box [-6, 1]) 1 [0.5, 0] [0, 0] =
      ⟨[[0.5, 0]], [], Except.ok ((0.5 : ℝ) : WithTop ℝ)⟩ := by
    unfold startValue
    dsimp only
    rw [h0]
  have hbig : ((0.5 : ℝ) : WithTop ℝ) + 100 = ((100.5 : ℝ) : WithTop ℝ) := by
    rw [show (100 : WithTop ℝ) = ((100 : ℝ) : WithTop ℝ) from rfl, ← WithTop.coe_add]
    norm_num
  have hrun : ((box [-6, 1]).optim [0, 0]).run (fun x => devfunStd (box [-6, 1]) 1 [0.5, 0] x false
      (((0.5 : ℝ) : WithTop ℝ) + 100)) =
      ⟨[[-2.5, 1]], [], Except.ok ([-6, 1], [[2, 0], [0, 4]], 0)⟩ := by
    have e1 : devfunStd (box [-6, 1]) 1 [0.5, 0] [6, 0] false ((100.5 : ℝ) : WithTop ℝ) =
        ⟨[], [], Except.ok ((100.5 : ℝ) : WithTop ℝ)⟩ := by
      rw [devfun_two, if_pos (by norm_num [abs_of_pos])]
      rfl
    have e2 : devfunStd (box [-6, 1]) 1 [0.5, 0] [-3, 1] false ((100.5 : ℝ) : WithTop ℝ) =
        ⟨[[-2.5, 1]], [], Except.ok ((12.5 : ℝ) : WithTop ℝ)⟩ := by
      rw [devfun_two, if_neg (by norm_num [abs_of_neg])]
      simp only [callLfun, box, List.getD_cons_zero]
      norm_num
    rw [hbig]
    simp only [box, Trace.run] at e1 e2 ⊢
    rw [e1]
    simp only [Run.bind, List.nil_append, e2, if_true]
    simp [Trace.run, pure]
  have hopt : optimizeGlmm (box [-6, 1]) 1 1 none = ⟨[[0.5, 0], [0.5, 0], [-2.5, 1]], [],
      Except.ok ⟨[-5.5, 1], [[some 1, some 0], [some 0, some 0.5]]⟩⟩ := by
    unfold optimizeGlmm
    dsimp only
    rw [hstart, show List.replicate (1 + 1) (0 : ℝ) = [0, 0] from rfl, bind_eq hS, bind_eq h1,
      bind_eq hrun, radd_two]
    simp only [Run.warnIf, Run.lift, box, bind, Run.bind, pure]
    norm_num
  unfold glmm
  rw [bind_eq hopt, bind_eq (show checkLaplace none div _ = ⟨[], [], Except.ok ()⟩ from rfl)]
  unfold finish
  rw [if_pos (by simp)]
  have habs : absTheta [-5.5, 1] 1 = Except.ok [5.5, 1] := by
    unfold absTheta
    rw [if_neg (by simp)]
    simp [colon, List.range_succ, abs_of_neg]
    norm_num [abs_of_neg]
  have hany : anyGt (index [5.5, 1] (colon 1 1)) 4.9 = Except.ok true := by
    unfold anyGt
    rw [if_pos]
    refine ⟨5.5, ?_, by norm_num⟩
    rw [index_first one_pos]
    simp
  dsimp only
  rw [habs]
  simp only [Run.warnIf, Run.lift, bind, Run.bind, pure, hany]
  simp

end Verif.Fit
