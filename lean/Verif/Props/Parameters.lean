import Verif.Model.Parameters
import Verif.Props.Basis
import Verif.Proofs.Jacobi
import Verif.Props.Family

/-! # Calibration parameters (C38) -/
namespace Verif.Pars

open Verif.Family Verif.Spec

/-! ## Specification -/

/-- Assignments from R to the fields of the object. -/
inductive Assign
  | theta (v : List ℝ)
  | beta (v : List ℝ)
  | family (name : String)
  | link (name : String)
  | levels (k : ℤ)
  | points (k : ℤ)

/-- Names of families and links that exist. -/
def families : List String := ["binomial"]
def links : List String := ["logit", "probit"]

/-- The last element, or the default. -/
def last {α : Type} (l : List α) (dflt : α) : α := l.getLast?.getD dflt

/-- Last value successfully assigned to each field. -/
def lastTheta (as : List Assign) : List ℝ :=
  last (as.filterMap fun a => match a with | .theta v => some v | _ => none) []
def lastBeta (as : List Assign) : List ℝ :=
  last (as.filterMap fun a => match a with | .beta v => some v | _ => none) []
def lastFamily (as : List Assign) : String :=
  last (as.filterMap fun a => match a with
    | .family s => if s ∈ families then some s else none | _ => none) "binomial"
def lastLink (as : List Assign) : String :=
  last (as.filterMap fun a => match a with
    | .link s => if s ∈ links then some s else none | _ => none) "logit"
open Classical in
/-- (successfully: the levels can be built without undefined behaviour) -/
noncomputable def lastLevels (env : Env) (as : List Assign) : ℤ :=
  last (as.filterMap fun a => match a with
    | .levels k => if ∃ b, Basis.create env.ar env.Q k = Except.ok b then some k else none
    | _ => none) 1
def lastPoints (as : List Assign) : ℤ :=
  last (as.filterMap fun a => match a with | .points k => some k | _ => none) 1

/-! ## Running assignments -/

/-- The setter called by an assignment. -/
noncomputable def setter (env : Env) : Assign → Prog Parameters Unit
  | .theta v => setTheta v
  | .beta v => setBeta v
  | .family s => setParametersFamily s
  | .link s => setParametersLink s
  | .levels k => setParametersNSparseLevels env k
  | .points k => setParametersNQuadraturePoints env k

/-- A sequence of assignments; R catches exceptions, and the session goes on with the object as the
setter left it. -/
noncomputable def run (env : Env) : List Assign → Parameters → Res Parameters
  | [], p => Except.ok p
  | a :: rest, p =>
    match (setter env a).exec p with
    | (.ok _, p') => run env rest p'
    | (.error (.throw _), p') => run env rest p'
    | (.error .ub, _) => Res.ub

/-! ## Proofs -/

/-- The state described by the values of its fields. -/
structure Holds (env : Env) (p : Parameters) (theta beta : List ℝ) (family link : String)
    (levels points : ℤ) : Prop where
  theta : p.theta = theta
  beta : p.beta = beta
  family : FamilyGivenMean.ofName family = Except.ok p.family.familyGivenMean
  link : Link.ofName link = Except.ok p.family.link
  levels : Basis.create env.ar env.Q levels = Except.ok p.sparseBasis
  points : QuadratureRule.create env.eig points = Except.ok p.quadratureRule

theorem exec_theta (v : List ℝ) (p : Parameters) :
    (setTheta v).exec p = (Except.ok (), ⟨v, p.beta, p.family, p.sparseBasis, p.quadratureRule⟩) :=
  rfl

theorem exec_beta (v : List ℝ) (p : Parameters) :
    (setBeta v).exec p = (Except.ok (), ⟨p.theta, v, p.family, p.sparseBasis, p.quadratureRule⟩) :=
  rfl

theorem exec_family (s : String) (p : Parameters) : (setParametersFamily s).exec p =
    match FamilyGivenMean.ofName s with
    | .ok f => (Except.ok (), ⟨p.theta, p.beta, ⟨p.family.link, f⟩, p.sparseBasis,
        p.quadratureRule⟩)
    | .error e => (Except.error e, p) := by
  unfold setParametersFamily call
  rcases FamilyGivenMean.ofName s with e | f <;> rfl

theorem exec_link (s : String) (p : Parameters) : (setParametersLink s).exec p =
    match Link.ofName s with
    | .ok f => (Except.ok (), ⟨p.theta, p.beta, ⟨f, p.family.familyGivenMean⟩, p.sparseBasis,
        p.quadratureRule⟩)
    | .error e => (Except.error e, p) := by
  unfold setParametersLink call
  rcases Link.ofName s with e | f <;> rfl

theorem exec_levels (env : Env) (k : ℤ) (p : Parameters) :
    (setParametersNSparseLevels env k).exec p =
    match Basis.create env.ar env.Q k with
    | .ok b => (Except.ok (), ⟨p.theta, p.beta, p.family, b, p.quadratureRule⟩)
    | .error e => (Except.error e, p) := by
  unfold setParametersNSparseLevels call
  rcases Basis.create env.ar env.Q k with e | f <;> rfl

theorem exec_points (env : Env) (k : ℤ) (p : Parameters) :
    (setParametersNQuadraturePoints env k).exec p =
    match QuadratureRule.create env.eig k with
    | .ok r => (Except.ok (), ⟨p.theta, p.beta, p.family, p.sparseBasis, r⟩)
    | .error e => (Except.error e, p) := by
  unfold setParametersNQuadraturePoints call
  rcases QuadratureRule.create env.eig k with e | f <;> rfl

theorem family_ofName (s : String) : (s ∈ families ∧ ∃ f, FamilyGivenMean.ofName s = Except.ok f) ∨
    (s ∉ families ∧ ∃ m, FamilyGivenMean.ofName s = Except.error (Err.throw m)) := by
  unfold FamilyGivenMean.ofName families
  by_cases h : s = "binomial"
  · exact Or.inl ⟨by simp [h], _, if_pos h⟩
  · exact Or.inr ⟨by simp [h], _, if_neg h⟩

theorem link_ofName (s : String) : (s ∈ links ∧ ∃ f, Link.ofName s = Except.ok f) ∨
    (s ∉ links ∧ ∃ m, Link.ofName s = Except.error (Err.throw m)) := by
  unfold Link.ofName links
  by_cases h : s = "logit"
  · exact Or.inl ⟨by simp [h], _, if_pos h⟩
  · rw [if_neg h]
    by_cases h2 : s = "probit"
    · exact Or.inl ⟨by simp [h2], _, if_pos h2⟩
    · exact Or.inr ⟨by simp [h, h2], _, if_neg h2⟩

theorem last_cons {α : Type} (a : α) (l : List α) (dflt : α) : last (a :: l) dflt = last l a := by
  unfold last
  rw [List.getLast?_cons]
  rfl

open Classical in
/-- Generalised over the values at the start. -/
theorem run_holds {env : Env} : ∀ {as : List Assign} {p p' : Parameters} {theta beta : List ℝ}
    {family link : String} {levels points : ℤ},
    Holds env p theta beta family link levels points → run env as p = Except.ok p' →
    Holds env p'
      (last (as.filterMap fun a => match a with | .theta v => some v | _ => none) theta)
      (last (as.filterMap fun a => match a with | .beta v => some v | _ => none) beta)
      (last (as.filterMap fun a => match a with
        | .family s => if s ∈ families then some s else none | _ => none) family)
      (last (as.filterMap fun a => match a with
        | .link s => if s ∈ links then some s else none | _ => none) link)
      (last (as.filterMap fun a => match a with
        | .levels k => if ∃ b, Basis.create env.ar env.Q k = Except.ok b then some k else none
        | _ => none) levels)
      (last (as.filterMap fun a => match a with | .points k => some k | _ => none) points)
  | [], p, p', _, _, _, _, _, _, h, hr => by
    cases hr
    exact h
  | a :: rest, p, p', theta, beta, family, link, levels, points, h, hr => by
    obtain ⟨h1, h2, h3, h4, h5, h6⟩ := h
    unfold run at hr
    rcases a with v | v | s | s | k | k
    · rw [setter, exec_theta] at hr
      simp only [List.filterMap_cons, last_cons]
      dsimp only at hr
      refine run_holds ?_ hr
      exact ⟨rfl, h2, h3, h4, h5, h6⟩
    · rw [setter, exec_beta] at hr
      simp only [List.filterMap_cons, last_cons]
      dsimp only at hr
      refine run_holds ?_ hr
      exact ⟨h1, rfl, h3, h4, h5, h6⟩
    · rw [setter, exec_family] at hr
      rcases family_ofName s with ⟨hs, f, hf⟩ | ⟨hs, m, hm⟩
      · rw [hf] at hr
        simp only [List.filterMap_cons, if_pos hs, last_cons]
        dsimp only at hr
        refine run_holds ?_ hr
        exact ⟨h1, h2, hf, h4, h5, h6⟩
      · rw [hm] at hr
        simp only [List.filterMap_cons, if_neg hs]
        dsimp only at hr
        refine run_holds ?_ hr
        exact ⟨h1, h2, h3, h4, h5, h6⟩
    · rw [setter, exec_link] at hr
      rcases link_ofName s with ⟨hs, f, hf⟩ | ⟨hs, m, hm⟩
      · rw [hf] at hr
        simp only [List.filterMap_cons, if_pos hs, last_cons]
        dsimp only at hr
        refine run_holds ?_ hr
        exact ⟨h1, h2, h3, hf, h5, h6⟩
      · rw [hm] at hr
        simp only [List.filterMap_cons, if_neg hs]
        dsimp only at hr
        refine run_holds ?_ hr
        exact ⟨h1, h2, h3, h4, h5, h6⟩
    · rw [setter, exec_levels] at hr
      rcases hb : Basis.create env.ar env.Q k with e | b
      · rw [hb] at hr
        have hne : ¬ ∃ b, Basis.create env.ar env.Q k = Except.ok b := by
          rintro ⟨b, h⟩
          rw [hb] at h
          cases h
        simp only [List.filterMap_cons, if_neg hne]
        rcases e with _ | m
        · cases hr
        · dsimp only at hr
          refine run_holds ?_ hr
          exact ⟨h1, h2, h3, h4, h5, h6⟩
      · rw [hb] at hr
        have hne : ∃ b, Basis.create env.ar env.Q k = Except.ok b := ⟨b, hb⟩
        simp only [List.filterMap_cons, if_pos hne, last_cons]
        dsimp only at hr
        refine run_holds ?_ hr
        exact ⟨h1, h2, h3, h4, hb, h6⟩
    · rw [setter, exec_points] at hr
      rcases hb : QuadratureRule.create env.eig k with e | b
      · have : e = Err.ub := by
          unfold QuadratureRule.create at hb
          split at hb <;> cases hb
          rfl
        subst this
        rw [hb] at hr
        cases hr
      · rw [hb] at hr
        simp only [List.filterMap_cons, last_cons]
        dsimp only at hr
        refine run_holds ?_ hr
        exact ⟨h1, h2, h3, h4, h5, hb⟩

theorem create_ok {levels points : ℤ} {b : Basis} {r : QuadratureRule} {ar : Arith} {Q : ℝ → ℝ}
    {eig : Eigensolver} (hb : Basis.create ar Q levels = Except.ok b)
    (hr : QuadratureRule.create eig points = Except.ok r) :
    b.levelMax = levels ∧ (r.nodes.length : ℤ) = points := by
  constructor
  · unfold Basis.create at hb
    split at hb
    · cases hb; rfl
    · rcases h : BasisLevel.basisLevels ar Q levels.toNat with e | ls
      · rw [h] at hb; cases hb
      · rw [h] at hb; cases hb; rfl
  · unfold QuadratureRule.create at hr
    split at hr
    · cases hr
      simp
    · cases hr

/-- C38. After any sequence of assignments without undefined behaviour, every getter returns the last
value successfully assigned to its field, or the default; and the parts of the object used by the
calibration are those built from these values. -/
theorem c38_last {env : Env} {as : List Assign} {p0 p : Parameters}
    (h0 : makeParametersR env = Except.ok p0) (h : run env as p0 = Except.ok p) :
    p.theta = lastTheta as ∧ p.beta = lastBeta as ∧
    getParametersFamily p = Except.ok (lastFamily as) ∧
    getParametersLink p = Except.ok (lastLink as) ∧
    getParametersNSparseLevels p = lastLevels env as ∧
    getParametersNQuadraturePoints p = lastPoints as ∧
    Family.ofNames (lastFamily as) (lastLink as) = Except.ok p.family ∧
    Basis.create env.ar env.Q (lastLevels env as) = Except.ok p.sparseBasis ∧
    QuadratureRule.create env.eig (lastPoints as) = Except.ok p.quadratureRule := by
  have hh : Holds env p0 [] [] "binomial" "logit" 1 1 := by
    have e : makeParametersR env = (do
        let b ← Basis.create env.ar env.Q 1
        let r ← QuadratureRule.create env.eig 1
        return ⟨[], [], ⟨some .logit, some .binomial⟩, b, r⟩) := by
      unfold makeParametersR setParametersNSparseLevels setParametersNQuadraturePoints call
      rcases Basis.create env.ar env.Q 1 with e | b
      · rfl
      · rcases QuadratureRule.create env.eig 1 with e | r <;> rfl
    rw [e] at h0
    rcases hb : Basis.create env.ar env.Q 1 with e | b
    · rw [hb] at h0; cases h0
    rw [hb] at h0
    rcases hr : QuadratureRule.create env.eig 1 with e | r
    · rw [hr] at h0; cases h0
    rw [hr] at h0
    cases h0
    exact ⟨rfl, rfl, rfl, rfl, hb, hr⟩
  obtain ⟨h1, h2, h3, h4, h5, h6⟩ := run_holds hh h
  have h7 := create_ok h5 h6
  have h3' : FamilyGivenMean.ofName (lastFamily as) = Except.ok p.family.familyGivenMean := h3
  have h4' : Link.ofName (lastLink as) = Except.ok p.family.link := h4
  refine ⟨h1, h2, ?_, ?_, h7.1, h7.2, ?_, h5, h6⟩
  · unfold FamilyGivenMean.ofName at h3'
    unfold getParametersFamily
    split at h3'
    · rename_i hs
      rw [hs, ← Except.ok.inj h3']
      rfl
    · cases h3'
  · unfold Link.ofName at h4'
    unfold getParametersLink
    split at h4'
    · rename_i hs
      rw [hs, ← Except.ok.inj h4']
      rfl
    · split at h4'
      · rename_i hs
        rw [hs, ← Except.ok.inj h4']
        rfl
      · cases h4'
  · unfold Family.ofNames
    rw [h4', h3']
    rfl

/-- C38, unsupported names: for every object and every name of no family (link), the assignment
raises an error and leaves the object unchanged. -/
theorem c38_invalid (p : Parameters) (s : String) :
    (s ≠ "binomial" → ∃ m, (setParametersFamily s).exec p = (Except.error (Err.throw m), p)) ∧
    (s ≠ "logit" → s ≠ "probit" →
      ∃ m, (setParametersLink s).exec p = (Except.error (Err.throw m), p)) := by
  constructor
  · intro h
    rcases family_ofName s with ⟨hs, -⟩ | ⟨-, m, hm⟩
    · simp [families] at hs
      exact absurd hs h
    · exact ⟨m, by rw [exec_family, hm]⟩
  · intro h h'
    rcases link_ofName s with ⟨hs, -⟩ | ⟨-, m, hm⟩
    · simp [links] at hs
      rcases hs with hs | hs
      exacts [absurd hs h, absurd hs h']
    · exact ⟨m, by rw [exec_link, hm]⟩

/-- Assignments without undefined behaviour in 32-bit arithmetic: up to 25 sparse levels, at least
one quadrature point. -/
def Assign.Safe : Assign → Prop
  | .levels k => k < 0 ∨ (1 ≤ k ∧ k ≤ 25)
  | .points k => 1 ≤ k
  | _ => True

theorem basis_safe {Q : ℝ → ℝ} (hQ : IsNormalQuantile Q) {k : ℤ}
    (h : k < 0 ∨ (1 ≤ k ∧ k ≤ 25)) : ∃ b, Basis.create i32 Q k = Except.ok b := by
  unfold Basis.create
  by_cases hk : k + 1 ≤ 0
  · exact ⟨_, if_pos hk⟩
  · rw [if_neg hk]
    obtain ⟨ls, hls, -⟩ := BasisLevel.basis_32 (L := k.toNat) hQ (by omega) (by omega)
    rw [hls]
    exact ⟨_, rfl⟩

/-- C38 for 32-bit arithmetic: construction and every finite sequence of safe assignments, in
between any number of failing ones, succeed. -/
theorem c38_runs {Q : ℝ → ℝ} (hQ : IsNormalQuantile Q) (eig : Eigensolver)
    {as : List Assign} (h : ∀ a ∈ as, a.Safe) :
    ∃ p0 p, makeParametersR ⟨i32, Q, eig⟩ = Except.ok p0 ∧
      run ⟨i32, Q, eig⟩ as p0 = Except.ok p ∧
      lastLevels ⟨i32, Q, eig⟩ as =
        last (as.filterMap fun a => match a with | .levels k => some k | _ => none) 1 := by
  have hrun : ∀ (as : List Assign), (∀ a ∈ as, a.Safe) → ∀ p0,
      ∃ p, run ⟨i32, Q, eig⟩ as p0 = Except.ok p := by
    intro as
    induction as with
    | nil => exact fun _ p0 => ⟨p0, rfl⟩
    | cons a rest ih =>
      intro h p0
      have ih' := ih fun a ha => h a (List.mem_cons_of_mem _ ha)
      have ha := h a (List.mem_cons_self ..)
      unfold run
      rcases a with v | v | s | s | k | k
      · rw [setter, exec_theta]; exact ih' _
      · rw [setter, exec_beta]; exact ih' _
      · rw [setter, exec_family]
        rcases family_ofName s with ⟨-, f, hf⟩ | ⟨-, m, hf⟩ <;> rw [hf] <;> exact ih' _
      · rw [setter, exec_link]
        rcases link_ofName s with ⟨-, f, hf⟩ | ⟨-, m, hf⟩ <;> rw [hf] <;> exact ih' _
      · obtain ⟨b, hb⟩ := basis_safe hQ ha
        rw [setter, exec_levels, hb]
        exact ih' _
      · rw [setter, exec_points]
        obtain ⟨j, hj⟩ : ∃ j : ℕ, k = Int.ofNat (j + 1) :=
          ⟨(k - 1).toNat, by have : 1 ≤ k := ha; simp; omega⟩
        subst hj
        exact ih' _
  obtain ⟨b, hb⟩ := basis_safe hQ (k := 1) (by omega)
  have hp0 : ∃ p0, makeParametersR ⟨i32, Q, eig⟩ = Except.ok p0 := by
    unfold makeParametersR setParametersNSparseLevels setParametersNQuadraturePoints call
    dsimp only
    rw [hb]
    exact ⟨_, rfl⟩
  obtain ⟨p0, hp0⟩ := hp0
  obtain ⟨p, hp⟩ := hrun as h p0
  refine ⟨p0, p, hp0, hp, ?_⟩
  unfold lastLevels
  congr 1
  refine List.filterMap_congr fun a ha => ?_
  rcases a with v | v | s | s | k | k <;> try rfl
  exact if_pos (basis_safe hQ (h _ ha))

/-- The hypotheses are met: a sequence with two failing assignments. -/
example : ∃ (Q : ℝ → ℝ) (p0 p : Parameters), makeParametersR ⟨i32, Q, fun n _ => (0, 1)⟩ = Except.ok p0 ∧
    run ⟨i32, Q, fun n _ => (0, 1)⟩ [.link "probit", .link "cloglog", .levels 3, .points 5,
      .family "poisson", .levels 2] p0 = Except.ok p ∧
    getParametersLink p = Except.ok "probit" ∧ getParametersFamily p = Except.ok "binomial" ∧
    getParametersNSparseLevels p = 2 ∧ getParametersNQuadraturePoints p = 5 := by
  obtain ⟨Q, hQ⟩ := NormalQuantile.exists_quantile
  obtain ⟨p0, p, h1, h2, h3⟩ := c38_runs hQ (fun n _ => (0, 1)) (as := [.link "probit",
    .link "cloglog", .levels 3, .points 5, .family "poisson", .levels 2]) (by
      intro a ha
      simp only [List.mem_cons, List.not_mem_nil, or_false] at ha
      rcases ha with rfl | rfl | rfl | rfl | rfl | rfl <;> simp [Assign.Safe])
  obtain ⟨-, -, h4, h5, h6, h7, -⟩ := c38_last h1 h2
  refine ⟨Q, p0, p, h1, h2, h5, h4, ?_, h7⟩
  rw [h6, h3]
  rfl

/-- Beyond: a number of quadrature points that is not positive is undefined behaviour. -/
theorem c38_ub (Q : ℝ → ℝ) (eig : Eigensolver) (k : ℤ) (hk : k ≤ 0) (p : Parameters) :
    run ⟨i32, Q, eig⟩ [.points k] p = Res.ub := by
  unfold run
  rw [setter, exec_points]
  have : QuadratureRule.create eig k = Res.ub := by
    unfold QuadratureRule.create
    split
    · exfalso
      simp only [Int.ofNat_eq_natCast] at hk
      omega
    · rfl
  rw [this]
  rfl

end Verif.Pars
