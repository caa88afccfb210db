import Verif.Proofs.SignModel
import Verif.Proofs.SignExact

/-!
# C100: sequential reduction does not depend on the signs of the random effects
-/
namespace Verif.Sign

open Verif.Gauss Verif.Items Verif.Belief Verif.ClusterGraph Verif.Reorder Verif.Param Verif.Param2
open Verif.DepGraph Verif.Split Verif.Pars Verif.GLMM Verif.Family Verif.Reparam.Spec Verif.Sign.Spec
open Verif.Spec Verif.BasisLevel Verif.Point Verif.NormalQuantile Verif.SR Verif.Counting Verif.SparseGrid
open Matrix

variable {q n p p' : ℕ} {M : ModFr q n p} {M' : ModFr q n p'} {s : Fin q → ℝ}

theorem mirror_zero (τ : ℝ) (s : Fin q → ℝ) (M : ModFr q n p) (M' : ModFr q n p') (a b a' b' : ℕ) :
    TurnPredictor τ s M M' (List.replicate a 0) (List.replicate b 0) (List.replicate a' 0)
      (List.replicate b' 0) := by
  intro u j
  rw [Reparam.same_zero M M' a b a' b' u j]
  have h : ∀ (k l : ℕ), (List.replicate k (0 : ℝ)).getD l 0 = 0 := by
    intro k l
    rw [List.getD_eq_getElem?_getD, List.getElem?_replicate]
    split <;> rfl
  simp only [Split.Spec.eta, Split.Spec.lambdat, h, ite_self, Finset.sum_const_zero, mul_zero, zero_mul,
    add_zero]

theorem smatch_of {τ : ℝ} {nTheta nTheta' : ℕ} (pars : Parameters) (hf : Turns τ pars.family) {theta beta theta' beta' : List ℝ}
    (h1 : theta.length = nTheta) (h2 : theta'.length = nTheta') (h3 : beta.length = p)
    (h4 : beta'.length = p') (h : TurnPredictor τ s M M' theta beta theta' beta') :
    SMatch τ s M M' nTheta nTheta' { pars with theta := theta, beta := beta }
      { pars with theta := theta', beta := beta' } :=
  ⟨⟨rfl, rfl, rfl⟩, hf, h1, h2, h3, h4, h⟩

theorem suits_of {ar : Arith} (har : ar = exactZ ∨ ar = i32 ∧ q ≤ 46341)
    {bs : List (Mixed Factor NB)} (hr : ∀ b ∈ bs, ∀ x ∈ b.items, 0 ≤ x ∧ x < (q : ℤ)) :
    Suits ar (bs.map Mixed.items) := by
  unfold Suits
  rcases har with h | ⟨h, hq'⟩
  · exact Or.inl h
  · refine Or.inr ⟨h, le_trans (Finset.card_le_card (t := Finset.univ.image
      fun i : Fin q => ((i : ℕ) : ℤ)) fun x hx => ?_) (Finset.card_image_le.trans ?_)⟩
    · rw [List.mem_toFinset, List.mem_flatten] at hx
      obtain ⟨l, hl', hx⟩ := hx
      obtain ⟨b, hbm, rfl⟩ := List.mem_map.1 hl'
      obtain ⟨h0, h1⟩ := hr b hbm x hx
      exact Finset.mem_image.mpr ⟨⟨x.toNat, by omega⟩, Finset.mem_univ _, by simp [h0]⟩
    · simpa using hq'

/-- The cluster graphs of the two model frames. For matching parameters, the approximations agree if
nothing but the tests for improper beliefs can fail. -/
theorem graph_sign {τ : ℝ} (hτ : τ * τ = 1) (hsg : Signs s) (h : TurnData τ M M') (hc : Split.Spec.Covered M)
    {nTheta nTheta' : ℕ} (hM : Split.Spec.WellFormed M nTheta)
    (hM' : Split.Spec.WellFormed M' nTheta') {lib : Lib} (hrd : Reads lib.rd M)
    (hrd' : Reads lib.rd M') (har : lib.ar = exactZ ∨ lib.ar = i32 ∧ q ≤ 46341) :
    ∃ bs bs' c c', Lfun.factorizationTerms lib M = Except.ok bs ∧
      Lfun.factorizationTerms lib M' = Except.ok bs' ∧
      (∀ pars, ofBeliefs lib.ar (SR.ops lib pars) bs = Except.ok c ∧
        ofBeliefs lib.ar (SR.ops lib pars) bs' = Except.ok c') ∧
      (∀ pars, width (SR.ops lib pars) c' = width (SR.ops lib pars) c) ∧
      ∀ pars pars' K, SMatch τ s M M' nTheta nTheta' pars pars' → SignLib lib pars K →
        (∀ b ∈ c.clusters, b.items.length ≤ K) →
        ∀ a a' : IS.NormalApprox q, MirrorNormal s a a' →
          SafeValue (Factor.ops lib pars) (store lib pars) a.mean a.precision c →
          SafeValue (Factor.ops lib pars') (store lib pars') a'.mean a'.precision c' →
          computeLogNormalizingConstant lib pars c a.mean a.precision =
            computeLogNormalizingConstant lib pars' c' a'.mean a'.precision := by
  obtain ⟨bs, bs', e1, e2, hb⟩ := beliefs_sign hτ hsg h hc hM hM' hrd hrd'
  have hz := sz_sign hsg
  have hbel : ∀ pars pars', SMatch τ s M M' nTheta nTheta' pars pars' →
      List.Forall₂ (Bel (sz s) (Factor.ops lib pars) (Factor.ops lib pars')) bs bs' :=
    fun pars pars' hm => hb.imp fun b b' h => h.2 pars pars' hm
  have hrange : ∀ b ∈ bs, ∀ x ∈ b.items, 0 ≤ x ∧ x < (q : ℤ) := by
    intro b hbm
    obtain ⟨b', -, h⟩ := forall₂_mem_left hb b hbm
    exact h.1
  have h0 := smatch_of (s := s) (M := M) (M' := M') Parameters.empty (turns_empty τ)
    (List.length_replicate (n := nTheta) (a := (0 : ℝ)))
    (List.length_replicate (n := nTheta') (a := (0 : ℝ)))
    (List.length_replicate (n := p) (a := (0 : ℝ))) (List.length_replicate (n := p') (a := (0 : ℝ)))
    (mirror_zero τ s M M' _ _ _ _)
  have hF : ∀ F ∈ bs.map Mixed.items, F.Nodup := by
    intro F hF
    obtain ⟨b, hbm, rfl⟩ := List.mem_map.mp hF
    exact ((bel_wf (hbel _ _ h0)).1 b hbm).nodup
  obtain ⟨B, hf, g1, g2, g3⟩ := Suits.fits (suits_of har hrange) hF
  have key := fun pars pars' (hm : SMatch τ s M M' nTheta nTheta' pars pars') =>
    ofBeliefs_sign hz (SR.store_law lib pars) (SR.store_law lib pars')
      (hbel pars pars' hm) hf g1 g2 g3
  obtain ⟨c, c', k1, k2, -, k4⟩ := key _ _ h0
  have f1 : ∀ pars, ofBeliefs lib.ar (SR.ops lib pars) bs = Except.ok c := fun pars =>
    (ofBeliefs_pars lib pars _ bs).trans k1
  have f2 : ∀ pars, ofBeliefs lib.ar (SR.ops lib pars) bs' = Except.ok c' := fun pars =>
    (ofBeliefs_pars lib pars _ bs').trans k2
  refine ⟨bs, bs', c, c', e1, e2, fun pars => ⟨f1 pars, f2 pars⟩, fun pars => ?_, ?_⟩
  · obtain ⟨K, hK⟩ : ∃ K, ∀ b ∈ c.clusters, b.items.length ≤ K :=
      ⟨width (SR.ops lib pars) c, fun b hb => le_width lib pars hb⟩
    exact width_items (bel_items (k4 K hK).clusters)
  · intro pars pars' K hm hL hK a a' ha hs hs'
    obtain ⟨d, d', m1, m2, hB, m4⟩ := key _ _ hm
    have hdc : d = c := Except.ok.inj (m1.symm.trans (f1 pars))
    have hdc' : d' = c' := Except.ok.inj (m2.symm.trans (f2 pars'))
    subst hdc hdc'
    have hmean : a'.mean = fun i : Fin q => sz s i * a.mean i := by
      funext r
      rw [ha.mean, sz_fin]
    have hprec : a'.precision = Matrix.of fun i j : Fin q => sz s i * a.precision i j * sz s j := by
      ext r t
      rw [ha.precision, Matrix.of_apply, sz_fin, sz_fin]
    rw [hmean, hprec] at hs' ⊢
    refine value_exact (K := K) ⟨hz, SR.store_law lib pars, SR.store_law lib pars',
      store_rel hz hL hm.rules⟩ a.mean a.precision (m4 K hK) (fun b hb x hx => ?_) hs hs'
    obtain ⟨k, hk, rfl⟩ := List.mem_iff_getElem.mp hb
    obtain ⟨F, hFm, hxF⟩ := (hB.items x).mp ⟨k, by
      rw [cl, List.getElem?_eq_getElem hk]
      exact hx⟩
    obtain ⟨b, hbm, rfl⟩ := List.mem_map.mp hFm
    exact hrange b hbm x hxF

/-- What the deviance functions of `lme4` return for the two model frames: the same error, or the
same deviance and normal approximations that differ by the signs. -/
def MirrorDevfun (s : Fin q → ℝ) (r r' : Res (ℝ × Lfun.PP q)) : Prop :=
  (∃ e, r = Except.error e ∧ r' = Except.error e) ∨
    ∃ v v', r = Except.ok v ∧ r' = Except.ok v' ∧ v.1 = v'.1 ∧
      MirrorNormal s (Lfun.computeNormalApprox v).2 (Lfun.computeNormalApprox v').2

/-- Parameters of the two model frames in matching calls. -/
def TurnCall (τ : ℝ) (s : Fin q → ℝ) (M : ModFr q n p) (M' : ModFr q n p') (nTheta nTheta' : ℕ)
    (devfun devfun' : List ℝ → Res (ℝ × Lfun.PP q)) (x x' : List ℝ) : Prop :=
  ∃ theta beta theta' beta', x = theta ++ beta ∧ x' = theta' ++ beta' ∧ theta.length = nTheta ∧
    beta.length = p ∧ theta'.length = nTheta' ∧ beta'.length = p' ∧
    TurnPredictor τ s M M' theta beta theta' beta' ∧ MirrorDevfun s (devfun x) (devfun' x')

/-- Parameters of the two model frames in matching calls: the linear predictors differ by the signs of
the random effects. -/
def MirrorCall (s : Fin q → ℝ) (M : ModFr q n p) (M' : ModFr q n p') (nTheta nTheta' : ℕ)
    (devfun devfun' : List ℝ → Res (ℝ × Lfun.PP q)) (x x' : List ℝ) : Prop :=
  ∃ theta beta theta' beta', x = theta ++ beta ∧ x' = theta' ++ beta' ∧ theta.length = nTheta ∧
    beta.length = p ∧ theta'.length = nTheta' ∧ beta'.length = p' ∧
    MirrorPredictor s M M' theta beta theta' beta' ∧ MirrorDevfun s (devfun x) (devfun' x')

/-- The normal approximation is that of a Laplace approximation, no normalizing constant of its
marginals is exactly zero, and its variance inflation factors are at most ten million, as for C99. -/
def Regular (M : ModFr q n p) (nTheta : ℕ) (devfun : List ℝ → Res (ℝ × Lfun.PP q)) (x : List ℝ) :
    Prop :=
  ∀ d pp, devfun x = Except.ok (d, pp) → (∃ W, Lfun.Laplace M (x.take nTheta) W pp) ∧
    NoZeroNormalizer (Lfun.computeNormalApprox (d, pp)).2.precision ∧
    Lfun.InflationAtMost (Lfun.computeNormalApprox (d, pp)).2.precision (10 ^ 7)

/-! ## The settings -/

theorem settings {link : String} {μ : ℝ → ℝ} (hl : IsLink link μ) {Qf : ℝ → ℝ}
    (hQ : IsNormalQuantile Qf) {eig : Eigensolver} {k m : ℕ} (hk : 1 ≤ k) (hk' : k ≤ 25)
    (hm : m + 1 < 2 ^ 31)
    (heig : Quad.IsEigen (Quad.hermiteJacobi (m + 1)) (eig _ (Quad.hermiteJacobi (m + 1))).1
      (eig _ (Quad.hermiteJacobi (m + 1))).2) :
    ∃ f ls rule, Family.ofNames "binomial" link = Except.ok f ∧
      basisLevels i32 Qf k = Except.ok ls ∧ Lfun.checkModfrSR "binomial" link = Except.ok () ∧
      Lfun.calibrationPars ⟨i32, Qf, eig⟩ "binomial" link k ((m + 1 : ℕ) : ℝ) =
        Except.ok ⟨[], [], f, ⟨ls, k⟩, rule⟩ ∧
      (∀ node ∈ rule.nodes, 4 * node ^ 2 ≤ 2 * 10 ^ 10) ∧ SymRule (SR.ruleOf rule) := by
  obtain ⟨rule, er⟩ : ∃ rule, QuadratureRule.create eig ((m + 1 : ℕ) : ℤ) = Except.ok rule :=
    ⟨_, rfl⟩
  obtain ⟨b1, eb1⟩ := basis_safe hQ (k := 1) (by omega)
  obtain ⟨ls, els, -⟩ := basis_32 hQ hk hk'
  have eb : Basis.create i32 Qf k = Except.ok ⟨ls, k⟩ := by
    unfold Basis.create
    rw [if_neg (by omega), Int.toNat_natCast, els]
    rfl
  obtain ⟨f, ef⟩ : ∃ f, Family.ofNames "binomial" link = Except.ok f := by
    cases hl <;> exact ⟨_, rfl⟩
  have ep := Lfun.calibrationPars_ok (env := ⟨i32, Qf, eig⟩) (nSL := k)
    (nAGQ := ((m + 1 : ℕ) : ℝ)) ef eb1 rfl
    (by rw [Lfun.asInt_nat (by omega)]; exact eb) (by rw [Lfun.asInt_nat hm]; exact er)
  have hchk : Lfun.checkModfrSR "binomial" link = Except.ok () := by
    cases hl <;> rfl
  refine ⟨f, ls, rule, ef, els, hchk, ep, ?_, ?_⟩
  · cases er
    intro node hnode
    obtain ⟨j, rfl⟩ := List.mem_ofFn.mp hnode
    have h1 := node_sq_le heig j
    have h2 : ((m + 1 : ℕ) : ℝ) ≤ 2 ^ 31 := by exact_mod_cast hm.le
    have h3 : (Quad.ofEigen (eig (m + 1) (Quad.hermiteJacobi (m + 1))).1
      (eig (m + 1) (Quad.hermiteJacobi (m + 1))).2).nodes j =
        (eig (m + 1) (Quad.hermiteJacobi (m + 1))).1 j := rfl
    rw [h3]
    norm_num at h1 h2 ⊢
    linarith
  · cases er
    exact ruleOf_sym (ofEigen_sym heig)

theorem signLib {lib : Lib} {pars : Parameters} {Qf : ℝ → ℝ} (hQ : IsNormalQuantile Qf)
    (har : lib.ar = i32) (haru : lib.aru = u32)
    (heig : ∀ d p, Quad.IsEigen p (lib.eig d p).1 (lib.eig d p).2)
    (hsol : ∀ d, SignSolver (lib.solve d)) {k w : ℕ} (hk : 1 ≤ k) (hk' : k ≤ 25)
    {ls : List Level} (hls : basisLevels i32 Qf k = Except.ok ls)
    (hbas : pars.sparseBasis = ⟨ls, k⟩) (hrule : SymRule (SR.ruleOf pars.quadratureRule))
    (hw : complexityAccepted w k) : SignLib lib pars w := by
  have hsmall : 2 ≤ w → k ≤ 9 ∧ w ^ k ≤ 707 ∧ w ≤ 707 := fun hw2 => by
    obtain ⟨g1, g2⟩ := guard_bounds hw2 hw
    exact ⟨g2, g1, le_trans (Nat.le_self_pow (by omega) w) g1⟩
  refine ⟨hrule, fun d hd => symEnv hQ haru hk hk' hls hbas ?_, hsol, heig⟩
  rw [har]
  rcases Nat.eq_zero_or_pos d with rfl | hd0
  · exact gridArOk_dim0 hk'
  · exact gridArOk_i32 (by omega) (by have := hsmall (by omega); omega) hw hd0 hd.le

/-! ## Mirrored normal approximations -/

theorem mirror_posDef (hs : Signs s) {a a' : IS.NormalApprox q} (h : MirrorNormal s a a')
    (ha : a.precision.PosDef) : a'.precision.PosDef := by
  have e : a'.precision = (diagonal s)ᴴ * a.precision * diagonal s := by
    ext r t
    rw [h.precision, Matrix.conjTranspose_eq_transpose_of_trivial, Matrix.diagonal_transpose,
      Matrix.mul_diagonal, Matrix.diagonal_mul]
  rw [e]
  refine ha.conjTranspose_mul_mul_same fun u v huv => ?_
  funext r
  have := congrFun huv r
  rw [Matrix.mulVec_diagonal, Matrix.mulVec_diagonal] at this
  have h0 : s r ≠ 0 := by rcases hs r with h | h <;> rw [h] <;> norm_num
  exact mul_left_cancel₀ h0 this

/-- The signs of the random effects, by number. -/
noncomputable def sn (s : Fin q → ℝ) (k : ℕ) : ℝ := if h : k < q then s ⟨k, h⟩ else 1

theorem sn_sign (hs : Signs s) : IsSign (sn s) := by
  intro k
  unfold sn
  split
  · exact hs _
  · exact Or.inl rfl

theorem mirror_fm {a a' : IS.NormalApprox q} (h : MirrorNormal s a a') :
    a'.precision = fm (sn s) a.precision := by
  ext r t
  rw [h.precision, fm, Matrix.of_apply, sn, sn, dif_pos r.2, dif_pos t.2]

theorem mirror_noZero (hs : Signs s) {a a' : IS.NormalApprox q} (h : MirrorNormal s a a')
    (ha : NoZeroNormalizer a.precision) : NoZeroNormalizer a'.precision := by
  intro m e he
  rw [mirror_fm h, fm_inv (sn_sign hs), fm_submatrix (τ := fun k => if h : k < m + 1 then
    sn s (e ⟨k, h⟩) else 1) (fun k => by rw [dif_pos k.2]), fm_det (fun k => by
      split
      · exact sn_sign hs _
      · exact Or.inl rfl)]
  exact ha m e he

theorem mirror_inflation (hs : Signs s) {a a' : IS.NormalApprox q} (h : MirrorNormal s a a') {C : ℝ}
    (ha : Lfun.InflationAtMost a.precision C) : Lfun.InflationAtMost a'.precision C := by
  intro i
  rw [mirror_fm h, fm_inv (sn_sign hs), fm, fm, Matrix.of_apply, Matrix.of_apply]
  have h1 : sn s i * sn s i = 1 := by
    rcases sn_sign hs i with h | h <;> rw [h] <;> norm_num
  have h2 : sn s i * a.precision i i * sn s i * (sn s i * a.precision⁻¹ i i * sn s i) =
      (sn s i * sn s i) * (sn s i * sn s i) * (a.precision i i * a.precision⁻¹ i i) := by ring
  rw [h2, h1, one_mul, one_mul]
  exact ha i

/-- The check of the value and its comparison with the Laplace approximation. -/
theorem checked_eq {lib : Lib} {pars pars' : Parameters} {c c' : CG (Mixed Factor NB)}
    {a a' : ℝ × IS.NormalApprox q} (h1 : a.1 = a'.1)
    (h : computeLogNormalizingConstant lib pars c a.2.mean a.2.precision =
      computeLogNormalizingConstant lib pars' c' a'.2.mean a'.2.precision) :
    Lfun.checkedValue lib pars c a = Lfun.checkedValue lib pars' c' a' := by
  unfold Lfun.checkedValue
  rw [h, h1]

theorem approx_fst (d : ℝ) (pp : Lfun.PP q) : (Lfun.computeNormalApprox (d, pp)).1 = -d / 2 := rfl

/-! ## C100 -/

theorem find_eq {link : String} {lib : Lib} {env : Pars.Env} {nSL nAGQ : ℝ} {P : Parameters}
    (hchk : Lfun.checkModfrSR "binomial" link = Except.ok ())
    (ep : Lfun.calibrationPars env "binomial" link nSL nAGQ = Except.ok P)
    {ts : List (Mixed Factor NB)} {d : CG (Mixed Factor NB)} {w : ℕ}
    (h1 : Lfun.factorizationTerms lib M = Except.ok ts)
    (h2 : ofBeliefs lib.ar (SR.ops lib P) ts = Except.ok d)
    (h3 : width (SR.ops lib P) d = w) :
    Lfun.findLfunSR lib env M "binomial" link nSL nAGQ =
      if (w : ℝ) ^ (2 * nSL) > 5e5 then
        Res.raise "The sequential reduction approximation is too difficult to compute in this case"
      else Except.ok (P, d) := by
  rw [Lfun.findLfunSR, hchk, ep]
  simp only [res_ok_bind]
  rw [h1]
  simp only [res_ok_bind]
  rw [h2]
  simp only [res_ok_bind, h3]
  rfl

theorem safe_one {link : String} {μ : ℝ → ℝ} (hl : IsLink link μ) (hc : Split.Spec.Covered M)
    {nTheta : ℕ} (hM : Split.Spec.WellFormed M nTheta) (hq' : q ≤ 46341) {lib : Lib}
    (har : lib.ar = i32) (haru : lib.aru = u32) (hrd : Reads lib.rd M)
    (hlib : ∀ d p, Quad.IsEigen p (lib.eig d p).1 (lib.eig d p).2) {Qf : ℝ → ℝ}
    (hQ : IsNormalQuantile Qf) {k w : ℕ} (hk : 1 ≤ k) (hk' : k ≤ 25) {f : Family.Family}
    {ls : List Level} {rule : QuadratureRule} (ef : Family.ofNames "binomial" link = Except.ok f)
    (els : basisLevels i32 Qf k = Except.ok ls)
    (hnode : ∀ node ∈ rule.nodes, 4 * node ^ 2 ≤ 2 * 10 ^ 10) {theta beta : List ℝ}
    (g1 : theta.length = nTheta) (g2 : beta.length = p) {ts : List (Mixed Factor NB)}
    {d : CG (Mixed Factor NB)} (h1 : Lfun.factorizationTerms lib M = Except.ok ts)
    (h2 : ∀ pars, ofBeliefs lib.ar (SR.ops lib pars) ts = Except.ok d)
    (h3 : ∀ b ∈ d.clusters, b.items.length ≤ w) (hacc : complexityAccepted w k)
    (a : IS.NormalApprox q) (b1 : a.precision.PosDef)
    (b2 : ∀ i j, i ≠ j → a.precision i j ≠ 0 → ∃ k, i ∈ Split.Spec.Active M k ∧
      j ∈ Split.Spec.Active M k) (b3 : NoZeroNormalizer a.precision)
    (b4 : Lfun.InflationAtMost a.precision (10 ^ 7)) :
    SafeValue (Factor.ops lib ⟨theta, beta, f, ⟨ls, k⟩, rule⟩)
      (store lib ⟨theta, beta, f, ⟨ls, k⟩, rule⟩) a.mean a.precision d := by
  have hgr : clusterGraph lib ⟨theta, beta, f, ⟨ls, k⟩, rule⟩ M = Except.ok d := by
    rw [← Lfun.graph_eq lib ⟨theta, beta, f, ⟨ls, k⟩, rule⟩ _ M, h1]
    exact h2 _
  obtain ⟨c2, ec2, hres, -⟩ := range_model (lib := lib)
    (pars := ⟨theta, beta, f, ⟨ls, k⟩, rule⟩) hl ef (by rw [g1]; exact hM) hc g2 hrd
    (Or.inr ⟨har, hq'⟩) (rangeGrid_of (w := w) hQ (fun n p _ => hlib n p) har
      haru hk hk' els rfl hnode hacc)
    (fun c2 ec2 => by
      rw [hgr] at ec2
      cases ec2
      exact h3) (mean := a.mean) b1 b2 b3 b4
  rw [hgr] at ec2
  cases ec2
  exact hres

/-- C100 and C101 together. -/
theorem turn_all {τ : ℝ} (hτ : τ * τ = 1) {link : String} {μ : ℝ → ℝ} (hl : IsLink link μ) (hsg : Signs s) (h : TurnData τ M M')
    (hfam : ∀ f, Family.ofNames "binomial" link = Except.ok f → Turns τ f)
    (hc : Split.Spec.Covered M) {nTheta nTheta' : ℕ} (hM : Split.Spec.WellFormed M nTheta)
    (hM' : Split.Spec.WellFormed M' nTheta') (hq' : q ≤ 46341) (hn : 1 ≤ nTheta) (hn' : 1 ≤ nTheta')
    {lib : Lib} (har : lib.ar = i32) (haru : lib.aru = u32) (hrd : Reads lib.rd M)
    (hrd' : Reads lib.rd M') (hlib : ∀ d p, Quad.IsEigen p (lib.eig d p).1 (lib.eig d p).2)
    (hsol : ∀ d, SignSolver (lib.solve d)) {Qf : ℝ → ℝ} (hQ : IsNormalQuantile Qf)
    {eig : Eigensolver} {k m : ℕ} (hk : 1 ≤ k) (hk' : k ≤ 25) (hm : m + 1 < 2 ^ 31)
    (heig : Quad.IsEigen (Quad.hermiteJacobi (m + 1)) (eig _ (Quad.hermiteJacobi (m + 1))).1
      (eig _ (Quad.hermiteJacobi (m + 1))).2) :
    (∃ e, Lfun.findLfunSR lib ⟨i32, Qf, eig⟩ M "binomial" link k ((m + 1 : ℕ) : ℝ) = Res.raise e ∧
      Lfun.findLfunSR lib ⟨i32, Qf, eig⟩ M' "binomial" link k ((m + 1 : ℕ) : ℝ) = Res.raise e) ∨
    ∃ pars c c',
      Lfun.findLfunSR lib ⟨i32, Qf, eig⟩ M "binomial" link k ((m + 1 : ℕ) : ℝ) =
        Except.ok (pars, c) ∧
      Lfun.findLfunSR lib ⟨i32, Qf, eig⟩ M' "binomial" link k ((m + 1 : ℕ) : ℝ) =
        Except.ok (pars, c') ∧
      ∀ (devfun devfun' : List ℝ → Res (ℝ × Lfun.PP q)) (xs xs' : List (List ℝ)),
        List.Forall₂ (fun x x' => TurnCall τ s M M' nTheta nTheta' devfun devfun' x x' ∧
          Regular M nTheta devfun x) xs xs' →
        Lfun.calls lib p nTheta c devfun xs pars =
          Lfun.calls lib p' nTheta' c' devfun' xs' pars := by
  obtain ⟨f, ls, rule, ef, els, hchk, ep, hnode, hsym⟩ := settings hl hQ hk hk' hm heig
  obtain ⟨bs, bs', c, c', e1, e2, hg, hw, hval⟩ := graph_sign hτ hsg h hc hM hM' hrd hrd'
    (Or.inr ⟨har, hq'⟩)
  have hF := find_eq hchk ep e1 (hg _).1 rfl
  have hF' := find_eq hchk ep e2 (hg _).2 (hw _)
  generalize hP : (⟨[], [], f, ⟨ls, k⟩, rule⟩ : Parameters) = P at hF hF' ep
  by_cases hbig : (width (SR.ops lib P) c : ℝ) ^ (2 * (k : ℝ)) > 5e5
  · rw [if_pos hbig] at hF hF'
    exact Or.inl ⟨_, hF, hF'⟩
  rw [if_neg hbig] at hF hF'
  have hacc := Lfun.c81_complexity lib _ M "binomial" link k _ hF
  refine Or.inr ⟨P, c, c', hF, hF', fun devfun devfun' xs xs' hxs => ?_⟩
  rw [← List.forall₂_eq_eq_eq, Lfun.c81_history, Lfun.c81_history, List.forall₂_map_left_iff,
    List.forall₂_map_right_iff]
  refine hxs.imp fun x x' hx => ?_
  obtain ⟨⟨theta, beta, theta', beta', rfl, rfl, l1, l2, l3, l4, hmir, hd⟩, hreg⟩ := hx
  rw [Lfun.exec_lfun, Lfun.exec_lfun]
  have t1 : (theta ++ beta).length = p + nTheta := by rw [List.length_append]; omega
  have t2 : (theta' ++ beta').length = p' + nTheta' := by rw [List.length_append]; omega
  have a1 : Lfun.assign nTheta (theta ++ beta) P = { P with theta := theta, beta := beta } := by
    unfold Lfun.assign Lfun.takeTheta Lfun.dropTheta
    rw [max_eq_right hn, ← l1, List.take_left, List.drop_left]
  have a2 : Lfun.assign nTheta' (theta' ++ beta') P = { P with theta := theta', beta := beta' } := by
    unfold Lfun.assign Lfun.takeTheta Lfun.dropTheta
    rw [max_eq_right hn', ← l3, List.take_left, List.drop_left]
  have hsm := smatch_of P (by rw [← hP]; exact hfam f ef) l1 l3 l2 l4 hmir
  show Lfun.value _ _ _ _ _ _ _ = Lfun.value _ _ _ _ _ _ _
  unfold Lfun.value
  rw [if_neg (not_not.mpr t1), if_neg (not_not.mpr t2), a1, a2]
  rcases hd with ⟨e, he, he'⟩ | ⟨⟨d, pp⟩, ⟨d', pp'⟩, he, he', hdd, hma⟩
  · rw [he, he', res_error_bind, res_error_bind]
  cases hdd
  obtain ⟨⟨W, hL⟩, hN, hI⟩ := hreg d pp he
  rw [he, he']
  simp only [res_ok_bind]
  have hpd := Lfun.precision_posDef (d := d) hL
  have hcov' := Reparam.covered_same h.active hc
  have hr := safe_one hl hc hM hq' har haru hrd hlib hQ hk hk' ef els hnode l1 l2 e1
    (fun pars => (hg pars).1) (fun b hb => le_width lib P hb) hacc _ hpd
    (precision_shared hM hL) hN hI
  have hr' := safe_one hl hcov' hM' hq' har haru hrd' hlib hQ hk hk' ef els hnode l3 l4 e2
    (fun pars => (hg pars).2) (fun b hb => (le_width lib P hb).trans (hw P).le) hacc _
    (mirror_posDef hsg hma hpd) (fun i j hij h0 => by
      rw [hma.precision] at h0
      obtain ⟨o, ho⟩ := precision_shared hM hL i j hij
        (right_ne_zero_of_mul (left_ne_zero_of_mul h0))
      rw [h.active] at ho
      exact ⟨o, ho⟩) (mirror_noZero hsg hma hN) (mirror_inflation hsg hma hI)
  have hv := hval _ _ _ hsm (signLib (w := width (SR.ops lib P) c) hQ har haru hlib hsol hk hk' els
    (by rw [← hP]) (by rw [← hP]; exact hsym) hacc) (fun b hb => le_width lib P hb) _ _ hma
  subst hP
  exact checked_eq (by rw [approx_fst, approx_fst]) (hv hr hr')

/-- C100. Two model frames with the same data whose linear predictors differ by the signs of random
effects: both are refused with the same error, or for both the log-likelihood function can be made,
and matching calls return the same value or raise the same error. -/
theorem c100 {link : String} {μ : ℝ → ℝ} (hl : IsLink link μ) (hsg : Signs s) (h : SameData M M')
    (hc : Split.Spec.Covered M) {nTheta nTheta' : ℕ} (hM : Split.Spec.WellFormed M nTheta)
    (hM' : Split.Spec.WellFormed M' nTheta') (hq' : q ≤ 46341) (hn : 1 ≤ nTheta) (hn' : 1 ≤ nTheta')
    {lib : Lib} (har : lib.ar = i32) (haru : lib.aru = u32) (hrd : Reads lib.rd M)
    (hrd' : Reads lib.rd M') (hlib : ∀ d p, Quad.IsEigen p (lib.eig d p).1 (lib.eig d p).2)
    (hsol : ∀ d, SignSolver (lib.solve d)) {Qf : ℝ → ℝ} (hQ : IsNormalQuantile Qf)
    {eig : Eigensolver} {k m : ℕ} (hk : 1 ≤ k) (hk' : k ≤ 25) (hm : m + 1 < 2 ^ 31)
    (heig : Quad.IsEigen (Quad.hermiteJacobi (m + 1)) (eig _ (Quad.hermiteJacobi (m + 1))).1
      (eig _ (Quad.hermiteJacobi (m + 1))).2) :
    (∃ e, Lfun.findLfunSR lib ⟨i32, Qf, eig⟩ M "binomial" link k ((m + 1 : ℕ) : ℝ) = Res.raise e ∧
      Lfun.findLfunSR lib ⟨i32, Qf, eig⟩ M' "binomial" link k ((m + 1 : ℕ) : ℝ) = Res.raise e) ∨
    ∃ pars c c',
      Lfun.findLfunSR lib ⟨i32, Qf, eig⟩ M "binomial" link k ((m + 1 : ℕ) : ℝ) =
        Except.ok (pars, c) ∧
      Lfun.findLfunSR lib ⟨i32, Qf, eig⟩ M' "binomial" link k ((m + 1 : ℕ) : ℝ) =
        Except.ok (pars, c') ∧
      ∀ (devfun devfun' : List ℝ → Res (ℝ × Lfun.PP q)) (xs xs' : List (List ℝ)),
        List.Forall₂ (fun x x' => MirrorCall s M M' nTheta nTheta' devfun devfun' x x' ∧
          Regular M nTheta devfun x) xs xs' →
        Lfun.calls lib p nTheta c devfun xs pars =
          Lfun.calls lib p' nTheta' c' devfun' xs' pars := by
  rcases turn_all (by norm_num) hl hsg (turn_same h) (fun f _ => turns_one f) hc hM hM' hq' hn hn' har
    haru hrd hrd' hlib hsol hQ hk hk' hm heig with he | ⟨pars, c, c', h1, h2, h3⟩
  · exact Or.inl he
  · refine Or.inr ⟨pars, c, c', h1, h2, fun devfun devfun' xs xs' hxs => h3 devfun devfun' xs xs'
      (hxs.imp fun x x' hx => ⟨?_, hx.2⟩)⟩
    obtain ⟨theta, beta, theta', beta', a1, a2, a3, a4, a5, a6, a7, a8⟩ := hx.1
    exact ⟨theta, beta, theta', beta', a1, a2, a3, a4, a5, a6, fun u j => by rw [one_mul, a7 u j], a8⟩

/-! ## When the hypotheses hold -/

/-- Variance parameters of the same model frame whose signs differ by row of `Lambda'`. -/
theorem mirror_theta (M : ModFr q n p) {theta theta' : List ℝ} (beta : List ℝ) (hs : Signs s)
    (h : ∀ k : Fin M.lambdat.length, theta'.getD (M.Lind.getD k 0 - 1).toNat 0 =
      s (M.lambdat.get k).1 * theta.getD (M.Lind.getD k 0 - 1).toNat 0) :
    MirrorPredictor s M M theta beta theta' beta := by
  intro u j
  unfold Split.Spec.eta
  congr 1
  refine Finset.sum_congr rfl fun r _ => ?_
  have hl : ∀ c, Split.Spec.lambdat M theta' r c = s r * Split.Spec.lambdat M theta r c := by
    intro c
    unfold Split.Spec.lambdat
    rw [Finset.mul_sum]
    refine Finset.sum_congr rfl fun k _ => ?_
    split_ifs with hk
    · rw [h k, hk]
    · rw [mul_zero]
  have h1 : s r * s r = 1 := by rcases hs r with h | h <;> rw [h] <;> norm_num
  simp only [hl, mul_assoc, ← Finset.mul_sum]
  generalize (∑ c, Split.Spec.lambdat M theta r c * M.Zt c j) = t
  linear_combination (-(t * u r)) * h1

/-- Laplace approximations with the same weights and modes that differ by the signs: the whole normal
approximations differ by the signs. -/
theorem turn_laplace {τ : ℝ} (hτ : τ * τ = 1) (hs : Signs s) {theta beta theta' beta' : List ℝ}
    (h : TurnPredictor τ s M M' theta beta theta' beta') {W : Fin n → ℝ} {d d' : ℝ}
    {r r' : Lfun.PP q} (hL : Lfun.Laplace M theta W r) (hL' : Lfun.Laplace M' theta' W r')
    (hmode : ∀ i, r'.delu i = s i * r.delu i) :
    MirrorNormal s (Lfun.computeNormalApprox (d, r)).2 (Lfun.computeNormalApprox (d', r')).2 where
  mean := hmode
  precision i c := by
    have hrow : ∀ i j, (Matrix.of (Split.Spec.lambdat M' theta') * M'.Zt) i j =
        τ * s i * (Matrix.of (Split.Spec.lambdat M theta) * M.Zt) i j := by
      intro i j
      have h0 := h 0 j
      have h1 := h (Pi.single i 1) j
      have e : (fun r => s r * (Pi.single i (1 : ℝ) : Fin q → ℝ) r) = Pi.single i (s i) := by
        funext r
        by_cases hr : r = i
        · subst hr
          simp
        · simp [hr]
      rw [e] at h1
      simp only [Split.Spec.eta, Pi.zero_apply, mul_zero, Finset.sum_const_zero, add_zero] at h0 h1
      rw [h0, mul_add] at h1
      have h2 := add_left_cancel h1
      simp only [Pi.single_apply, mul_ite, mul_zero, mul_one, Finset.sum_ite_eq', Finset.mem_univ,
        if_true] at h2
      rw [Matrix.mul_apply, Matrix.mul_apply]
      simp only [Matrix.of_apply]
      have h3 : s i * s i = 1 := by rcases hs i with h | h <;> rw [h] <;> norm_num
      rw [h2]
      linear_combination (-(∑ c, Split.Spec.lambdat M' theta' i c * M'.Zt c j) * (τ * τ)) * h3 -
        (∑ c, Split.Spec.lambdat M' theta' i c * M'.Zt c j) * hτ
    have h3 : s i * s i = 1 := by rcases hs i with h | h <;> rw [h] <;> norm_num
    rw [Lfun.precision_eq hL, Lfun.precision_eq hL', Matrix.add_apply, Matrix.add_apply,
      Matrix.mul_apply, Matrix.mul_apply]
    simp only [Matrix.mul_diagonal, Matrix.transpose_apply, hrow]
    rw [mul_add, add_mul, Finset.mul_sum, Finset.sum_mul]
    congr 1
    · refine Finset.sum_congr rfl fun j _ => ?_
      linear_combination (s i * (Matrix.of (Split.Spec.lambdat M theta) * M.Zt) i j * W j *
        (s c * (Matrix.of (Split.Spec.lambdat M theta) * M.Zt) c j)) * hτ
    · by_cases hic : i = c
      · subst hic
        rw [Matrix.one_apply_eq, mul_one, h3]
      · rw [Matrix.one_apply_ne hic, mul_zero, zero_mul]

theorem mirror_laplace (hs : Signs s) {theta beta theta' beta' : List ℝ}
    (h : MirrorPredictor s M M' theta beta theta' beta') {W : Fin n → ℝ} {d d' : ℝ}
    {r r' : Lfun.PP q} (hL : Lfun.Laplace M theta W r) (hL' : Lfun.Laplace M' theta' W r')
    (hmode : ∀ i, r'.delu i = s i * r.delu i) :
    MirrorNormal s (Lfun.computeNormalApprox (d, r)).2 (Lfun.computeNormalApprox (d', r')).2 :=
  turn_laplace (τ := 1) (by norm_num) hs (fun u j => by rw [one_mul, h u j]) hL hL' hmode

/-- The exact solution by the inverse matrix commutes with changes of sign. -/
theorem signSolver_inv (d : ℕ) : SignSolver (n := d) fun A b => A⁻¹ *ᵥ b := by
  intro σ hσ A b
  show (fm σ A)⁻¹ *ᵥ fv σ b = fv σ (A⁻¹ *ᵥ b)
  rw [fm_inv hσ, fm_mulVec hσ]

/-- C100 for one model frame: changing the signs of the variance parameters that multiply a random
effect, for any of the random effects, does not change the approximate log-likelihood. -/
theorem c100_theta {link : String} {μ : ℝ → ℝ} (hl : IsLink link μ) (hsg : Signs s)
    (hc : Split.Spec.Covered M) {nTheta : ℕ} (hM : Split.Spec.WellFormed M nTheta) (hq' : q ≤ 46341)
    (hn : 1 ≤ nTheta) {lib : Lib} (har : lib.ar = i32) (haru : lib.aru = u32)
    (hrd : Reads lib.rd M) (hlib : ∀ d p, Quad.IsEigen p (lib.eig d p).1 (lib.eig d p).2)
    (hsol : ∀ d, SignSolver (lib.solve d)) {Qf : ℝ → ℝ} (hQ : IsNormalQuantile Qf)
    {eig : Eigensolver} {k m : ℕ} (hk : 1 ≤ k) (hk' : k ≤ 25) (hm : m + 1 < 2 ^ 31)
    (heig : Quad.IsEigen (Quad.hermiteJacobi (m + 1)) (eig _ (Quad.hermiteJacobi (m + 1))).1
      (eig _ (Quad.hermiteJacobi (m + 1))).2) {pars : Parameters} {c : CG (Mixed Factor NB)}
    (hf : Lfun.findLfunSR lib ⟨i32, Qf, eig⟩ M "binomial" link k ((m + 1 : ℕ) : ℝ) =
      Except.ok (pars, c)) (devfun : List ℝ → Res (ℝ × Lfun.PP q))
    {theta theta' beta : List ℝ} (h1 : theta.length = nTheta) (h2 : theta'.length = nTheta)
    (h3 : beta.length = p)
    (ht : ∀ k : Fin M.lambdat.length, theta'.getD (M.Lind.getD k 0 - 1).toNat 0 =
      s (M.lambdat.get k).1 * theta.getD (M.Lind.getD k 0 - 1).toNat 0)
    (hd : MirrorDevfun s (devfun (theta ++ beta)) (devfun (theta' ++ beta)))
    (hr : Regular M nTheta devfun (theta ++ beta)) :
    let r := ((Lfun.lfun lib p nTheta c devfun (theta ++ beta)).exec pars).1
    let r' := ((Lfun.lfun lib p nTheta c devfun (theta' ++ beta)).exec pars).1
    r = r' := by
  rcases c100 hl hsg ⟨rfl, rfl, fun _ => rfl⟩ hc hM hM hq' hn hn har haru hrd hrd hlib hsol hQ hk
    hk' hm heig with ⟨e, he, -⟩ | ⟨pars', c1, c2, e1, e2, h⟩
  · rw [hf] at he
    cases he
  · rw [hf] at e1 e2
    cases e1
    cases e2
    have := h devfun devfun [theta ++ beta] [theta' ++ beta] (.cons ⟨⟨theta, beta, theta', beta, rfl,
      rfl, h1, h3, h2, h3, mirror_theta M beta hsg ht, hd⟩, hr⟩ .nil)
    exact (List.cons.inj this).1

/-! ## A case meeting the hypotheses -/

/-- What lme4 leaves behind for the model `crossed` with the second standard deviation negative. -/
noncomputable def crossedPP' : Lfun.PP 2 :=
  ⟨!![Real.sqrt 2, 0; -(1 / Real.sqrt 2), Real.sqrt (5 / 2)], 1, ![0.1, 0.2]⟩

theorem crossed_mirror (d : ℝ) : MirrorNormal ![1, -1] (Lfun.computeNormalApprox (d, Lfun.crossedPP)).2
    (Lfun.computeNormalApprox (d, crossedPP')).2 where
  mean r := by
    fin_cases r
    · show (0.1 : ℝ) = 1 * 0.1
      ring
    · show (0.2 : ℝ) = -1 * -0.2
      ring
  precision r c := by
    have hQ : (Lfun.computeNormalApprox (d, crossedPP')).2.precision = !![2, -1; -1, 3] := by
      show crossedPP'.Pᵀ * (crossedPP'.L * crossedPP'.Lᵀ) * crossedPP'.P = _
      have h2 : Real.sqrt 2 * Real.sqrt 2 = 2 := Real.mul_self_sqrt (by norm_num)
      have h0 : Real.sqrt 2 ≠ 0 := (Real.sqrt_pos.mpr two_pos).ne'
      have h5 : Real.sqrt (5 / 2) * Real.sqrt (5 / 2) = 5 / 2 := Real.mul_self_sqrt (by norm_num)
      have ht : crossedPP'.Lᵀ = !![Real.sqrt 2, -(1 / Real.sqrt 2); 0, Real.sqrt (5 / 2)] := by
        ext i j
        fin_cases i <;> fin_cases j <;> rfl
      have h1 : 1 / Real.sqrt 2 * (1 / Real.sqrt 2) = 1 / 2 := by rw [div_mul_div_comm, h2, one_mul]
      have hP : crossedPP'.P = 1 := rfl
      rw [hP, Matrix.transpose_one, Matrix.one_mul, Matrix.mul_one, ht, crossedPP',
        Matrix.mul_fin_two, neg_mul_neg, h1, h5, h2, mul_neg, neg_mul, mul_one_div_cancel h0,
        one_div_mul_cancel h0]
      norm_num
    rw [hQ, Lfun.crossedPP_precision, crossedQ]
    fin_cases r <;> fin_cases c <;> norm_num

/-- Two crossed random effects with standard deviations 1 and 2, and with 1 and -2. (Reads beyond the
end of `theta` give 0.) -/
example (lib : Lib) (har : lib.ar = i32) (haru : lib.aru = u32) (hrd : lib.rd = fun theta k =>
      if 0 ≤ k ∧ k < theta.length then read theta k else Except.ok 0)
    (hlib : ∀ d p, Quad.IsEigen p (lib.eig d p).1 (lib.eig d p).2)
    (hsol : ∀ d, lib.solve d = fun A b => A⁻¹ *ᵥ b)
    {Qf : ℝ → ℝ} (hQ : IsNormalQuantile Qf) {eig : Eigensolver}
    (heig : Quad.IsEigen (Quad.hermiteJacobi 7) (eig _ (Quad.hermiteJacobi 7)).1
      (eig _ (Quad.hermiteJacobi 7)).2) (d : ℝ) :
    ∃ pars0 c, Lfun.findLfunSR lib ⟨i32, Qf, eig⟩ crossed "binomial" "logit" (2 : ℕ) (7 : ℕ) =
        Except.ok (pars0, c) ∧
      let devfun : List ℝ → Res (ℝ × Lfun.PP 2) := fun x =>
        Except.ok (d, if 0 ≤ x.getD 1 0 then Lfun.crossedPP else crossedPP')
      let r := ((Lfun.lfun lib 1 2 c devfun [1, 2, 0.5]).exec pars0).1
      let r' := ((Lfun.lfun lib 1 2 c devfun [1, -2, 0.5]).exec pars0).1
      r = r' := by
  have hr : Reads lib.rd crossed := by
    rw [hrd]
    refine ⟨fun theta k h0 h1 => if_pos ⟨h0, h1⟩, Or.inr fun theta k => ?_⟩
    by_cases h : 0 ≤ k ∧ k < theta.length
    · obtain ⟨h0, h1⟩ := h
      refine ⟨theta[k.toNat]'(by omega), ?_⟩
      simp only [if_pos (And.intro h0 h1)]
      rw [GLMM.read, if_neg (by omega)]
      exact nth_ok (by omega)
    · exact ⟨0, if_neg h⟩
  have hs : Signs (![1, -1] : Fin 2 → ℝ) := by
    intro r
    fin_cases r
    · exact Or.inl rfl
    · exact Or.inr rfl
  rcases Lfun.c99 .logit crossed_wf crossed_covered (by norm_num) (by norm_num) har haru hr
    (fun n p _ => hlib n p) hQ (k := 2) (m := 6) (by norm_num) (by norm_num) (by norm_num) heig with
    ⟨-, h⟩ | ⟨pars0, c, h1, -⟩
  · norm_num at h
  refine ⟨pars0, c, h1, ?_⟩
  have hpos : ∀ d : ℝ, (Except.ok (d, if 0 ≤ ([1, 2, 0.5] : List ℝ).getD 1 0 then Lfun.crossedPP else
      crossedPP') : Res _) = Except.ok (d, Lfun.crossedPP) := fun d => by
    rw [if_pos (by show (0 : ℝ) ≤ 2; norm_num)]
  have hneg : ∀ d : ℝ, (Except.ok (d, if 0 ≤ ([1, -2, 0.5] : List ℝ).getD 1 0 then Lfun.crossedPP else
      crossedPP') : Res _) = Except.ok (d, crossedPP') := fun d => by
    rw [if_neg (by show ¬ (0 : ℝ) ≤ -2; norm_num)]
  refine c100_theta .logit hs crossed_covered crossed_wf (by norm_num) (by norm_num) har haru hr hlib
    (fun d => by rw [hsol d]; exact signSolver_inv d) hQ (k := 2) (m := 6) (by norm_num) (by norm_num)
    (by norm_num) heig h1 _ (theta := [1, 2]) (theta' := [1, -2]) (beta := [0.5]) rfl rfl rfl ?_ ?_ ?_
  · intro k
    have h2 : crossed.lambdat.length = 2 := rfl
    obtain ⟨k, hk⟩ := k
    rw [h2] at hk
    interval_cases k
    · show (1 : ℝ) = 1 * 1
      norm_num
    · show (-2 : ℝ) = -1 * 2
      norm_num
  · exact Or.inr ⟨_, _, hpos d, hneg d, rfl, crossed_mirror d⟩
  · intro d1 pp hpp
    have hpp' := (hpos d).symm.trans hpp
    cases hpp'
    refine ⟨⟨_, Lfun.crossedPP_laplace⟩, ?_, ?_⟩
    · rw [Lfun.crossedPP_precision]
      exact crossedQ_regular
    · rw [Lfun.crossedPP_precision]
      intro i
      rw [crossedQ_inv]
      fin_cases i <;> norm_num [crossedQ]

end Verif.Sign
