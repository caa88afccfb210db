import Verif.Proofs.SRApprox
import Verif.Props.Reduction

/-!
# C82: the error of sequential reduction is at most the sum of the local errors
-/
namespace Verif.ClusterGraph

open Verif.Items Verif.DepGraph MeasureTheory
open scoped ENNReal

variable {β : Type}

/-! ## Specification -/

/-- `y` is `x` up to a factor between `exp lo` and `exp hi`. -/
def Within (lo hi : ℝ) (x y : ℝ≥0∞) : Prop :=
  ENNReal.ofReal (Real.exp lo) * x ≤ y ∧ y ≤ ENNReal.ofReal (Real.exp hi) * x

/-- Integral of `exp f` over the coordinates `s`. -/
noncomputable def integral (s : Finset ℤ) (f : (ℤ → ℝ) → ℝ) (a : ℤ → ℝ) : ℝ≥0∞ :=
  lmarginal (fun _ => (volume : Measure ℝ)) s (fun a => ENNReal.ofReal (Real.exp (f a))) a

/-- Local errors of a forward sweep that ended in the graph `c` and returned `v`: the message on edge
`k` is the integral of cluster `k` up to a factor between `exp (lo k)` and `exp (hi k)`; `v` is the
logarithm of the integral of the last cluster, with the same accuracy. `it` are the items and `ev` the
log values of a belief. -/
structure LocalErrors (it : β → List ℤ) (ev : β → (ℤ → ℝ) → ℝ) (c : CG β) (v : ℝ) (lo hi : ℕ → ℝ) :
    Prop where
  edge : ∀ (k : ℕ) (h1 : k < c.clusters.length) (h2 : k < c.edges.length) (a : ℤ → ℝ),
    Within (lo k) (hi k)
      (integral ((it c.clusters[k]).toFinset \ (it c.edges[k].belief).toFinset) (ev c.clusters[k]) a)
      (ENNReal.ofReal (Real.exp (ev c.edges[k].belief a)))
  last : ∀ (h : c.edges.length < c.clusters.length) (a : ℤ → ℝ),
    Within (lo c.edges.length) (hi c.edges.length)
      (integral (it c.clusters[c.edges.length]).toFinset (ev c.clusters[c.edges.length]) a)
      (ENNReal.ofReal (Real.exp v))

/-! ## Logarithms -/

theorem within_log {lo hi v : ℝ} {x : ℝ≥0∞} (h : Within lo hi x (ENNReal.ofReal (Real.exp v))) :
    x ≠ 0 ∧ x ≠ ⊤ ∧ lo ≤ v - Real.log x.toReal ∧ v - Real.log x.toReal ≤ hi := by
  obtain ⟨h1, h2⟩ := h
  have h0 : x ≠ 0 := by
    rintro rfl
    rw [mul_zero, nonpos_iff_eq_zero, ENNReal.ofReal_eq_zero] at h2
    exact absurd h2 (not_le.mpr (Real.exp_pos _))
  have ht : x ≠ ⊤ := by
    rintro rfl
    rw [ENNReal.mul_top (by simpa using Real.exp_pos lo)] at h1
    exact ENNReal.ofReal_ne_top (top_le_iff.mp h1)
  have hp := ENNReal.toReal_pos h0 ht
  refine ⟨h0, ht, ?_, ?_⟩
  · rw [← ENNReal.ofReal_toReal ht, ← ENNReal.ofReal_mul (Real.exp_pos _).le,
      ENNReal.ofReal_le_ofReal_iff (Real.exp_pos _).le] at h1
    have := Real.log_le_log (mul_pos (Real.exp_pos _) hp) h1
    rw [Real.log_mul (Real.exp_pos _).ne' hp.ne', Real.log_exp, Real.log_exp] at this
    linarith
  · rw [← ENNReal.ofReal_toReal ht, ← ENNReal.ofReal_mul (Real.exp_pos _).le,
      ENNReal.ofReal_le_ofReal_iff (mul_pos (Real.exp_pos _) hp).le] at h2
    have := Real.log_le_log (Real.exp_pos _) h2
    rw [Real.log_mul (Real.exp_pos _).ne' hp.ne', Real.log_exp, Real.log_exp] at this
    linarith

/-! ## C82 -/

variable {ops : Ops β} {WF : β → Prop} {ev : β → (ℤ → ℝ) → ℝ}

theorem sum_measurable {B : List β} (h : ∀ b ∈ B, Measurable (ev b)) :
    Measurable fun a => (B.map fun b => ev b a).sum := by
  induction B with
  | nil => exact measurable_const
  | cons b B ih =>
    simp only [List.map_cons, List.sum_cons]
    exact (h b (by simp)).add (ih fun b' hb' => h b' (by simp [hb']))

/-- C82. If each message of the forward sweep is the integral of its cluster up to a factor between
`exp (lo k)` and `exp (hi k)`, and the value read off the last cluster is as accurate, then the
integral of the product of all input factors is positive and finite, and the error of the value on the
log scale lies between the sum of the `lo k` and the sum of the `hi k`. -/
theorem c82 (L : Laws ops WF ev) (beliefs : List β) (hb : ∀ b ∈ beliefs, WF b)
    (hmeas : ∀ b ∈ beliefs, Measurable (ev b))
    (hloc : ∀ b ∈ beliefs, ∀ a a' : ℤ → ℝ, (∀ x ∈ ops.items b, a x = a' x) → ev b a = ev b a')
    {ar : Arith} (har : Suits ar (beliefs.map ops.items)) {c0 c : CG β} {v : ℝ} {lo hi : ℕ → ℝ}
    (h0 : ofBeliefs ar ops beliefs = Except.ok c0) (h1 : calibrateForward ops c0 = Except.ok c)
    (he : LocalErrors ops.items ev c v lo hi) (a : ℤ → ℝ) :
    let total := integral (beliefs.map ops.items).flatten.toFinset
      (fun a => (beliefs.map fun b => ev b a).sum) a
    total ≠ 0 ∧ total ≠ ⊤ ∧
      ∑ k ∈ Finset.range c.clusters.length, lo k ≤ v - Real.log total.toReal ∧
      v - Real.log total.toReal ≤ ∑ k ∈ Finset.range c.clusters.length, hi k := by
  have hF : ∀ F ∈ beliefs.map ops.items, F.Nodup := by
    intro F hF
    obtain ⟨b, hbm, rfl⟩ := List.mem_map.mp hF
    exact L.nodup b (hb b hbm)
  obtain ⟨B, hf, g1, g2, g3⟩ := har.fits hF
  obtain ⟨c', ec, hB, inv, hE, bss, hl, hp, hk, hj⟩ := ofBeliefs_ok L beliefs hb hf g1 g2 g3
  rw [h0] at ec
  cases ec
  have hpart : ∀ r ∈ c0.clusters, ∃ B : List β, (∀ b ∈ B, b ∈ beliefs) ∧
      (∀ b ∈ B, ∀ x ∈ ops.items b, x ∈ ops.items r) ∧ ∀ a, ev r a = (B.map fun b => ev b a).sum := by
    intro r hr
    obtain ⟨k, hkc, rfl⟩ := List.mem_iff_getElem.mp hr
    have hkb : k < bss.length := by rw [hl]; exact hkc
    obtain ⟨p1, -, p3⟩ := hk k _ _ (List.getElem?_eq_getElem hkc) (List.getElem?_eq_getElem hkb)
    exact ⟨_, fun b hbm => hp.mem_iff.mp (List.mem_flatten.mpr ⟨_, List.getElem_mem hkb, hbm⟩), p1, p3⟩
  have key := forward_close L hB inv hE (fun r hr => by
      obtain ⟨B, q1, -, q3⟩ := hpart r hr
      rw [show ev r = _ from funext q3]
      exact sum_measurable fun b hbm => hmeas b (q1 b hbm)) (fun r hr a a' haa => by
      obtain ⟨B, q1, q2, q3⟩ := hpart r hr
      rw [q3, q3]
      congr 1
      exact List.map_congr_left fun b hbm => hloc b (q1 b hbm) a a' fun x hx => haa x (q2 b hbm x hx))
    h1 (fun k e1 e2 a => he.edge k e1 e2 a) (v := v) (fun h a => he.last h a) a
  refine within_log ?_
  have hw : integral (beliefs.map ops.items).flatten.toFinset
      (fun a => (beliefs.map fun b => ev b a).sum) a =
      integ (beliefs.map ops.items).flatten.toFinset (wt (joint ev c0)) a := by
    rw [show joint ev c0 = _ from funext hj]
    rfl
  rw [hw]
  exact key

/-- C82 with one bound for all local errors. -/
theorem c82_uniform (L : Laws ops WF ev) (beliefs : List β) (hb : ∀ b ∈ beliefs, WF b)
    (hmeas : ∀ b ∈ beliefs, Measurable (ev b))
    (hloc : ∀ b ∈ beliefs, ∀ a a' : ℤ → ℝ, (∀ x ∈ ops.items b, a x = a' x) → ev b a = ev b a')
    {ar : Arith} (har : Suits ar (beliefs.map ops.items)) {c0 c : CG β} {v ε : ℝ}
    (h0 : ofBeliefs ar ops beliefs = Except.ok c0) (h1 : calibrateForward ops c0 = Except.ok c)
    (he : LocalErrors ops.items ev c v (fun _ => -ε) fun _ => ε) (a : ℤ → ℝ) :
    |v - Real.log (integral (beliefs.map ops.items).flatten.toFinset
      (fun a => (beliefs.map fun b => ev b a).sum) a).toReal| ≤ c.clusters.length * ε := by
  obtain ⟨-, -, h2, h3⟩ := c82 L beliefs hb hmeas hloc har h0 h1 he a
  rw [Finset.sum_const, Finset.card_range, nsmul_eq_mul] at h2 h3
  exact abs_le.mpr ⟨by linarith, h3⟩

/-! ## Rules with known accuracy -/

/-- Every margin that is returned is the integral up to a factor between `exp lo` and `exp hi`, and so
is the normalising constant. -/
structure RuleErrors (ops : Ops β) (WF : β → Prop) (ev : β → (ℤ → ℝ) → ℝ) (lo hi : ℝ) : Prop where
  margin : ∀ b l r, WF b → l.Nodup → (∀ x ∈ l, x ∈ ops.items b) →
    ops.margin b l false = Except.ok r → ∀ a,
      Within lo hi (integral ((ops.items b).toFinset \ l.toFinset) (ev b) a)
        (ENNReal.ofReal (Real.exp (ev r a)))
  logNorm : ∀ b v, WF b → ops.logNorm b = Except.ok v → ∀ a,
    Within lo hi (integral (ops.items b).toFinset (ev b) a) (ENNReal.ofReal (Real.exp v))

/-- The messages in the final graph are margins of the clusters in the final graph. -/
theorem forward_margins (L : Laws ops WF ev) {factors : List (List ℤ)} {c0 : CG β}
    (hB : Built ops factors c0) : ∀ (n k : ℕ) (c c' : CG β), MsgInv ops WF c →
    c.edges.map (fun e => (e.first, e.second)) = c0.edges.map (fun e => (e.first, e.second)) →
    (List.range' k n).foldlM (fun c k => passMessage ops c k true false) c = Except.ok c' →
    MsgInv ops WF c' ∧ c'.edges.length = c.edges.length ∧
    c'.clusters.length = c.clusters.length ∧
    ∀ l, k ≤ l → l < k + n → ∀ (h1 : l < c'.clusters.length) (h2 : l < c'.edges.length),
      ∃ s, s.Nodup ∧ (∀ x ∈ s, x ∈ ops.items c'.clusters[l]) ∧
        ops.margin c'.clusters[l] s false = Except.ok c'.edges[l].belief
  | 0, k, c, c', inv, _, h => by
    cases h
    exact ⟨inv, rfl, rfl, fun l h1 h2 => absurd h1 (by omega)⟩
  | n + 1, k, c, c', inv, hf, h => by
    rw [List.range'_succ, List.foldlM_cons] at h
    rcases hp : passMessage ops c k true false with err | c1
    · rw [hp] at h; cases h
    rw [hp] at h
    simp only [res_ok_bind] at h
    obtain ⟨inv1, hf1, k1, k2⟩ := passMessage_keeps L hB inv hf hp
    obtain ⟨r1, r2⟩ := forward_keeps L hB n (k + 1) c1 c' inv1 hf1 h
    obtain ⟨hke, i, j, hi, hj, b, r, hends, hsub, hm, hbw, hrw, hri, hrv, hc1, hc2, -⟩ :=
      passMessage_form L inv hp
    obtain ⟨inv2, l1, l2, h2⟩ := forward_margins L hB n (k + 1) c1 c' inv1 hf1 h
    refine ⟨inv2, l1.trans (by rw [hc2, List.length_set]), l2.trans (by rw [hc1, List.length_set]),
      fun l hl hl' e1 e2 => ?_⟩
    rcases Nat.lt_or_ge k l with hkl | hkl
    · exact h2 l (by omega) (by omega) e1 e2
    have : l = k := by omega
    subst this
    have hlen : c.edges.length = c0.edges.length := by
      simpa using congrArg List.length hf
    obtain ⟨hfi, p, hkp, hpn, hs, -⟩ := hB.edge l (by omega)
    have hend : c.edges[l].first = c0.edges[l].first := by
      have h1 := congrArg (fun l' => l'[l]?) hf
      have : (c.edges[l].first, c.edges[l].second) = (c0.edges[l].first, c0.edges[l].second) := by
        simpa [hke, hlen ▸ hke] using h1
      exact congrArg Prod.fst this
    have hil : i = l := by
      rw [ClusterGraph.ends, if_pos rfl, hend, hfi] at hends
      simp only [Prod.mk.injEq, Nat.cast_inj] at hends
      exact hends.1.symm
    subst hil
    have q1 := (r1 i (by omega)).trans (k1 i le_rfl)
    have q2 := r2 i (by omega)
    rw [List.getElem?_eq_getElem e1, List.getElem?_eq_getElem hi] at q1
    rw [List.getElem?_eq_getElem e2, hc2, List.getElem?_set_self hke] at q2
    rw [Option.some.inj q1, Option.some.inj q2]
    exact ⟨_, L.nodup _ (inv.wfE _ (List.getElem_mem hke)), hsub, hm⟩

/-- C82 for a rule whose margins are all accurate: the error of the value is at most the number of
clusters times that of the rule. (With `lo = hi = 0` this is C18.) -/
theorem c82_rule (L : Laws ops WF ev) {lo hi : ℝ} (R : RuleErrors ops WF ev lo hi) (beliefs : List β)
    (hb : ∀ b ∈ beliefs, WF b) (hmeas : ∀ b ∈ beliefs, Measurable (ev b))
    (hloc : ∀ b ∈ beliefs, ∀ a a' : ℤ → ℝ, (∀ x ∈ ops.items b, a x = a' x) → ev b a = ev b a')
    {ar : Arith} (har : Suits ar (beliefs.map ops.items)) {c0 c : CG β} {v : ℝ}
    (h0 : ofBeliefs ar ops beliefs = Except.ok c0) (h1 : calibrateForward ops c0 = Except.ok c)
    (h2 : logNormalizingConstant ops c = Except.ok v) (a : ℤ → ℝ) :
    let total := integral (beliefs.map ops.items).flatten.toFinset
      (fun a => (beliefs.map fun b => ev b a).sum) a
    total ≠ 0 ∧ total ≠ ⊤ ∧ c0.clusters.length * lo ≤ v - Real.log total.toReal ∧
      v - Real.log total.toReal ≤ c0.clusters.length * hi := by
  have hF : ∀ F ∈ beliefs.map ops.items, F.Nodup := by
    intro F hF
    obtain ⟨b, hbm, rfl⟩ := List.mem_map.mp hF
    exact L.nodup b (hb b hbm)
  obtain ⟨B, hf, g1, g2, g3⟩ := har.fits hF
  obtain ⟨c', ec, hB, inv, hE, -⟩ := ofBeliefs_ok L beliefs hb hf g1 g2 g3
  rw [h0] at ec
  cases ec
  have h1' := h1
  rw [calibrateForward, calibrateInternal] at h1'
  simp only [if_true] at h1'
  rw [List.range_eq_range'] at h1'
  obtain ⟨inv', l1, l2, hmar⟩ := forward_margins L hB c0.edges.length 0 c0 c inv rfl h1'
  have hlen : c.clusters.length = c.edges.length + 1 := by rw [l1, l2, hB.len]
  have hw : ∀ {s t : Finset ℤ} {f : (ℤ → ℝ) → ℝ} {a : ℤ → ℝ} {y}, s = t →
      Within lo hi (integral s f a) y → Within lo hi (integral t f a) y := by
    rintro s _ f a y rfl h
    exact h
  have := c82 L beliefs hb hmeas hloc har h0 h1 (v := v) (lo := fun _ => lo) (hi := fun _ => hi)
    ⟨fun k e1 e2 a => by
      obtain ⟨s, n1, n2, n3⟩ := hmar k (by omega) (by omega) e1 e2
      have hwf := inv'.wfC _ (List.getElem_mem e1)
      refine hw ?_ (R.margin _ s _ hwf n1 n2 n3 a)
      congr 1
      ext x
      rw [List.mem_toFinset, List.mem_toFinset, (L.margin_items _ _ _ _ hwf n1 n2 n3).2 x], fun h a => by
      rw [logNormalizingConstant,
        show ((c.clusters.length : ℤ) - 1) = ((c.edges.length : ℕ) : ℤ) by
          rw [hlen]; push_cast; ring, atZ_ok h] at h2
      exact R.logNorm _ _ (inv'.wfC _ (List.getElem_mem h)) h2 a⟩ a
  rw [l2] at this
  simpa only [Finset.sum_const, Finset.card_range, nsmul_eq_mul] using this

/-! ## A rule with errors: each integral is off by the factor `exp δ` -/

theorem within_mul (δ : ℝ) {x : ℝ≥0∞} {w : ℝ} (h : ENNReal.ofReal (Real.exp w) = x) :
    Within δ δ x (ENNReal.ofReal (Real.exp (w + δ))) := by
  rw [← h, Within, add_comm, Real.exp_add, ENNReal.ofReal_mul (Real.exp_pos _).le]
  exact ⟨le_rfl, le_rfl⟩

theorem noisyOps_errors (δ : ℝ) : RuleErrors (noisyOps δ) ExactWF Prod.snd δ δ where
  margin b l r hb hl hs h a := by
    obtain ⟨r', e, h'⟩ := SR.bind_ok h
    cases Except.ok.inj h'
    exact within_mul δ (exactOps_exact.margin_exact b l r' hb hl hs e a)
  logNorm b v hb h a := by
    obtain ⟨r', e, h'⟩ := SR.bind_ok h
    cases Except.ok.inj h'
    exact within_mul δ (exactOps_exact.logNorm_exact b r' hb e a)

/-- The bound of C82 is attained: when each integral is off by the factor `exp δ`, the error of the
value is the number of clusters times `δ`. -/
theorem c82_attained (δ : ℝ) (beliefs : List (List ℤ × ((ℤ → ℝ) → ℝ)))
    (hb : ∀ b ∈ beliefs, ExactWF b) {ar : Arith} (har : Suits ar (beliefs.map Prod.fst))
    {c0 c : CG (List ℤ × ((ℤ → ℝ) → ℝ))} {v : ℝ}
    (h0 : ofBeliefs ar (noisyOps δ) beliefs = Except.ok c0)
    (h1 : calibrateForward (noisyOps δ) c0 = Except.ok c)
    (h2 : logNormalizingConstant (noisyOps δ) c = Except.ok v) :
    v = Real.log (integral (beliefs.map Prod.fst).flatten.toFinset
      (fun a => (beliefs.map fun b => b.2 a).sum) 0).toReal + c0.clusters.length * δ := by
  obtain ⟨-, -, h3, h4⟩ := c82_rule (noisyOps_laws δ) (noisyOps_errors δ) beliefs hb
    (fun b hbm => (hb b hbm).meas) (fun b hbm => (hb b hbm).local_) har h0 h1 h2 0
  have := le_antisymm h3 h4
  show v = Real.log (integral _ _ 0).toReal + _
  have e : integral (beliefs.map (noisyOps δ).items).flatten.toFinset
      (fun a => (beliefs.map fun b => b.2 a).sum) 0 = integral (beliefs.map Prod.fst).flatten.toFinset
      (fun a => (beliefs.map fun b => b.2 a).sum) 0 := rfl
  rw [e] at this
  linarith

/-- Four factors on a 4-cycle, with 32-bit integers: when each integral is too large by one percent,
the computed value exceeds the logarithm of the integral over all four items by `log 1.01` for each
cluster. -/
example : ∃ c0 c v, ofBeliefs i32 (noisyOps (Real.log 1.01)) cycle = Except.ok c0 ∧
    calibrateForward (noisyOps (Real.log 1.01)) c0 = Except.ok c ∧
    logNormalizingConstant (noisyOps (Real.log 1.01)) c = Except.ok v ∧
    v = Real.log (integral {1, 2, 3, 4} (fun a => (cosPair 1 2).2 a + (cosPair 2 3).2 a +
      (cosPair 4 3).2 a + (cosPair 1 4).2 a) 0).toReal + c0.clusters.length * Real.log 1.01 := by
  obtain ⟨hw, har, c0, c, v, h0, h1, h2⟩ := cycle_runs (Real.log 1.01)
  refine ⟨c0, c, v, h0, h1, h2, ?_⟩
  have e1 : (cycle.map Prod.fst).flatten.toFinset = ({1, 2, 3, 4} : Finset ℤ) := by
    simp only [cycle, cosPair, List.map_cons, List.map_nil]
    decide
  have e2 : (fun a : ℤ → ℝ => (cycle.map fun b => b.2 a).sum) = fun a => (cosPair 1 2).2 a +
      (cosPair 2 3).2 a + (cosPair 4 3).2 a + (cosPair 1 4).2 a := by
    funext a
    simp only [cycle, List.map_cons, List.map_nil, List.sum_cons, List.sum_nil, add_zero]
    ring
  have := c82_attained _ cycle hw har h0 h1 h2
  rwa [e1, e2] at this

end Verif.ClusterGraph
