import Verif.Proofs.ClusterExact
import Verif.Props.ClusterGraph

/-!
# C18: sequential reduction is exact when local integrals are exact
-/
namespace Verif.ClusterGraph

open Verif.Items Verif.DepGraph MeasureTheory
open scoped ENNReal

variable {β : Type}

/-- C18: if every margin that is returned is the exact integral over the items left out, and the
normalising constant of a belief the exact integral over all its items, then whatever forward
sweep runs through, the value read off the last cluster is the log of the integral, over all
items, of the product of all input factors. -/
theorem c18_exact {ops : Ops β} {WF : β → Prop} {ev : β → (ℤ → ℝ) → ℝ} (L : Laws ops WF ev)
    (X : ExactLaws ops WF ev) (beliefs : List β) (hb : ∀ b ∈ beliefs, WF b) {ar : Arith}
    (har : Suits ar (beliefs.map ops.items)) {c0 c : CG β} {v : ℝ}
    (h0 : ofBeliefs ar ops beliefs = Except.ok c0)
    (h1 : calibrateForward ops c0 = Except.ok c)
    (h2 : logNormalizingConstant ops c = Except.ok v) (a : ℤ → ℝ) :
    ENNReal.ofReal (Real.exp v) =
      lmarginal (fun _ => (volume : Measure ℝ)) (beliefs.map ops.items).flatten.toFinset
        (fun a => ENNReal.ofReal (Real.exp (beliefs.map fun b => ev b a).sum)) a := by
  have hF : ∀ F ∈ beliefs.map ops.items, F.Nodup := by
    intro F hF
    obtain ⟨b, hbm, rfl⟩ := List.mem_map.mp hF
    exact L.nodup b (hb b hbm)
  obtain ⟨B, hf, g1, g2, g3⟩ := har.fits hF
  obtain ⟨c, ec, hB, inv, hE, bss, hl, hp, hk, hj⟩ := ofBeliefs_ok L beliefs hb hf g1 g2 g3
  rw [h0] at ec
  cases ec
  rw [forward_exact L X hB inv hE h1 h2 a]
  congr 1
  funext a
  rw [wt, hj a]

/-! ## A belief type meeting the hypotheses: functions with exact integration -/

/-- Exact integration over the items `s`, as a log value. -/
noncomputable def logInteg (s : Finset ℤ) (f : (ℤ → ℝ) → ℝ) (a : ℤ → ℝ) : ℝ :=
  Real.log (integ s (wt f) a).toReal

open Classical in
/-- Beliefs are arbitrary log functions; margins are exact integrals, refused when some value is
infinite or zero. -/
noncomputable def exactOps : Ops (List ℤ × ((ℤ → ℝ) → ℝ)) where
  items := Prod.fst
  ofItems l := (l, fun _ => 0)
  mul b d := .ok (b.1, fun a => b.2 a + d.2 a)
  div b d := .ok (b.1, fun a => b.2 a - d.2 a)
  margin b l _ :=
    if ∀ a, integ (b.1.toFinset \ l.toFinset) (wt b.2) a ≠ ⊤ ∧
        integ (b.1.toFinset \ l.toFinset) (wt b.2) a ≠ 0 then
      .ok (l, logInteg (b.1.toFinset \ l.toFinset) b.2)
    else Res.raise "no finite integral"
  logNorm b :=
    if integ b.1.toFinset (wt b.2) 0 ≠ ⊤ ∧ integ b.1.toFinset (wt b.2) 0 ≠ 0 then
      .ok (logInteg b.1.toFinset b.2 0)
    else Res.raise "no finite integral"
  isProper _ := .ok true

/-- Well-formed: duplicate-free items, measurable, depending only on its own items. -/
structure ExactWF (b : List ℤ × ((ℤ → ℝ) → ℝ)) : Prop where
  nodup : b.1.Nodup
  meas : Measurable b.2
  local_ : ∀ a a' : ℤ → ℝ, (∀ x ∈ b.1, a x = a' x) → b.2 a = b.2 a'

theorem integ_local {s : Finset ℤ} {l : List ℤ} {b : List ℤ × ((ℤ → ℝ) → ℝ)} (hb : ExactWF b)
    (hs : ∀ x ∈ b.1, x ∉ s → x ∈ l) {a a' : ℤ → ℝ} (h : ∀ x ∈ l, a x = a' x) :
    integ s (wt b.2) a = integ s (wt b.2) a' := by
  simp only [integ, lmarginal]
  refine lintegral_congr fun y => ?_
  rw [wt, wt, hb.local_ _ _ fun x hx => ?_]
  by_cases hxs : x ∈ s
  · simp [Function.updateFinset, hxs]
  · simp [Function.updateFinset, hxs, h x (hs x hx hxs)]

theorem exactOps_laws : Laws exactOps ExactWF Prod.snd where
  items_ofItems _ := rfl
  ofItems_wf _ h := ⟨h, measurable_const, fun _ _ _ => rfl⟩
  ofItems_ev _ _ := rfl
  nodup _ h := h.nodup
  mul_ok b d hb hd hsub := ⟨_, rfl, ⟨hb.nodup, hb.meas.add hd.meas, fun a a' h => by
    show b.2 a + d.2 a = b.2 a' + d.2 a'
    rw [hb.local_ a a' h, hd.local_ a a' fun x hx => h x (hsub x hx)]⟩, rfl, fun _ => rfl⟩
  div_ok b d hb hd hsub := ⟨_, rfl, ⟨hb.nodup, hb.meas.sub hd.meas, fun a a' h => by
    show b.2 a - d.2 a = b.2 a' - d.2 a'
    rw [hb.local_ a a' h, hd.local_ a a' fun x hx => h x (hsub x hx)]⟩, rfl, fun _ => rfl⟩
  margin_items b l _ r hb hl _ h := by
    simp only [exactOps] at h
    split at h
    · cases h
      refine ⟨⟨hl, ?_, fun a a' haa => ?_⟩, fun _ => Iff.rfl⟩
      · exact ((wt_measurable hb.meas).lmarginal _).ennreal_toReal.log
      · show logInteg _ _ _ = logInteg _ _ _
        rw [logInteg, logInteg, integ_local hb (fun x hx hxs => ?_) haa]
        simp only [Finset.mem_sdiff, List.mem_toFinset, not_and, not_not] at hxs
        exact hxs hx
    · cases h

theorem exactOps_exact : ExactLaws exactOps ExactWF Prod.snd where
  local_ _ hb := hb.local_
  meas _ hb := hb.meas
  margin_exact b l r _ _ _ h a := by
    simp only [exactOps] at h
    split at h
    · rename_i hfin
      cases h
      show ENNReal.ofReal (Real.exp (logInteg _ _ _)) = _
      rw [logInteg, Real.exp_log (ENNReal.toReal_pos (hfin a).2 (hfin a).1),
        ENNReal.ofReal_toReal (hfin a).1]
      rfl
    · cases h
  logNorm_exact b v hb h a := by
    simp only [exactOps] at h
    split at h
    · rename_i hfin
      cases h
      rw [logInteg, Real.exp_log (ENNReal.toReal_pos hfin.2 hfin.1),
        ENNReal.ofReal_toReal hfin.1]
      exact integ_local (l := []) hb (fun x hx hxs => absurd (List.mem_toFinset.mpr hx) hxs)
        (by simp)
    · cases h

end Verif.ClusterGraph
