import Verif.Proofs.SRLaplaceDet
import Verif.Proofs.SRRun

/-! The whole of `computeLogNormalizingConstant` with one quadrature point at zero and grids of
level 0. -/
namespace Verif.SR

open Verif.Gauss Verif.Belief Verif.ClusterGraph Verif.Store Verif.Pars Verif.Items Verif.TreeForms Matrix

variable {lib : Lib} {pars : Parameters} {N : ℕ} {mean : Fin N → ℝ} {Q : Matrix (Fin N) (Fin N) ℝ}

theorem marginal_precision {b : NB} (hm : IsMarginal mean Q b) :
    b.normal.precision = (vm (mz Q⁻¹) b.items)⁻¹ := by
  obtain ⟨e, he, -, h⟩ := hm
  rw [h, vm_global he]

theorem marginal_bil {b : NB} (hm : IsMarginal mean Q b) (a : ℤ → ℝ) :
    bil b a a = qf (mz Q⁻¹) b.items a := by
  rw [bil, qf, marginal_precision hm]

theorem marginal_margOf {b : NB} (hQ : Q.PosDef) (hm : IsMarginal mean Q b)
    (hg : Good (vz mean) b) (hv : b.normal.variance = b.normal.precision⁻¹)
    (hn : b.items.Nodup) (hr : ∀ x ∈ b.items, 0 ≤ x ∧ x < N) :
    MargOf (vz mean) (mz Q⁻¹) b := by
  have hp := marginal_precision hm
  refine ⟨hg.mean, ?_, by rw [hg.nrm, hp], hg.nc⟩
  rw [hv, hp, Matrix.nonsing_inv_nonsing_inv]
  exact (vm_posDef hQ.inv hn hr).det_pos.ne'.isUnit

/-- The logarithm of the normalizing constant of a marginal is not exactly zero. -/
def NoZeroNormalizer (Q : Matrix (Fin N) (Fin N) ℝ) : Prop :=
  ∀ (m : ℕ) (e : Fin (m + 1) → Fin N), Function.Injective e →
    Real.log (Q⁻¹.submatrix e e).det ≠ -(2 * (m + 1) * logSqrtTwoPi)

theorem regular_of (hQ : Q.PosDef) (h : NoZeroNormalizer Q) :
    Regular (fun x => 0 ≤ x ∧ x < N) (mz Q⁻¹) := by
  intro l hn hr
  have pd := vm_posDef hQ.inv hn hr
  refine ⟨pd, fun h0 => ?_⟩
  obtain ⟨e, he⟩ := exists_idx hr
  have hinj := idx_inj hn he
  rw [normalizerOf, if_pos pd.inv.det_pos, det_nonsing_inv, Ring.inverse_eq_inv', Real.log_inv,
    vm_global he]
  intro h1
  have h1 := Option.some.inj h1
  obtain ⟨m, hm⟩ := Nat.exists_eq_succ_of_ne_zero
    (show l.length ≠ 0 from fun h => h0 (List.length_eq_zero_iff.mp h))
  have key : ∀ {k : ℕ} (hk : k = m + 1) (e : Fin k → Fin N), Function.Injective e →
      Real.log (Q⁻¹.submatrix e e).det ≠ -(2 * (m + 1) * logSqrtTwoPi) := by
    rintro k rfl e he
    exact h m e he
  refine key hm e hinj ?_
  have h2 : (l.length : ℝ) = m + 1 := by rw [hm]; push_cast; ring
  rw [h2] at h1
  linarith

theorem laplace_run (lib : Lib) {pars : Parameters} {W : ℝ}
    (hr : CentreRule pars.quadratureRule W)
    (hg : CentreGrid lib pars fun x => 0 ≤ x ∧ x < N)
    {beliefs : List (Mixed Factor NB)}
    (hb : ∀ b ∈ beliefs, WFn (Factor.ops lib pars) (Tot (Factor.ops lib pars)) b)
    (hcov : ∀ x : ℤ, (∃ b ∈ beliefs, x ∈ b.items) ↔ 0 ≤ x ∧ x < N)
    (har : Suits lib.ar (beliefs.map Mixed.items))
    (hQ : Q.PosDef) (hz : ∀ i j : Fin N, Q i j ≠ 0 →
      ∃ b ∈ beliefs, ((i : ℕ) : ℤ) ∈ b.items ∧ ((j : ℕ) : ℤ) ∈ b.items)
    (hl : NoZeroNormalizer Q) :
    ∃ c, ofBeliefs lib.ar (ops lib pars) beliefs = Except.ok c ∧
      (computeLogNormalizingConstant lib pars c mean Q =
          Res.raise "improper cluster belief after passing message" ∨
        computeLogNormalizingConstant lib pars c mean Q = Except.ok
          ((beliefs.map fun b => val lib pars b (vz mean)).sum + N * Real.log (Real.sqrt 2 * W) -
            1 / 2 * Real.log Q.det)) := by
  classical
  set fo := Factor.ops lib pars with hfo
  have L := tot_laws fo
  set st0 : Belief.Store Factor NB := fun _ _ _ _ _ _ => Res.ub with hst0
  have hst : StoreLaw fo (Tot fo) st0 := by
    intro k f d h n l g _ h
    cases h
  have hF : ∀ F ∈ beliefs.map (Mixed.ops fo NB.ops st0).items, F.Nodup := by
    intro F hF
    obtain ⟨b, hbm, rfl⟩ := List.mem_map.mp hF
    exact (hb b hbm).wf.nodup
  obtain ⟨B, hf, g1, g2, g3⟩ := Suits.fits har hF
  obtain ⟨c, ec, hB, inv, -⟩ := ofBeliefs_ok (normal_laws L hst fun _ => 0) beliefs hb hf g1 g2 g3
  obtain ⟨c_, ec_, -, -, hedge, bss, hbl, hbp, hbc, -⟩ := ofBeliefs_ok (mixed_laws L nb_laws hst)
    beliefs (fun b hbm => (hb b hbm).wf) hf g1 g2 g3
  rw [ec] at ec_
  cases ec_
  refine ⟨c, (ofBeliefs_store fo NB.ops _ st0 lib.ar beliefs).trans ec, ?_⟩
  have hcl : ∀ k (hk : k < c.clusters.length), cl (Mixed.ops fo NB.ops st0) c k =
      c.clusters[k].items := by
    intro k hk
    simp only [cl, List.getElem?_eq_getElem hk]
    rfl
  have hocc : ∀ x, Occurs c x ↔ 0 ≤ x ∧ x < N := by
    intro x
    rw [← hcov x]
    constructor
    · rintro ⟨b, hbm, hx⟩
      obtain ⟨k, hk, rfl⟩ := List.mem_iff_getElem.mp hbm
      obtain ⟨l, hl, hxl⟩ := (hB.items x).mp ⟨k, by rw [hcl k hk]; exact hx⟩
      obtain ⟨b', hb', rfl⟩ := List.mem_map.mp hl
      exact ⟨b', hb', hxl⟩
    · rintro ⟨b, hbm, hx⟩
      obtain ⟨k, hk⟩ := (hB.items x).mpr ⟨_, List.mem_map_of_mem hbm, hx⟩
      by_cases hkl : k < c.clusters.length
      · exact ⟨_, List.getElem_mem hkl, by rwa [hcl k hkl] at hk⟩
      · rw [cl_ge _ (by omega)] at hk
        simp at hk
  have hz' : ZeroApart Q c := by
    intro i j hi hj hn
    by_contra h0
    obtain ⟨b, hbm, h1, h2⟩ := hz i j h0
    obtain ⟨B', hB', hbB⟩ := List.mem_flatten.mp (hbp.mem_iff.mpr hbm)
    obtain ⟨k, hk, rfl⟩ := List.mem_iff_getElem.mp hB'
    have hk' : k < c.clusters.length := by rw [← hbl]; exact hk
    have hsub := (hbc k _ _ (List.getElem?_eq_getElem hk') (List.getElem?_eq_getElem hk)).1 b hbB
    exact hn _ (List.getElem_mem hk') ⟨hsub _ h1, hsub _ h2⟩
  -- the values of the clusters
  have hsum : (c.clusters.map fun b => val lib pars b (vz mean)).sum =
      (beliefs.map fun b => val lib pars b (vz mean)).sum := by
    rw [← (hbp.map fun b => val lib pars b (vz mean)).sum_eq, List.map_flatten, List.sum_flatten,
      List.map_map]
    congr 1
    refine List.ext_getElem (by simp [hbl]) fun k h1 h2 => ?_
    simp only [List.getElem_map, Function.comp]
    have hk : k < c.clusters.length := by simpa using h1
    have hk' : k < bss.length := by rw [hbl]; exact hk
    exact (hbc k _ _ (List.getElem?_eq_getElem hk) (List.getElem?_eq_getElem hk')).2.2 (vz mean)
  obtain ⟨p, hs⟩ := Built.exists_shape rfl hB
  generalize hn : c.edges.length = n at hs
  generalize hCdef : (fun k => {x | x ∈ cl (Mixed.ops fo NB.ops st0) c k}) = C at hs
  generalize hSdef : (fun k => {x | x ∈ sp (Mixed.ops fo NB.ops st0) c.edges k}) = S at hs
  have hr' : ∀ x ∈ covered n C, 0 ≤ x ∧ x < N :=
    fun x hx => (hocc x).mp ((occurs_iff hs x).mpr hx)
  have hall : ∀ i : Fin N, ((i : ℕ) : ℤ) ∈ covered n C := fun i =>
    (occurs_iff hs _).mp ((hocc _).mpr ⟨by omega, by omega⟩)
  have hve : ∀ l a, ve fo (fval fo) c l a = 0 := by
    intro l a
    rw [ve]
    rcases he : c.edges[l]? with _ | e
    · rfl
    · exact hedge e (List.mem_of_getElem? he) a
  rw [computeLogNormalizingConstant, setNormalApprox_store _ (store lib pars) st0]
  rcases set_run (mean := mean) (good := fun _ => True) L hst hs inv hr' hQ
    (compatible_of hs hz') hve (fun _ _ _ _ _ _ _ => trivial) with ⟨c2, I, hv2, he2, h⟩ | ⟨-, h⟩
  swap
  · rw [h]
    exact Or.inl rfl
  obtain ⟨mC, mE⟩ := c60_marginals L hst hB inv hocc hQ hz' h
  rw [h]
  simp only [res_ok_bind]
  set c' : CG (Mixed Factor NB) := ⟨c2.clusters.map Mixed.fixNormalApprox,
        c2.edges.map fun e => ⟨e.first, e.second, e.belief.fixNormalApprox⟩⟩ with hc'
  have hlC : c'.clusters.length = n + 1 := by simp [hc', I.shape.lenC]
  have hlE : c'.edges.length = n := by simp [hc', I.shape.lenE]
  have hcit : ∀ k (hk : k < c2.clusters.length), cit (ops lib pars) c' k = c2.clusters[k].items := by
    intro k hk
    rw [cit_eq (by simpa [hc'] using hk)]
    simp only [hc', List.getElem_map]
    rfl
  have heit : ∀ k (hk : k < c2.edges.length),
      eit (ops lib pars) c' k = c2.edges[k].belief.items := by
    intro k hk
    rw [eit_eq (by simpa [hc'] using hk)]
    simp only [hc', List.getElem_map]
    rfl
  have hCl : ∀ b ∈ c'.clusters, Cl lib pars (fun x => 0 ≤ x ∧ x < N) (vz mean) (mz Q⁻¹) b ∧
      b.isNormalFixed = true := by
    intro b hbm
    have hm := mC b hbm
    obtain ⟨b', hb', rfl⟩ := List.mem_map.mp hbm
    obtain ⟨k, hk, rfl⟩ := List.mem_iff_getElem.mp hb'
    have hkn : k ≤ n := by rw [I.shape.lenC] at hk; omega
    have hw := I.inv.wfC _ hb'
    have hrng : ∀ x ∈ c2.clusters[k].items, 0 ≤ x ∧ x < N := fun x hx =>
      hr' x ⟨k, hkn, (I.shape.itemsC k hk x).mp hx⟩
    refine ⟨⟨wf_fix (wfAt_of_tot hw.wf _), ?_, hrng⟩, rfl⟩
    refine marginal_margOf (b := c2.clusters[k].normalApprox) hQ hm (I.goodC _ hb') (I.varC _ hb')
      hw.wf.normalWF.nodup ?_
    rw [wfn_items hw]
    exact hrng
  have hEd : ∀ e ∈ c'.edges, WFAt fo NB.ops NWF (vz mean) e.belief := by
    intro e he
    obtain ⟨e', he', rfl⟩ := List.mem_map.mp he
    exact wf_fix (wfAt_of_tot (I.inv.wfE e' he').wf _)
  have hChain : ChainSub (ops lib pars) c' := by
    refine ⟨by rw [hlC, hlE], fun k hk => ?_⟩
    have hk2 : k < c2.edges.length := by simpa [hc'] using hk
    have hkn : k < n := by rw [← I.shape.lenE]; exact hk2
    obtain ⟨h1, h2⟩ := I.shape.ends k hk2
    have h3 := hs.tree.lt k hkn
    have hkC : k < c2.clusters.length := by rw [I.shape.lenC]; omega
    have hpC : p k < c2.clusters.length := by rw [I.shape.lenC]; omega
    refine ⟨by simpa [hc'] using h1, p k, by simpa [hc'] using h2, h3.1, by rw [hlC]; omega,
      fun x hx => ?_, fun x hx => ?_⟩
    · rw [heit k hk2, I.shape.itemsE k hk2] at hx
      rw [hcit k hkC, I.shape.itemsC k hkC]
      obtain ⟨v, -, hv2, -⟩ := hs.tree.elim k hkn
      exact (hv2 x).mpr (Or.inr hx)
    · rw [heit k hk2, I.shape.itemsE k hk2] at hx
      rw [hcit (p k) hpC, I.shape.itemsC (p k) hpC]
      exact hs.tree.sub k hkn x hx
  rcases at_total (centre_laws (μ := vz mean) hr hg (regular_of hQ hl)) hChain hCl hEd with hh | hh
  · exact Or.inl hh
  right
  refine hh.trans ?_
  congr 1
  have hdet := sum_lapTau (Lc := cit (ops lib pars) c') (Ls := eit (ops lib pars) c') hQ hs.tree
    (fun k hk => by
      have hk' : k < c2.clusters.length := by rw [I.shape.lenC]; omega
      rw [hcit k hk']
      exact (I.inv.wfC _ (List.getElem_mem hk')).wf.nodup)
    (fun k hk => by
      have hk' : k < c2.edges.length := by rw [I.shape.lenE]; omega
      rw [heit k hk']
      exact (I.inv.wfE _ (List.getElem_mem hk')).wf.nodup)
    (fun k hk x => by
      have hk' : k < c2.clusters.length := by rw [I.shape.lenC]; omega
      rw [hcit k hk']
      exact I.shape.itemsC k hk' x)
    (fun k hk x => by
      have hk' : k < c2.edges.length := by rw [I.shape.lenE]; omega
      rw [heit k hk']
      exact I.shape.itemsE k hk' x) hr' hall
    (fun a => by
      have h1 : glob Q (covered n C) a a =
          (fun i : Fin N => a i) ⬝ᵥ (Q *ᵥ fun i : Fin N => a i) := by
        rw [glob]
        have : (fun i : Fin N => if ((i : ℕ) : ℤ) ∈ covered n C then a i else 0) =
            fun i : Fin N => a i := funext fun i => if_pos (hall i)
        rw [this]
      rw [← h1, ← I.tot a, total]
      congr 1
      · refine Finset.sum_congr rfl fun k hk => ?_
        have hk' : k < c2.clusters.length := by rw [I.shape.lenC]; exact Finset.mem_range.mp hk
        have hm := mC _ (List.mem_map_of_mem (List.getElem_mem hk'))
        rw [qc_eq hk', hcit k hk', ← wfn_items (I.inv.wfC _ (List.getElem_mem hk'))]
        exact marginal_bil hm a
      · refine Finset.sum_congr rfl fun k hk => ?_
        have hk' : k < c2.edges.length := by rw [I.shape.lenE]; exact Finset.mem_range.mp hk
        have hm := mE _ (List.mem_map_of_mem (List.getElem_mem hk'))
        rw [qe_eq hk', heit k hk', ← wfn_items (I.inv.wfE _ (List.getElem_mem hk'))]
        exact marginal_bil hm a) (Real.log (Real.sqrt 2 * W))
  have h0 : (c'.edges.map fun e => valAt fo (vz mean) e.belief).sum = 0 := by
    refine List.sum_eq_zero fun v hv => ?_
    obtain ⟨e, he, rfl⟩ := List.mem_map.mp hv
    obtain ⟨e', he', rfl⟩ := List.mem_map.mp he
    obtain ⟨k, hk, rfl⟩ := List.mem_iff_getElem.mp he'
    have := he2 k (vz mean)
    rw [ve, List.getElem?_eq_getElem hk] at this
    exact this
  have h1 : (c'.clusters.map fun b => valAt fo (vz mean) b).sum =
      (c.clusters.map fun b => val lib pars b (vz mean)).sum := by
    congr 1
    have hlen : c2.clusters.length = c.clusters.length := by rw [I.shape.lenC, hs.lenC]
    refine List.ext_getElem (by simp [hc', hlen]) fun k g1 g2 => ?_
    have hk : k < c.clusters.length := by simpa using g2
    have hk2 : k < c2.clusters.length := by rw [hlen]; exact hk
    have := hv2 k (vz mean)
    rw [vc, vc, List.getElem?_eq_getElem hk, List.getElem?_eq_getElem hk2] at this
    simp only [hc', List.getElem_map]
    exact this
  rw [h0, h1, hsum, hlE]
  linarith [hdet]

end Verif.SR
