import Mathlib.LinearAlgebra.Matrix.Gershgorin
import Verif.Proofs.SRRange
import Verif.Props.SRLaplace

/-!
# C99: sequential reduction without undefined behaviour
-/
namespace Verif.SR

open Verif.Gauss Verif.Belief Verif.ClusterGraph Verif.Store Verif.Pars Verif.Split
open Verif.Split.Spec Verif.GLMM Verif.Family Verif.SparseGrid Verif.Point Verif.BasisLevel
open Verif.Spec Verif.Counting Verif.NormalQuantile
open ProbabilityTheory Matrix

variable {q n p : ℕ}

/-! ## Variance inflation -/

/-- The conditional variances given all others bound those given some others. -/
theorem inflation_of {N : ℕ} {Q : Matrix (Fin N) (Fin N) ℝ} (hQ : Q.PosDef) {C : ℝ}
    (h : ∀ i, Q i i * Q⁻¹ i i ≤ C) : Inflation (fun x => 0 ≤ x ∧ x < N) (mz Q⁻¹) C := by
  intro l hn hr i
  have pd := vm_posDef hQ.inv hn hr
  obtain ⟨e, he⟩ := exists_idx hr
  set L : List ℤ := (List.finRange N).map fun i : Fin N => ((i : ℕ) : ℤ) with hL
  have hLn : L.Nodup := (List.nodup_finRange N).map fun a b hab => by
    ext
    exact_mod_cast hab
  have hLr : ∀ x ∈ L, 0 ≤ x ∧ x < N := by
    intro x hx
    obtain ⟨j, -, rfl⟩ := List.mem_map.mp hx
    omega
  have hsub : ∀ x ∈ l, x ∈ L := by
    intro x hx
    obtain ⟨h0, h1⟩ := hr x hx
    exact List.mem_map.mpr ⟨⟨x.toNat, by omega⟩, List.mem_finRange _, by simp [h0]⟩
  obtain ⟨E, hE⟩ := exists_idx hLr
  have hEinj := idx_inj hLn hE
  have hEb : Function.Bijective E :=
    (Fintype.bijective_iff_injective_and_card E).2 ⟨hEinj, by simp [hL]⟩
  set a : ℤ → ℝ := fun x => if x = l[i] then 1 else 0 with ha
  have h1 : qf (mz Q⁻¹) l a = (vm (mz Q⁻¹) l)⁻¹ i i := by
    have : at_ l a = Pi.single i 1 := by
      funext k
      simp only [at_, ha, Pi.single_apply]
      congr 1
      rw [eq_iff_iff]
      constructor
      · intro hk
        ext
        exact hn.getElem_inj_iff.mp hk
      · rintro rfl
        rfl
    rw [qf, this]
    simp
  have h2 : qf (mz Q⁻¹) L a = Q (e i) (e i) := by
    obtain ⟨k, hk⟩ := hEb.2 (e i)
    have hkl : L[k] = l[i] := by rw [← hE k, hk, he i]
    have : at_ L a = Pi.single k 1 := by
      funext j
      simp only [at_, ha, Pi.single_apply]
      congr 1
      rw [eq_iff_iff, ← hkl]
      constructor
      · intro hk
        ext
        exact hLn.getElem_inj_iff.mp hk
      · rintro rfl
        rfl
    rw [qf, this, vm_global hE]
    have hi : (Q⁻¹.submatrix E E)⁻¹ = Q.submatrix E E := by
      have hdet : IsUnit Q.det := hQ.det_pos.ne'.isUnit
      refine inv_eq_right_inv ?_
      have hmul := submatrix_mul_equiv Q⁻¹ Q E (Equiv.ofBijective E hEb) E
      rw [nonsing_inv_mul Q hdet, submatrix_one _ hEinj] at hmul
      exact hmul
    rw [hi]
    simp [hk]
  have h3 := qf_mono hsub pd (vm_posDef hQ.inv hLn hLr) a
  rw [h1, h2] at h3
  have h4 : vm (mz Q⁻¹) l i i = Q⁻¹ (e i) (e i) := by rw [vm_global he]; rfl
  have h5 : 0 < Q⁻¹ (e i) (e i) := hQ.inv.diag_pos
  rw [h4]
  calc Q⁻¹ (e i) (e i) * (vm (mz Q⁻¹) l)⁻¹ i i ≤ Q⁻¹ (e i) (e i) * Q (e i) (e i) :=
        mul_le_mul_of_nonneg_left h3 h5.le
    _ ≤ C := by
        rw [mul_comm]
        exact h _

/-! ## The quadrature points -/

theorem row_sum_le (n : ℕ) (k : Fin n) :
    ∑ j ∈ Finset.univ.erase k, ‖Quad.fromLower (Quad.hermiteJacobi n) k j‖ ≤
      2 * Real.sqrt (n / 2) := by
  set s := Real.sqrt ((n : ℝ) / 2) with hs
  have h0 : 0 ≤ s := Real.sqrt_nonneg _
  have hle : ∀ i : Fin n, Real.sqrt ((i : ℕ) / 2) ≤ s := by
    intro i
    refine Real.sqrt_le_sqrt ?_
    have : ((i : ℕ) : ℝ) ≤ n := by exact_mod_cast i.2.le
    linarith
  have hone : ∀ P : Fin n → Prop, ∀ [DecidablePred P], (∀ a b, P a → P b → a = b) →
      ∑ j : Fin n, (if P j then s else 0) ≤ s := by
    intro P _ hP
    by_cases hex : ∃ a, P a
    · obtain ⟨a, ha⟩ := hex
      rw [Finset.sum_eq_single a]
      · rw [if_pos ha]
      · intro b _ hb
        rw [if_neg fun h => hb (hP b a h ha)]
      · intro h
        exact absurd (Finset.mem_univ a) h
    · push Not at hex
      rw [Finset.sum_eq_zero fun j _ => if_neg (hex j)]
      exact h0
  have hterm : ∀ j : Fin n, ‖Quad.fromLower (Quad.hermiteJacobi n) k j‖ ≤
      (if (k : ℕ) = j + 1 then s else 0) + if (j : ℕ) = k + 1 then s else 0 := by
    intro j
    simp only [Quad.fromLower, Quad.hermiteJacobi, of_apply]
    have hn1 : ∀ i : Fin n, ‖Real.sqrt ((i : ℕ) / 2)‖ ≤ s := fun i => by
      rw [Real.norm_of_nonneg (Real.sqrt_nonneg _)]
      exact hle i
    have hz : ‖(0 : ℝ)‖ = 0 := norm_zero
    have hk := hn1 k
    have hj := hn1 j
    split_ifs <;> first | omega | (rw [hz]; linarith) | linarith
  calc ∑ j ∈ Finset.univ.erase k, ‖Quad.fromLower (Quad.hermiteJacobi n) k j‖
      ≤ ∑ j, ‖Quad.fromLower (Quad.hermiteJacobi n) k j‖ :=
        Finset.sum_le_sum_of_subset_of_nonneg (Finset.erase_subset _ _)
          fun _ _ _ => norm_nonneg _
    _ ≤ ∑ j : Fin n, ((if (k : ℕ) = j + 1 then s else 0) + if (j : ℕ) = k + 1 then s else 0) :=
        Finset.sum_le_sum fun j _ => hterm j
    _ ≤ s + s := by
        rw [Finset.sum_add_distrib]
        refine add_le_add (hone _ fun a b ha hb => ?_) (hone _ fun a b ha hb => ?_)
        · ext
          omega
        · ext
          omega
    _ = 2 * s := by ring

/-- The squares of the nodes are at most twice their number. -/
theorem node_sq_le {n : ℕ} {values : Fin n → ℝ} {vectors : Matrix (Fin n) (Fin n) ℝ}
    (h : Quad.IsEigen (Quad.hermiteJacobi n) values vectors) (j : Fin n) :
    values j ^ 2 ≤ 2 * n := by
  have hne : (fun i => vectors i j) ≠ 0 := by
    intro h0
    have h1 := congrFun (congrFun h.orthogonal j) j
    rw [mul_apply, one_apply_eq, Finset.sum_eq_zero] at h1
    · exact zero_ne_one h1
    · intro i _
      have : vectors i j = 0 := congrFun h0 i
      rw [this, mul_zero]
  have hev : Module.End.HasEigenvalue (toLin' (Quad.fromLower (Quad.hermiteJacobi n)))
      (values j) := by
    refine Module.End.hasEigenvalue_of_hasEigenvector (x := fun i => vectors i j) ⟨?_, hne⟩
    rw [Module.End.mem_eigenspace_iff, toLin'_apply]
    funext i
    have h1 := congrFun (congrFun h.decomposition i) j
    rw [mul_diagonal, mul_apply] at h1
    show ∑ x : Fin n, Quad.fromLower (Quad.hermiteJacobi n) i x * vectors x j = _
    rw [h1, Pi.smul_apply, smul_eq_mul, mul_comm]
  obtain ⟨k, hk⟩ := eigenvalue_mem_ball hev
  have hd : Quad.fromLower (Quad.hermiteJacobi n) k k = 0 := by
    simp [Quad.fromLower, Quad.hermiteJacobi]
  rw [hd, Metric.mem_closedBall, dist_zero_right, Real.norm_eq_abs] at hk
  have h2 := hk.trans (row_sum_le n k)
  have h3 : |values j| ^ 2 ≤ (2 * Real.sqrt (n / 2)) ^ 2 :=
    pow_le_pow_left₀ (abs_nonneg _) h2 2
  rw [sq_abs, mul_pow, Real.sq_sqrt (by positivity)] at h3
  linarith

/-! ## The grids -/

theorem knot_abs {Q : ℝ → ℝ} (hQ : IsNormalQuantile Q) {l L i : ℕ} (hl : l ≤ L) (hL : 1 ≤ L)
    (hL' : L ≤ 25) (hi : i < nTot l) : |tk Q L l i| ≤ scale L * (61 / 10) := by
  have hbw := bandwidth_pos (quantileOk hQ) hL
  have hs := scale_pos L
  have hd : 1 / 2 ^ 26 ≤ dlt L := by
    rw [dlt]
    exact one_div_le_one_div_of_le (by positivity) (pow_le_pow_right₀ (by norm_num) (by omega))
  have h1 := (quantile_abs hQ hl hL hi).trans
    (quantile_top hQ hd (lt_of_le_of_lt (dlt_le L hL) (by norm_num)))
  rw [tk, abs_mul, abs_of_pos hbw, kid]
  calc |(trunc (scale L * Q (prob l i) / bandwidth Q L) : ℝ)| * bandwidth Q L
      ≤ |scale L * Q (prob l i) / bandwidth Q L| * bandwidth Q L :=
        mul_le_mul_of_nonneg_right (abs_trunc_le _) hbw.le
    _ = scale L * |Q (prob l i)| := by
        rw [abs_div, abs_mul, abs_of_pos hbw, abs_of_pos hs, div_mul_cancel₀ _ hbw.ne']
    _ ≤ scale L * (61 / 10) := mul_le_mul_of_nonneg_left h1 hs.le

theorem bandwidth_ge {Q : ℝ → ℝ} (hQ : IsNormalQuantile Q) {L : ℕ} (hL : 1 ≤ L) (hL' : L ≤ 9) :
    (1 : ℝ) / 1000 ≤ bandwidth Q L := by
  have hs := scale_pos L
  have h1 := quantile_lower2 hQ (dlt_pos L) (lt_of_le_of_lt (dlt_le L hL) (by norm_num))
  rw [bandwidth_eq Q hL]
  have h2 : scale L * (2 * dlt L) ≤ scale L * Q (1 / 2 + dlt L) :=
    mul_le_mul_of_nonneg_left h1 hs.le
  have h3 : (1 : ℝ) / 100 ≤ scale L * (2 * dlt L) := by
    rw [scale, dlt]
    interval_cases L <;> norm_num
  linarith

/-- Arguments up to about two million are in the range of the basis. -/
theorem dom_of_sq {Q : ℝ → ℝ} (hQ : IsNormalQuantile Q) {L : ℕ} (hL : 1 ≤ L) (hL' : L ≤ 9) {y : ℝ}
    (hy : y ^ 2 ≤ 5 * 10 ^ 12) : y ∈ Dom u32 Q L := by
  refine dom_u32 (quantileOk hQ) hL ?_
  have h1 := (abs_le.mp (knot_abs hQ (le_refl L) hL (by omega) (i := 0) (by
    have := nTot_add_one L
    have : 2 ^ 1 ≤ 2 ^ (L + 1) := Nat.pow_le_pow_right (by norm_num) (by omega)
    omega))).1
  have h2 := bandwidth_ge hQ hL hL'
  have h3 : scale L ≤ 6 := by
    rw [scale]
    have : (L : ℝ) ≤ 9 := by exact_mod_cast hL'
    have e : (1.0 : ℝ) + L / 2.0 = 1 + L / 2 := by norm_num
    rw [e]
    linarith
  have h4 : y ≤ 3000000 := by
    by_contra hc
    rw [not_le] at hc
    nlinarith
  linarith

theorem size_bound {w k d : ℕ} (hw : w ^ k ≤ 707) (hk : 1 ≤ k) (hk' : k ≤ 9) (hd : d < w) :
    d * (2 + k) ^ 2 ≤ 6354 := by
  have hm : (d + 1) ^ k ≤ 707 := (Nat.pow_le_pow_left (by omega) k).trans hw
  by_cases h1 : k = 1
  · subst h1
    norm_num at hm ⊢
    omega
  have h2 : (d + 1) ^ 2 ≤ 707 := (Nat.pow_le_pow_right (by omega) (by omega)).trans hm
  have h26 : d ≤ 25 := by
    by_contra hc
    have : 27 ^ 2 ≤ (d + 1) ^ 2 := Nat.pow_le_pow_left (by omega) 2
    omega
  interval_cases k
  · omega
  all_goals
    interval_cases d <;> first | omega | norm_num

theorem sum_sq_le {Q : ℝ → ℝ} (hQ : IsNormalQuantile Q) {k d : ℕ} (hk : 1 ≤ k) (hk' : k ≤ 25)
    {ls ps : List ℕ} (h : IsGridPoint d k ls ps) :
    (ptOf (List.zipWith (kap Q k) ls ps) : Fin d → ℝ) ⬝ᵥ ptOf (List.zipWith (kap Q k) ls ps) ≤
      d * (scale k * (61 / 10)) ^ 2 := by
  have hb : ∀ t : Fin d, (ptOf (List.zipWith (kap Q k) ls ps) : Fin d → ℝ) t *
      (ptOf (List.zipWith (kap Q k) ls ps) : Fin d → ℝ) t ≤ (scale k * (61 / 10)) ^ 2 := by
    intro t
    have h1 : (t : ℕ) < ls.length := by rw [h.levels_length]; exact t.2
    have h2 : (t : ℕ) < ps.length := by rw [h.positions_length]; exact t.2
    have e : (ptOf (List.zipWith (kap Q k) ls ps) : Fin d → ℝ) t = kap Q k ls[t] ps[t] := by
      rw [ptOf, List.getD_eq_getElem?_getD, List.getElem?_eq_getElem (by simp [h1, h2])]
      simp
    rw [e, ← sq, ← sq_abs]
    refine pow_le_pow_left₀ (abs_nonneg _) ?_ 2
    have hl : ls[t] ≤ k := (List.le_sum_of_mem (List.getElem_mem h1)).trans h.sum_le
    exact knot_abs hQ hl hk hk' (own_lt (h.pos_lt t h1 h2))
  rw [dotProduct]
  refine (Finset.sum_le_sum fun t _ => hb t).trans (le_of_eq ?_)
  simp

theorem gridArOk_dim0 {k : ℕ} (hk : k ≤ 25) : GridArOk i32 0 k := by
  obtain ⟨B, hB⟩ : ∃ B : ℕ, (B : ℤ) = 2147483647 := ⟨2147483647, rfl⟩
  refine ⟨⟨B, by rw [hB]; exact fits_i32, ?_⟩, by
    rw [findNumGridPoints, findNumGridPoints, if_neg (by simp), if_neg (by simp)]⟩
  have h1 : below 0 (k + 1) ≤ 2 ^ 26 := by
    have : below 0 (k + 1) = ∑ j ∈ Finset.range (k + 1), 2 ^ j := by simp [below]
    rw [this]
    have h2 : ∑ j ∈ Finset.range (k + 1), 2 ^ j < 2 ^ (k + 1) := Nat.geomSum_lt (le_refl 2)
      fun j hj => Finset.mem_range.mp hj
    exact h2.le.trans (Nat.pow_le_pow_right (by norm_num) (by omega))
  simp only [need]
  simp
  omega

/-- The grids of an accepted problem answer within the distance needed, for variance inflation
factors up to ten million. -/
theorem rangeGrid_of {lib : Lib} {pars : Parameters} {Q : ℝ → ℝ} (hQ : IsNormalQuantile Q)
    (hlib : ∀ (n : ℕ) (p : Matrix (Fin n) (Fin n) ℝ), p.PosDef →
      Quad.IsEigen p (lib.eig n p).1 (lib.eig n p).2)
    (har : lib.ar = i32) (haru : lib.aru = u32) {k w : ℕ} (hk : 1 ≤ k) (hk' : k ≤ 25)
    {ls : List Level} (hls : basisLevels i32 Q k = Except.ok ls)
    (hbas : pars.sparseBasis = ⟨ls, k⟩)
    (hnode : ∀ node ∈ pars.quadratureRule.nodes, 4 * node ^ 2 ≤ 2 * 10 ^ 10)
    (hw : complexityAccepted w k) : RangeGrid lib pars w (5 * 10 ^ 12) (10 ^ 7) := by
  obtain ⟨ls', e, -, -, h1, h2⟩ := basis_32 hQ hk hk'
  rw [hls] at e
  cases e
  have hlm : pars.sparseBasis.levelMax.toNat = k := by rw [hbas]; rfl
  have hsmall : 2 ≤ w → k ≤ 9 ∧ w ^ k ≤ 707 ∧ w ≤ 707 := fun hw2 => by
    obtain ⟨g1, g2⟩ := guard_bounds hw2 hw
    exact ⟨g2, g1, le_trans (Nat.le_self_pow (by omega) w) g1⟩
  refine ⟨hlib, ⟨Dom u32 Q k, kap Q k, ⟨phi Q k, phi' Q k, phi'' Q k, ?_, ?_, ?_⟩, ?_, ?_⟩, ?_, ?_,
    by norm_num⟩
  · simp only [gridEnv]
    rw [hbas, haru]
    exact h1
  · simp only [gridEnv]
    rw [hbas, haru]
    exact h2
  · simp only [gridEnv]
    rw [hlm]
    exact hierarchical (quantileOk hQ) hk
  · intro hw2 y hy
    exact dom_of_sq hQ hk (hsmall hw2).1 hy
  · intro d hd lv ps hg node hnm
    rw [hlm] at hg
    have h4 := hnode node hnm
    have h5 := sum_sq_le hQ hk hk' hg
    have h6 : (d : ℝ) * (scale k * (61 / 10)) ^ 2 ≤ 60000 := by
      rcases Nat.eq_zero_or_pos d with rfl | hd0
      · simp
      · obtain ⟨g1, g2, -⟩ := hsmall (by omega)
        have := size_bound g2 hk g1 hd
        have h7 : (d : ℝ) * (2 + k) ^ 2 ≤ 6354 := by exact_mod_cast this
        rw [scale]
        have h8 : (d : ℝ) * ((1.0 + (k : ℝ) / 2.0) * (61 / 10)) ^ 2 =
            (d : ℝ) * (2 + k) ^ 2 * (3721 / 400) := by
          have e : (1.0 : ℝ) + (k : ℝ) / 2.0 = 1 + k / 2 := by norm_num
          rw [e]
          ring
        rw [h8]
        linarith
    linarith
  · intro d hd
    rw [hlm, har]
    rcases Nat.eq_zero_or_pos d with rfl | hd0
    · exact gridArOk_dim0 hk'
    · exact gridArOk_i32 (by omega) (by have := hsmall (by omega); omega) hw hd0 hd.le
  · intro node hnm
    have := hnode node hnm
    linarith

/-! ## C99 -/

theorem le_foldl_max (f : Mixed Factor NB → ℕ) : ∀ (l : List (Mixed Factor NB)) (w : ℕ),
    w ≤ l.foldl (fun w b => max w (f b)) w ∧ ∀ b ∈ l, f b ≤ l.foldl (fun w b => max w (f b)) w
  | [], w => ⟨le_rfl, by simp⟩
  | b :: l, w => by
    obtain ⟨h1, h2⟩ := le_foldl_max f l (max w (f b))
    refine ⟨(le_max_left _ _).trans h1, fun b' hb' => ?_⟩
    rcases List.mem_cons.mp hb' with rfl | h
    · exact (le_max_right _ _).trans h1
    · exact h2 b' h

theorem le_width (lib : Lib) (pars : Parameters) {c : CG (Mixed Factor NB)} {b : Mixed Factor NB}
    (hb : b ∈ c.clusters) : b.items.length ≤ width (SR.ops lib pars) c :=
  (le_foldl_max (fun b => b.items.length) c.clusters 0).2 b hb

/-- The terms of the model as beliefs. -/
theorem beliefs_facts {lib : Lib} {pars : Parameters} {M : ModFr q n p} {μ : ℝ → ℝ}
    {link : String} (hl : IsLink link μ)
    (hfam : Family.ofNames "binomial" link = Except.ok pars.family)
    (hM : WellFormed M pars.theta.length) (hc : Covered M)
    (hb : pars.beta.length = p) (hrd : Reads lib.rd M)
    (har : lib.ar = exactZ ∨ lib.ar = i32 ∧ q ≤ 46341) :
    ∃ beliefs : List (Mixed Factor NB),
      clusterGraph lib pars M = ofBeliefs lib.ar (ops lib pars) beliefs ∧
      (∀ b ∈ beliefs, WFn (Factor.ops lib pars) (Tot (Factor.ops lib pars)) b) ∧
      (∀ x : ℤ, (∃ b ∈ beliefs, x ∈ b.items) ↔ 0 ≤ x ∧ x < q) ∧
      Suits lib.ar (beliefs.map Mixed.items) ∧
      ∀ i j : Fin q, (i = j ∨ ∃ k, i ∈ Active M k ∧ j ∈ Active M k) →
        ∃ b ∈ beliefs, ((i : ℕ) : ℤ) ∈ b.items ∧ ((j : ℕ) : ℤ) ∈ b.items := by
  obtain ⟨ext, beliefs, e1, e2, hmade, hp, hcont, hcl⟩ :=
    beliefs_made (lib := lib) hl hfam hM hc hb hrd
  have hrange : ∀ b ∈ beliefs, ∀ x ∈ b.items, 0 ≤ x ∧ x < (q : ℤ) := by
    intro b hbm x hx
    obtain ⟨t, ht, hm⟩ := forall₂_mem_right hmade b hbm
    rw [hm.items] at hx
    rcases t with ⟨C, m, D⟩ | ⟨i, s, s'⟩
    · obtain ⟨i, -, rfl⟩ := List.mem_map.1 hx
      exact ⟨by omega, by omega⟩
    · rw [termItems, List.mem_singleton] at hx
      omega
  have hnormal : ∀ i : Fin q, ∃ b ∈ beliefs, b.items = [((i : ℕ) : ℤ)] := by
    intro i
    obtain ⟨b, hbm, hm⟩ := forall₂_mem_left hmade (.normal i 0 1)
      (List.mem_append_right _ (List.mem_map_of_mem (List.mem_finRange i)))
    exact ⟨b, hbm, hm.items⟩
  have hcov : ∀ x : ℤ, (∃ b ∈ beliefs, x ∈ b.items) ↔ 0 ≤ x ∧ x < q := by
    intro x
    constructor
    · rintro ⟨b, hbm, hx⟩
      exact hrange b hbm x hx
    · rintro ⟨h0, h1⟩
      obtain ⟨b, hbm, hi⟩ := hnormal ⟨x.toNat, by omega⟩
      refine ⟨b, hbm, ?_⟩
      rw [hi]
      simp [h0]
  have hsuits : Suits lib.ar (beliefs.map Mixed.items) := by
    unfold Suits
    rcases har with h | ⟨h, hq'⟩
    · exact Or.inl h
    · refine Or.inr ⟨h, le_trans (Finset.card_le_card (t := Finset.univ.image
        fun i : Fin q => ((i : ℕ) : ℤ)) fun x hx => ?_) (Finset.card_image_le.trans ?_)⟩
      · rw [List.mem_toFinset, List.mem_flatten] at hx
        obtain ⟨l, hl', hx⟩ := hx
        obtain ⟨b, hbm, rfl⟩ := List.mem_map.1 hl'
        obtain ⟨h0, h1⟩ := hrange b hbm x hx
        exact Finset.mem_image.mpr ⟨⟨x.toNat, by omega⟩, Finset.mem_univ _, by simp [h0]⟩
      · simpa using hq'
  refine ⟨beliefs, ?_, fun b hbm => ?_, hcov, hsuits, ?_⟩
  · rw [clusterGraph, e1]
    simp only [res_ok_bind]
    rw [e2]
    rfl
  · obtain ⟨t, -, hm⟩ := forall₂_mem_right hmade b hbm
    exact hm.wf
  · rintro i j (rfl | ⟨k, hik, hjk⟩)
    · obtain ⟨b, hbm, hi⟩ := hnormal i
      exact ⟨b, hbm, by rw [hi]; simp, by rw [hi]; simp⟩
    · obtain ⟨e, he, hke⟩ : ∃ e ∈ ext, k ∈ e.2 := by
        by_contra hno
        push Not at hno
        have := hp k
        rw [List.sum_eq_zero] at this
        · omega
        · intro m hm
          obtain ⟨e, he, rfl⟩ := List.mem_map.1 hm
          exact List.count_eq_zero.2 (hno e he)
      obtain ⟨b, hbm, hm⟩ := forall₂_mem_left hmade
        (Term.glmm e.1 e.2.length (findLocalTerm e.1 e.2 M))
        (List.mem_append_left _ (List.mem_map_of_mem he))
      refine ⟨b, hbm, ?_, ?_⟩ <;> rw [hm.items]
      · exact List.mem_map_of_mem (hcont e he k hke i hik)
      · exact List.mem_map_of_mem (hcont e he k hke j hjk)

/-- For one value of the parameters. -/
theorem range_model {lib : Lib} {pars : Parameters} {M : ModFr q n p} {μ : ℝ → ℝ}
    {link : String} (hl : IsLink link μ)
    (hfam : Family.ofNames "binomial" link = Except.ok pars.family)
    (hM : WellFormed M pars.theta.length) (hc : Covered M)
    (hb : pars.beta.length = p) (hrd : Reads lib.rd M)
    (har : lib.ar = exactZ ∨ lib.ar = i32 ∧ q ≤ 46341) {K : ℕ} {R C : ℝ}
    (hg : RangeGrid lib pars K R C)
    (hK : ∀ c, clusterGraph lib pars M = Except.ok c → ∀ b ∈ c.clusters, b.items.length ≤ K)
    {mean : Fin q → ℝ} {Q : Matrix (Fin q) (Fin q) ℝ} (hQ : Q.PosDef)
    (hz : ∀ i j, i ≠ j → Q i j ≠ 0 → ∃ k, i ∈ Active M k ∧ j ∈ Active M k)
    (hn : NoZeroNormalizer Q) (hC : ∀ i, Q i i * Q⁻¹ i i ≤ C) :
    ∃ c, clusterGraph lib pars M = Except.ok c ∧
      SafeValue (Factor.ops lib pars) (store lib pars) mean Q c ∧
      (computeLogNormalizingConstant lib pars c mean Q =
          Res.raise "improper cluster belief after passing message" ∨
        ∃ v, computeLogNormalizingConstant lib pars c mean Q = Except.ok v) := by
  obtain ⟨beliefs, hgr, hwf, hcov, hsuits, hsh⟩ := beliefs_facts hl hfam hM hc hb hrd har
  obtain ⟨c, ec, hres⟩ := range_run (mean := mean) lib hg hwf hcov hsuits
    (fun c ec => hK c (hgr.trans ec)) hQ
    (fun i j h0 => hsh i j (by
      by_cases hij : i = j
      · exact Or.inl hij
      · exact Or.inr (hz i j hij h0))) hn (inflation_of hQ hC)
  exact ⟨c, hgr.trans ec, hres⟩

/-- The width is at most the number of random effects. -/
theorem width_le_card {lib : Lib} {pars : Parameters} {M : ModFr q n p} {μ : ℝ → ℝ}
    {link : String} (hl : IsLink link μ)
    (hfam : Family.ofNames "binomial" link = Except.ok pars.family)
    (hM : WellFormed M pars.theta.length) (hc : Covered M)
    (hb : pars.beta.length = p) (hrd : Reads lib.rd M)
    (har : lib.ar = exactZ ∨ lib.ar = i32 ∧ q ≤ 46341) {c : CG (Mixed Factor NB)}
    (h : clusterGraph lib pars M = Except.ok c) (pars' : Parameters) :
    width (SR.ops lib pars') c ≤ q := by
  obtain ⟨beliefs, hgr, hwf, hcov, hsuits, -⟩ := beliefs_facts hl hfam hM hc hb hrd har
  have h2 := clusters_range lib pars hwf hcov hsuits (hgr.symm.trans h)
  have key : ∀ (l : List (Mixed Factor NB)) (w : ℕ), (∀ b ∈ l, b.items.length ≤ q) → w ≤ q →
      l.foldl (fun w cl => max w ((SR.ops lib pars').items cl).length) w ≤ q := by
    intro l
    induction l with
    | nil => intro w _ hw; exact hw
    | cons b l ih =>
      intro w hl hw
      refine ih _ (fun b' hb' => hl b' (List.mem_cons_of_mem _ hb')) (max_le hw ?_)
      exact hl b (List.mem_cons_self ..)
  exact key _ 0 h2 (Nat.zero_le _)

end Verif.SR

namespace Verif.Lfun

open Verif.Pars Verif.SR Verif.Belief Verif.ClusterGraph Verif.Split Verif.Split.Spec Verif.Spec
open Verif.Counting Verif.Gauss Verif.Point Verif.Family Verif.GLMM Verif.BasisLevel
open Matrix

variable {q n p : ℕ}

/-- The variance inflation factors of the normal distribution with precision `Q` are at most `C`: a
fraction of at least `1 / C` of the variance of each variable is not explained by a linear function
of the others. -/
def InflationAtMost {q : ℕ} (Q : Matrix (Fin q) (Fin q) ℝ) (C : ℝ) : Prop :=
  ∀ i, Q i i * Q⁻¹ i i ≤ C

/-- C99. For a binomial model with logit or probit link all whose observations have a random effect,
with 32-bit integers, between 1 and 25 sparse grid levels and any number of quadrature points: either
the log-likelihood function is refused as too difficult (which needs many random effects), or it can
be made, and then for parameters
of any length, for which lme4 fails or finds a Laplace approximation whose variance inflation factors
are at most ten million, each call returns a value or raises an error: no integer overflows, no
conversion is out of range, no element is read outside its array. The errors are those listed. -/
theorem c99 {link : String} {μ : ℝ → ℝ} (hl : IsLink link μ) {M : ModFr q n p} {nTheta : ℕ}
    (hM : WellFormed M nTheta) (hc : Covered M) (hq' : q ≤ 46341) (hn : 1 ≤ nTheta)
    {lib : Lib} (har : lib.ar = i32) (haru : lib.aru = u32) (hrd : Reads lib.rd M)
    (hlib : ∀ (n : ℕ) (p : Matrix (Fin n) (Fin n) ℝ), p.PosDef →
      Quad.IsEigen p (lib.eig n p).1 (lib.eig n p).2)
    {Qf : ℝ → ℝ} (hQ : IsNormalQuantile Qf) {eig : Eigensolver} {k m : ℕ} (hk : 1 ≤ k)
    (hk' : k ≤ 25) (hm : m + 1 < 2 ^ 31)
    (heig : Quad.IsEigen (Quad.hermiteJacobi (m + 1)) (eig _ (Quad.hermiteJacobi (m + 1))).1
      (eig _ (Quad.hermiteJacobi (m + 1))).2) :
    (findLfunSR lib ⟨i32, Qf, eig⟩ M "binomial" link k ((m + 1 : ℕ) : ℝ) =
      Res.raise "The sequential reduction approximation is too difficult to compute in this case" ∧
        500000 < q ^ (2 * k)) ∨
    ∃ pars0 c, findLfunSR lib ⟨i32, Qf, eig⟩ M "binomial" link k ((m + 1 : ℕ) : ℝ) =
        Except.ok (pars0, c) ∧
      ∀ (devfun : List ℝ → Res (ℝ × PP q)) (x : List ℝ),
        (x.length ≠ p + nTheta → ((lfun lib p nTheta c devfun x).exec pars0).1 =
          Res.raise "cannot compute loglikelihood for parameter of this length") ∧
        (x.length = p + nTheta → ∀ e, devfun x = Except.error e →
          ((lfun lib p nTheta c devfun x).exec pars0).1 = Except.error e) ∧
        ∀ d W pp, x.length = p + nTheta → devfun x = Except.ok (d, pp) →
          Laplace M (x.take nTheta) W pp →
          NoZeroNormalizer (computeNormalApprox (d, pp)).2.precision →
          InflationAtMost (computeNormalApprox (d, pp)).2.precision (10 ^ 7) →
          (∃ v, ((lfun lib p nTheta c devfun x).exec pars0).1 = Except.ok v) ∨
          ((lfun lib p nTheta c devfun x).exec pars0).1 =
            Res.raise "Suspect sequential reduction approximation is unstable" ∨
          ((lfun lib p nTheta c devfun x).exec pars0).1 =
            Res.raise "improper cluster belief after passing message" := by
  obtain ⟨rule, er⟩ : ∃ rule, QuadratureRule.create eig ((m + 1 : ℕ) : ℤ) = Except.ok rule :=
    ⟨_, rfl⟩
  obtain ⟨b1, eb1⟩ := basis_safe hQ (k := 1) (by omega)
  obtain ⟨ls, els, -⟩ := basis_32 hQ hk hk'
  have eb : Basis.create i32 Qf k = Except.ok ⟨ls, k⟩ := by
    unfold Basis.create
    rw [if_neg (by omega), Int.toNat_natCast, els]
    rfl
  obtain ⟨f, ef⟩ : ∃ f, Family.ofNames "binomial" link = Except.ok f := by
    cases hl <;> exact ⟨_, rfl⟩
  have ep := calibrationPars_ok (env := ⟨i32, Qf, eig⟩) (nSL := k)
    (nAGQ := ((m + 1 : ℕ) : ℝ)) ef eb1 rfl
    (by rw [asInt_nat (by omega)]; exact eb) (by rw [asInt_nat hm]; exact er)
  have hchk : checkModfrSR "binomial" link = Except.ok () := by
    cases hl <;> rfl
  have hnode : ∀ node ∈ rule.nodes, 4 * node ^ 2 ≤ 2 * 10 ^ 10 := by
    cases er
    intro node hnode
    obtain ⟨j, rfl⟩ := List.mem_ofFn.mp hnode
    have h1 := node_sq_le heig j
    have h2 : ((m + 1 : ℕ) : ℝ) ≤ 2 ^ 31 := by exact_mod_cast hm.le
    have h3 : (Quad.ofEigen (eig (m + 1) (Quad.hermiteJacobi (m + 1))).1
      (eig (m + 1) (Quad.hermiteJacobi (m + 1))).2).nodes j =
        (eig (m + 1) (Quad.hermiteJacobi (m + 1))).1 j := rfl
    rw [h3]
    norm_num at h1 h2 ⊢
    linarith
  set P : Parameters := ⟨[], [], f, ⟨ls, k⟩, rule⟩ with hP
  rcases hfl : findLfunSR lib ⟨i32, Qf, eig⟩ M "binomial" link k ((m + 1 : ℕ) : ℝ) with e | ⟨P', c⟩
  · -- only the check can stop it
    left
    obtain ⟨c, ec, -⟩ := c83_partial (lib := lib) (mean := 0) (Q := 1) (pars := ⟨List.replicate nTheta
      0, List.replicate p 0, f, ⟨[⟨0, [0], fun _ _ => 1, 0, []⟩], 0⟩, ⟨[0], [Quad.sqrtPi]⟩⟩) hl ef
      (by simpa using hM) hc (by simp) hrd (Or.inr ⟨har, hq'⟩) (level := ⟨0, [0], fun _ _ => 1, 0, []⟩)
      ⟨rfl, rfl⟩ rfl rfl Matrix.PosDef.one
      (fun i j hij h0 => absurd (Matrix.one_apply_ne hij) h0) (fun m e he => by
        rw [inv_one, Matrix.submatrix_one _ he, Matrix.det_one, Real.log_one, logSqrtTwoPi]
        have : (0 : ℝ) < 2 * (m + 1) := by positivity
        intro h0
        norm_num at h0
        linarith)
    have e' := graph_eq lib P ⟨List.replicate nTheta 0, List.replicate p 0, f,
      ⟨[⟨0, [0], fun _ _ => 1, 0, []⟩], 0⟩, ⟨[0], [Quad.sqrtPi]⟩⟩ M
    rw [ec] at e'
    rw [findLfunSR, hchk, ep] at hfl
    simp only [res_ok_bind] at hfl
    rcases ht : factorizationTerms lib M with e2 | ts
    · rw [ht] at e'
      cases e'
    rw [ht] at e' hfl
    simp only [res_ok_bind] at e' hfl
    rw [e'] at hfl
    simp only [res_ok_bind] at hfl
    split_ifs at hfl with hwid
    · refine ⟨hfl.symm, ?_⟩
      have hw := width_le_card hl ef (by simpa using hM) hc (by simp) hrd (Or.inr ⟨har, hq'⟩) ec P
      have h1 : (width (SR.ops lib P) c : ℝ) ^ (2 * (k : ℝ)) ≤ (q : ℝ) ^ (2 * (k : ℝ)) :=
        Real.rpow_le_rpow (Nat.cast_nonneg _) (by exact_mod_cast hw) (by positivity)
      have h2 : (q : ℝ) ^ (2 * (k : ℝ)) = ((q ^ (2 * k) : ℕ) : ℝ) := by
        rw [Nat.cast_pow, ← Real.rpow_natCast]
        congr 1
        push_cast
        ring
      have h3 : ((500000 : ℕ) : ℝ) < ((q ^ (2 * k) : ℕ) : ℝ) := by
        rw [← h2]
        refine lt_of_lt_of_le (lt_of_le_of_lt ?_ hwid) h1
        norm_num
      exact_mod_cast h3
    · cases hfl
  · have hacc := c81_complexity lib _ M "binomial" link k _ hfl
    right
    refine ⟨P', c, rfl, ?_⟩
    rw [findLfunSR, hchk, ep] at hfl
    simp only [res_ok_bind] at hfl
    rcases ht : factorizationTerms lib M with e' | ts
    · rw [ht] at hfl
      cases hfl
    rw [ht] at hfl
    simp only [res_ok_bind] at hfl
    rcases hg : ofBeliefs lib.ar (SR.ops lib P) ts with e' | c'
    · rw [hg] at hfl
      cases hfl
    rw [hg] at hfl
    simp only [res_ok_bind] at hfl
    split_ifs at hfl
    · cases hfl
    cases Except.ok.inj hfl
    intro devfun x
    rw [exec_lfun]
    unfold value
    refine ⟨fun hx => by rw [if_pos hx], fun hx e he => ?_, ?_⟩
    · rw [if_neg (not_not.mpr hx), he]
      rfl
    intro d W pp hx hd hL hN hI
    rw [if_neg (not_not.mpr hx), hd]
    simp only [res_ok_bind]
    have hmax : max 1 nTheta = nTheta := max_eq_right hn
    have hPx : assign nTheta x P = ⟨x.take nTheta, x.drop nTheta, f, ⟨ls, k⟩, rule⟩ := by
      simp [assign, takeTheta, dropTheta, hmax, hP]
    have hgr : clusterGraph lib (assign nTheta x P) M = Except.ok c := by
      rw [← graph_eq lib P (assign nTheta x P) M, ht]
      exact hg
    have hlen : (assign nTheta x P).theta.length = nTheta := by
      rw [hPx]
      simp [hx]
    obtain ⟨c2, ec2, -, hres⟩ := range_model (lib := lib) (pars := assign nTheta x P) hl
      (by rw [hPx]; exact ef) (by rw [hlen]; exact hM) hc (by rw [hPx]; simp [hx]) hrd
      (Or.inr ⟨har, hq'⟩) (rangeGrid_of (w := width (SR.ops lib P) c) hQ hlib har haru hk hk' els
        (by rw [hPx]) (by rw [hPx]; exact hnode) hacc)
      (fun c2 ec2 => by
        rw [hgr] at ec2
        cases ec2
        exact fun b hb => le_width lib P hb) (mean := (computeNormalApprox (d, pp)).2.mean)
      (precision_posDef hL) (precision_shared hM hL) hN hI
    rw [hgr] at ec2
    cases ec2
    rw [checkedValue]
    rcases hres with h | ⟨v, h⟩
    · rw [h]
      exact Or.inr (Or.inr rfl)
    · rw [h]
      simp only [res_ok_bind]
      split_ifs with hv
      · exact Or.inr (Or.inl rfl)
      · exact Or.inl ⟨v, rfl⟩

/-! ## A case meeting the hypotheses -/

/-- What lme4 leaves behind for the model `crossed` with weights one half. -/
noncomputable def crossedPP : PP 2 :=
  ⟨!![Real.sqrt 2, 0; 1 / Real.sqrt 2, Real.sqrt (5 / 2)], 1, ![0.1, -0.2]⟩

theorem crossedPP_factor : crossedPP.L * crossedPP.Lᵀ = crossedQ := by
  have h2 : Real.sqrt 2 * Real.sqrt 2 = 2 := Real.mul_self_sqrt (by norm_num)
  have h0 : Real.sqrt 2 ≠ 0 := (Real.sqrt_pos.mpr two_pos).ne'
  have h5 : Real.sqrt (5 / 2) * Real.sqrt (5 / 2) = 5 / 2 := Real.mul_self_sqrt (by norm_num)
  have ht : crossedPP.Lᵀ = !![Real.sqrt 2, 1 / Real.sqrt 2; 0, Real.sqrt (5 / 2)] := by
    ext i j
    fin_cases i <;> fin_cases j <;> rfl
  have h1 : 1 / Real.sqrt 2 * (1 / Real.sqrt 2) = 1 / 2 := by rw [div_mul_div_comm, h2, one_mul]
  rw [ht, crossedPP, Matrix.mul_fin_two, crossedQ, h1, h5, h2, mul_one_div_cancel h0,
    one_div_mul_cancel h0]
  norm_num

theorem crossedPP_laplace : Laplace crossed [1, 2] (fun _ => 1 / 2) crossedPP where
  weights _ := by norm_num
  permutation := by simp [crossedPP]
  factor := by
    have hl : Matrix.of (Split.Spec.lambdat crossed [1, 2]) = !![1, 0; 0, 2] := by
      ext i j
      fin_cases i <;> fin_cases j <;>
        simp [Split.Spec.lambdat, crossed, Fin.sum_univ_two]
    have hz : crossed.Zt = !![1, 1; 0, 1] := by
      ext i j
      fin_cases i <;> fin_cases j <;> simp [crossed]
    have hd : (diagonal fun _ : Fin 2 => (1 / 2 : ℝ)) = !![1 / 2, 0; 0, 1 / 2] := by
      ext i j
      fin_cases i <;> fin_cases j <;> simp
    have ht : (!![1, 1; 0, 2] : Matrix (Fin 2) (Fin 2) ℝ)ᵀ = !![1, 0; 1, 2] := by
      ext i j
      fin_cases i <;> fin_cases j <;> rfl
    have hm : (!![1, 0; 0, 2] : Matrix (Fin 2) (Fin 2) ℝ) * !![1, 1; 0, 1] = !![1, 1; 0, 2] := by
      rw [Matrix.mul_fin_two]
      norm_num
    have hP : crossedPP.P = 1 := rfl
    rw [crossedPP_factor, hP, Matrix.one_mul, Matrix.transpose_one, Matrix.mul_one, hl, hz, hd, hm,
      ht, Matrix.mul_fin_two, Matrix.mul_fin_two, crossedQ]
    ext i j
    fin_cases i <;> fin_cases j <;> norm_num

theorem crossedPP_precision (d : ℝ) :
    (computeNormalApprox (d, crossedPP)).2.precision = crossedQ := by
  show crossedPP.Pᵀ * (crossedPP.L * crossedPP.Lᵀ) * crossedPP.P = _
  have hP : crossedPP.P = 1 := rfl
  rw [crossedPP_factor, hP, Matrix.transpose_one, Matrix.one_mul, Matrix.mul_one]

/-- Two crossed random effects, two sparse grid levels, seven quadrature points: the function can be
made, and for a normal approximation with dependent effects it returns a value or raises one of two
errors. (Reads beyond the end of `theta` give 0.) -/
example (lib : Lib) (har : lib.ar = i32) (haru : lib.aru = u32) (hrd : lib.rd = fun theta k =>
      if 0 ≤ k ∧ k < theta.length then read theta k else Except.ok 0)
    (hlib : ∀ (n : ℕ) (p : Matrix (Fin n) (Fin n) ℝ), p.PosDef →
      Quad.IsEigen p (lib.eig n p).1 (lib.eig n p).2)
    {Qf : ℝ → ℝ} (hQ : IsNormalQuantile Qf) {eig : Eigensolver}
    (heig : Quad.IsEigen (Quad.hermiteJacobi 7) (eig _ (Quad.hermiteJacobi 7)).1
      (eig _ (Quad.hermiteJacobi 7)).2) (d : ℝ) :
    ∃ pars0 c, findLfunSR lib ⟨i32, Qf, eig⟩ crossed "binomial" "logit" (2 : ℕ) (7 : ℕ) =
        Except.ok (pars0, c) ∧
      let r := ((lfun lib 1 2 c (fun _ => Except.ok (d, crossedPP)) [1, 2, 0.5]).exec pars0).1
      (∃ v, r = Except.ok v) ∨
        r = Res.raise "Suspect sequential reduction approximation is unstable" ∨
        r = Res.raise "improper cluster belief after passing message" := by
  have hr : Reads lib.rd crossed := by
    rw [hrd]
    refine ⟨fun theta k h0 h1 => if_pos ⟨h0, h1⟩, Or.inr fun theta k => ?_⟩
    by_cases h : 0 ≤ k ∧ k < theta.length
    · obtain ⟨h0, h1⟩ := h
      refine ⟨theta[k.toNat]'(by omega), ?_⟩
      simp only [if_pos (And.intro h0 h1)]
      rw [GLMM.read, if_neg (by omega)]
      exact nth_ok (by omega)
    · exact ⟨0, if_neg h⟩
  rcases c99 .logit crossed_wf crossed_covered (by norm_num) (by norm_num) har haru hr hlib hQ
    (k := 2) (m := 6) (by norm_num) (by norm_num) (by norm_num) heig with ⟨-, h⟩ | ⟨pars0, c, h1, h2⟩
  · norm_num at h
  · refine ⟨pars0, c, h1, (h2 _ _).2.2 d (fun _ => 1 / 2) crossedPP rfl rfl crossedPP_laplace ?_ ?_⟩
    · rw [crossedPP_precision]
      exact crossedQ_regular
    · rw [crossedPP_precision]
      intro i
      rw [crossedQ_inv]
      fin_cases i <;> norm_num [crossedQ]

end Verif.Lfun
