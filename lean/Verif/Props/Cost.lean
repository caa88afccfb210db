import Verif.Spec.Cost
import Verif.Props.Eliminate
import Verif.Props.Overflow
import Verif.Props.Counting

/-!
# C109: the complexity limit bounds the number of grid points
-/
namespace Verif.Counting

open Verif.Spec Verif.Point

/-- A point of level sum `k` is reached from the centre in at most `k` steps, each in one of `d`
directions and to one of two sides. -/
theorem ncard_le (d k : ℕ) : (gridPoints d k).ncard ≤ (2 * d + 1) ^ k := by
  rcases Nat.eq_zero_or_pos d with rfl | hd
  · have h := (c02_findNumGridPoints_card 0 k).1
    have h2 : findNumGridPoints exactZ ((0 : ℕ) : ℤ) k = Except.ok 1 := by
      simp [findNumGridPoints]
    rw [h2] at h
    have : ((gridPoints 0 k).ncard : ℤ) = 1 := (Except.ok.inj h).symm
    have h3 : (gridPoints 0 k).ncard = 1 := by exact_mod_cast this
    rw [h3]
    exact Nat.one_le_pow _ _ (by omega)
  · rw [ncard_gridPoints d k hd, gridCount]
    have h1 : ∀ j, Nat.choose (d - 1 + j) j * 2 ^ j ≤ (2 * d) ^ j := by
      intro j
      calc Nat.choose (d - 1 + j) j * 2 ^ j ≤ (d - 1 + 1) ^ j * 2 ^ j :=
            Nat.mul_le_mul_right _ (choose_le_pow' _ _)
        _ = (2 * d) ^ j := by rw [Nat.sub_add_cancel hd, mul_comm, mul_pow]
    refine (Finset.sum_le_sum fun j _ => h1 j).trans ?_
    induction k with
    | zero => simp
    | succ k ih =>
      rw [Finset.sum_range_succ]
      calc _ ≤ (2 * d + 1) ^ k + (2 * d + 1) ^ k * (2 * d) := by
            refine Nat.add_le_add ih ?_
            rw [pow_succ]
            exact Nat.mul_le_mul_right _ (Nat.pow_le_pow_left (by omega) _)
        _ = (2 * d + 1) ^ (k + 1) := by ring

/-- Grids of functions of fewer items than a cluster has. -/
theorem ncard_le_width {d w : ℕ} (h : d + 1 ≤ w) (k : ℕ) :
    (gridPoints d k).ncard ≤ (2 * w - 1) ^ k ∧ (2 * w - 1) ^ k ≤ w ^ (2 * k) := by
  refine ⟨(ncard_le d k).trans (Nat.pow_le_pow_left (by omega) _), ?_⟩
  rw [pow_mul]
  refine Nat.pow_le_pow_left ?_ _
  obtain ⟨v, rfl⟩ : ∃ v, w = v + 1 := ⟨w - 1, by omega⟩
  have : (v + 1) ^ 2 = v * v + 2 * v + 1 := by ring
  omega

end Verif.Counting

namespace Verif.ClusterGraph

open Verif.Items Verif.DepGraph Verif.Spec.Tree Verif.Counting Verif.Spec

variable {β : Type}

/-- Separators have one item fewer than a cluster. -/
theorem Built.separator_length {ops : Ops β} {factors : List (List ℤ)} {c : CG β}
    (hb : Built ops factors c) {e : Edge β} (he : e ∈ c.edges) :
    ∃ b ∈ c.clusters, (ops.items e.belief).length + 1 = (ops.items b).length := by
  obtain ⟨k, hk, rfl⟩ := List.mem_iff_getElem.1 he
  have hlen := hb.len
  have hkc : k < c.clusters.length := by omega
  refine ⟨c.clusters[k], List.getElem_mem hkc, ?_⟩
  obtain ⟨v, hv, hiff, -⟩ := hb.elim k hk
  have e1 : sp ops c.edges k = ops.items (c.edges[k]).belief := by
    simp [sp, List.getElem?_eq_getElem hk]
  have e2 : cl ops c k = ops.items c.clusters[k] := by
    simp [cl, List.getElem?_eq_getElem hkc]
  have n1 := hb.ndS k
  have n2 := hb.ndC k
  rw [e1] at hv n1
  rw [e2] at n2
  rw [e1, e2] at hiff
  have : List.Perm (v :: ops.items (c.edges[k]).belief) (ops.items c.clusters[k]) :=
    (List.perm_ext_iff_of_nodup (List.nodup_cons.2 ⟨hv, n1⟩) n2).2 fun x => by
      rw [hiff, List.mem_cons]
  simpa using this.length_eq

/-- C109: the number of grid points of all integrals is bounded by the number of items times a power of
the size of the largest cluster. -/
theorem Built.gridTotal_le {ops : Ops β} {factors : List (List ℤ)} {c : CG β} (hb : Built ops factors c)
    {vs last : List ℤ}
    (ho : OnceEach (clusterItems ops c) (edgeData ops c) (fun x => ∃ F ∈ factors, x ∈ F) vs last) {w : ℕ}
    (hw : ∀ b ∈ c.clusters, (ops.items b).length ≤ w) (k : ℕ) :
    gridTotal k (edgeData ops c) last ≤ factors.flatten.toFinset.card * (2 * w - 1) ^ k := by
  have hl : last.length ≤ w := by
    have := List.mem_of_getLast? ho.final
    obtain ⟨b, hbm, rfl⟩ := List.mem_map.1 this
    exact hw b hbm
  have h1 : ((edgeData ops c).map fun S => (gridPoints S.2.2.length k).ncard).sum ≤
      (edgeData ops c).length * (2 * w - 1) ^ k := by
    have := List.sum_le_card_nsmul ((edgeData ops c).map fun S => (gridPoints S.2.2.length k).ncard)
      ((2 * w - 1) ^ k) (by
        intro x hx
        obtain ⟨S, hS, rfl⟩ := List.mem_map.1 hx
        obtain ⟨e, he, rfl⟩ := List.mem_map.1 hS
        obtain ⟨b, hbm, hlen⟩ := hb.separator_length he
        exact (ncard_le_width (hlen.trans_le (hw b hbm)) k).1)
    simpa using this
  have h2 : ∑ m ∈ Finset.range last.length, (gridPoints m k).ncard ≤ last.length * (2 * w - 1) ^ k := by
    have := Finset.sum_le_card_nsmul (Finset.range last.length) (fun m => (gridPoints m k).ncard)
      ((2 * w - 1) ^ k) (by
        intro m hm
        have := Finset.mem_range.1 hm
        exact (ncard_le_width (by omega) k).1)
    simpa using this
  rw [← onceEach_count ho, Nat.add_mul]
  exact Nat.add_le_add h1 h2

end Verif.ClusterGraph

namespace Verif.Lfun

open Verif.Pars Verif.SR Verif.Belief Verif.ClusterGraph Verif.Split Verif.Split.Spec Verif.Spec
open Verif.Family Verif.GLMM Verif.Gauss Verif.Spec.Tree Verif.Counting Verif.Point Verif.Nested.Spec

variable {q n p : ℕ}

/-- What is known of the cluster graph of an accepted model. -/
theorem accepted_built {link : String} {μ : ℝ → ℝ} (hl : IsLink link μ) {M : ModFr q n p} {nTheta : ℕ}
    (hM : WellFormed M nTheta) (hc : Covered M) {lib : Lib}
    (har : lib.ar = exactZ ∨ lib.ar = i32 ∧ q ≤ 46341) (hrd : Reads lib.rd M) {env : Env}
    {nSL nAGQ : ℝ} {pars0 : Parameters} {c : CG (Mixed Factor NB)}
    (h : findLfunSR lib env M "binomial" link nSL nAGQ = Except.ok (pars0, c)) :
    (∃ (ops : Ops (Mixed Factor NB)) (factors : List (List ℤ)), ops.items = Mixed.items ∧
      Built ops factors c ∧ ∀ x, (∃ F ∈ factors, x ∈ F) ↔ 0 ≤ x ∧ x < (q : ℤ)) ∧
      (width (SR.ops lib pars0) c : ℝ) ^ (2 * nSL) ≤ 5e5 := by
  obtain ⟨f, ef⟩ : ∃ f, Family.ofNames "binomial" link = Except.ok f := by
    cases hl <;> exact ⟨_, rfl⟩
  set P : Parameters := ⟨List.replicate nTheta 0, List.replicate p 0, f, pars0.sparseBasis,
    pars0.quadratureRule⟩ with hP
  obtain ⟨beliefs, e3, hwf, hcov, hsuits, -⟩ := beliefs_facts (pars := P) hl ef (by simpa [P] using hM) hc
    (by simp [P]) hrd har
  rw [findLfunSR] at h
  rcases h1 : checkModfrSR "binomial" link with e | u
  · rw [h1] at h; cases h
  rw [h1] at h; simp only [res_ok_bind] at h
  rcases h2 : factorizationTerms lib M with e | ts
  · rw [h2] at h; cases h
  rw [h2] at h; simp only [res_ok_bind] at h
  rcases h3 : calibrationPars env "binomial" link nSL nAGQ with e | cp
  · rw [h3] at h; cases h
  rw [h3] at h; simp only [res_ok_bind] at h
  rcases h4 : ofBeliefs lib.ar (SR.ops lib cp) ts with e | c'
  · rw [h4] at h; cases h
  rw [h4] at h; simp only [res_ok_bind] at h
  split_ifs at h with hwid
  · cases h
  cases Except.ok.inj h
  refine ⟨?_, not_lt.1 hwid⟩
  have e' := graph_eq lib pars0 P M
  rw [h2] at e'
  simp only [res_ok_bind] at e'
  rw [h4, e3] at e'
  set fo := Factor.ops lib P with hfo
  have L := tot_laws fo
  set st0 : Belief.Store Factor NB := fun _ _ _ _ _ _ => Res.ub with hst0
  have hst : StoreLaw fo (Tot fo) st0 := by
    intro k f d h n l g _ h
    cases h
  obtain ⟨B, hf, g1, g2, g3⟩ := Suits.fits hsuits (by
    intro F hF
    obtain ⟨b, hbm, rfl⟩ := List.mem_map.mp hF
    exact (hwf b hbm).wf.nodup)
  obtain ⟨c3, ec3, hB, -⟩ := ofBeliefs_ok (mixed_laws L nb_laws hst) beliefs
    (fun b hbm => (hwf b hbm).wf) hf g1 g2 g3
  have ec' := (ofBeliefs_store fo NB.ops (store lib P) st0 lib.ar beliefs).trans ec3
  cases e'.trans ec'
  refine ⟨_, _, rfl, hB, fun x => ?_⟩
  rw [← hcov x]
  simp [Mixed.ops]

theorem card_items {factors : List (List ℤ)}
    (h : ∀ x, (∃ F ∈ factors, x ∈ F) ↔ 0 ≤ x ∧ x < (q : ℤ)) : factors.flatten.toFinset.card = q := by
  have : factors.flatten.toFinset = Finset.univ.image fun i : Fin q => ((i : ℕ) : ℤ) := by
    ext x
    rw [List.mem_toFinset, List.mem_flatten, h, Finset.mem_image]
    constructor
    · rintro ⟨h0, h1⟩
      exact ⟨⟨x.toNat, by omega⟩, Finset.mem_univ _, by simp [h0]⟩
    · rintro ⟨i, -, rfl⟩
      exact ⟨by omega, by omega⟩
  rw [this, Finset.card_image_of_injective _ fun i j hij => by
    ext
    exact_mod_cast hij]
  simp

theorem asInt_le {x : ℝ} (hx : 0 ≤ x) : ((asInt x).toNat : ℝ) ≤ x := by
  unfold asInt
  rw [if_pos hx]
  dsimp only
  split_ifs
  · have h0 : (0 : ℤ) ≤ ⌊x⌋ := Int.floor_nonneg.2 hx
    have h1 : ((⌊x⌋.toNat : ℤ) : ℝ) = (⌊x⌋ : ℝ) := by rw [Int.toNat_of_nonneg h0]
    have h2 : ((⌊x⌋.toNat : ℕ) : ℝ) = (⌊x⌋ : ℝ) := by exact_mod_cast h1
    rw [h2]
    exact Int.floor_le x
  · simpa using hx

theorem accepted_nat {w : ℕ} {nSL : ℝ} (h0 : 0 ≤ nSL) (hw : 1 ≤ w)
    (h : (w : ℝ) ^ (2 * nSL) ≤ 5e5) : w ^ (2 * (asInt nSL).toNat) ≤ 500000 := by
  have h1 : ((w ^ (2 * (asInt nSL).toNat) : ℕ) : ℝ) ≤ (w : ℝ) ^ (2 * nSL) := by
    rw [Nat.cast_pow, ← Real.rpow_natCast]
    refine Real.rpow_le_rpow_of_exponent_le (by exact_mod_cast hw) ?_
    push_cast
    linarith [asInt_le h0]
  have h2 := h1.trans h
  norm_num at h2
  exact_mod_cast h2

/-- C109 for models: if the log-likelihood function of sequential reduction can be made, then every
sparse grid used for a message has at most 500000 points and its size is found without overflow, and
all integrals together have at most 500000 grid points per random effect. More exactly, `2 w - 1` to
the power of the level if no cluster has more than `w` items. -/
theorem c109 {link : String} {μ : ℝ → ℝ} (hl : IsLink link μ) {M : ModFr q n p} {nTheta : ℕ}
    (hM : WellFormed M nTheta) (hc : Covered M) {lib : Lib}
    (har : lib.ar = exactZ ∨ lib.ar = i32 ∧ q ≤ 46341) (hrd : Reads lib.rd M) {env : Env}
    {nSL nAGQ : ℝ} (hn : 0 ≤ nSL) {pars0 : Parameters} {c : CG (Mixed Factor NB)}
    (h : findLfunSR lib env M "binomial" link nSL nAGQ = Except.ok (pars0, c)) :
    (∀ e ∈ c.edges, ∃ N : ℕ, findNumGridPoints lib.ar e.belief.items.length (asInt nSL).toNat =
        Except.ok (N : ℤ) ∧ N = (gridPoints e.belief.items.length (asInt nSL).toNat).ncard ∧
        N ≤ 500000) ∧
    ∃ vs last, OnceEach (c.clusters.map Mixed.items)
        (c.edges.map fun e => (e.first, e.second, e.belief.items)) (fun x => 0 ≤ x ∧ x < q) vs last ∧
      gridTotal (asInt nSL).toNat (c.edges.map fun e => (e.first, e.second, e.belief.items)) last ≤
        q * 500000 ∧
      ∀ w, (∀ b ∈ c.clusters, b.items.length ≤ w) →
        gridTotal (asInt nSL).toNat (c.edges.map fun e => (e.first, e.second, e.belief.items)) last ≤
          q * (2 * w - 1) ^ (asInt nSL).toNat := by
  obtain ⟨⟨ops, factors, hi, hB, hcov⟩, hwid⟩ := accepted_built hl hM hc har hrd h
  have hle : ∀ b ∈ c.clusters, b.items.length ≤ width (SR.ops lib pars0) c := fun b hb => le_width lib pars0 hb
  set W := width (SR.ops lib pars0) c with hW
  set k := (asInt nSL).toNat with hk
  refine ⟨fun e he => ?_, ?_⟩
  · obtain ⟨b, hbm, hlen⟩ := hB.separator_length he
    rw [hi] at hlen
    have h1 := hlen.trans_le (hle b hbm)
    have hacc : W ^ (2 * k) ≤ 500000 := accepted_nat hn (by omega) hwid
    obtain ⟨h2, h3⟩ := ncard_le_width h1 k
    refine ⟨_, ?_, rfl, (h2.trans h3).trans hacc⟩
    rcases har with har | ⟨har, hq⟩
    · rw [har]
      exact (c02_findNumGridPoints_card _ _).1
    · rw [har]
      rcases Nat.eq_zero_or_pos e.belief.items.length with h0 | h0
      · have := (c02_findNumGridPoints_card e.belief.items.length k).1
        rw [← this, h0]
        simp [findNumGridPoints]
      · have hbq : b.items.length ≤ q := by
          obtain ⟨j, hj, rfl⟩ := List.mem_iff_getElem.1 hbm
          have e2 : cl ops c j = (c.clusters[j]).items := by
            simp [cl, List.getElem?_eq_getElem hj, hi]
          have hnd := hB.ndC j
          rw [e2] at hnd
          rw [← List.toFinset_card_of_nodup hnd, ← card_items hcov]
          refine Finset.card_le_card fun x hx => ?_
          rw [List.mem_toFinset] at hx
          rw [List.mem_toFinset, List.mem_flatten]
          exact (hB.items x).1 ⟨j, by rwa [e2]⟩
        obtain ⟨N, e1, e2, -⟩ := c55_no_overflow (e.belief.items.length + 1) k e.belief.items.length
          (by omega) (by omega) ((Nat.pow_le_pow_left h1 _).trans hacc) h0 (by omega)
        rw [e1, e2]
  · obtain ⟨vs, last, ho⟩ := hB.onceEach
    have hcard := card_items hcov
    have key : ∀ w, (∀ b ∈ c.clusters, b.items.length ≤ w) →
        gridTotal k (c.edges.map fun e => (e.first, e.second, e.belief.items)) last ≤
          q * (2 * w - 1) ^ k := by
      intro w hw
      have := hB.gridTotal_le ho (w := w) (by rw [hi]; exact hw) k
      rw [hcard, edgeData, hi] at this
      exact this
    refine ⟨vs, last, ?_, ?_, key⟩
    · have := ho
      rw [clusterItems, edgeData, hi] at this
      exact ⟨this.count, this.only, this.final, this.once, fun x => (this.all x).trans (hcov x)⟩
    · refine (key W hle).trans (Nat.mul_le_mul_left _ ?_)
      rcases Nat.eq_zero_or_pos W with h0 | h0
      · rw [h0]
        rcases k with _ | k <;> simp
      · exact (ncard_le_width (d := 0) (by omega) k).2.trans (accepted_nat hn (by omega) hwid)

/-- C109 for nested random effects: the number of grid points grows in proportion to the number of
random effects if every observation has at most `d` of them. -/
theorem c109_nested {link : String} {μ : ℝ → ℝ} (hl : IsLink link μ) {M : ModFr q n p} {nTheta : ℕ}
    (hM : WellFormed M nTheta) (hc : Covered M) (hn : NestedEffects M) {lib : Lib}
    (har : lib.ar = exactZ ∨ lib.ar = i32 ∧ q ≤ 46341) (hrd : Reads lib.rd M) {env : Env} {k d : ℕ}
    {nAGQ : ℝ} {pars0 : Parameters}
    (hp : calibrationPars env "binomial" link k nAGQ = Except.ok pars0) (hd1 : 1 ≤ d)
    (hd : ∀ j, nActive M j ≤ d) (hk : d ^ (2 * k) ≤ 500000) :
    ∃ c, findLfunSR lib env M "binomial" link k nAGQ = Except.ok (pars0, c) ∧
      ∃ vs last, OnceEach (c.clusters.map Mixed.items)
        (c.edges.map fun e => (e.first, e.second, e.belief.items)) (fun x => 0 ≤ x ∧ x < q) vs last ∧
      gridTotal (asInt k).toNat (c.edges.map fun e => (e.first, e.second, e.belief.items)) last ≤
        q * (2 * d - 1) ^ k := by
  obtain ⟨c, h⟩ := c106_accepted hl hM hc hn har hrd hp hd hk
  obtain ⟨-, vs, last, ho, -, hw⟩ := c109 hl hM hc har hrd (Nat.cast_nonneg k) h
  refine ⟨c, h, vs, last, ho, (hw d ?_).trans (Nat.mul_le_mul_left _ ?_)⟩
  · rcases c106_model hl hM hc hn har hrd (nSL := k) (Nat.cast_nonneg _) hp with ⟨-, h'⟩ | ⟨-, c', h', hc'⟩
    · rw [h] at h'
      cases h'
    · rw [h] at h'
      cases Except.ok.inj h'
      exact (hc' d hd1).2 hd
  · refine Nat.pow_le_pow_right (by omega) ?_
    have := asInt_le (x := (k : ℝ)) (Nat.cast_nonneg k)
    exact_mod_cast this

/-- The model with two random effects, with two sparse grid levels: at most 18 grid points. -/
example {lib : Lib} (har : lib.ar = i32) (hrd : Reads lib.rd crossed) {env : Env} {nAGQ : ℝ}
    {pars0 : Parameters} (hp : calibrationPars env "binomial" "logit" (2 : ℕ) nAGQ = Except.ok pars0) :
    ∃ c, findLfunSR lib env crossed "binomial" "logit" (2 : ℕ) nAGQ = Except.ok (pars0, c) ∧
      ∃ last, gridTotal (asInt (2 : ℕ)).toNat
        (c.edges.map fun e => (e.first, e.second, e.belief.items)) last ≤ 18 := by
  obtain ⟨c, h, -, last, -, hg⟩ := c109_nested .logit crossed_wf crossed_covered crossed_nested
    (Or.inr ⟨har, by norm_num⟩) hrd hp (by norm_num) crossed_nActive (by norm_num)
  exact ⟨c, h, last, hg⟩

end Verif.Lfun
