import Verif.Proofs.NormalInit
import Verif.Props.ClusterGraph
import Verif.Props.Belief

/-! # Properties of the normal approximation of the cluster graph (C22, C60) -/
namespace Verif.Gauss

open Verif.Eigen Verif.Items Verif.Belief Verif.ClusterGraph Verif.TreeForms Matrix

variable {γ : Type} {fo : FactorOps γ} {GWF : γ → Prop} {F : γ → List ℝ → ℝ} {store : Store γ NB}
variable {N : ℕ}

/-! ## Specification -/

/-- Entry `(u, v)` of the precision of a normal belief padded with zeros. -/
def padEntry (b : NB) (u v : ℤ) : ℝ :=
  ∑ k : Fin b.items.length, ∑ l : Fin b.items.length,
    if b.items[k] = u ∧ b.items[l] = v then b.normal.precision k l else 0

/-- Entry `(u, v)` of the sum of the padded cluster precisions minus the padded edge
precisions. -/
def sumPrec (c : CG (Mixed γ NB)) (u v : ℤ) : ℝ :=
  (c.clusters.map fun b => padEntry b.normalApprox u v).sum -
    (c.edges.map fun e => padEntry e.belief.normalApprox u v).sum

/-- The mean is the global mean restricted to the items. -/
def RestrictedMean (mean : Fin N → ℝ) (b : NB) : Prop :=
  ∀ (k : Fin b.items.length) (i : Fin N), (i : ℤ) = b.items[k] → b.normal.mean k = mean i

/-- The items that occur in some cluster. -/
def Occurs (c : CG (Mixed γ NB)) (x : ℤ) : Prop := ∃ b ∈ c.clusters, x ∈ b.items

/-- The precision is zero between items that share no cluster. -/
def ZeroApart (Q : Matrix (Fin N) (Fin N) ℝ) (c : CG (Mixed γ NB)) : Prop :=
  ∀ i j : Fin N, Occurs c i → Occurs c j → (∀ b ∈ c.clusters, ¬ ((i : ℤ) ∈ b.items ∧ (j : ℤ) ∈ b.items)) →
    Q i j = 0

/-- The normal approximations of the clusters and edges represent the global Gaussian. -/
structure Consistent (mean : Fin N → ℝ) (Q : Matrix (Fin N) (Fin N) ℝ) (c : CG (Mixed γ NB)) :
    Prop where
  precision : ∀ i j : Fin N, Occurs c i → Occurs c j → sumPrec c i j = Q i j
  outside : ∀ u v : ℤ, ¬ (Occurs c u ∧ Occurs c v) → sumPrec c u v = 0
  meanC : ∀ b ∈ c.clusters, RestrictedMean mean b.normalApprox
  meanE : ∀ e ∈ c.edges, RestrictedMean mean e.belief.normalApprox
  itemsC : ∀ b ∈ c.clusters, b.normalApprox.items = b.items
  itemsE : ∀ e ∈ c.edges, e.belief.normalApprox.items = e.belief.items
  posDef : ∀ b ∈ c.clusters, b.normalApprox.normal.precision.PosDef

/-- Exactly the marginal of the Gaussian with mean `mean` and precision `Q` on the items. -/
def IsMarginal (mean : Fin N → ℝ) (Q : Matrix (Fin N) (Fin N) ℝ) (b : NB) : Prop :=
  ∃ e : Fin b.items.length → Fin N, (∀ k, ((e k : ℕ) : ℤ) = b.items[k]) ∧
    (∀ k, b.normal.mean k = mean (e k)) ∧
    b.normal.precision = (Q⁻¹.submatrix e e)⁻¹

/-! ## Bridge -/

theorem padEntry_eq (b : NB) (u v : ℤ) : padEntry b u v = bil b (Pi.single u 1) (Pi.single v 1) := by
  rw [padEntry, bil, dotProduct]
  refine Finset.sum_congr rfl fun k _ => ?_
  rw [mulVec, dotProduct, Finset.mul_sum]
  refine Finset.sum_congr rfl fun l _ => ?_
  simp only [at_, Pi.single_apply, Fin.getElem_fin]
  by_cases h1 : b.items[(k : ℕ)] = u <;> by_cases h2 : b.items[(l : ℕ)] = v <;> simp [h1, h2]

theorem sumPrec_eq (c : CG (Mixed γ NB)) (u v : ℤ) :
    sumPrec c u v = joint (evn (Pi.single v 1)) c (Pi.single u 1) := by
  simp only [sumPrec, joint, padEntry_eq, evn]

theorem single_vec {U : Set ℤ} [DecidablePred (· ∈ U)] {i : Fin N} (hi : (i : ℤ) ∈ U) :
    (fun i' : Fin N => if (i' : ℤ) ∈ U then (Pi.single (i : ℤ) (1 : ℝ) : ℤ → ℝ) i' else 0) =
      Pi.single i 1 := by
  funext i'
  by_cases h : i' = i
  · subst h; simp [hi]
  · have : ((i' : ℕ) : ℤ) ≠ (i : ℕ) := fun hh => h (Fin.ext (by exact_mod_cast hh))
    rw [Pi.single_eq_of_ne h, Pi.single_eq_of_ne this]
    simp

theorem single_vec_notMem {U : Set ℤ} [DecidablePred (· ∈ U)] {u : ℤ} (hu : u ∉ U) :
    (fun i' : Fin N => if (i' : ℤ) ∈ U then (Pi.single u (1 : ℝ) : ℤ → ℝ) i' else 0) = 0 := by
  funext i'
  by_cases h : (i' : ℤ) ∈ U
  · rw [if_pos h, Pi.single_eq_of_ne]
    · rfl
    · rintro rfl; exact hu h
  · rw [if_neg h]; rfl

theorem glob_single {Q : Matrix (Fin N) (Fin N) ℝ} {U : Set ℤ} {i j : Fin N} (hi : (i : ℤ) ∈ U)
    (hj : (j : ℤ) ∈ U) : glob Q U (Pi.single (i : ℤ) 1) (Pi.single (j : ℤ) 1) = Q i j := by
  classical
  rw [glob, single_vec hi, single_vec hj, ← entry_eq]

theorem glob_outside {Q : Matrix (Fin N) (Fin N) ℝ} {U : Set ℤ} {u v : ℤ} (h : ¬ (u ∈ U ∧ v ∈ U)) :
    glob Q U (Pi.single u 1) (Pi.single v 1) = 0 := by
  classical
  rw [glob]
  by_cases hu : u ∈ U
  · rw [single_vec_notMem (u := v) fun hv => h ⟨hu, hv⟩, mulVec_zero, dotProduct_zero]
  · rw [single_vec_notMem (u := u) hu, zero_dotProduct]

variable {n : ℕ} {C S : ℕ → Set ℤ} {p : ℕ → ℕ} {mean : Fin N → ℝ} {Q : Matrix (Fin N) (Fin N) ℝ}

theorem occurs_iff {c : CG (Mixed γ NB)} (hs : Shape n C S p c) (x : ℤ) :
    Occurs c x ↔ x ∈ covered n C := by
  constructor
  · rintro ⟨b, hb, hx⟩
    obtain ⟨k, hk, rfl⟩ := List.mem_iff_getElem.mp hb
    exact ⟨k, by rw [hs.lenC] at hk; omega, (hs.itemsC k hk x).mp hx⟩
  · rintro ⟨k, hk, hx⟩
    have hk' : k < c.clusters.length := by rw [hs.lenC]; omega
    exact ⟨_, List.getElem_mem hk', (hs.itemsC k hk' x).mpr hx⟩

theorem compatible_of {c : CG (Mixed γ NB)} (hs : Shape n C S p c) (h : ZeroApart Q c) :
    Compatible Q n C := by
  intro i j hi hj hne
  refine h i j ((occurs_iff hs _).mpr hi) ((occurs_iff hs _).mpr hj) fun b hb hcon => hne ?_
  obtain ⟨k, hk, rfl⟩ := List.mem_iff_getElem.mp hb
  exact ⟨k, by rw [hs.lenC] at hk; omega, (hs.itemsC k hk _).mp hcon.1, (hs.itemsC k hk _).mp hcon.2⟩

theorem restrictedMean_of {b : NB} (h : Good (vz mean) b) : RestrictedMean mean b := by
  intro k i hi
  rw [h.mean, at_, ← hi, vz_coe]

theorem consistent_of (hQ : Q.PosDef) (hr : ∀ x ∈ covered n C, 0 ≤ x ∧ x < N)
    {c : CG (Mixed γ NB)}
    (I : NInv fo GWF store n C S p (fun a => glob Q (covered n C) a a) (vz mean) c)
    (hj : ∀ a w, joint (evn w) c a = glob Q (covered n C) a w) : Consistent mean Q c where
  precision i j hi hj' := by
    rw [sumPrec_eq, hj, glob_single ((occurs_iff I.shape _).mp hi) ((occurs_iff I.shape _).mp hj')]
  outside u v h := by
    rw [sumPrec_eq, hj, glob_outside]
    rwa [occurs_iff I.shape, occurs_iff I.shape] at h
  meanC b hb := restrictedMean_of (I.goodC b hb)
  meanE e he := restrictedMean_of (I.goodE e he)
  itemsC b hb := wfn_items (I.inv.wfC b hb)
  itemsE e he := wfn_items (I.inv.wfE e he)
  posDef b hb := by
    obtain ⟨j, hj, rfl⟩ := List.mem_iff_getElem.mp hb
    refine cluster_posDef I.shape I.inv I.tot I.reach ?_ hj (I.goodC _ hb).symm
    rintro j' hj' a ⟨x, hx, hax⟩
    exact glob_pos hQ ⟨j', hj', hx⟩ (hr x ⟨j', hj', hx⟩) hax

theorem glob_posQ (hQ : Q.PosDef) (hr : ∀ x ∈ covered n C, 0 ≤ x ∧ x < N) :
    ∀ j ≤ n, ∀ a : ℤ → ℝ, (∃ x ∈ C j, a x ≠ 0) → 0 < glob Q (covered n C) a a := by
  rintro j' hj' a ⟨x, hx, hax⟩
  exact glob_pos hQ ⟨j', hj', hx⟩ (hr x ⟨j', hj', hx⟩) hax

/-! ## Theorems -/

/-- C22 for any cluster graph with the structure of C14 and C15 (`Built`) and well-formed
beliefs: the loops that initialise the normal approximations of the clusters and edges from the
global mean and precision return, and after that, for every sequence of normal-only messages (any
edges, any directions, including none) that runs through, the sum of the padded cluster
precisions minus the padded edge precisions is the global precision and all means are
restrictions of the global mean. Also every cluster precision is then positive definite. -/
theorem c22_normal_approx (L : FLaws fo GWF F) (hst : StoreLaw fo GWF store)
    {factors : List (List ℤ)} {c : CG (Mixed γ NB)}
    (hB : Built (Mixed.ops fo NB.ops store) factors c)
    (inv : MsgInv (Mixed.ops fo NB.ops store) (WFn fo GWF) c)
    (hr : ∀ x, Occurs c x → 0 ≤ x ∧ x < N) (hQ : Q.PosDef) (hz : ZeroApart Q c) :
    ∃ c0, initNormal mean Q c = Except.ok c0 ∧ ∀ (ms : List Msg) c', (∀ m ∈ ms, m.2.2 = true) →
      passAll (Mixed.ops fo NB.ops store) c0 ms = Except.ok c' → Consistent mean Q c' := by
  obtain ⟨p, hs⟩ := Built.exists_shape rfl hB
  have hr' : ∀ x ∈ covered c.edges.length _, 0 ≤ x ∧ x < N := fun x hx => hr x ((occurs_iff hs x).mpr hx)
  obtain ⟨c0, e0, I, hj, -⟩ := init_inv (mean := mean) hs inv hr' (compatible_of hs hz) (posDef_symm hQ)
  refine ⟨c0, e0, fun ms c' hms h => ?_⟩
  have I' := pass_inv L hst (glob_posQ hQ hr') ms I hms h
  refine consistent_of hQ hr' I' fun a w => ?_
  rw [(passAll_joint (normal_laws L hst w) ms I.inv h).2.1 a, hj]

/-- C22 for the cluster graph built from beliefs over the items `0, …, N-1` of the Gaussian. -/
theorem c22_of_beliefs (L : FLaws fo GWF F) (hst : StoreLaw fo GWF store)
    (beliefs : List (Mixed γ NB)) (hb : ∀ b ∈ beliefs, WFn fo GWF b) {ar : Arith}
    (har : Suits ar (beliefs.map Mixed.items)) (hr : ∀ b ∈ beliefs, ∀ x ∈ b.items, 0 ≤ x ∧ x < N) :
    ∃ c, ofBeliefs ar (Mixed.ops fo NB.ops store) beliefs = Except.ok c ∧
      ∀ (mean : Fin N → ℝ) (Q : Matrix (Fin N) (Fin N) ℝ), Q.PosDef → ZeroApart Q c →
      ∃ c0, initNormal mean Q c = Except.ok c0 ∧ ∀ (ms : List Msg) c', (∀ m ∈ ms, m.2.2 = true) →
        passAll (Mixed.ops fo NB.ops store) c0 ms = Except.ok c' → Consistent mean Q c' := by
  have hF : ∀ F ∈ beliefs.map (Mixed.ops fo NB.ops store).items, F.Nodup := by
    intro F hF
    obtain ⟨b, hbm, rfl⟩ := List.mem_map.mp hF
    exact (hb b hbm).wf.nodup
  obtain ⟨B, hf, h1, h2, h3⟩ := Suits.fits har hF
  obtain ⟨c, ec, hB, inv, -⟩ := ofBeliefs_ok (normal_laws L hst fun _ => 0) beliefs hb hf h1 h2 h3
  refine ⟨c, ec, fun mean Q hQ hz => c22_normal_approx L hst hB inv ?_ hQ hz⟩
  rintro x ⟨b, hbm, hx⟩
  obtain ⟨k, hk, rfl⟩ := List.mem_iff_getElem.mp hbm
  obtain ⟨l, hl, hxl⟩ := (hB.items x).mp ⟨k, by simp only [cl, List.getElem?_eq_getElem hk]; exact hx⟩
  obtain ⟨b', hb', rfl⟩ := List.mem_map.mp hl
  exact hr b' hb' x hxl

/-- Fixing does not change items or normal approximations. -/
theorem consistent_fix {c : CG (Mixed γ NB)} (h : Consistent mean Q c) :
    Consistent mean Q ⟨c.clusters.map Mixed.fixNormalApprox, c.edges.map fun e =>
      ⟨e.first, e.second, e.belief.fixNormalApprox⟩⟩ := by
  have ho : ∀ x, Occurs ⟨c.clusters.map Mixed.fixNormalApprox, c.edges.map fun e =>
      ⟨e.first, e.second, e.belief.fixNormalApprox⟩⟩ x ↔ Occurs c x := by
    intro x
    constructor
    · rintro ⟨b, hb, hx⟩
      obtain ⟨b', hb', rfl⟩ := List.mem_map.mp hb
      exact ⟨b', hb', hx⟩
    · rintro ⟨b, hb, hx⟩
      exact ⟨_, List.mem_map_of_mem hb, hx⟩
  have hsum : ∀ u v, sumPrec ⟨c.clusters.map Mixed.fixNormalApprox, c.edges.map fun e =>
      ⟨e.first, e.second, e.belief.fixNormalApprox⟩⟩ u v = sumPrec c u v := by
    intro u v
    simp only [sumPrec, List.map_map]
    rfl
  refine ⟨fun i j hi hj => ?_, fun u v hn => ?_, ?_, ?_, ?_, ?_, ?_⟩
  · rw [hsum]; exact h.precision i j ((ho _).mp hi) ((ho _).mp hj)
  · rw [hsum]
    refine h.outside u v ?_
    rwa [ho, ho] at hn
  · intro b hb
    obtain ⟨b', hb', rfl⟩ := List.mem_map.mp hb
    exact h.meanC b' hb'
  · intro e he
    obtain ⟨e', he', rfl⟩ := List.mem_map.mp he
    exact h.meanE e' he'
  · intro b hb
    obtain ⟨b', hb', rfl⟩ := List.mem_map.mp hb
    exact h.itemsC b' hb'
  · intro e he
    obtain ⟨e', he', rfl⟩ := List.mem_map.mp he
    exact h.itemsE e' he'
  · intro b hb
    obtain ⟨b', hb', rfl⟩ := List.mem_map.mp hb
    exact h.posDef b' hb'

theorem exists_idx {l : List ℤ} (h : ∀ x ∈ l, 0 ≤ x ∧ x < N) :
    ∃ e : Fin l.length → Fin N, ∀ k, ((e k : ℕ) : ℤ) = l[k] := by
  refine ⟨fun k => ⟨l[k].toNat, by have := h l[k] (by simp); omega⟩, fun k => ?_⟩
  have := h l[k] (by simp)
  exact Int.toNat_of_nonneg this.1

theorem setNormal_inv (L : FLaws fo GWF F) (hst : StoreLaw fo GWF store)
    {c c' : CG (Mixed γ NB)} (hs : Shape n C S p c)
    (inv : MsgInv (Mixed.ops fo NB.ops store) (WFn fo GWF) c)
    (hr : ∀ x ∈ covered n C, 0 ≤ x ∧ x < N) (hQ : Q.PosDef) (hz : Compatible Q n C)
    (h : setNormalApprox fo store mean Q c = Except.ok c') :
    ∃ c2, NInv fo GWF store n C S p (fun a => glob Q (covered n C) a a) (vz mean) c2 ∧
      (∀ a w, joint (evn w) c2 a = glob Q (covered n C) a w) ∧
      (∀ l < n, ∀ a, qe c2 l a ≤ qc c2 l a ∧ qe c2 l a ≤ qc c2 (p l) a) ∧
      c' = ⟨c2.clusters.map Mixed.fixNormalApprox, c2.edges.map fun e =>
        ⟨e.first, e.second, e.belief.fixNormalApprox⟩⟩ := by
  obtain ⟨c0, e0, I0, hj, -⟩ := init_inv (mean := mean) hs inv hr hz (posDef_symm hQ)
  rw [setNormalApprox, e0] at h
  simp only [res_ok_bind] at h
  rcases h1 : calibrateInternal (Mixed.ops fo NB.ops store) c0 true true with err | c1
  · rw [h1] at h; cases h
  rw [h1] at h
  simp only [res_ok_bind] at h
  rcases h2 : calibrateInternal (Mixed.ops fo NB.ops store) c1 false true with err | c2
  · rw [h2] at h; cases h
  rw [h2] at h
  simp only [res_ok_bind, res_pure] at h
  have hqp := glob_posQ hQ hr
  have h1' := h1
  rw [calibrateInternal] at h1'
  simp only [if_true] at h1'
  rw [List.range_eq_range', I0.shape.lenE] at h1'
  obtain ⟨I1, g1⟩ := forward_inv L hst hqp n 0 (by omega) I0 (by omega) h1'
  have h2' := h2
  rw [calibrateInternal] at h2'
  simp only [Bool.false_eq_true, if_false] at h2'
  rw [I1.shape.lenE] at h2'
  obtain ⟨I2, g2⟩ := backward_inv L hst hqp n le_rfl I1 g1 (fun l h1 h2 => by omega) h2'
  refine ⟨c2, I2, fun a w => ?_, g2, ?_⟩
  · rw [calibrate_is_passAll] at h1 h2
    have j1 := (passAll_joint (normal_laws L hst w) _ I0.inv h1).2.1 a
    have j2 := (passAll_joint (normal_laws L hst w) _ I1.inv h2).2.1 a
    rw [j2, j1, hj]
  · injection h with h
    exact h.symm

/-- C22 for the whole of `setNormalApprox`: initialisation, forward and backward normal-only
sweep, fixing. -/
theorem c22_set_normal_approx (L : FLaws fo GWF F) (hst : StoreLaw fo GWF store)
    {factors : List (List ℤ)} {c c' : CG (Mixed γ NB)}
    (hB : Built (Mixed.ops fo NB.ops store) factors c)
    (inv : MsgInv (Mixed.ops fo NB.ops store) (WFn fo GWF) c)
    (hr : ∀ x, Occurs c x → 0 ≤ x ∧ x < N) (hQ : Q.PosDef) (hz : ZeroApart Q c)
    (h : setNormalApprox fo store mean Q c = Except.ok c') : Consistent mean Q c' := by
  obtain ⟨p, hs⟩ := Built.exists_shape rfl hB
  have hr' : ∀ x ∈ covered c.edges.length _, 0 ≤ x ∧ x < N := fun x hx => hr x ((occurs_iff hs x).mpr hx)
  obtain ⟨c2, I, hj, -, rfl⟩ := setNormal_inv L hst hs inv hr' hQ (compatible_of hs hz) h
  exact consistent_fix (consistent_of hQ hr' I hj)

/-- C60: when all coordinates of the Gaussian occur in the graph, after `setNormalApprox` the
normal approximation of every cluster and of every edge is exactly the marginal of the global
Gaussian. -/
theorem c60_marginals (L : FLaws fo GWF F) (hst : StoreLaw fo GWF store)
    {factors : List (List ℤ)} {c c' : CG (Mixed γ NB)}
    (hB : Built (Mixed.ops fo NB.ops store) factors c)
    (inv : MsgInv (Mixed.ops fo NB.ops store) (WFn fo GWF) c)
    (hr : ∀ x, Occurs c x ↔ 0 ≤ x ∧ x < N) (hQ : Q.PosDef) (hz : ZeroApart Q c)
    (h : setNormalApprox fo store mean Q c = Except.ok c') :
    (∀ b ∈ c'.clusters, IsMarginal mean Q b.normalApprox) ∧
      ∀ e ∈ c'.edges, IsMarginal mean Q e.belief.normalApprox := by
  classical
  obtain ⟨p, hs⟩ := Built.exists_shape rfl hB
  have hr' : ∀ x ∈ covered c.edges.length _, 0 ≤ x ∧ x < N :=
    fun x hx => (hr x).mp ((occurs_iff hs x).mpr hx)
  obtain ⟨c2, I, hj, hII, rfl⟩ := setNormal_inv L hst hs inv hr' hQ (compatible_of hs hz) h
  set n := c.edges.length
  have hall : ∀ i : Fin N, (i : ℤ) ∈ covered n _ := fun i =>
    (occurs_iff hs _).mp ((hr _).mpr ⟨by omega, by omega⟩)
  have hglob : ∀ a : ℤ → ℝ, total n (qc c2) (qe c2) a =
      (fun i : Fin N => a i) ⬝ᵥ (Q *ᵥ fun i : Fin N => a i) := by
    intro a
    rw [I.tot a, glob]
    have : (fun i : Fin N => if (i : ℤ) ∈ covered n (fun k => {x | x ∈ cl (Mixed.ops fo NB.ops store) c k})
        then a i else 0) = fun i : Fin N => a i := funext fun i => if_pos (hall i)
    rw [this]
  have hloc := state_local I.shape I.inv
  have hqc : ∀ j (hj : j ≤ n) (hj' : j < c2.clusters.length),
      IsMarginal mean Q c2.clusters[j].normalApprox := by
    intro j hj hj'
    have hwf := I.inv.wfC _ (List.getElem_mem hj')
    have hg := I.goodC _ (List.getElem_mem hj')
    have hmem : ∀ x, x ∈ c2.clusters[j].normalApprox.items ↔
        x ∈ cl (Mixed.ops fo NB.ops store) c j := fun x => by
      rw [wfn_items hwf]; exact I.shape.itemsC j hj' x
    obtain ⟨e, he⟩ := exists_idx (N := N) (l := c2.clusters[j].normalApprox.items) fun x hx =>
      hr' x ⟨j, hj, (hmem x).mp hx⟩
    refine ⟨e, he, fun k => restrictedMean_of hg k (e k) (he k), ?_⟩
    refine eq_marginal hwf.wf.normalWF.nodup hQ hg.symm he (fun a => ?_) fun a => ?_
    · obtain ⟨a', h1, h2⟩ := walk I.shape.tree hloc I.reach hj a
      refine ⟨a', fun x hx => h1 x ((hmem x).mp hx), ?_⟩
      rw [hglob, qc_eq hj'] at h2
      exact h2
    · have := below I.shape.tree hII hj a
      rw [hglob, qc_eq hj'] at this
      exact this
  have hqe : ∀ k (hk : k < n) (hk' : k < c2.edges.length),
      IsMarginal mean Q c2.edges[k].belief.normalApprox := by
    intro k hk hk'
    have hwf := I.inv.wfE _ (List.getElem_mem hk')
    have hg := I.goodE _ (List.getElem_mem hk')
    have hmem : ∀ x, x ∈ c2.edges[k].belief.normalApprox.items ↔
        x ∈ sp (Mixed.ops fo NB.ops store) c.edges k := fun x => by
      rw [wfn_items hwf]; exact I.shape.itemsE k hk' x
    have hsub := I.shape.tree.sub k hk
    have hlt := I.shape.tree.lt k hk
    obtain ⟨e, he⟩ := exists_idx (N := N) (l := c2.edges[k].belief.normalApprox.items) fun x hx =>
      hr' x ⟨p k, hlt.2, hsub x ((hmem x).mp hx)⟩
    refine ⟨e, he, fun l => restrictedMean_of hg l (e l) (he l), ?_⟩
    refine eq_marginal hwf.wf.normalWF.nodup hQ hg.symm he (fun a => ?_) fun a => ?_
    · obtain ⟨a1, h1, h2⟩ := I.reach k hk (p k) (Or.inr rfl) a
      obtain ⟨a2, h3, h4⟩ := walk I.shape.tree hloc I.reach hlt.2 a1
      refine ⟨a2, fun x hx => ?_, ?_⟩
      · rw [h3 x (hsub x ((hmem x).mp hx)), h1 x ((hmem x).mp hx)]
      · rw [hglob] at h4
        rw [← qe_eq hk']
        exact h4.trans h2
    · have h1 := below I.shape.tree hII (j := k) (by omega) a
      have h2 := (hII k hk a).1
      rw [hglob] at h1
      rw [qe_eq hk'] at h2
      exact h2.trans h1
  constructor
  · intro b hb
    obtain ⟨b', hb', rfl⟩ := List.mem_map.mp hb
    obtain ⟨j, hj', rfl⟩ := List.mem_iff_getElem.mp hb'
    exact hqc j (by rw [I.shape.lenC] at hj'; omega) hj'
  · intro e he
    obtain ⟨e', he', rfl⟩ := List.mem_map.mp he
    obtain ⟨k, hk', rfl⟩ := List.mem_iff_getElem.mp he'
    exact hqe k (by rw [I.shape.lenE] at hk'; omega) hk'

/-! ## C61 -/

/-- When a cluster belief of an invariant state is proper. -/
theorem proper_total (L : FLaws fo GWF F) {b : Mixed γ NB} {μ : ℤ → ℝ} (hw : WFn fo GWF b)
    (hg : Good μ b.normalApprox) (hP : b.normalApprox.normal.precision.PosDef) :
    ∃ t, b.isProper fo NB.ops = Except.ok t ∧
      (t = false ↔ (b.beliefs ≠ [] ∧ value fo F b μ = 0) ∨
        -(b.normalApprox.items.length : ℝ) * logSqrtTwoPi +
          0.5 * Real.log b.normalApprox.normal.precision.det = 0) := by
  have hmean : NB.ops.mean b.normalApprox = b.items.map μ := by
    show List.ofFn b.normalApprox.normal.mean = _
    rw [hg.mean, ← wfn_items hw]
    refine List.ext_getElem (by simp) fun k h1 h2 => ?_
    rw [List.getElem_ofFn, List.getElem_map]
    rfl
  have hev : NB.ops.eval b.normalApprox (NB.ops.mean b.normalApprox) = Except.ok
      (some (-(b.normalApprox.items.length : ℝ) * logSqrtTwoPi +
          0.5 * Real.log b.normalApprox.normal.precision.det)) := by
    show NB.evaluate b.normalApprox (List.ofFn b.normalApprox.normal.mean) = _
    have hvec : NB.vec b.normalApprox.items.length (List.ofFn b.normalApprox.normal.mean) =
        Except.ok b.normalApprox.normal.mean := by
      rw [NB.vec, dif_pos (by simp)]
      congr 1
      funext i
      simp
    rw [NB.evaluate, hvec]
    simp only [res_ok_bind, res_pure]
    rw [MN.evaluate, hg.nrm, normalizerOf, if_pos hP.det_pos, hg.nc]
    simp
  obtain ⟨t, h1, h2⟩ := c54_only_zero_partial L hw.wf μ hmean hev
  refine ⟨t, h1, ?_⟩
  rw [h2]
  simp

/-- A normal-only schedule from an invariant state returns or raises the exception for an improper
belief. -/
theorem schedule_total (L : FLaws fo GWF F) (hst : StoreLaw fo GWF store)
    {R : (ℤ → ℝ) → ℝ} {μ : ℤ → ℝ}
    (hQ : ∀ j ≤ n, ∀ a, (∃ x ∈ C j, a x ≠ 0) → 0 < R a) :
    ∀ (ms : List Msg) {c : CG (Mixed γ NB)}, NInv fo GWF store n C S p R μ c →
      (∀ m ∈ ms, m.1 < n ∧ m.2.2 = true) →
      (∃ c', passAll (Mixed.ops fo NB.ops store) c ms = Except.ok c' ∧
        NInv fo GWF store n C S p R μ c') ∨
      passAll (Mixed.ops fo NB.ops store) c ms =
        Res.raise "improper cluster belief after passing message"
  | [], c, I, _ => Or.inl ⟨c, rfl, I⟩
  | m :: ms, c, I, h => by
    obtain ⟨h1, h2⟩ := h m (by simp)
    obtain ⟨c1, ⟨r, hr, hrun⟩, I1, -⟩ := message_total L hst m.2.1 I hQ h1
    have hr' : r ∈ c1.clusters := List.mem_of_getElem? hr
    obtain ⟨l, hl, rfl⟩ := List.mem_iff_getElem.mp hr'
    obtain ⟨t, ht, -⟩ := proper_total L (I1.inv.wfC _ hr') (I1.goodC _ hr')
      (cluster_posDef I1.shape I1.inv I1.tot I1.reach hQ hl (I1.goodC _ hr').symm)
    have hrun' := hrun (Mixed.isProper fo NB.ops)
    change passMessage (Mixed.ops fo NB.ops store) c m.1 m.2.1 true = _ at hrun'
    rw [ht] at hrun'
    simp only [res_ok_bind] at hrun'
    have e : passAll (Mixed.ops fo NB.ops store) c (m :: ms) = (do
        let c' ← passMessage (Mixed.ops fo NB.ops store) c m.1 m.2.1 m.2.2
        passAll (Mixed.ops fo NB.ops store) c' ms) := rfl
    rw [e, h2, hrun']
    cases t with
    | true =>
      simp only [if_true, res_pure, res_ok_bind]
      exact schedule_total L hst hQ ms I1 fun m' hm' => h m' (by simp [hm'])
    | false => right; rfl

theorem sweep_range {n : ℕ} {fw : Bool} : ∀ m ∈ ((if fw then List.range n else (List.range n).reverse).map
    fun k => ((k, fw, true) : Msg)), m.1 < n ∧ m.2.2 = true := by
  intro m hm
  obtain ⟨k, hk, rfl⟩ := List.mem_map.mp hm
  refine ⟨?_, rfl⟩
  cases fw <;> simpa using hk

/-- C61: on a built cluster graph with the items of a positive definite Gaussian,
`setNormalApprox` never runs into undefined behaviour: it returns, or raises the exception for an
improper belief. -/
theorem c61_set_total (L : FLaws fo GWF F) (hst : StoreLaw fo GWF store)
    {factors : List (List ℤ)} {c : CG (Mixed γ NB)}
    (hB : Built (Mixed.ops fo NB.ops store) factors c)
    (inv : MsgInv (Mixed.ops fo NB.ops store) (WFn fo GWF) c)
    (hr : ∀ x, Occurs c x → 0 ≤ x ∧ x < N) (hQ : Q.PosDef) (hz : ZeroApart Q c) :
    (∃ c', setNormalApprox fo store mean Q c = Except.ok c') ∨
      setNormalApprox fo store mean Q c =
        Res.raise "improper cluster belief after passing message" := by
  obtain ⟨p, hs⟩ := Built.exists_shape rfl hB
  have hr' : ∀ x ∈ covered c.edges.length _, 0 ≤ x ∧ x < N := fun x hx => hr x ((occurs_iff hs x).mpr hx)
  obtain ⟨c0, e0, I0, -⟩ := init_inv (mean := mean) hs inv hr' (compatible_of hs hz) (posDef_symm hQ)
  have hqp := glob_posQ hQ hr'
  rw [setNormalApprox, e0]
  simp only [res_ok_bind]
  rw [calibrate_is_passAll, I0.shape.lenE]
  rcases schedule_total L hst hqp _ I0 (sweep_range (fw := true)) with
    ⟨c1, h1, I1⟩ | h1
  · rw [h1]
    simp only [res_ok_bind]
    rw [calibrate_is_passAll, I1.shape.lenE]
    rcases schedule_total L hst hqp _ I1 (sweep_range (fw := false)) with
      ⟨c2, h2, -⟩ | h2
    · rw [h2]
      exact Or.inl ⟨_, rfl⟩
    · rw [h2]
      right; rfl
  · rw [h1]
    right; rfl

/-! ## Concrete case -/

/-- A factor on the items 0 and 1 and a factor on item 1. -/
noncomputable def exGraph : CG (Mixed (List ℤ × ℝ) NB) :=
  ⟨[Mixed.ofFactor sqOps NB.ops ([0, 1], -1), Mixed.ofFactor sqOps NB.ops ([1], -1)],
    [⟨0, 1, Mixed.ofItems NB.ops [1]⟩]⟩

/-- A store that is never called. -/
def noStore : Store (List ℤ × ℝ) NB := fun _ _ _ _ _ _ => Res.ub

theorem noStore_law : StoreLaw sqOps (fun g => g.1.Nodup) noStore := by
  intro _ _ _ _ _ _ _ _ h
  cases h

theorem exGraph_built : Built (Mixed.ops sqOps NB.ops noStore) [[0, 1], [1]] exGraph where
  len := rfl
  ndS := by
    rintro (_ | k)
    · show [(1 : ℤ)].Nodup; simp
    · rw [sp_ge _ (by simp [exGraph])]; exact List.nodup_nil
  ndC := by
    rintro (_ | _ | k)
    · show [(0 : ℤ), 1].Nodup; simp
    · show [(1 : ℤ)].Nodup; simp
    · rw [cl_ge _ (by simp [exGraph])]; exact List.nodup_nil
  edge := by
    intro k hk
    have : k = 0 := by simpa [exGraph] using hk
    subst this
    refine ⟨rfl, 1, by omega, by simp [exGraph], rfl, fun x hx => ?_⟩
    exact hx
  elim := by
    intro k hk
    have : k = 0 := by simpa [exGraph] using hk
    subst this
    refine ⟨0, by show (0 : ℤ) ∉ [(1 : ℤ)]; simp, fun x => by
      show x ∈ [(0 : ℤ), 1] ↔ x = 0 ∨ x ∈ [(1 : ℤ)]; simp, ?_, fun x hx => ⟨1, by omega, hx⟩⟩
    rintro (_ | _ | j) hj
    · omega
    · show (0 : ℤ) ∉ [(1 : ℤ)]; simp
    · rw [cl_ge _ (by simp [exGraph])]; simp
  cover := by
    intro F hF
    refine ⟨0, by simp [exGraph], fun x hx => ?_⟩
    show x ∈ [(0 : ℤ), 1]
    fin_cases hF <;> simp at hx ⊢ <;> tauto
  items := by
    intro x
    constructor
    · rintro ⟨_ | _ | k, hk⟩
      · exact ⟨[0, 1], by simp, hk⟩
      · exact ⟨[1], by simp, hk⟩
      · rw [cl_ge _ (by simp [exGraph])] at hk; simp at hk
    · rintro ⟨F, hF, hx⟩
      refine ⟨0, ?_⟩
      show x ∈ [(0 : ℤ), 1]
      fin_cases hF <;> simp at hx ⊢ <;> tauto

theorem exGraph_inv : MsgInv (Mixed.ops sqOps NB.ops noStore) (WFn sqOps fun g => g.1.Nodup)
    exGraph where
  wfC := by
    intro b hb
    fin_cases hb
    · exact ⟨wf_ofFactor sq_laws nb_laws (by show [(0 : ℤ), 1].Nodup; simp), rfl⟩
    · exact ⟨wf_ofFactor sq_laws nb_laws (by show [(1 : ℤ)].Nodup; simp), rfl⟩
  wfE := by
    intro e he
    fin_cases he
    exact ⟨wf_ofItems nb_laws (by simp), rfl⟩
  ends := by
    intro e he
    fin_cases he
    refine ⟨0, 1, by simp [exGraph], by simp [exGraph], rfl, rfl, fun x hx => ?_, fun x hx => hx⟩
    show x ∈ [(0 : ℤ), 1]
    change x ∈ [(1 : ℤ)] at hx
    simp at hx
    simp [hx]

/-- A precision with correlation. -/
def exQ : Matrix (Fin 2) (Fin 2) ℝ := !![2, 1; 1, 2]

theorem exQ_posDef : exQ.PosDef := by
  refine posDef_of (by ext i j; fin_cases i <;> fin_cases j <;> rfl) fun x hx => ?_
  have h1 : x 0 ≠ 0 ∨ x 1 ≠ 0 := by
    by_contra h
    push_neg at h
    exact hx (by ext i; fin_cases i; exacts [h.1, h.2])
  have h2 : x ⬝ᵥ (exQ *ᵥ x) = x 0 ^ 2 + x 1 ^ 2 + (x 0 + x 1) ^ 2 := by
    simp [exQ, dotProduct, mulVec, Fin.sum_univ_two]
    ring
  rw [h2]
  rcases h1 with h | h <;> positivity

theorem exGraph_occurs (x : ℤ) : Occurs exGraph x ↔ 0 ≤ x ∧ x < (2 : ℕ) := by
  constructor
  · rintro ⟨b, hb, hx⟩
    fin_cases hb
    · change x ∈ [(0 : ℤ), 1] at hx
      simp at hx
      omega
    · change x ∈ [(1 : ℤ)] at hx
      simp at hx
      omega
  · intro h
    refine ⟨_, List.mem_cons_self, ?_⟩
    show x ∈ [(0 : ℤ), 1]
    simp
    omega

theorem exGraph_zero : ZeroApart exQ exGraph := by
  intro i j _ _ h
  refine absurd ?_ (h _ List.mem_cons_self)
  constructor
  · show (i : ℤ) ∈ [(0 : ℤ), 1]
    fin_cases i <;> simp
  · show (j : ℤ) ∈ [(0 : ℤ), 1]
    fin_cases j <;> simp

theorem det_one {b : NB} {t : ℝ} (h : b.items = [1]) (hb : ∀ a, bil b a a = t * a 1 ^ 2) :
    b.normal.precision.det = t := by
  rcases b with ⟨items, normal, nc⟩
  change items = [1] at h
  subst h
  obtain ⟨P, hP⟩ : ∃ P : Matrix (Fin 1) (Fin 1) ℝ, P = normal.precision := ⟨_, rfl⟩
  have h1 := hb fun _ => 1
  change (fun _ : Fin 1 => (1 : ℝ)) ⬝ᵥ (normal.precision *ᵥ fun _ : Fin 1 => (1 : ℝ)) = _ at h1
  rw [← hP] at h1
  simp [dotProduct, mulVec] at h1
  change normal.precision.det = t
  have h4 : normal.precision.det = P.det := by rw [hP]
  rw [h4, Matrix.det_fin_one]
  exact h1

theorem det_two {b : NB} (h : b.items = [0, 1]) (hs : b.normal.precisionᵀ = b.normal.precision)
    (hb : ∀ a, bil b a a = 2 * a 0 ^ 2 + 2 * a 0 * a 1 + 2 * a 1 ^ 2) :
    b.normal.precision.det = 3 := by
  rcases b with ⟨items, normal, nc⟩
  change items = [0, 1] at h
  subst h
  obtain ⟨P, hP⟩ : ∃ P : Matrix (Fin 2) (Fin 2) ℝ, P = normal.precision := ⟨_, rfl⟩
  have key : ∀ x y : ℝ, ![x, y] ⬝ᵥ (P *ᵥ ![x, y]) = 2 * x ^ 2 + 2 * x * y + 2 * y ^ 2 := by
    intro x y
    have h1 := hb fun z => if z = 0 then x else y
    rw [hP]
    have h2 : at_ [0, 1] (fun z => if z = 0 then x else y) = ![x, y] := by
      funext k
      fin_cases k <;> rfl
    change at_ [0, 1] _ ⬝ᵥ (normal.precision *ᵥ at_ [0, 1] _) = _ at h1
    rw [h2] at h1
    simpa using h1
  have hs' : P 0 1 = P 1 0 := by
    have := congrFun (congrFun hs 1) 0
    rw [hP]
    exact this
  change normal.precision.det = 3
  have h4 : normal.precision.det = P.det := by rw [hP]
  rw [h4, Matrix.det_fin_two]
  have k1 := key 1 0
  have k2 := key 0 1
  have k3 := key 1 1
  simp [dotProduct, mulVec, Fin.sum_univ_two] at k1 k2 k3
  rw [k1, k2] at *
  nlinarith

theorem logc_bounds : logSqrtTwoPi = 0.91893853320467266954 := rfl

theorem not_zero_one : -(1 : ℝ) * logSqrtTwoPi + 0.5 * Real.log (3 / 2) ≠ 0 := by
  have := Real.log_le_sub_one_of_pos (show (0 : ℝ) < 3 / 2 by norm_num)
  rw [logc_bounds]
  intro h
  norm_num at h this
  linarith

theorem not_zero_two : -(2 : ℝ) * logSqrtTwoPi + 0.5 * Real.log 3 ≠ 0 := by
  have := Real.log_le_sub_one_of_pos (show (0 : ℝ) < 3 by norm_num)
  rw [logc_bounds]
  intro h
  norm_num at h this
  linarith

/-- The hypotheses of C22, C60 and C61 hold for the example, and `setNormalApprox` returns: both
sweeps pass a message and find a proper belief. -/
theorem exGraph_run : ∃ c', setNormalApprox sqOps noStore (fun _ => 1) exQ exGraph = Except.ok c' := by
  have L := sq_laws
  have hst := noStore_law
  have hQ := exQ_posDef
  obtain ⟨p, hs⟩ := Built.exists_shape rfl exGraph_built
  have hr' : ∀ x ∈ covered exGraph.edges.length _, 0 ≤ x ∧ x < (2 : ℕ) :=
    fun x hx => (exGraph_occurs x).mp ((occurs_iff hs x).mpr hx)
  obtain ⟨c0, e0, I0, -, hC, hE, hv0, hw0⟩ := init_inv (mean := fun _ => (1 : ℝ)) hs exGraph_inv hr'
    (compatible_of hs exGraph_zero) (posDef_symm hQ)
  have hqp := glob_posQ hQ hr'
  have hp : p 0 = 1 := by
    have := (hs.ends 0 (by simp [exGraph])).2
    have h2 : ((1 : ℤ)) = (p 0 : ℤ) := this
    omega
  have hq : ∀ l : List ℤ, (∀ x ∈ l, 0 ≤ x ∧ x < (2 : ℕ)) → l.Nodup → ∀ a,
      bil (restr (fun _ : Fin 2 => (1 : ℝ)) exQ l) a a = (if (0 : ℤ) ∈ l then 2 * a 0 ^ 2 else 0) +
        (if (0 : ℤ) ∈ l ∧ (1 : ℤ) ∈ l then 2 * a 0 * a 1 else 0) +
        (if (1 : ℤ) ∈ l then 2 * a 1 ^ 2 else 0) := by
    intro l h1 h2 a
    rw [bil_restr h2 h1]
    simp only [Fin.sum_univ_two, exQ]
    by_cases h3 : (0 : ℤ) ∈ l <;> by_cases h4 : (1 : ℤ) ∈ l <;> simp [h3, h4] <;> ring
  have e0' := e0
  rw [initNormal_ok (by
    intro b hb x hx
    exact (exGraph_occurs x).mp ⟨b, hb, hx⟩) (by
    intro e he x hx
    fin_cases he
    change x ∈ [(1 : ℤ)] at hx
    simp at hx
    omega)] at e0'
  injection e0' with e0'
  have hi0 : c0.clusters.map Mixed.items = [[0, 1], [1]] := by rw [← e0']; rfl
  have q00 : ∀ a, qc c0 0 a = 2 * a 0 ^ 2 + 2 * a 0 * a 1 + 2 * a 1 ^ 2 := by
    intro a
    have : qc c0 0 a = bil (restr (fun _ : Fin 2 => (1 : ℝ)) exQ [0, 1]) a a := by rw [← e0']; rfl
    rw [this, hq _ (by simp) (by simp)]
    simp
  have q01 : ∀ a, qc c0 1 a = 2 * a 1 ^ 2 := by
    intro a
    have : qc c0 1 a = bil (restr (fun _ : Fin 2 => (1 : ℝ)) exQ [1]) a a := by rw [← e0']; rfl
    rw [this, hq _ (by simp) (by simp)]
    simp
  have qe0 : ∀ a, qe c0 0 a = 2 * a 1 ^ 2 := by
    intro a
    have : qe c0 0 a = bil (restr (fun _ : Fin 2 => (1 : ℝ)) exQ [1]) a a := by rw [← e0']; rfl
    rw [this, hq _ (by simp) (by simp)]
    simp
  have hmem : (1 : ℤ) ∈ sp (Mixed.ops sqOps NB.ops noStore) exGraph.edges 0 := by
    show (1 : ℤ) ∈ [(1 : ℤ)]
    simp
  -- values of the factors at the mean
  obtain ⟨μ, hμ⟩ : ∃ μ : ℤ → ℝ, μ = vz (fun _ : Fin 2 => (1 : ℝ)) := ⟨_, rfl⟩
  have hμ0 : μ 0 = 1 := by rw [hμ]; simp [vz]
  have hμ1 : μ 1 = 1 := by rw [hμ]; simp [vz]
  obtain ⟨F, hF⟩ : ∃ F : List ℤ × ℝ → List ℝ → ℝ, F = fun g x => g.2 * (x.map (· ^ 2)).sum := ⟨_, rfl⟩
  have v0 : vc sqOps F c0 0 μ = -2 := by
    rw [hv0]
    have : vc sqOps F exGraph 0 μ = value sqOps F (Mixed.ofFactor sqOps NB.ops ([0, 1], -1)) μ := rfl
    rw [this, value_ofFactor, hF]
    simp [sqOps, hμ0, hμ1]
    norm_num
  have v1 : vc sqOps F c0 1 μ = -1 := by
    rw [hv0]
    have : vc sqOps F exGraph 1 μ = value sqOps F (Mixed.ofFactor sqOps NB.ops ([1], -1)) μ := rfl
    rw [this, value_ofFactor, hF]
    simp [sqOps, hμ1]
  have ve0 : ve sqOps F c0 0 μ = 0 := by
    rw [hw0]
    have : ve sqOps F exGraph 0 μ = value sqOps F (Mixed.ofItems NB.ops [1]) μ := rfl
    rw [this]
    simp [value, Mixed.ofItems]
  -- the forward message
  obtain ⟨c1, ⟨r, hr, hrun1⟩, I1, st1, hv1, hw1, hi1⟩ :=
    message_total L hst true I0 hqp (k := 0) (by simp [exGraph])
  simp only [if_true, hp] at hr st1 hv1
  have qe1 : ∀ a, qe c1 0 a = 3 / 2 * a 1 ^ 2 := by
    intro a
    refine le_antisymm ?_ ?_
    · have h1 := st1.le fun x => if x = 0 then -(a 1) / 2 else a x
      have h2 : qe c1 0 (fun x => if x = 0 then -(a 1) / 2 else a x) = qe c1 0 a := by
        refine (state_local I1.shape I1.inv).e 0 _ _ fun x hx => ?_
        have hx' : x ∈ [(1 : ℤ)] := hx
        simp at hx'
        subst hx'
        simp
      rw [h2, q00] at h1
      simp at h1
      nlinarith
    · obtain ⟨a', h1, h2⟩ := st1.ex a
      rw [q00] at h2
      have h3 := h1 1 hmem
      rw [← h3]
      nlinarith [sq_nonneg (2 * a' 0 + a' 1)]
  have q11 : ∀ a, qc c1 1 a = 3 / 2 * a 1 ^ 2 := by
    intro a
    rw [st1.target, q01, qe1, qe0]
    ring
  have q10 : ∀ a, qc c1 0 a = 2 * a 0 ^ 2 + 2 * a 0 * a 1 + 2 * a 1 ^ 2 := by
    intro a
    rw [st1.cluster 0 (by omega), q00]
  have run1 : passMessage (Mixed.ops sqOps NB.ops noStore) c0 0 true true = Except.ok c1 := by
    obtain ⟨hl, rfl⟩ := List.getElem?_eq_some_iff.mp hr
    have hm := List.getElem_mem hl
    have hit : c1.clusters[1].items = [1] := by
      have : (c1.clusters.map Mixed.items)[1]? = some [1] := by rw [hi1, hi0]; rfl
      rw [List.getElem?_map, List.getElem?_eq_getElem hl] at this
      simpa using this
    have hit' := (wfn_items (I1.inv.wfC _ hm)).trans hit
    obtain ⟨t, ht, hiff⟩ := proper_total L (I1.inv.wfC _ hm) (I1.goodC _ hm)
      (cluster_posDef I1.shape I1.inv I1.tot I1.reach hqp hl (I1.goodC _ hm).symm)
    rw [det_one hit' fun a => by rw [← qc_eq hl, q11], hit'] at hiff
    have hval : value sqOps F c1.clusters[1] μ = -1 := by
      have := hv1 F μ 1
      rw [v1, ve0, vc, List.getElem?_eq_getElem hl] at this
      simpa using this
    have htrue : t = true := by
      by_contra hcon
      rcases hiff.mp (by simpa using hcon) with h | h
      · have h2 := h.2
        rw [← hF, ← hμ, hval] at h2
        norm_num at h2
      · exact not_zero_one (by simpa using h)
    have := hrun1 (Mixed.isProper sqOps NB.ops)
    rw [ht, htrue] at this
    exact this
  -- the backward message
  obtain ⟨c2, ⟨r2, hr2, hrun2⟩, I2, st2, hv2, hw2, hi2⟩ :=
    message_total L hst false I1 hqp (k := 0) (by simp [exGraph])
  simp only [Bool.false_eq_true, if_false, hp] at hr2 st2 hv2
  have qe2 : ∀ a, qe c2 0 a = 3 / 2 * a 1 ^ 2 := by
    intro a
    refine le_antisymm ?_ ?_
    · have h1 := st2.le a
      rw [q11] at h1
      exact h1
    · obtain ⟨a', h1, h2⟩ := st2.ex a
      rw [q11, h1 1 hmem] at h2
      exact h2
  have q20 : ∀ a, qc c2 0 a = 2 * a 0 ^ 2 + 2 * a 0 * a 1 + 2 * a 1 ^ 2 := by
    intro a
    rw [st2.target, q10, qe2, qe1]
    ring
  have run2 : passMessage (Mixed.ops sqOps NB.ops noStore) c1 0 false true = Except.ok c2 := by
    obtain ⟨hl, rfl⟩ := List.getElem?_eq_some_iff.mp hr2
    have hm := List.getElem_mem hl
    have hit : c2.clusters[0].items = [0, 1] := by
      have : (c2.clusters.map Mixed.items)[0]? = some [0, 1] := by rw [hi2, hi1, hi0]; rfl
      rw [List.getElem?_map, List.getElem?_eq_getElem hl] at this
      simpa using this
    have hit' := (wfn_items (I2.inv.wfC _ hm)).trans hit
    obtain ⟨t, ht, hiff⟩ := proper_total L (I2.inv.wfC _ hm) (I2.goodC _ hm)
      (cluster_posDef I2.shape I2.inv I2.tot I2.reach hqp hl (I2.goodC _ hm).symm)
    rw [det_two hit' (I2.goodC _ hm).symm fun a => by rw [← qc_eq hl, q20], hit'] at hiff
    have hval : value sqOps F c2.clusters[0] μ = -2 := by
      have := hv2 F μ 0
      have h3 := hv1 F μ 0
      have h4 := hw1 F μ 0
      rw [h3, h4, v0, vc, List.getElem?_eq_getElem hl] at this
      simpa using this
    have htrue : t = true := by
      by_contra hcon
      rcases hiff.mp (by simpa using hcon) with h | h
      · have h2 := h.2
        rw [← hF, ← hμ, hval] at h2
        norm_num at h2
      · exact not_zero_two (by simpa using h)
    have := hrun2 (Mixed.isProper sqOps NB.ops)
    rw [ht, htrue] at this
    exact this
  have hl0 : c0.edges.length = 1 := by rw [I0.shape.lenE]; rfl
  have hl1 : c1.edges.length = 1 := by rw [I1.shape.lenE]; rfl
  have s1 : calibrateInternal (Mixed.ops sqOps NB.ops noStore) c0 true true = Except.ok c1 := by
    rw [calibrateInternal, hl0]
    show (passMessage (Mixed.ops sqOps NB.ops noStore) c0 0 true true >>= fun c => pure c) = _
    rw [run1]
    rfl
  have s2 : calibrateInternal (Mixed.ops sqOps NB.ops noStore) c1 false true = Except.ok c2 := by
    rw [calibrateInternal, hl1]
    show (passMessage (Mixed.ops sqOps NB.ops noStore) c1 0 false true >>= fun c => pure c) = _
    rw [run2]
    rfl
  rw [setNormalApprox, e0]
  simp only [res_ok_bind]
  rw [s1]
  simp only [res_ok_bind]
  rw [s2]
  exact ⟨_, rfl⟩

/-- So C60 gives: the belief on the items 0 and 1 ends with the precision `exQ` itself and the
edge and the other cluster with precision `3/2` (one over the variance `2/3`). -/
example : ∃ c', setNormalApprox sqOps noStore (fun _ => 1) exQ exGraph = Except.ok c' ∧
    (∀ b ∈ c'.clusters, IsMarginal (fun _ => 1) exQ b.normalApprox) ∧
    (∀ e ∈ c'.edges, IsMarginal (fun _ => 1) exQ e.belief.normalApprox) ∧
    Consistent (fun _ => 1) exQ c' := by
  obtain ⟨c', h⟩ := exGraph_run
  obtain ⟨h1, h2⟩ := c60_marginals sq_laws noStore_law exGraph_built exGraph_inv exGraph_occurs
    exQ_posDef exGraph_zero h
  exact ⟨c', h, h1, h2, c22_set_normal_approx sq_laws noStore_law exGraph_built exGraph_inv
    (fun x hx => (exGraph_occurs x).mp hx) exQ_posDef exGraph_zero h⟩

end Verif.Gauss
