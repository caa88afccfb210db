import Verif.Proofs.NormalApprox

/-! The initial normal approximation and the calibrated one. -/
namespace Verif.Gauss

open Verif.Eigen Verif.Items Verif.Belief Verif.ClusterGraph Verif.TreeForms Matrix

variable {γ : Type} {fo : FactorOps γ} {GWF : γ → Prop} {F : γ → List ℝ → ℝ} {store : Store γ NB}
variable {N : ℕ}

/-- A vector as a function of the item. -/
def vz (mean : Fin N → ℝ) (x : ℤ) : ℝ :=
  if h : 0 ≤ x ∧ x < N then mean ⟨x.toNat, by omega⟩ else 0

/-- A matrix as a function of two items. -/
def mz (Q : Matrix (Fin N) (Fin N) ℝ) (x y : ℤ) : ℝ :=
  if h : (0 ≤ x ∧ x < N) ∧ 0 ≤ y ∧ y < N then Q ⟨x.toNat, by omega⟩ ⟨y.toNat, by omega⟩ else 0

theorem vz_coe (mean : Fin N → ℝ) (i : Fin N) : vz mean (i : ℤ) = mean i := by
  rw [vz, dif_pos ⟨by omega, by omega⟩]
  simp

theorem mz_coe (Q : Matrix (Fin N) (Fin N) ℝ) (i j : Fin N) : mz Q (i : ℤ) (j : ℤ) = Q i j := by
  rw [mz, dif_pos ⟨⟨by omega, by omega⟩, by omega, by omega⟩]
  simp

/-- The restriction of the global Gaussian to the items. -/
noncomputable def restr (mean : Fin N → ℝ) (Q : Matrix (Fin N) (Fin N) ℝ) (l : List ℤ) : NB :=
  ⟨l, MN.ofMeanPrecision (at_ l (vz mean)) (Matrix.of fun i j => mz Q l[i] l[j]), 0⟩

theorem restrict_ok {mean : Fin N → ℝ} {Q : Matrix (Fin N) (Fin N) ℝ} {l : List ℤ}
    (h : ∀ x ∈ l, 0 ≤ x ∧ x < N) : restrict mean Q l = Except.ok (restr mean Q l) := by
  have hr : InRange N (fun k : Fin l.length => l[k].toNat) := fun k => by
    have := h l[k] (by simp)
    show l[k].toNat < N
    omega
  rw [restrict, if_pos fun x hx => (h x hx).1, getVectorSubset_ok hr]
  simp only [res_ok_bind]
  rw [getMatrixSubset_ok hr]
  simp only [res_ok_bind, res_pure, restr]
  congr 3
  · funext k
    rw [at_, vz, dif_pos (h l[k] (by simp))]
    rfl
  · ext i j
    rw [Matrix.submatrix_apply, Matrix.of_apply, mz, dif_pos ⟨h l[i] (by simp), h l[j] (by simp)⟩]
    rfl

theorem mapM_ok {α β : Type} {f : α → Res β} {g : α → β} : ∀ l : List α,
    (∀ a ∈ l, f a = Except.ok (g a)) → l.mapM f = Except.ok (l.map g)
  | [], _ => rfl
  | a :: l, h => by
    rw [List.mapM_cons, h a (by simp)]
    simp only [res_ok_bind]
    rw [mapM_ok l fun a' h' => h a' (by simp [h'])]
    rfl

theorem initNormal_ok {mean : Fin N → ℝ} {Q : Matrix (Fin N) (Fin N) ℝ} {c : CG (Mixed γ NB)}
    (hC : ∀ b ∈ c.clusters, ∀ x ∈ b.items, 0 ≤ x ∧ x < N)
    (hE : ∀ e ∈ c.edges, ∀ x ∈ e.belief.items, 0 ≤ x ∧ x < N) :
    initNormal mean Q c = Except.ok
      ⟨c.clusters.map fun b => b.setNormalApprox (restr mean Q b.items),
        c.edges.map fun e => ⟨e.first, e.second, e.belief.setNormalApprox (restr mean Q e.belief.items)⟩⟩ := by
  rw [initNormal, mapM_ok c.clusters fun b hb => by
    rw [restrictMixed, restrict_ok (hC b hb)]; rfl]
  simp only [res_ok_bind]
  rw [mapM_ok c.edges fun e he => by
    rw [restrictEdge, restrictMixed, restrict_ok (hE e he)]; rfl]
  rfl

/-! ## Sums over positions and over items -/

theorem sum_items {l : List ℤ} (hl : l.Nodup) (h : ∀ x ∈ l, 0 ≤ x ∧ x < N) (f : ℤ → ℝ) :
    ∑ k : Fin l.length, f l[k] = ∑ i : Fin N, if (i : ℤ) ∈ l then f i else 0 := by
  rw [← Finset.sum_filter]
  refine Finset.sum_bij (fun k _ => (⟨l[k].toNat, by have := h l[k] (by simp); omega⟩ : Fin N))
    ?_ ?_ ?_ ?_
  · intro k _
    have := h l[k] (by simp)
    rw [Finset.mem_filter]
    refine ⟨Finset.mem_univ _, ?_⟩
    show ((l[k].toNat : ℕ) : ℤ) ∈ l
    rw [Int.toNat_of_nonneg this.1]
    simp
  · intro k _ k' _ hkk
    have h1 := h l[k] (by simp)
    have h2 := h l[k'] (by simp)
    have h3 : l[k].toNat = l[k'].toNat := congrArg Fin.val hkk
    have h4 : l[(k : ℕ)] = l[(k' : ℕ)] := by
      have : l[k] = l[k'] := by omega
      exact this
    exact Fin.ext (hl.getElem_inj_iff.mp h4)
  · intro i hi
    rw [Finset.mem_filter] at hi
    obtain ⟨k, hk, hki⟩ := List.mem_iff_getElem.mp hi.2
    refine ⟨⟨k, hk⟩, Finset.mem_univ _, ?_⟩
    apply Fin.ext
    show (l[k]).toNat = _
    rw [hki]
    simp
  · intro k _
    have := h l[k] (by simp)
    show f l[k] = f ((l[k].toNat : ℕ) : ℤ)
    rw [Int.toNat_of_nonneg this.1]

theorem bil_restr {mean : Fin N → ℝ} {Q : Matrix (Fin N) (Fin N) ℝ} {l : List ℤ} (hl : l.Nodup)
    (h : ∀ x ∈ l, 0 ≤ x ∧ x < N) (a w : ℤ → ℝ) :
    bil (restr mean Q l) a w = ∑ i : Fin N, ∑ j : Fin N,
      if (i : ℤ) ∈ l ∧ (j : ℤ) ∈ l then Q i j * (a i * w j) else 0 := by
  have h1 : bil (restr mean Q l) a w = ∑ k : Fin l.length,
      (fun x => a x * ∑ k' : Fin l.length, (fun y => mz Q x y * w y) l[k']) l[k] := rfl
  refine h1.trans ((sum_items hl h
    (fun x => a x * ∑ k' : Fin l.length, (fun y => mz Q x y * w y) l[k'])).trans ?_)
  refine Finset.sum_congr rfl fun i _ => ?_
  by_cases hi : (i : ℤ) ∈ l
  · rw [if_pos hi]
    simp only [hi, true_and]
    rw [sum_items hl h (fun y => mz Q i y * w y), Finset.mul_sum]
    refine Finset.sum_congr rfl fun j _ => ?_
    rw [mz_coe]
    split
    · ring
    · ring
  · rw [if_neg hi]
    simp [hi]

/-! ## The global form -/

open Classical in
/-- The bilinear form of the global precision, on the covered items. -/
noncomputable def glob (Q : Matrix (Fin N) (Fin N) ℝ) (U : Set ℤ) (a w : ℤ → ℝ) : ℝ :=
  (fun i : Fin N => if (i : ℤ) ∈ U then a i else 0) ⬝ᵥ
    (Q *ᵥ fun i : Fin N => if (i : ℤ) ∈ U then w i else 0)

open Classical in
theorem glob_eq (Q : Matrix (Fin N) (Fin N) ℝ) (U : Set ℤ) (a w : ℤ → ℝ) :
    glob Q U a w = ∑ i : Fin N, ∑ j : Fin N,
      if (i : ℤ) ∈ U ∧ (j : ℤ) ∈ U then Q i j * (a i * w j) else 0 := by
  rw [glob, dotProduct]
  refine Finset.sum_congr rfl fun i _ => ?_
  rw [mulVec, dotProduct, Finset.mul_sum]
  refine Finset.sum_congr rfl fun j _ => ?_
  by_cases hi : (i : ℤ) ∈ U
  · by_cases hj : (j : ℤ) ∈ U
    · simp only [hi, hj, if_true, and_self]; ring
    · simp only [hi, hj, if_true, if_false, and_false]; ring
  · simp only [hi, if_false, false_and]; ring

theorem glob_pos {Q : Matrix (Fin N) (Fin N) ℝ} (hQ : Q.PosDef) {U : Set ℤ} {a : ℤ → ℝ} {x : ℤ}
    (hx : x ∈ U) (hr : 0 ≤ x ∧ x < N) (ha : a x ≠ 0) : 0 < glob Q U a a := by
  classical
  rw [glob]
  refine posDef_pos hQ fun h0 => ha ?_
  have := congrFun h0 ⟨x.toNat, by omega⟩
  have hxx : ((x.toNat : ℕ) : ℤ) = x := Int.toNat_of_nonneg hr.1
  simp only [hxx, if_pos hx] at this
  exact this

open Classical in
/-- Weighted sums over clusters minus edges. -/
theorem total_sum {n : ℕ} {C S : ℕ → Set ℤ} {p : ℕ → ℕ} (J : JT n C S p)
    (g : Fin N → Fin N → ℝ) (a : ℤ → ℝ) :
    total n (fun k _ => ∑ i : Fin N, ∑ j : Fin N, if (i : ℤ) ∈ C k ∧ (j : ℤ) ∈ C k then g i j else 0)
      (fun k _ => ∑ i : Fin N, ∑ j : Fin N, if (i : ℤ) ∈ S k ∧ (j : ℤ) ∈ S k then g i j else 0) a =
    ∑ i : Fin N, ∑ j : Fin N, if ∃ k ≤ n, (i : ℤ) ∈ C k ∧ (j : ℤ) ∈ C k then g i j else 0 := by
  rw [total, Finset.sum_comm, Finset.sum_comm (s := Finset.range n), ← Finset.sum_sub_distrib]
  refine Finset.sum_congr rfl fun i _ => ?_
  rw [Finset.sum_comm, Finset.sum_comm (s := Finset.range n), ← Finset.sum_sub_distrib]
  refine Finset.sum_congr rfl fun j _ => ?_
  have h := count_pair J (i : ℤ) (j : ℤ) a
  rw [total] at h
  have h2 := congrArg (fun t => t * g i j) h
  simp only [sub_mul, Finset.sum_mul, ite_mul, one_mul, zero_mul] at h2
  exact h2

/-! ## The tree of a built cluster graph -/

variable {ops : Ops (Mixed γ NB)}

theorem Built.exists_shape {factors : List (List ℤ)} {c : CG (Mixed γ NB)}
    (hops : ops.items = Mixed.items) (hB : Built ops factors c) :
    ∃ p : ℕ → ℕ, Shape c.edges.length (fun k => {x | x ∈ cl ops c k})
      (fun k => {x | x ∈ sp ops c.edges k}) p c := by
  classical
  refine ⟨fun k => if hk : k < c.edges.length then (hB.edge k hk).2.choose else 0, ⟨?_, ?_, ?_⟩,
    hB.len.symm, rfl, ?_, ?_, ?_⟩
  · intro k hk
    have := (hB.edge k hk).2.choose_spec
    simp only [dif_pos hk]
    have h2 := this.2.1
    have h3 := hB.len
    exact ⟨this.1, by omega⟩
  · intro k hk x hx
    simp only [dif_pos hk]
    exact (hB.edge k hk).2.choose_spec.2.2.2 x hx
  · intro k hk
    obtain ⟨v, h1, h2, h3, -⟩ := hB.elim k hk
    exact ⟨v, h1, h2, h3⟩
  · intro i hi x
    simp [cl, hi, hops]
  · intro k hk x
    simp [sp, hk, hops]
  · intro k hk
    simp only [dif_pos hk]
    exact ⟨(hB.edge k hk).1, (hB.edge k hk).2.choose_spec.2.2.1⟩

variable {n : ℕ} {C S : ℕ → Set ℤ} {p : ℕ → ℕ} {mean : Fin N → ℝ} {Q : Matrix (Fin N) (Fin N) ℝ}

/-- The covered items. -/
def covered (n : ℕ) (C : ℕ → Set ℤ) : Set ℤ := {x | ∃ k ≤ n, x ∈ C k}

/-- Global precision zero between covered items sharing no cluster. -/
def Compatible (Q : Matrix (Fin N) (Fin N) ℝ) (n : ℕ) (C : ℕ → Set ℤ) : Prop :=
  ∀ i j : Fin N, (i : ℤ) ∈ covered n C → (j : ℤ) ∈ covered n C →
    (¬ ∃ k ≤ n, (i : ℤ) ∈ C k ∧ (j : ℤ) ∈ C k) → Q i j = 0

/-- The bilinear sum of the initial normal approximations. -/
theorem init_bil {c : CG (Mixed γ NB)} (hs : Shape n C S p c)
    (inv : MsgInv (Mixed.ops fo NB.ops store) (WFn fo GWF) c)
    (hr : ∀ x ∈ covered n C, 0 ≤ x ∧ x < N) (hcomp : Compatible Q n C)
    (hE : ∀ k < n, ∀ x ∈ S k, x ∈ covered n C)
    (hcl : ∀ b ∈ c.clusters, b.normalApprox = restr mean Q b.items)
    (hed : ∀ e ∈ c.edges, e.belief.normalApprox = restr mean Q e.belief.items) (a w : ℤ → ℝ) :
    joint (evn w) c a = glob Q (covered n C) a w := by
  classical
  have h1 : ∀ k ≤ n, ((c.clusters[k]?).map fun b => evn w b a).getD 0 =
      ∑ i : Fin N, ∑ j : Fin N, if (i : ℤ) ∈ C k ∧ (j : ℤ) ∈ C k then Q i j * (a i * w j) else 0 := by
    intro k hk
    have hk' : k < c.clusters.length := by rw [hs.lenC]; omega
    rw [List.getElem?_eq_getElem hk']
    simp only [Option.map_some, Option.getD_some, evn]
    rw [hcl _ (List.getElem_mem hk'), bil_restr (inv.wfC _ (List.getElem_mem hk')).wf.nodup
      fun x hx => hr x ⟨k, hk, (hs.itemsC k hk' x).mp hx⟩]
    simp only [hs.itemsC k hk']
  have h2 : ∀ k < n, ((c.edges[k]?).map fun e => evn w e.belief a).getD 0 =
      ∑ i : Fin N, ∑ j : Fin N, if (i : ℤ) ∈ S k ∧ (j : ℤ) ∈ S k then Q i j * (a i * w j) else 0 := by
    intro k hk
    have hk' : k < c.edges.length := by rw [hs.lenE]; omega
    rw [List.getElem?_eq_getElem hk']
    simp only [Option.map_some, Option.getD_some, evn]
    rw [hed _ (List.getElem_mem hk'), bil_restr (inv.wfE _ (List.getElem_mem hk')).wf.nodup
      fun x hx => hr x (hE k hk x ((hs.itemsE k hk' x).mp hx))]
    simp only [hs.itemsE k hk']
  rw [joint, sum_eq_range, sum_eq_range, hs.lenC, hs.lenE,
    Finset.sum_congr rfl fun k hk => h1 k (by rw [Finset.mem_range] at hk; omega),
    Finset.sum_congr rfl fun k hk => h2 k (by rwa [Finset.mem_range] at hk)]
  rw [glob_eq]
  refine (total_sum hs.tree (fun i j => Q i j * (a i * w j)) a).trans ?_
  refine Finset.sum_congr rfl fun i _ => Finset.sum_congr rfl fun j _ => ?_
  by_cases hex : ∃ k ≤ n, (i : ℤ) ∈ C k ∧ (j : ℤ) ∈ C k
  · rw [if_pos hex, if_pos]
    obtain ⟨k, hk, h3, h4⟩ := hex
    exact ⟨⟨k, hk, h3⟩, ⟨k, hk, h4⟩⟩
  · rw [if_neg hex]
    split
    · rename_i h3
      rw [hcomp i j h3.1 h3.2 hex, zero_mul]
    · rfl

/-- The state after the first two loops of `setNormalApprox`. -/
theorem init_inv {c : CG (Mixed γ NB)} (hs : Shape n C S p c)
    (inv : MsgInv (Mixed.ops fo NB.ops store) (WFn fo GWF) c)
    (hr : ∀ x ∈ covered n C, 0 ≤ x ∧ x < N) (hcomp : Compatible Q n C) (hQ : Qᵀ = Q) :
    ∃ c0, initNormal mean Q c = Except.ok c0 ∧
      NInv fo GWF store n C S p (fun a => glob Q (covered n C) a a) (vz mean) c0 ∧
      (∀ a w, joint (evn w) c0 a = glob Q (covered n C) a w) ∧
      (∀ b ∈ c0.clusters, b.normalApprox = restr mean Q b.items) ∧
      (∀ e ∈ c0.edges, e.belief.normalApprox = restr mean Q e.belief.items) ∧
      (∀ (F : γ → List ℝ → ℝ) l a, vc fo F c0 l a = vc fo F c l a) ∧
      ∀ (F : γ → List ℝ → ℝ) l a, ve fo F c0 l a = ve fo F c l a := by
  classical
  have hE : ∀ k < n, ∀ x ∈ S k, x ∈ covered n C := fun k hk x hx =>
    ⟨p k, (hs.tree.lt k hk).2, hs.tree.sub k hk x hx⟩
  have hrC : ∀ b ∈ c.clusters, ∀ x ∈ b.items, 0 ≤ x ∧ x < N := by
    intro b hb x hx
    obtain ⟨k, hk, rfl⟩ := List.mem_iff_getElem.mp hb
    exact hr x ⟨k, by rw [hs.lenC] at hk; omega, (hs.itemsC k hk x).mp hx⟩
  have hrE : ∀ e ∈ c.edges, ∀ x ∈ e.belief.items, 0 ≤ x ∧ x < N := by
    intro e he x hx
    obtain ⟨k, hk, rfl⟩ := List.mem_iff_getElem.mp he
    exact hr x (hE k (by rw [hs.lenE] at hk; omega) x ((hs.itemsE k hk x).mp hx))
  refine ⟨_, initNormal_ok hrC hrE, ?_⟩
  set c0 : CG (Mixed γ NB) :=
    ⟨c.clusters.map fun b => b.setNormalApprox (restr mean Q b.items),
      c.edges.map fun e => ⟨e.first, e.second,
        e.belief.setNormalApprox (restr mean Q e.belief.items)⟩⟩ with hc0
  have hset : ∀ b : Mixed γ NB, WFn fo GWF b → b.setNormalApprox (restr mean Q b.items) =
      ⟨b.items, b.beliefs, b.relativeItems, b.isInverted, restr mean Q b.items, false⟩ :=
    fun b hb => free_setNormal hb.free _
  have hsi : ∀ (b : Mixed γ NB) (m : NB), (b.setNormalApprox m).items = b.items := by
    intro b m
    rw [Mixed.setNormalApprox]
    split <;> rfl
  have hwf : ∀ b : Mixed γ NB, WFn fo GWF b → WFn fo GWF (b.setNormalApprox (restr mean Q b.items)) := by
    intro b hb
    have hn : NWF (restr mean Q b.items) := ⟨hb.wf.nodup, Or.inl rfl⟩
    refine ⟨wf_setNormal hb.wf hn rfl, ?_⟩
    rw [hset b hb]
  have hcl0 : ∀ b ∈ c0.clusters, b.normalApprox = restr mean Q b.items := by
    intro b hb
    obtain ⟨b', hb', rfl⟩ := List.mem_map.mp hb
    rw [hset b' (inv.wfC b' hb')]
  have hed0 : ∀ e ∈ c0.edges, e.belief.normalApprox = restr mean Q e.belief.items := by
    intro e he
    obtain ⟨e', he', rfl⟩ := List.mem_map.mp he
    show (e'.belief.setNormalApprox _).normalApprox = _
    rw [hset e'.belief (inv.wfE e' he')]
  have hs0 : Shape n C S p c0 := by
    refine ⟨hs.tree, by simp [hc0, hs.lenC], by simp [hc0, hs.lenE], ?_, ?_, ?_⟩
    · intro i hi x
      have hi' : i < c.clusters.length := by simpa [hc0] using hi
      rw [← hs.itemsC i hi' x]
      simp only [hc0, List.getElem_map, hsi]
    · intro i hi x
      have hi' : i < c.edges.length := by simpa [hc0] using hi
      rw [← hs.itemsE i hi' x]
      simp only [hc0, List.getElem_map, hsi]
    · intro i hi
      have hi' : i < c.edges.length := by simpa [hc0] using hi
      have := hs.ends i hi'
      simp only [hc0, List.getElem_map]
      exact this
  have hinv0 : MsgInv (Mixed.ops fo NB.ops store) (WFn fo GWF) c0 := by
    refine ⟨?_, ?_, ?_⟩
    · intro b hb
      obtain ⟨b', hb', rfl⟩ := List.mem_map.mp hb
      exact hwf b' (inv.wfC b' hb')
    · intro e he
      obtain ⟨e', he', rfl⟩ := List.mem_map.mp he
      exact hwf _ (inv.wfE e' he')
    · intro e he
      obtain ⟨e', he', rfl⟩ := List.mem_map.mp he
      obtain ⟨i, j, hi, hj, h1, h2, h3, h4⟩ := inv.ends e' he'
      refine ⟨i, j, by simpa [hc0] using hi, by simpa [hc0] using hj, h1, h2, fun x hx => ?_,
        fun x hx => ?_⟩
      · show x ∈ (c0.clusters[i]'(by simpa [hc0] using hi)).items
        simp only [hc0, List.getElem_map, hsi]
        refine h3 x ?_
        change x ∈ (e'.belief.setNormalApprox _).items at hx
        rwa [hsi] at hx
      · show x ∈ (c0.clusters[j]'(by simpa [hc0] using hj)).items
        simp only [hc0, List.getElem_map, hsi]
        refine h4 x ?_
        change x ∈ (e'.belief.setNormalApprox _).items at hx
        rwa [hsi] at hx
  have hbil := init_bil hs0 hinv0 hr hcomp hE hcl0 hed0
  have hgood : ∀ l : List ℤ, Good (vz mean) (restr mean Q l) := by
    intro l
    refine ⟨?_, rfl, rfl, rfl⟩
    show (Matrix.of fun i j => mz Q l[i] l[j])ᵀ = (Matrix.of fun i j => mz Q l[i] l[j] :
      Matrix (Fin l.length) (Fin l.length) ℝ)
    ext i j
    rw [transpose_apply, of_apply, of_apply, mz, mz]
    by_cases h : (0 ≤ l[j] ∧ l[j] < N) ∧ 0 ≤ l[i] ∧ l[i] < N
    · rw [dif_pos h, dif_pos ⟨h.2, h.1⟩]
      have := congrFun (congrFun hQ ⟨l[i].toNat, by omega⟩) ⟨l[j].toNat, by omega⟩
      exact this
    · rw [dif_neg h, dif_neg fun h' => h ⟨h'.2, h'.1⟩]
  have hval : ∀ (F : γ → List ℝ → ℝ) (b : Mixed γ NB) (m : NB) a,
      value fo F (b.setNormalApprox m) a = value fo F b a := by
    intro F b m a
    rw [Mixed.setNormalApprox]
    split <;> rfl
  refine ⟨⟨hs0, hinv0, fun a => ?_, ?_, ?_, ?_, ?_⟩, hbil, hcl0, hed0, fun F l a => ?_, fun F l a => ?_⟩
  rotate_right 2
  · simp only [vc, hc0, List.getElem?_map, Option.map_map, Function.comp_def, hval]
  · simp only [ve, hc0, List.getElem?_map, Option.map_map, Function.comp_def, hval]
  · rw [total_joint hs0, hbil]
  · intro k hk i hi a
    have hin : i ≤ n := by
      have := hs.tree.lt k hk
      rcases hi with rfl | rfl <;> omega
    have hSC : ∀ x ∈ S k, x ∈ C i := by
      obtain ⟨v, -, h2, -⟩ := hs.tree.elim k hk
      rcases hi with rfl | rfl
      · exact fun x hx => (h2 x).mpr (Or.inr hx)
      · exact hs.tree.sub k hk
    refine ⟨fun x => if x ∈ S k then a x else 0, fun x hx => if_pos hx, le_of_eq ?_⟩
    have hi' : i < c0.clusters.length := by rw [hs0.lenC]; omega
    have hk' : k < c0.edges.length := by rw [hs0.lenE]; omega
    rw [qc_eq hi', qe_eq hk', hcl0 _ (List.getElem_mem hi'), hed0 _ (List.getElem_mem hk'),
      bil_restr (hinv0.wfC _ (List.getElem_mem hi')).wf.nodup
        fun x hx => hr x ⟨i, hin, (hs0.itemsC i hi' x).mp hx⟩,
      bil_restr (hinv0.wfE _ (List.getElem_mem hk')).wf.nodup
        fun x hx => hr x (hE k hk x ((hs0.itemsE k hk' x).mp hx))]
    refine Finset.sum_congr rfl fun u _ => Finset.sum_congr rfl fun v _ => ?_
    simp only [hs0.itemsC i hi', hs0.itemsE k hk']
    by_cases hu : (u : ℤ) ∈ S k
    · by_cases hv : (v : ℤ) ∈ S k
      · simp only [hu, hv, hSC _ hu, hSC _ hv, and_self, if_true]
      · simp [hv]
    · simp [hu]
  · intro b hb; rw [hcl0 b hb]; exact hgood _
  · intro e he; rw [hed0 e he]; exact hgood _
  · intro b hb; rw [hcl0 b hb]; rfl

/-! ## Calibrated state -/

theorem eq_of_quad {m : ℕ} {P P' : Matrix (Fin m) (Fin m) ℝ} (h1 : Pᵀ = P) (h2 : P'ᵀ = P')
    (h : ∀ x : Fin m → ℝ, x ⬝ᵥ (P *ᵥ x) = x ⬝ᵥ (P' *ᵥ x)) : P = P' := by
  ext i j
  rw [entry_eq P, entry_eq P']
  have e1 := h (Pi.single i 1 + Pi.single j 1)
  have e2 := h (Pi.single i 1)
  have e3 := h (Pi.single j 1)
  simp only [mulVec_add, dotProduct_add, add_dotProduct] at e1
  have e4 := symm_dot h1 (Pi.single i 1) (Pi.single j 1)
  have e5 := symm_dot h2 (Pi.single i 1) (Pi.single j 1)
  linarith

/-- A form between the best extension and the form of `Q` is the form of the marginal. -/
theorem eq_marginal {b : NB} (hnd : b.items.Nodup) (hQ : Q.PosDef)
    (hsym : b.normal.precisionᵀ = b.normal.precision) {e : Fin b.items.length → Fin N}
    (he : ∀ k, ((e k : ℕ) : ℤ) = b.items[k])
    (h1 : ∀ a, ∃ a' : ℤ → ℝ, (∀ x ∈ b.items, a' x = a x) ∧
      (fun i : Fin N => a' i) ⬝ᵥ (Q *ᵥ fun i : Fin N => a' i) ≤ bil b a a)
    (h2 : ∀ a : ℤ → ℝ, bil b a a ≤ (fun i : Fin N => a i) ⬝ᵥ (Q *ᵥ fun i : Fin N => a i)) :
    b.normal.precision = (Q⁻¹.submatrix e e)⁻¹ := by
  have hinj : Function.Injective e := by
    intro k l hkl
    have h3 : b.items[(k : ℕ)] = b.items[(l : ℕ)] := by
      have h4 := he k
      rw [hkl, he l] at h4
      exact h4.symm
    exact Fin.ext (hnd.getElem_inj_iff.mp h3)
  have hat : ∀ a : ℤ → ℝ, (fun k => (fun i : Fin N => a i) (e k)) = at_ b.items a := by
    intro a
    funext k
    show a ((e k : ℕ) : ℤ) = a b.items[k]
    rw [he k]
  refine eq_of_quad hsym (posDef_symm (margP_posDef hinj hQ)) fun x => ?_
  obtain ⟨a, ha⟩ := exists_at hnd x
  have hb : x ⬝ᵥ (b.normal.precision *ᵥ x) = bil b a a := by rw [bil, ha]
  rw [hb]
  apply le_antisymm
  · -- take the best extension
    set y := ext e Q x with hy
    have hyv : (fun i : Fin N => vz y i) = y := by
      funext i
      exact vz_coe y i
    have hya : at_ b.items (vz y) = x := by
      rw [← hat]
      show (fun k => vz y (e k : ℕ)) = x
      rw [show (fun k => vz y ((e k : ℕ) : ℤ)) = fun k => y (e k) from funext fun k => vz_coe y (e k)]
      exact ext_apply hinj hQ x
    have h3 := h2 (vz y)
    rw [hyv, hy, ext_quad hinj hQ] at h3
    rw [bil_congr b (a' := vz y) (at_eq (by rw [ha, hya]))]
    exact h3
  · obtain ⟨a', h3, h4⟩ := h1 a
    refine le_trans ?_ h4
    have h5 := marg_le hinj hQ (fun i : Fin N => a' i)
    rw [hat, at_congr h3, ha] at h5
    exact h5

end Verif.Gauss
