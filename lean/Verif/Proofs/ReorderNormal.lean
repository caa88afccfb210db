import Verif.Proofs.NormalInit

/-!
# Normal beliefs whose items are listed in another order
-/
namespace Verif.Reorder

open Verif.Gauss Verif.Eigen Verif.Items Verif.Belief Matrix

/-- The same normal belief with the items in another order: what a product or a quotient uses. -/
def NBPerm (a b : NB) : Prop :=
  ∃ e : Fin a.items.length ≃ Fin b.items.length, (∀ k, b.items[e k] = a.items[k]) ∧
    (∀ k, b.normal.mean (e k) = a.normal.mean k) ∧
    (∀ j k, b.normal.precision (e j) (e k) = a.normal.precision j k) ∧ b.logNC = a.logNC

theorem NBPerm.refl (a : NB) : NBPerm a a :=
  ⟨Equiv.refl _, fun _ => rfl, fun _ => rfl, fun _ _ => rfl, rfl⟩

/-- Positions in a permuted list. -/
noncomputable def permEquiv {l l' : List ℤ} (h : l.Perm l') (hl : l.Nodup) :
    Fin l.length ≃ Fin l'.length where
  toFun := pos fun _ hx => h.mem_iff.mp hx
  invFun := pos fun _ hx => h.mem_iff.mpr hx
  left_inv k := by
    have h1 := pos_get (fun x hx => h.mem_iff.mpr hx) (pos (fun x hx => h.mem_iff.mp hx) k)
    exact Fin.ext (hl.getElem_inj_iff.mp (h1.trans (pos_get (fun x hx => h.mem_iff.mp hx) k)))
  right_inv k := by
    have h1 := pos_get (fun x hx => h.mem_iff.mp hx) (pos (fun x hx => h.mem_iff.mpr hx) k)
    exact Fin.ext ((h.nodup_iff.mp hl).getElem_inj_iff.mp
      (h1.trans (pos_get (fun x hx => h.mem_iff.mpr hx) k)))

theorem permEquiv_get {l l' : List ℤ} (h : l.Perm l') (hl : l.Nodup) (k : Fin l.length) :
    l'[permEquiv h hl k] = l[k] := pos_get (fun _ hx => h.mem_iff.mp hx) k

theorem pos_same {l l' items : List ℤ} (h : ∀ x ∈ l, x ∈ items) (h' : ∀ x ∈ l', x ∈ items)
    {k : Fin l.length} {k' : Fin l'.length} (he : l'[k'] = l[k]) : pos h' k' = pos h k := by
  refine Fin.ext ?_
  show findRelativeItem l'[k'] items = findRelativeItem l[k] items
  rw [he]

variable {n m m' : ℕ}

theorem pad_reindex (e : Fin m ≃ Fin m') {p : Fin m → Fin n} {p' : Fin m' → Fin n}
    (hp : ∀ k, p' (e k) = p k) (P : Matrix (Fin m') (Fin m') ℝ) :
    pad p (P.submatrix e e) = pad p' P := by
  ext i j
  simp only [pad, sel, mul_apply, transpose_apply, of_apply, submatrix_apply]
  rw [← Equiv.sum_comp e]
  refine Finset.sum_congr rfl fun l _ => ?_
  rw [← Equiv.sum_comp e, hp]
  simp only [hp]

theorem newMean_reindex (e : Fin m ≃ Fin m') {p : Fin m → Fin n} {p' : Fin m' → Fin n}
    (hp : ∀ k, p' (e k) = p k) (a : MN n) {b : MN m} {b' : MN m'}
    (hm : ∀ k, b'.mean (e k) = b.mean k)
    (hP : ∀ j k, b'.precision (e j) (e k) = b.precision j k) (divide : Bool) (k : Fin m) :
    newMean p' a b' divide (e k) = newMean p a b divide k := by
  have h1 : b.precision = b'.precision.submatrix e e := by
    ext j k
    exact (hP j k).symm
  have h2 : b.mean = b'.mean ∘ e := funext fun k => (hm k).symm
  have h3 : a.precision.submatrix p p = (a.precision.submatrix p' p').submatrix e e := by
    ext j k
    simp [hp]
  have h4 : (fun k => a.mean (p k)) = (fun k => a.mean (p' k)) ∘ e := by
    funext k
    simp [hp]
  unfold newMean
  have h5 : sg divide • b'.precision.submatrix e e = (sg divide • b'.precision).submatrix e e := rfl
  have h6 : (a.precision.submatrix p' p').submatrix e e + (sg divide • b'.precision).submatrix e e =
    (a.precision.submatrix p' p' + sg divide • b'.precision).submatrix e e := rfl
  rw [h1, h2, h3, h4, h5, h6, inv_submatrix_equiv, submatrix_mulVec_equiv, submatrix_mulVec_equiv, submatrix_mulVec_equiv]
  simp only [Function.comp_def, Equiv.apply_symm_apply]
  congr 2 <;> (funext k; simp)

theorem scatter_reindex (e : Fin m ≃ Fin m') {p : Fin m → Fin n} {p' : Fin m' → Fin n}
    (hi : Function.Injective p) (hi' : Function.Injective p')
    (hp : ∀ k, p' (e k) = p k) {s : Fin m → ℝ} {s' : Fin m' → ℝ} (hs : ∀ k, s' (e k) = s k)
    (t : Fin n → ℝ) : scatter p s t = scatter p' s' t := by
  funext i
  by_cases h : ∃ k, p k = i
  · obtain ⟨k, rfl⟩ := h
    rw [scatter_mem hi, ← hp, scatter_mem hi', hs]
  · rw [scatter_notMem _ _ fun k hk => h ⟨k, hk⟩, scatter_notMem _ _ fun k hk => h ⟨e.symm k, by
      rw [← hp, e.apply_symm_apply, hk]⟩]

theorem combined_same (divide : Bool) {a b b' : NB} (hb : b.items.Nodup) (hb' : b'.items.Nodup)
    (h : ∀ x ∈ b.items, x ∈ a.items) (h' : ∀ x ∈ b'.items, x ∈ a.items) (hp : NBPerm b b') :
    combined divide h = combined divide h' := by
  obtain ⟨e, h1, h2, h3, h4⟩ := hp
  have hpos : ∀ k, pos h' (e k) = pos h k := fun k => pos_same h h' (h1 k)
  have hP : sg divide • b.normal.precision = (sg divide • b'.normal.precision).submatrix e e := by
    ext j k
    simp [h3]
  unfold combined
  rw [hP, pad_reindex e hpos, h4, scatter_reindex e (pos_inj h hb) (pos_inj h' hb') hpos
    (fun k => newMean_reindex e hpos a.normal h2 h3 divide k)]

/-- A product with a permuted normal belief. -/
theorem mul_same {a b b' : NB} (hb : b.items.Nodup) (hb' : b'.items.Nodup)
    (h : ∀ x ∈ b.items, x ∈ a.items) (h' : ∀ x ∈ b'.items, x ∈ a.items) (hp : NBPerm b b') :
    NB.mul a b = NB.mul a b' := by
  rw [mul_eq hb h, mul_eq hb' h', combined_same false hb hb' h h' hp]

theorem div_same {a b b' : NB} (hb : b.items.Nodup) (hb' : b'.items.Nodup)
    (h : ∀ x ∈ b.items, x ∈ a.items) (h' : ∀ x ∈ b'.items, x ∈ a.items) (hp : NBPerm b b') :
    NB.div a b = NB.div a b' := by
  rw [div_eq hb h, div_eq hb' h', combined_same true hb hb' h h' hp]

/-- The margins to two orders of the same items. -/
theorem margin_same {a : NB} {l l' : List ℤ} (hp : l.Perm l') (hl : l.Nodup)
    (h : ∀ x ∈ l, x ∈ a.items) :
    ∃ b b', NB.margin a l = Except.ok b ∧ NB.margin a l' = Except.ok b' ∧ NBPerm b b' ∧
      b.items = l ∧ b'.items = l' := by
  have h' : ∀ x ∈ l', x ∈ a.items := fun x hx => h x (hp.mem_iff.mpr hx)
  refine ⟨_, _, margin_eq h, margin_eq h', ⟨permEquiv hp hl, permEquiv_get hp hl, fun k => ?_,
    fun j k => ?_, rfl⟩, rfl, rfl⟩
  · show a.normal.mean _ = a.normal.mean _
    rw [pos_same h h' (permEquiv_get hp hl k)]
  · show (a.normal.variance.submatrix (pos h') (pos h'))⁻¹ _ _ =
      (a.normal.variance.submatrix (pos h) (pos h))⁻¹ j k
    have : a.normal.variance.submatrix (pos h) (pos h) =
        (a.normal.variance.submatrix (pos h') (pos h')).submatrix (permEquiv hp hl)
          (permEquiv hp hl) := by
      ext i j
      simp only [submatrix_apply]
      rw [pos_same h h' (permEquiv_get hp hl i), pos_same h h' (permEquiv_get hp hl j)]
    rw [this, inv_submatrix_equiv]
    rfl

/-- The restriction of the global normal distribution to two orders of the same items. -/
theorem restr_same {N : ℕ} (mean : Fin N → ℝ) (Q : Matrix (Fin N) (Fin N) ℝ) {l l' : List ℤ}
    (hp : l.Perm l') (hl : l.Nodup) : NBPerm (restr mean Q l) (restr mean Q l') := by
  refine ⟨permEquiv hp hl, permEquiv_get hp hl, fun k => ?_, fun j k => ?_, rfl⟩
  · show vz mean _ = vz mean _
    exact congrArg _ (permEquiv_get hp hl k)
  · show mz Q _ _ = mz Q _ _
    exact congrArg₂ _ (permEquiv_get hp hl j) (permEquiv_get hp hl k)

end Verif.Reorder
