import Verif.Model.Eigen

/-! Closed forms of the restriction helpers. -/
namespace Verif.Eigen

variable {α : Type} {m n : ℕ}

theorem withoutIdx_lt {index j : ℕ} (hi : index ≤ min n m) (hj : j < m) {i : ℕ}
    (h : withoutIdx m n index j = some i) : i < n := by
  rw [withoutIdx] at h
  split at h
  · simp only [Option.some.injEq] at h
    omega
  · split at h
    · simp only [Option.some.injEq] at h
      omega
    · cases h

/-- Removing: the source position is the one skipping `index`. -/
theorem withoutIdx_remove (index : Fin (n + 1)) (j : Fin n) :
    withoutIdx n (n + 1) index j = some (index.succAbove j) := by
  rw [withoutIdx]
  have hi := index.2
  have hj := j.2
  rw [Nat.min_eq_right (Nat.le_succ n)]
  by_cases h : (j : ℕ) < index
  · rw [if_pos h, Fin.succAbove_of_castSucc_lt _ _ (by rw [Fin.lt_def]; exact h)]
    rfl
  · rw [if_neg h, if_pos (by omega), Fin.succAbove_of_le_castSucc _ _ (by
      rw [Fin.le_def]; simp; omega)]
    simp
    omega

/-- Extending: position `index` is left alone, the others come from the source in order. -/
theorem withoutIdx_extend_self (index : Fin (n + 1)) :
    withoutIdx (n + 1) n index index = none := by
  rw [withoutIdx]
  have hi := index.2
  rw [Nat.min_eq_left (Nat.le_succ n), if_neg (lt_irrefl _), if_neg (by omega)]

theorem withoutIdx_extend (index : Fin (n + 1)) (j : Fin n) :
    withoutIdx (n + 1) n index (index.succAbove j) = some j := by
  rw [withoutIdx]
  have hi := index.2
  have hj := j.2
  rw [Nat.min_eq_left (Nat.le_succ n)]
  by_cases h : (j : ℕ) < index
  · rw [Fin.succAbove_of_castSucc_lt _ _ (by rw [Fin.lt_def]; exact h)]
    simp [h]
  · rw [Fin.succAbove_of_le_castSucc _ _ (by rw [Fin.le_def]; simp; omega)]
    rw [if_neg (by simp; omega), if_pos (by simp; omega)]
    simp
    omega

theorem getVectorWithout_ok (index : Fin (n + 1)) (junk : Fin n → α) (v : Fin (n + 1) → α) :
    getVectorWithout index junk v = Except.ok fun j => v (index.succAbove j) := by
  have hi := index.2
  rw [getVectorWithout, setVectorWithout, if_pos (by omega)]
  congr 1
  funext j
  rw [withoutIdx_remove]
  simp [entry]

theorem getMatrixWithout_ok (index : Fin (n + 1)) (junk : Matrix (Fin n) (Fin n) α)
    (a : Matrix (Fin (n + 1)) (Fin (n + 1)) α) :
    getMatrixWithout index junk a = Except.ok (a.submatrix index.succAbove index.succAbove) := by
  have hi := index.2
  rw [getMatrixWithout, setMatrixWithout, if_pos (by omega)]
  congr 1
  ext r c
  rw [Matrix.of_apply, withoutIdx_remove, withoutIdx_remove]
  simp [entry]

theorem extend_ok (index : Fin (n + 1)) (target : Fin (n + 1) → α) (x : Fin n → α) :
    setVectorWithout index target x = Except.ok (index.insertNth (target index) x) := by
  have hi := index.2
  rw [setVectorWithout, if_pos (by omega)]
  congr 1
  funext j
  rcases Fin.eq_self_or_eq_succAbove index j with rfl | ⟨i, rfl⟩
  · rw [withoutIdx_extend_self, Fin.insertNth_apply_same]
  · rw [withoutIdx_extend, Fin.insertNth_apply_succAbove]
    simp [entry]

/-- A subset with positions in range is a map into the positions. -/
def toFin {s : Fin m → ℕ} (h : InRange n s) (k : Fin m) : Fin n := ⟨s k, h k⟩

theorem getVectorSubset_ok {s : Fin m → ℕ} (h : InRange n s) (v : Fin n → α) :
    getVectorSubset v s = Except.ok fun k => v (toFin h k) := by
  rw [getVectorSubset, dif_pos h]; rfl

theorem getMatrixSubset_ok {s : Fin m → ℕ} (h : InRange n s) (a : Matrix (Fin n) (Fin n) α) :
    getMatrixSubset a s = Except.ok (a.submatrix (toFin h) (toFin h)) := by
  rw [getMatrixSubset, dif_pos h]; rfl

theorem writeAt_ok (t : Fin n → α) (i : Fin n) (x : α) :
    writeAt t i x = Except.ok (Function.update t i x) := by
  rw [writeAt, dif_pos i.2]

/-- Sequential assignment at distinct positions `e`. -/
def scatter (e : Fin m → Fin n) (source : Fin m → α) (target : Fin n → α) (i : Fin n) : α :=
  match (List.finRange m).find? fun k => e k = i with
  | some k => source k
  | none => target i

theorem scatter_mem {e : Fin m → Fin n} (he : Function.Injective e) (source : Fin m → α)
    (target : Fin n → α) (k : Fin m) : scatter e source target (e k) = source k := by
  rw [scatter]
  cases h : (List.finRange m).find? fun l => e l = e k with
  | some l =>
    have := List.find?_some h
    simp only [decide_eq_true_eq] at this
    rw [he this]
  | none =>
    have := List.find?_eq_none.mp h k (List.mem_finRange k)
    simp at this

theorem scatter_notMem {e : Fin m → Fin n} (source : Fin m → α) (target : Fin n → α) {i : Fin n}
    (hi : ∀ k, e k ≠ i) : scatter e source target i = target i := by
  rw [scatter]
  cases h : (List.finRange m).find? fun l => e l = i with
  | some l =>
    have := List.find?_some h
    simp only [decide_eq_true_eq] at this
    exact absurd this (hi l)
  | none => rfl

theorem foldl_update_apply {β : Type} (e : β → Fin n) (he : Function.Injective e)
    (src : β → α) : ∀ (l : List β) (t : Fin n → α),
    (∀ k ∈ l, (l.foldl (fun t k => Function.update t (e k) (src k)) t) (e k) = src k) ∧
    ∀ i, (∀ k ∈ l, e k ≠ i) → (l.foldl (fun t k => Function.update t (e k) (src k)) t) i = t i
  | [], t => by simp
  | k :: l, t => by
    obtain ⟨h1, h2⟩ := foldl_update_apply e he src l (Function.update t (e k) (src k))
    constructor
    · intro k' hk'
      by_cases hl : k' ∈ l
      · exact h1 k' hl
      · have : k' = k := by simpa [hl] using hk'
        subst this
        rw [List.foldl_cons, h2 _ fun k'' hk'' (heq : e k'' = e k') => hl ((he heq : k'' = k') ▸ hk''), Function.update_self]
    · intro i hi
      rw [List.foldl_cons, h2 i fun k' hk' => hi k' (by simp [hk']),
        Function.update_of_ne (hi k (by simp)).symm]

theorem foldl_eq_scatter {e : Fin m → Fin n} (he : Function.Injective e) (src : Fin m → α)
    (t : Fin n → α) :
    (List.finRange m).foldl (fun t k => Function.update t (e k) (src k)) t = scatter e src t := by
  obtain ⟨h1, h2⟩ := foldl_update_apply e he src (List.finRange m) t
  funext i
  by_cases hi : ∃ k, e k = i
  · obtain ⟨k, rfl⟩ := hi
    rw [h1 k (List.mem_finRange k), scatter_mem he]
  · rw [h2 i fun k _ h => hi ⟨k, h⟩, scatter_notMem _ _ fun k h => hi ⟨k, h⟩]

theorem foldlM_ok {σ β : Type} (f : σ → β → Res σ) (g : σ → β → σ)
    (h : ∀ s b, f s b = Except.ok (g s b)) : ∀ (l : List β) (s : σ),
    l.foldlM f s = Except.ok (l.foldl g s)
  | [], s => rfl
  | b :: l, s => by
    rw [List.foldlM_cons, h]
    simp only [res_ok_bind]
    exact foldlM_ok f g h l _

theorem setVectorSubset_ok {s : Fin m → ℕ} (h : InRange n s)
    (hinj : Function.Injective s) (target : Fin n → α) (source : Fin m → α) :
    setVectorSubset target source s = Except.ok (scatter (toFin h) source target) := by
  have he : Function.Injective (toFin h) := fun k l hkl => hinj (congrArg Fin.val hkl)
  rw [← foldl_eq_scatter he]
  exact foldlM_ok _ (fun t k => Function.update t (toFin h k) (source k))
    (fun t k => writeAt_ok t (toFin h k) (source k)) _ _

theorem setMatrixRow_ok {s : Fin m → ℕ} (h : InRange n s)
    (hinj : Function.Injective s) (source : Matrix (Fin m) (Fin m) α) (t : Fin n → Fin n → α)
    (k : Fin m) :
    setMatrixRow source s t k = Except.ok (Function.update t (toFin h k)
      (scatter (toFin h) (fun l => source k l) (t (toFin h k)))) := by
  rw [setMatrixRow, dif_pos (h k), setVectorSubset_ok h hinj]
  rfl

theorem rows_foldl {e : Fin m → Fin n} (he : Function.Injective e)
    (source : Fin m → Fin m → α) : ∀ (l : List (Fin m)), l.Nodup → ∀ (t : Fin n → Fin n → α),
    (∀ k ∈ l, (l.foldl (fun t k => Function.update t (e k) (scatter e (source k) (t (e k)))) t)
      (e k) = scatter e (source k) (t (e k))) ∧
    ∀ i, (∀ k ∈ l, e k ≠ i) →
      (l.foldl (fun t k => Function.update t (e k) (scatter e (source k) (t (e k)))) t) i = t i
  | [], _, t => by simp
  | k :: l, hn, t => by
    rw [List.nodup_cons] at hn
    obtain ⟨h1, h2⟩ := rows_foldl he source l hn.2
      (Function.update t (e k) (scatter e (source k) (t (e k))))
    constructor
    · intro k' hk'
      by_cases hl : k' ∈ l
      · have hne : e k' ≠ e k := fun heq => hn.1 (he heq ▸ hl)
        rw [List.foldl_cons, h1 k' hl, Function.update_of_ne hne]
      · have : k' = k := by simpa [hl] using hk'
        subst this
        rw [List.foldl_cons, h2 _ fun k'' hk'' (heq : e k'' = e k') => hl ((he heq : k'' = k') ▸ hk''), Function.update_self]
    · intro i hi
      rw [List.foldl_cons, h2 i fun k' hk' => hi k' (by simp [hk']),
        Function.update_of_ne (hi k (by simp)).symm]

/-- Rows after `setMatrixSubset`. -/
def scatterRows (e : Fin m → Fin n) (source : Fin m → Fin m → α) (target : Fin n → Fin n → α) :
    Fin n → Fin n → α :=
  scatter e (fun k => scatter e (source k) (target (e k))) target

/-- Matrix after `setMatrixSubset`. -/
def scatterMatrix (e : Fin m → Fin n) (source : Matrix (Fin m) (Fin m) α)
    (target : Matrix (Fin n) (Fin n) α) : Matrix (Fin n) (Fin n) α :=
  Matrix.of (scatterRows e (fun k l => source k l) fun i j => target i j)

theorem setMatrixSubset_ok {s : Fin m → ℕ} (h : InRange n s)
    (hinj : Function.Injective s) (target : Matrix (Fin n) (Fin n) α)
    (source : Matrix (Fin m) (Fin m) α) :
    setMatrixSubset target source s = Except.ok (scatterMatrix (toFin h) source target) := by
  have he : Function.Injective (toFin h) := fun k l hkl => hinj (congrArg Fin.val hkl)
  rw [setMatrixSubset, foldlM_ok _ _ (fun t k => setMatrixRow_ok h hinj source t k)]
  simp only [res_ok_bind, res_pure]
  rw [scatterMatrix]
  congr 2
  funext i
  obtain ⟨h1, h2⟩ := rows_foldl he (fun k l => source k l) (List.finRange m) (List.nodup_finRange m)
    (fun i j => target i j)
  rw [scatterRows]
  by_cases hi : ∃ k, toFin h k = i
  · obtain ⟨k, rfl⟩ := hi
    rw [scatter_mem he]
    exact h1 k (List.mem_finRange k)
  · rw [scatter_notMem _ _ fun k h => hi ⟨k, h⟩]
    exact h2 i fun k _ h => hi ⟨k, h⟩

theorem scatterMatrix_mem {e : Fin m → Fin n} (he : Function.Injective e)
    (source : Matrix (Fin m) (Fin m) α) (target : Matrix (Fin n) (Fin n) α) (k l : Fin m) :
    scatterMatrix e source target (e k) (e l) = source k l := by
  rw [scatterMatrix, Matrix.of_apply, scatterRows, scatter_mem he, scatter_mem he]

theorem scatterMatrix_row {e : Fin m → Fin n} (source : Matrix (Fin m) (Fin m) α)
    (target : Matrix (Fin n) (Fin n) α) {i : Fin n} (hi : ∀ k, e k ≠ i) (j : Fin n) :
    scatterMatrix e source target i j = target i j := by
  rw [scatterMatrix, Matrix.of_apply, scatterRows, scatter_notMem _ _ hi]

theorem scatterMatrix_col {e : Fin m → Fin n} (he : Function.Injective e)
    (source : Matrix (Fin m) (Fin m) α) (target : Matrix (Fin n) (Fin n) α) {j : Fin n}
    (hj : ∀ k, e k ≠ j) (i : Fin n) : scatterMatrix e source target i j = target i j := by
  rw [scatterMatrix, Matrix.of_apply, scatterRows]
  by_cases hi : ∃ k, e k = i
  · obtain ⟨k, rfl⟩ := hi
    rw [scatter_mem he, scatter_notMem _ _ hj]
  · rw [scatter_notMem _ _ fun k h => hi ⟨k, h⟩]

end Verif.Eigen
