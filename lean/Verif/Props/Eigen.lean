import Verif.Proofs.Eigen
import Mathlib.Tactic.NormNum

/-!
# C30: restriction helpers

The expected results are stated on lists of entries (`eraseIdx`, `insertIdx`) and, for matrices,
with the position map `skip`.
-/
namespace Verif.Eigen

variable {α : Type} {n m : ℕ}

/-- Position in the larger vector of entry number `j` when entry `i` is left out. -/
def skip (i j : ℕ) : ℕ := if j < i then j else j + 1

theorem succAbove_val (i : Fin (n + 1)) (j : Fin n) : (i.succAbove j : ℕ) = skip i j := by
  rw [skip]
  split
  · rename_i h
    rw [Fin.succAbove_of_castSucc_lt _ _ (by rw [Fin.lt_def]; exact h)]
    rfl
  · rename_i h
    rw [Fin.succAbove_of_le_castSucc _ _ (by rw [Fin.le_def]; simpa using h)]
    rfl

/-- C30: removing coordinate `i` keeps the other entries in order, whatever the new vector
contained. -/
theorem c30_vector_without (v : Fin (n + 1) → α) (i : ℕ) (hi : i ≤ n) (junk : Fin n → α) :
    ∃ r, getVectorWithout i junk v = Except.ok r ∧ List.ofFn r = (List.ofFn v).eraseIdx i := by
  obtain ⟨i, rfl⟩ : ∃ k : Fin (n + 1), (k : ℕ) = i := ⟨⟨i, by omega⟩, rfl⟩
  refine ⟨_, getVectorWithout_ok i junk v, ?_⟩
  refine List.ext_getElem ?_ fun j h1 h2 => ?_
  · rw [List.length_eraseIdx]
    simp
  · rw [List.getElem_eraseIdx]
    simp only [List.length_ofFn] at h1
    have := succAbove_val i ⟨j, h1⟩
    simp only [List.getElem_ofFn]
    split <;> congr 1 <;> apply Fin.ext <;> simp_all [skip]

/-- C30: removing row and column `i`. -/
theorem c30_matrix_without (a : Matrix (Fin (n + 1)) (Fin (n + 1)) α) (i : ℕ) (hi : i ≤ n)
    (junk : Matrix (Fin n) (Fin n) α) :
    ∃ r, getMatrixWithout i junk a = Except.ok r ∧
      ∀ j k : Fin n, ∀ j' k' : Fin (n + 1), (j' : ℕ) = skip i j → (k' : ℕ) = skip i k →
        r j k = a j' k' := by
  obtain ⟨i, rfl⟩ : ∃ k : Fin (n + 1), (k : ℕ) = i := ⟨⟨i, by omega⟩, rfl⟩
  refine ⟨_, getMatrixWithout_ok i junk a, fun j k j' k' hj hk => ?_⟩
  rw [Matrix.submatrix_apply]
  congr 1 <;> apply Fin.ext <;> rw [succAbove_val] <;> simp_all

/-- C30: extending a vector (`extendArgument`, src/IntegratedFunction.cpp:103-108) and then
setting coordinate `i` inserts the value there, whatever the new vector contained. -/
theorem c30_extend (x : Fin n → α) (i : ℕ) (hi : i ≤ n) (t : α) (junk : Fin (n + 1) → α) :
    ∃ y z, setVectorWithout i junk x = Except.ok y ∧ writeAt y i t = Except.ok z ∧
      List.ofFn z = (List.ofFn x).insertIdx i t := by
  obtain ⟨i, rfl⟩ : ∃ k : Fin (n + 1), (k : ℕ) = i := ⟨⟨i, by omega⟩, rfl⟩
  refine ⟨_, _, extend_ok i junk x, writeAt_ok _ i t, ?_⟩
  rw [Fin.update_insertNth]
  refine List.ext_getElem ?_ fun j h1 h2 => ?_
  · rw [List.length_insertIdx_of_le_length (by simpa using hi)]
    simp
  · rw [List.getElem_insertIdx]
    simp only [List.length_ofFn] at h1
    simp only [List.getElem_ofFn]
    rcases Fin.eq_self_or_eq_succAbove i ⟨j, h1⟩ with h | ⟨k, h⟩
    · rw [h]
      have : j = i := congrArg Fin.val h
      subst this
      simp
    · rw [h, Fin.insertNth_apply_succAbove]
      have hk : j = skip i k := by rw [← succAbove_val]; exact congrArg Fin.val h
      rw [skip] at hk
      split at hk
      · rename_i h'
        subst hk
        rw [dif_pos h']
      · subst hk
        rename_i h'
        rw [dif_neg (by omega), dif_neg (by omega)]
        congr 1

/-- C30: extending and setting is undone by removing. -/
theorem c30_extend_without (x : Fin n → α) (i : ℕ) (hi : i ≤ n) (t : α)
    (junk : Fin (n + 1) → α) (junk' : Fin n → α) :
    ∃ y z, setVectorWithout i junk x = Except.ok y ∧ writeAt y i t = Except.ok z ∧
      getVectorWithout i junk' z = Except.ok x := by
  obtain ⟨i, rfl⟩ : ∃ k : Fin (n + 1), (k : ℕ) = i := ⟨⟨i, by omega⟩, rfl⟩
  refine ⟨_, _, extend_ok i junk x, writeAt_ok _ i t, ?_⟩
  rw [getVectorWithout_ok, Fin.update_insertNth]
  congr 1
  funext j
  rw [Fin.insertNth_apply_succAbove]

/-- C30: removing and then extending and setting to the old value gives the vector back. -/
theorem c30_without_extend (v : Fin (n + 1) → α) (i : Fin (n + 1))
    (junk : Fin (n + 1) → α) (junk' : Fin n → α) :
    ∃ x y, getVectorWithout i junk' v = Except.ok x ∧ setVectorWithout i junk x = Except.ok y ∧
      writeAt y i (v i) = Except.ok v := by
  refine ⟨_, _, getVectorWithout_ok i junk' v, extend_ok i junk _, ?_⟩
  rw [writeAt_ok, Fin.update_insertNth]
  congr 1
  exact Fin.insertNth_self_removeNth i v

/-- An index beyond the end is undefined behaviour. -/
theorem without_ub (v : Fin (n + 1) → α) (i : ℕ) (hi : n < i) (junk : Fin n → α) :
    getVectorWithout i junk v = Res.ub := by
  rw [getVectorWithout, setVectorWithout, if_neg (by omega)]

/-- C30: after setting a duplicate-free subset of a vector, getting it returns what was set and
the other entries are untouched. -/
theorem c30_vector_subset (v : Fin n → α) (w : Fin m → α) (s : Fin m → ℕ)
    (hr : ∀ k, s k < n) (hs : Function.Injective s) :
    ∃ r, setVectorSubset v w s = Except.ok r ∧ getVectorSubset r s = Except.ok w ∧
      ∀ i : Fin n, (∀ k, s k ≠ i) → r i = v i := by
  have he : Function.Injective (toFin hr) := fun k l hkl => hs (congrArg Fin.val hkl)
  refine ⟨_, setVectorSubset_ok hr hs v w, ?_, fun i hi => ?_⟩
  · rw [getVectorSubset_ok hr]
    congr 1
    funext k
    exact scatter_mem he w v k
  · exact scatter_notMem w v fun k h => hi k (congrArg Fin.val h)

/-- C30: the same for matrices: an entry is changed only if its row and its column belong to the
subset. -/
theorem c30_matrix_subset (a : Matrix (Fin n) (Fin n) α) (b : Matrix (Fin m) (Fin m) α)
    (s : Fin m → ℕ) (hr : ∀ k, s k < n) (hs : Function.Injective s) :
    ∃ r, setMatrixSubset a b s = Except.ok r ∧ getMatrixSubset r s = Except.ok b ∧
      ∀ i j : Fin n, (∀ k, s k ≠ i) ∨ (∀ k, s k ≠ j) → r i j = a i j := by
  have he : Function.Injective (toFin hr) := fun k l hkl => hs (congrArg Fin.val hkl)
  refine ⟨_, setMatrixSubset_ok hr hs a b, ?_, fun i j hij => ?_⟩
  · rw [getMatrixSubset_ok hr]
    congr 1
    ext k l
    exact scatterMatrix_mem he b a k l
  · rcases hij with h | h
    · exact scatterMatrix_row b a (fun k hk => h k (congrArg Fin.val hk)) j
    · exact scatterMatrix_col he b a (fun k hk => h k (congrArg Fin.val hk)) i

/-- C30: getting a subset reads the entries at the given positions, in the given order. -/
theorem c30_get (v : Fin n → α) (a : Matrix (Fin n) (Fin n) α) (s : Fin m → ℕ)
    (hr : ∀ k, s k < n) :
    (∃ w, getVectorSubset v s = Except.ok w ∧ ∀ k, ∀ i : Fin n, (i : ℕ) = s k → w k = v i) ∧
    ∃ b, getMatrixSubset a s = Except.ok b ∧
      ∀ k l, ∀ i j : Fin n, (i : ℕ) = s k → (j : ℕ) = s l → b k l = a i j := by
  refine ⟨⟨_, getVectorSubset_ok hr v, fun k i hi => ?_⟩, _, getMatrixSubset_ok hr a,
    fun k l i j hi hj => ?_⟩
  · rw [show i = toFin hr k from Fin.ext hi]
  · rw [show i = toFin hr k from Fin.ext hi, show j = toFin hr l from Fin.ext hj]
    rfl

/-- A position outside is undefined behaviour. -/
theorem subset_ub (v : Fin n → α) (s : Fin m → ℕ) (k : Fin m) (hk : n ≤ s k) :
    getVectorSubset v s = Res.ub := by
  rw [getVectorSubset, dif_neg fun h => absurd (h k) (by omega)]

/-- C30: setting a subset is defined exactly if all positions are inside, also with repeated
positions. -/
theorem c30_set_iff (v : Fin n → α) (w : Fin m → α) (s : Fin m → ℕ) :
    (∃ r, setVectorSubset v w s = Except.ok r) ↔ ∀ k, s k < n := by
  have key : ∀ (l : List (Fin m)) (t : Fin n → α),
      (∃ r, l.foldlM (fun t k => writeAt t (s k) (w k)) t = Except.ok r) ↔ ∀ k ∈ l, s k < n := by
    intro l
    induction l with
    | nil => exact fun t => ⟨fun _ k hk => absurd hk (by simp), fun _ => ⟨t, rfl⟩⟩
    | cons a l ih =>
      intro t
      rw [List.foldlM_cons, List.forall_mem_cons]
      by_cases h : s a < n
      · rw [writeAt, dif_pos h, res_ok_bind, ih]
        exact ⟨fun h' => ⟨h, h'⟩, fun h' => h'.2⟩
      · rw [writeAt, dif_neg h, res_ub_bind]
        exact ⟨fun ⟨_, h'⟩ => (nomatch h'), fun h' => absurd h'.1 h⟩
  refine (key _ v).trans ⟨fun h k => h k (List.mem_finRange k), fun h k _ => h k⟩

/-- C30: the same for matrices. -/
theorem c30_set_matrix_iff (a : Matrix (Fin n) (Fin n) α) (b : Matrix (Fin m) (Fin m) α)
    (s : Fin m → ℕ) : (∃ r, setMatrixSubset a b s = Except.ok r) ↔ ∀ k, s k < n := by
  have key : ∀ (l : List (Fin m)) (t : Fin n → Fin n → α),
      (∃ r, l.foldlM (setMatrixRow b s) t = Except.ok r) ↔ ∀ k ∈ l, ∀ k, s k < n := by
    intro l
    induction l with
    | nil => exact fun t => ⟨fun _ k hk => absurd hk (by simp), fun _ => ⟨t, rfl⟩⟩
    | cons c l ih =>
      intro t
      rw [List.foldlM_cons, List.forall_mem_cons]
      by_cases hall : ∀ k, s k < n
      · obtain ⟨r, hr⟩ := (c30_set_iff (t ⟨s c, hall c⟩) (fun l => b c l) s).2 hall
        have : setMatrixRow b s t c = Except.ok (Function.update t ⟨s c, hall c⟩ r) := by
          rw [setMatrixRow, dif_pos (hall c), hr]
          rfl
        rw [this, res_ok_bind, ih]
        exact ⟨fun _ => ⟨hall, fun _ _ => hall⟩, fun h => h.2⟩
      · refine ⟨fun ⟨r, h'⟩ => absurd ?_ hall, fun h' => absurd h'.1 hall⟩
        by_cases h : s c < n
        · rcases hr : setVectorSubset (t ⟨s c, h⟩) (fun l => b c l) s with e | row
          · rw [setMatrixRow, dif_pos h, hr, res_error_bind, res_error_bind] at h'
            cases h'
          · exact (c30_set_iff _ _ s).1 ⟨row, hr⟩
        · rw [setMatrixRow, dif_neg h, res_ub_bind] at h'
          cases h'
  have h1 : (∃ r, setMatrixSubset a b s = Except.ok r) ↔
      ∃ r, (List.finRange m).foldlM (setMatrixRow b s) (fun i j => a i j) = Except.ok r := by
    unfold setMatrixSubset
    rcases (List.finRange m).foldlM (setMatrixRow b s) (fun i j => a i j) with e | r
    · exact ⟨fun ⟨_, h⟩ => (nomatch h), fun ⟨_, h⟩ => (nomatch h)⟩
    · exact ⟨fun _ => ⟨r, rfl⟩, fun _ => ⟨_, rfl⟩⟩
  rw [h1, key]
  exact ⟨fun h k => h k (List.mem_finRange k) k, fun h _ _ => h⟩

/-! ## Concrete cases -/

/-- A position given twice is inside, a position beyond the end is not. -/
example : (∃ r, setVectorSubset ![5, 6, 7] ![1, 2] ![2, 2] = Except.ok r) ∧
    ¬ ∃ r, setVectorSubset ![5, 6, 7] ![1, 2] ![2, 3] = Except.ok r := by
  rw [c30_set_iff, c30_set_iff]
  decide

example : getVectorWithout 1 ![0, 0] ![5, 6, 7] = Except.ok ![5, 7] := by
  have := getVectorWithout_ok (1 : Fin 3) ![0, 0] ![5, 6, 7]
  refine this.trans ?_
  congr 1
  funext j
  fin_cases j <;> rfl

/-- A duplicate-free subset given in descending order meets the hypotheses. -/
example : (∀ k : Fin 2, ![2, 0] k < 3) ∧ Function.Injective ![2, 0] := by
  constructor
  · decide
  · decide

example : setVectorSubset ![5, 6, 7] ![1, 2] ![2, 0] = Except.ok ![2, 6, 1] := by
  rw [setVectorSubset_ok (by decide : InRange 3 ![2, 0]) (by decide)]
  congr 1
  funext j
  fin_cases j <;> rfl

end Verif.Eigen
