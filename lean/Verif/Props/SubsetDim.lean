import Verif.Model.SubsetDim
import Mathlib.Tactic.Common
import Mathlib.Data.List.GetD

/-!
# C104: taking a part of an array in one direction
-/
namespace Verif.SubsetDim

variable {α : Type}

theorem arguments_commas (k : ℕ) (l : List Tok) :
    arguments (List.replicate k .comma ++ l) = List.replicate k [] ++ arguments l := by
  induction k with
  | zero => rfl
  | succ k ih => rw [List.replicate_succ, List.cons_append, arguments, ih]; rfl

theorem commasBefore_eq (i : ℕ) : commasBefore i = List.replicate (i - 1) .comma := by
  unfold commasBefore
  split
  · rfl
  · rw [Nat.sub_eq_zero_of_le (by omega)]
    rfl

theorem commasAfter_eq (d i : ℕ) : commasAfter d i = List.replicate (d - i) .comma := by
  unfold commasAfter
  split
  · rfl
  · rw [Nat.sub_eq_zero_of_le (by omega)]
    rfl

/-- The text has the indices as one argument, and `drop` as the last. -/
theorem arguments_text (d i : ℕ) : arguments (exprText d i) =
    List.replicate (i - 1) [] ++ [.indices] :: List.replicate (d - i) [] ++ [[.dropFalse]] := by
  unfold exprText
  rw [commasBefore_eq, commasAfter_eq]
  have h : arguments ([Tok.indices] ++ (List.replicate (d - i) Tok.comma ++
      [Tok.comma, Tok.dropFalse])) = [.indices] :: (List.replicate (d - i) [] ++ [[.dropFalse]]) := by
    rw [List.singleton_append, arguments]
    · rcases hk : d - i with _ | k
      · rfl
      · rw [show List.replicate (k + 1) Tok.comma ++ [Tok.comma, Tok.dropFalse] =
          List.replicate (k + 2) Tok.comma ++ [Tok.dropFalse] by
            rw [show k + 2 = (k + 1) + 1 from rfl, List.replicate_succ' (n := k + 1)]
            simp, arguments_commas]
        simp [List.replicate_succ, arguments]
    · exact fun h => by cases h
  rw [List.append_assoc, List.append_assoc, arguments_commas, h]
  simp

theorem allPositions_whole (indices : List ℕ) : ∀ dim : List ℕ,
    allPositions indices (List.replicate dim.length []) dim = Except.ok (dim.map List.range)
  | [] => rfl
  | n :: ns => by
    rw [List.length_cons, List.replicate_succ, allPositions, allPositions_whole indices ns]
    rfl

theorem allPositions_append (indices : List ℕ) {bs : List (List Tok)} {ms : List ℕ} :
    ∀ ns : List ℕ, allPositions indices (List.replicate ns.length [] ++ bs) (ns ++ ms) =
      (allPositions indices bs ms >>= fun ps => pure (ns.map List.range ++ ps))
  | [] => by
    simp only [List.length_nil, List.replicate_zero, List.nil_append, List.map_nil]
    rcases allPositions indices bs ms with e | ps <;> rfl
  | n :: ns => by
    rw [List.length_cons, List.replicate_succ, List.cons_append, List.cons_append, allPositions,
      allPositions_append indices ns]
    rcases allPositions indices bs ms with e | ps <;> rfl

/-- `allPositions` for the text written: only direction `i` is restricted. -/
theorem positions_text (indices : List ℕ) (before after : List ℕ) (n : ℕ) :
    allPositions indices (List.replicate before.length [] ++ [.indices] ::
        List.replicate after.length []) (before ++ n :: after) =
      if indices.all fun k => 1 ≤ k ∧ k ≤ n then
        Except.ok (before.map List.range ++ indices.map (· - 1) :: after.map List.range)
      else Res.raise "subscript out of bounds" := by
  rw [allPositions_append, allPositions, allPositions_whole]
  unfold positions
  rw [if_neg (by simp), if_pos rfl]
  split <;> rfl

theorem zip_range : ∀ (ns js : List ℕ), js.length = ns.length → (∀ p ∈ ns.zip js, p.2 < p.1) →
    List.zipWith (fun (p : List ℕ) j => p.getD j 0) (ns.map List.range) js = js
  | [], [], _, _ => rfl
  | n :: ns, j :: js, hl, h => by
    rw [List.map_cons, List.zipWith_cons_cons, zip_range ns js (by simpa using hl) fun p hp =>
      h p (List.mem_cons_of_mem _ hp)]
    congr 1
    have : j < n := h (n, j) (by simp)
    rw [List.getD_eq_getElem _ _ (by simpa using this), List.getElem_range]

/-- C104. For an array and a direction it has, the part has the extent of the indices in that
direction and the extents of the array in all others, and its element at a position is that of the
array at the position with the index in its direction. An index that is too large is an error, and so
is a direction the array does not have. -/
theorem c104 (dim : List ℕ) (get : List ℕ → α) (i : ℕ) (indices : List ℕ) (hp : ∀ k ∈ indices, 1 ≤ k) :
    (dim.length < i → ∃ m, subsetDim (.arr dim get) i indices = Res.raise m) ∧
    ∀ (h : i - 1 < dim.length), 1 ≤ i →
      ((∃ k ∈ indices, dim[i - 1] < k) →
        subsetDim (.arr dim get) i indices = Res.raise "subscript out of bounds") ∧
      ((∀ k ∈ indices, k ≤ dim[i - 1]) →
        ∃ get', subsetDim (.arr dim get) i indices =
            Except.ok (.arr (dim.set (i - 1) indices.length) get') ∧
          ∀ js : List ℕ, js.length = dim.length →
            (∀ t (ht : t < js.length) (ht' : t < (dim.set (i - 1) indices.length).length),
              js[t] < (dim.set (i - 1) indices.length)[t]) →
            ∀ (hj : i - 1 < js.length) (hk : js[i - 1] < indices.length),
              get' js = some (get (js.set (i - 1) (indices[js[i - 1]] - 1)))) := by
  constructor
  · intro h
    refine ⟨s!"Array does not have dimension {i}", ?_⟩
    unfold subsetDim
    dsimp only
    rw [if_pos h]
  · intro h hi
    obtain ⟨before, n, after, rfl, hb⟩ : ∃ before n after, dim = before ++ n :: after ∧
        before.length = i - 1 :=
      ⟨dim.take (i - 1), dim[i - 1], dim.drop (i - 1 + 1), by
        rw [← List.drop_eq_getElem_cons h, List.take_append_drop], by rw [List.length_take]; omega⟩
    have hn : (before ++ n :: after)[i - 1] = n := by
      simp [List.getElem_append_right (show before.length ≤ i - 1 by omega), hb]
    have hd : (before ++ n :: after).length - i = after.length := by
      rw [List.length_append, List.length_cons]
      omega
    have key : subsetDim (.arr (before ++ n :: after) get) i indices =
        if indices.all fun k => 1 ≤ k ∧ k ≤ n then
          Except.ok (.arr ((before.map List.range ++ indices.map (· - 1) ::
              after.map List.range).map List.length) fun js =>
            some (get (List.zipWith (fun p j => p.getD j 0)
              (before.map List.range ++ indices.map (· - 1) :: after.map List.range) js)))
        else Res.raise "subscript out of bounds" := by
      unfold subsetDim
      dsimp only
      rw [if_neg (by omega)]
      unfold bracket
      dsimp only
      rw [arguments_text, hd, ← hb, List.dropLast_concat, if_neg (by
        rw [List.getLast?_concat]; simp),
        positions_text indices before after n]
      split <;> rfl
    rw [hn, key]
    constructor
    · rintro ⟨k, hk, hkn⟩
      rw [if_neg]
      intro hall
      have := List.all_eq_true.1 hall k hk
      simp only [decide_eq_true_eq] at this
      omega
    · intro hk
      rw [if_pos (List.all_eq_true.2 fun k hm => by
        simp only [decide_eq_true_eq]; exact ⟨hp k hm, hk k hm⟩)]
      have hset : (before ++ n :: after).set (i - 1) indices.length =
          before ++ indices.length :: after := by
        rw [← hb, List.set_append_right _ _ (Nat.le_refl _), Nat.sub_self, List.set_cons_zero]
      rw [hset]
      have hdim : (before.map List.range ++ indices.map (· - 1) :: after.map List.range).map
          List.length = before ++ indices.length :: after := by
        simp [List.map_map, Function.comp_def]
      refine ⟨_, by rw [hdim], fun js hl hjs hj hkk => ?_⟩
      obtain ⟨jb, j, ja, rfl, hjb⟩ : ∃ jb j ja, js = jb ++ j :: ja ∧ jb.length = i - 1 :=
        ⟨js.take (i - 1), js[i - 1], js.drop (i - 1 + 1), by
          rw [← List.drop_eq_getElem_cons hj, List.take_append_drop], by rw [List.length_take]; omega⟩
      have hjj : (jb ++ j :: ja)[i - 1] = j := by
        simp [List.getElem_append_right (show jb.length ≤ i - 1 by omega), hjb]
      have hla : ja.length = after.length := by
        rw [List.length_append, List.length_append, List.length_cons, List.length_cons] at hl
        omega
      simp only [hjj] at hkk ⊢
      refine congrArg (fun z => some (get z)) ?_
      have hjset : ∀ z, (jb ++ j :: ja).set (i - 1) z = jb ++ z :: ja := fun z => by
        rw [← hjb, List.set_append_right _ _ (Nat.le_refl _), Nat.sub_self, List.set_cons_zero]
      rw [hjset,
        List.zipWith_append (by rw [List.length_map, hb, hjb]), List.zipWith_cons_cons]
      congr 1
      · refine zip_range before jb (by rw [hb, hjb]) fun p hpm => ?_
        obtain ⟨t, ht, rfl⟩ := List.getElem_of_mem hpm
        rw [List.length_zip] at ht
        have := hjs t (by rw [List.length_append]; omega) (by rw [List.length_append]; omega)
        rw [List.getElem_append_left (by omega), List.getElem_append_left (by omega)] at this
        rw [List.getElem_zip]
        exact this
      · congr 1
        · rw [List.getD_eq_getElem _ _ (by simpa using hkk), List.getElem_map]
        · refine zip_range after ja hla fun p hpm => ?_
          obtain ⟨t, ht, rfl⟩ := List.getElem_of_mem hpm
          rw [List.length_zip] at ht
          have := hjs (i - 1 + 1 + t) (by rw [List.length_append, List.length_cons]; omega)
            (by rw [List.length_append, List.length_cons]; omega)
          rw [List.getElem_append_right (by omega), List.getElem_append_right (by omega)] at this
          rw [List.getElem_zip]
          simpa [hjb, hb, Nat.add_sub_cancel_left, show i - 1 + 1 + t - (i - 1) = t + 1 by omega]
            using this

/-- C104 for a vector: the elements at the indices, missing beyond its end. -/
theorem c104_vector (v : List α) (indices : List ℕ) :
    ∃ w, subsetDim (.vec v) 1 indices = Except.ok (.vec w) ∧ w.length = indices.length ∧
      ∀ t (h : t < indices.length), 1 ≤ indices[t] → w[t]? = some v[indices[t] - 1]? :=
  ⟨_, rfl, by simp, fun t h _ => by simp [List.getElem?_eq_getElem h]⟩

/-- A direction a vector does not have. -/
theorem c104_vector_error (v : List α) {i : ℕ} (hi : 2 ≤ i) (indices : List ℕ) :
    ∃ m, subsetDim (.vec v) i indices = Res.raise m := by
  refine ⟨s!"Array does not have dimension {i}", ?_⟩
  unfold subsetDim
  dsimp only
  rw [if_neg (by omega), if_pos (by omega)]

/-! ## A case -/

/-- Columns 3 and 1 of a 2 x 3 matrix whose elements are their positions. -/
example : ∃ get', subsetDim (.arr [2, 3] id) 2 [3, 1] = Except.ok (.arr [2, 2] get') ∧
    get' [1, 0] = some [1, 2] ∧ get' [0, 1] = some [0, 0] :=
  ⟨_, rfl, rfl, rfl⟩

example : subsetDim (.arr [2, 3] id) 2 [4] = Res.raise "subscript out of bounds" := rfl

example : exprText 3 2 = [.comma, .indices, .comma, .comma, .dropFalse] := rfl

end Verif.SubsetDim
