import Verif.Proofs.PointRank

/-! The model of `Point` never fails on well-formed points and computes the pure functions of
`PointRank`. -/
namespace Verif.Point

open Finset Verif.Counting Verif.Spec

theorem shl1_ok {ar : Arith} {B : ℕ} (hf : Fits ar B) {s : ℕ} (h : 2 ^ s ≤ B) :
    shl1 ar s = Except.ok ((2 ^ s : ℕ) : ℤ) := by
  rw [shl1, if_neg (by omega), show (s : ℤ).toNat = s by omega,
    show ((2 : ℤ) ^ s) = ((2 ^ s : ℕ) : ℤ) by push_cast; ring, fits_nat hf h]

theorem atE_append {α : Type _} (pre : List α) (x : α) (xs : List α) :
    atE (pre ++ x :: xs) pre.length = Except.ok x := by
  simp [atE]

theorem setE_append {α : Type _} (pre : List α) (x y : α) (xs : List α) :
    setE (pre ++ x :: xs) pre.length y = Except.ok (pre ++ y :: xs) := by
  simp [setE]

theorem advancePositionInDirection_ok {ar : Arith} {B : ℕ} (hf : Fits ar B)
    {i : ℤ} {s : ℕ} (lpre ls ppre ps : List ℕ) (l p : ℕ) (hl : lpre.length = ppre.length)
    (hp : p < 2 ^ l) (hB : 2 ^ l ≤ B) :
    advancePositionInDirection ar ⟨i, lpre ++ l :: ls, ppre ++ p :: ps, s⟩ ppre.length
      = Except.ok (if p + 1 < 2 ^ l then (true, ⟨i, lpre ++ l :: ls, ppre ++ (p + 1) :: ps, s⟩)
          else (false, ⟨i, lpre ++ l :: ls, ppre ++ 0 :: ps, s⟩)) := by
  unfold advancePositionInDirection
  simp only [atE_append, res_ok_bind]
  rw [← hl, atE_append]
  simp only [res_ok_bind]
  rw [shl1_ok hf hB]
  simp only [res_ok_bind]
  have hpos : 0 < 2 ^ l := by positivity
  rw [show (((2 ^ l : ℕ) : ℤ) - 1) = ((2 ^ l - 1 : ℕ) : ℤ) by omega, fits_nat hf (by omega)]
  simp only [res_ok_bind, hl, setE_append]
  by_cases h : p + 1 < 2 ^ l
  · rw [if_pos (by omega), if_pos h,
      show ((p : ℤ) + 1) = ((p + 1 : ℕ) : ℤ) by push_cast; ring, fits_nat hf (by omega)]
    simp
  · rw [if_neg (by omega), if_neg h]
    simp

theorem advancePositionsLoop_ok {ar : Arith} {B : ℕ} (hf : Fits ar B) {i : ℤ} {s : ℕ}
    {ls ps : List ℕ} (hp : PosOk ls ps) : ∀ (lpre ppre : List ℕ), lpre.length = ppre.length →
    (∀ l ∈ ls, 2 ^ l ≤ B) →
    advancePositionsLoop ar ps.length ppre.length ⟨i, lpre ++ ls, ppre ++ ps, s⟩
      = Except.ok (match incPos ls ps with
        | some ps' => (true, ⟨i, lpre ++ ls, ppre ++ ps', s⟩)
        | none => (false, ⟨i, lpre ++ ls, ppre ++ List.replicate ps.length 0, s⟩)) := by
  induction hp with
  | nil => intro lpre ppre _ _; simp [advancePositionsLoop, incPos]
  | @cons l p ls ps hlp hps ih =>
    intro lpre ppre hl hB
    rw [List.length_cons, advancePositionsLoop,
      advancePositionInDirection_ok hf lpre ls ppre ps l p hl hlp (hB l (by simp))]
    simp only [res_ok_bind]
    rw [incPos]
    by_cases h : p + 1 < 2 ^ l
    · simp [h]
    · simp only [h, if_false, Bool.false_eq_true]
      have := ih (lpre ++ [l]) (ppre ++ [0]) (by simp [hl]) (fun l' hl' => hB l' (by simp [hl']))
      simp only [List.append_assoc, List.singleton_append, List.length_append, List.length_cons,
        List.length_nil, Nat.zero_add] at this
      rw [this]
      cases incPos ls ps with
      | some ps' => simp
      | none => simp [List.replicate_succ]

theorem advancePositions_ok {ar : Arith} {B : ℕ} (hf : Fits ar B) {i : ℤ} {s : ℕ}
    {ls ps : List ℕ} (hp : PosOk ls ps) (hB : ∀ l ∈ ls, 2 ^ l ≤ B) :
    advancePositions ar ⟨i, ls, ps, s⟩
      = Except.ok (match incPos ls ps with
        | some ps' => (true, ⟨i, ls, ps', s⟩)
        | none => (false, ⟨i, ls, List.replicate ps.length 0, s⟩)) := by
  have := advancePositionsLoop_ok hf (i := i) (s := s) hp [] [] rfl hB
  simpa [advancePositions] using this

theorem skipZeros_ok (pre : List ℕ) (t0 a : ℕ) (rest : List ℕ) (m : ℕ) (hm : t0 < m) :
    skipZeros (pre ++ (List.replicate t0 0 ++ (a + 1) :: rest)) m pre.length
      = Except.ok (pre.length + t0) := by
  induction t0 generalizing pre m with
  | zero =>
    obtain ⟨m, rfl⟩ : ∃ m', m = m' + 1 := ⟨m - 1, by omega⟩
    simp [skipZeros, nth]
  | succ t0 ih =>
    obtain ⟨m, rfl⟩ : ∃ m', m = m' + 1 := ⟨m - 1, by omega⟩
    have := ih (pre ++ [0]) m (by omega)
    simp only [List.append_assoc, List.singleton_append, List.length_append, List.length_cons,
      List.length_nil, Nat.zero_add] at this
    rw [skipZeros]
    simp only [List.replicate_succ, List.cons_append]
    rw [show nth (pre ++ 0 :: (List.replicate t0 0 ++ (a + 1) :: rest)) pre.length = Except.ok 0 by
      simp [nth]]
    simp only [res_ok_bind, if_true]
    rw [this]
    congr 1
    ring

theorem set_zero_head (t0 a b : ℕ) (rest : List ℕ) :
    (((List.replicate t0 0 ++ (a + 1) :: b :: rest).set t0 0).set 0 a).set (t0 + 1) (b + 1)
      = a :: (List.replicate t0 0 ++ (b + 1) :: rest) := by
  have h1 : (List.replicate t0 0 ++ (a + 1) :: b :: rest).set t0 0
      = List.replicate t0 0 ++ 0 :: b :: rest := by
    rw [List.set_append_right (h := by simp)]
    simp
  have h2 : List.replicate t0 0 ++ 0 :: b :: rest = 0 :: (List.replicate t0 0 ++ b :: rest) := by
    rw [← List.cons_append, ← List.replicate_succ, List.replicate_succ', List.append_assoc]
    rfl
  rw [h1, h2, List.set_cons_zero, List.set_cons_succ, List.set_append_right (h := by simp)]
  simp

theorem advanceLevels_mid {ar : Arith} {B : ℕ} (hf : Fits ar B) {i : ℤ} {ps : List ℕ}
    (t0 a b : ℕ) (rest : List ℕ)
    (hB : (List.replicate t0 0 ++ (a + 1) :: b :: rest).sum + 1 ≤ B) :
    advanceLevels ar ⟨i, List.replicate t0 0 ++ (a + 1) :: b :: rest, ps,
        (List.replicate t0 0 ++ (a + 1) :: b :: rest).sum⟩
      = Except.ok (true, ⟨i, a :: (List.replicate t0 0 ++ (b + 1) :: rest), ps,
        (List.replicate t0 0 ++ (a + 1) :: b :: rest).sum⟩) := by
  obtain ⟨x, hx, hlt⟩ := getLast?_lt (t0 := t0) (a := a) (b := b) (rest := rest)
  unfold advanceLevels
  simp only [backE, hx, res_ok_bind]
  rw [if_pos hlt]
  have hsk := skipZeros_ok [] t0 a (b :: rest)
    ((List.replicate t0 0 ++ (a + 1) :: b :: rest).length + 1) (by simp)
  simp only [List.nil_append, List.length_nil, Nat.zero_add] at hsk
  rw [hsk]
  simp only [res_ok_bind]
  rw [setN_ok (by simp)]
  simp only [res_ok_bind]
  rw [show nth (List.replicate t0 0 ++ (a + 1) :: b :: rest) t0 = Except.ok (a + 1) by simp [nth]]
  simp only [res_ok_bind, Nat.add_sub_cancel]
  rw [setN_ok (by simp)]
  simp only [res_ok_bind]
  rw [show nth (List.replicate t0 0 ++ (a + 1) :: b :: rest) (t0 + 1) = Except.ok b by simp [nth]]
  simp only [res_ok_bind]
  have hb : b + 1 ≤ B := by
    have : b ≤ (List.replicate t0 0 ++ (a + 1) :: b :: rest).sum :=
      List.le_sum_of_mem (by simp)
    omega
  rw [show ((b : ℤ) + 1) = ((b + 1 : ℕ) : ℤ) by push_cast; ring, fits_nat hf hb]
  simp only [res_ok_bind]
  rw [setN_ok (by simp)]
  simp only [res_ok_bind, set_zero_head, res_pure]

theorem advanceLevels_last {ar : Arith} {i : ℤ} {ps : List ℕ} (n s : ℕ) :
    advanceLevels ar ⟨i, List.replicate n 0 ++ [s], ps, s⟩
      = Except.ok (false, ⟨i, List.replicate n 0 ++ [s], ps, s⟩) := by
  simp [advanceLevels, backE]

/-- `advance` is the pure successor on well-formed points. -/
theorem advance_ok {ar : Arith} {B : ℕ} (hf : Fits ar B) {i : ℕ} {ls ps : List ℕ}
    (h : ls ≠ []) (hp : PosOk ls ps) (hi : i + 1 ≤ B) (hs : ls.sum + 1 ≤ B)
    (h2 : 2 ^ ls.sum ≤ B) :
    advance ar ⟨i, ls, ps, ls.sum⟩
      = Except.ok ⟨(i : ℤ) + 1, (next ls ps).1, (next ls ps).2, (next ls ps).1.sum⟩ := by
  have hB : ∀ l ∈ ls, 2 ^ l ≤ B := fun l hl =>
    le_trans (Nat.pow_le_pow_right (by norm_num) (List.le_sum_of_mem hl)) h2
  unfold advance
  simp only
  rw [show ((i : ℤ) + 1) = ((i + 1 : ℕ) : ℤ) by push_cast; ring, fits_nat hf hi]
  simp only [res_ok_bind]
  rw [advancePositions_ok hf hp hB]
  simp only [res_ok_bind]
  cases hinc : incPos ls ps with
  | some ps' =>
    rw [next_pos hinc]
    simp
  | none =>
    simp only [Bool.false_eq_true, if_false]
    rcases levels_cases h with ⟨n, e⟩ | ⟨t0, a, b, rest, e⟩
    · generalize hsum : ls.sum = s at *
      subst e
      rw [next_sum hinc, advanceLevels_last]
      simp only [res_ok_bind, Bool.false_eq_true, if_false]
      rw [show ((s : ℤ) + 1) = ((s + 1 : ℕ) : ℤ) by push_cast; ring, fits_nat hf hs]
      simp only [res_ok_bind]
      rw [setE_ok (by simp)]
      simp only [res_ok_bind, res_pure]
      congr 2
      · cases n with
        | zero => simp
        | succ n =>
          have : List.replicate n 0 ++ [0] = List.replicate (n + 1) 0 :=
            List.replicate_succ'.symm
          simp [List.replicate_succ] at this ⊢
          exact this
      · simp
    · subst e
      rw [next_level hinc, advanceLevels_mid hf _ _ _ _ hs]
      simp only [res_ok_bind, if_true, res_pure]
      congr 2
      simp
      ring

/-! ### `setIndex` -/

theorem index1Loop_ok {ar : Arith} {B : ℕ} (hf : Fits ar B) {i : ℤ} {s : ℕ}
    {ls ps : List ℕ} (hp : PosOk ls ps) : ∀ (lpre ppre : List ℕ) (I M : ℕ),
    lpre.length = ppre.length → I + 1 ≤ M → M * 2 ^ ls.sum ≤ B →
    index1Loop ar ⟨i, lpre ++ ls, ppre ++ ps, s⟩ ls.length lpre.length I M
      = Except.ok ((I + M * r1 ls ps : ℕ) : ℤ) := by
  induction hp with
  | nil => intro lpre ppre I M _ _ _; simp [index1Loop, r1]
  | @cons l p ls ps hlp hps ih =>
    intro lpre ppre I M hl hIM hB
    rw [List.sum_cons, pow_add, ← mul_assoc] at hB
    have hpos : 0 < 2 ^ ls.sum := by positivity
    have hMl : M * 2 ^ l ≤ B := le_trans (Nat.le_mul_of_pos_right _ hpos) hB
    have hMp : M * (p + 1) ≤ M * 2 ^ l := Nat.mul_le_mul_left _ hlp
    rw [Nat.mul_add] at hMp
    have hl2 : 2 ^ l ≤ B := le_trans (Nat.le_mul_of_pos_left _ (by omega)) hMl
    rw [List.length_cons, index1Loop]
    simp only [atE_append, res_ok_bind]
    conv_lhs => enter [1]; rw [hl, atE_append]
    simp only [res_ok_bind]
    rw [show ((p : ℤ) * M) = ((M * p : ℕ) : ℤ) by push_cast; ring, fits_nat hf (by omega)]
    simp only [res_ok_bind]
    rw [← Nat.cast_add, fits_nat hf (by omega)]
    simp only [res_ok_bind]
    rw [shl1_ok hf hl2]
    simp only [res_ok_bind]
    rw [← Nat.cast_mul, fits_nat hf hMl]
    simp only [res_ok_bind]
    have := ih (lpre ++ [l]) (ppre ++ [p]) (I + M * p) (M * 2 ^ l) (by simp [hl]) (by omega) hB
    simp only [List.append_assoc, List.singleton_append, List.length_append, List.length_cons,
      List.length_nil, Nat.zero_add] at this
    rw [this, r1]
    congr 2
    ring

theorem choose_mono2 {t s D S : ℕ} (ht : t ≤ D) (hs : s ≤ S) :
    Nat.choose (t + s) t ≤ Nat.choose (D + S) D := by
  calc Nat.choose (t + s) t ≤ Nat.choose (t + S) t := Nat.choose_le_choose _ (by omega)
    _ = Nat.choose (t + S) S := Nat.choose_symm_add
    _ ≤ Nat.choose (D + S) S := Nat.choose_le_choose _ (by omega)
    _ = Nat.choose (D + S) D := Nat.choose_symm_add.symm

theorem index2Loop_ok {ar : Arith} {B : ℕ} (hf : Fits ar B) {i : ℤ} {ps : List ℕ} {ss : ℕ}
    (ls : List ℕ) : ∀ (lpre : List ℕ) (n s : ℕ) (J : ℤ), lpre.length = n + 1 →
    0 ≤ J → J + 1 ≤ Nat.choose (n + s) n →
    n + 1 + ls.length + (s + ls.sum) ≤ B →
    (s + ls.sum) * Nat.choose (n + ls.length + (s + ls.sum)) (n + ls.length) ≤ B →
    Nat.choose (n + ls.length + (s + ls.sum)) (n + ls.length) ≤ B →
    index2Loop ar ⟨i, lpre ++ ls, ps, ss⟩ ls.length lpre.length s J
      = Except.ok (((s + ls.sum : ℕ) : ℤ), J + r2 (n + 1) s ls) := by
  induction ls with
  | nil => intro lpre n s J _ _ _ _ _ _; simp [index2Loop, r2]
  | cons l ls ih =>
    intro lpre n s J hl hJ hJ2 hB1 hB2 hB3
    rw [List.length_cons, List.sum_cons] at hB1 hB2 hB3
    have m1 : Nat.choose (n + 1 + s) (n + 1)
        ≤ Nat.choose (n + (ls.length + 1) + (s + (l + ls.sum))) (n + (ls.length + 1)) :=
      choose_mono2 (by omega) (by omega)
    have m2 : Nat.choose (n + 1 + (s + l)) (n + 1)
        ≤ Nat.choose (n + (ls.length + 1) + (s + (l + ls.sum))) (n + (ls.length + 1)) :=
      choose_mono2 (by omega) (by omega)
    have m0 : Nat.choose (n + s) n ≤ Nat.choose (n + 1 + s) (n + 1) :=
      choose_mono2 (by omega) le_rfl
    have m3 : Nat.choose (n + 1 + s) (n + 1) ≤ Nat.choose (n + 1 + (s + l)) (n + 1) :=
      choose_mono2 le_rfl (by omega)
    rw [List.length_cons, index2Loop]
    simp only [atE_append, res_ok_bind]
    rw [hl, ← Nat.cast_add, fits_nat hf (by omega)]
    simp only [res_ok_bind]
    rw [choose_ok hf (by omega) (by omega) (by
      rw [Nat.add_sub_cancel_left]
      exact le_trans (Nat.mul_le_mul (by omega) m1) hB2)]
    simp only [res_ok_bind]
    rw [hf _ (by omega) (by omega)]
    simp only [res_ok_bind]
    rw [← Nat.cast_add, fits_nat hf (by omega)]
    simp only [res_ok_bind]
    rw [← Nat.cast_add, fits_nat hf (by omega)]
    simp only [res_ok_bind]
    rw [choose_ok hf (by omega) (by omega) (by
      rw [Nat.add_sub_cancel_left]
      exact le_trans (Nat.mul_le_mul (by omega) m2) hB2)]
    simp only [res_ok_bind]
    rw [hf _ (by omega) (by omega)]
    simp only [res_ok_bind]
    have := ih (lpre ++ [l]) (n + 1) (s + l)
      (J - Nat.choose (n + 1 + s) (n + 1) + Nat.choose (n + 1 + (s + l)) (n + 1))
      (by simp [hl]) (by omega) (by omega) (by omega)
      (by rw [show n + 1 + ls.length + (s + l + ls.sum)
            = n + (ls.length + 1) + (s + (l + ls.sum)) by ring,
            show n + 1 + ls.length = n + (ls.length + 1) by ring,
            show s + l + ls.sum = s + (l + ls.sum) by ring]; exact hB2)
      (by rw [show n + 1 + ls.length + (s + l + ls.sum)
            = n + (ls.length + 1) + (s + (l + ls.sum)) by ring,
            show n + 1 + ls.length = n + (ls.length + 1) by ring]; exact hB3)
    simp only [List.append_assoc, List.singleton_append, List.length_append, List.length_cons,
      List.length_nil, Nat.zero_add, hl] at this
    rw [this, r2, List.sum_cons]
    congr 2
    · push_cast; ring
    · ring

theorem index3Loop_ok {ar : Arith} {B : ℕ} (hf : Fits ar B) (D : ℕ) (m : ℕ) : ∀ (s x : ℕ),
    D + s + m + 1 ≤ B →
    (s + m) * Nat.choose (D + (s + m)) D ≤ B →
    x + ∑ j ∈ range m, Nat.choose (D + (s + j)) D * 2 ^ (s + j) ≤ B →
    index3Loop ar ((D + 1 : ℕ) : ℤ) m s x
      = Except.ok ((x + ∑ j ∈ range m, Nat.choose (D + (s + j)) D * 2 ^ (s + j) : ℕ) : ℤ) := by
  induction m with
  | zero => intro s x _ _ _; simp [index3Loop]
  | succ m ih =>
    intro s x h1 h2 h3
    rw [sum_range_succ'] at h3 ⊢
    have hsum : ∑ j ∈ range m, Nat.choose (D + (s + (j + 1))) D * 2 ^ (s + (j + 1))
        = ∑ j ∈ range m, Nat.choose (D + (s + 1 + j)) D * 2 ^ (s + 1 + j) :=
      sum_congr rfl (fun j _ => by rw [show s + (j + 1) = s + 1 + j by ring])
    rw [hsum, Nat.add_zero s] at h3 ⊢
    have hih := ih (s + 1) (x + Nat.choose (D + s) D * 2 ^ s) (by omega)
      (by rw [show s + 1 + m = s + (m + 1) by ring]; exact h2) (by linarith)
    have hz := Nat.zero_le (∑ j ∈ range m, Nat.choose (D + (s + 1 + j)) D * 2 ^ (s + 1 + j))
    have hle3 : x + Nat.choose (D + s) D * 2 ^ s ≤ B := by linarith
    have hle2 : Nat.choose (D + s) D * 2 ^ s ≤ B := le_trans (Nat.le_add_left _ _) hle3
    have hpos : 0 < Nat.choose (D + s) D := Nat.choose_pos (by omega)
    have hle1 : 2 ^ s ≤ B := le_trans (Nat.le_mul_of_pos_left _ hpos) hle2
    rw [index3Loop, show (((D + 1 : ℕ) : ℤ) - 1) = (D : ℤ) by push_cast; ring,
      fits_nat hf (by omega)]
    simp only [res_ok_bind]
    rw [← Nat.cast_add, fits_nat hf (by omega)]
    simp only [res_ok_bind]
    rw [choose_ok hf (by omega) (by omega) (by
      rw [Nat.add_sub_cancel_left]
      exact le_trans (Nat.mul_le_mul (by omega) (choose_mono2 le_rfl (by omega))) h2)]
    simp only [res_ok_bind]
    rw [shl1_ok hf hle1]
    simp only [res_ok_bind]
    rw [← Nat.cast_mul, fits_nat hf hle2]
    simp only [res_ok_bind]
    rw [← Nat.cast_add, fits_nat hf hle3]
    simp only [res_ok_bind]
    rw [show ((s : ℤ) + 1) = ((s + 1 : ℕ) : ℤ) by push_cast; ring, hih]
    congr 2
    ring

/-- A bound on all intermediate values of `setIndex` and `advance` for level sum `s`. -/
def need (d s : ℕ) : ℕ := d + s + s * Nat.choose (d - 1 + s) (d - 1) + below d (s + 1)

theorem below_ge (d s : ℕ) : 2 ^ s ≤ below d (s + 1) ∧
    Nat.choose (d - 1 + s) (d - 1) ≤ below d (s + 1) := by
  rw [below_succ]
  have h1 : 0 < Nat.choose (d - 1 + s) (d - 1) := Nat.choose_pos (by omega)
  have h2 : 0 < 2 ^ s := by positivity
  constructor
  · exact le_trans (Nat.le_mul_of_pos_left _ h1) (Nat.le_add_left _ _)
  · exact le_trans (Nat.le_mul_of_pos_right _ h2) (Nat.le_add_left _ _)

theorem need_mono (d : ℕ) {s s' : ℕ} (h : s ≤ s') : need d s ≤ need d s' := by
  unfold need
  have h1 := below_mono d (Nat.succ_le_succ h)
  have h2 := Nat.mul_le_mul h (choose_mono2 (le_refl (d - 1)) h)
  simp only [Nat.succ_eq_add_one] at h1
  omega

/-- `setIndex` computes the closed-form rank on well-formed points. -/
theorem setIndex_ok {ar : Arith} {B : ℕ} (hf : Fits ar B) {i : ℤ} {ls ps : List ℕ} {s : ℕ}
    (h : ls ≠ []) (hp : PosOk ls ps) (hB : need ls.length ls.sum ≤ B) :
    setIndex ar ⟨i, ls, ps, s⟩ = Except.ok ⟨rank ls ps, ls, ps, s⟩ := by
  have hrb := rank_bounds h hp
  have hr2 := r2_lt h
  have hr1 := r1_lt hp
  have hrank := hrb
  unfold rank at hrank
  unfold need at hB
  have hge := below_ge ls.length ls.sum
  cases ls with
  | nil => exact absurd rfl h
  | cons l ls =>
    unfold setIndex
    have e1 := index1Loop_ok hf (i := i) (s := s) hp [] [] 0 1 rfl (by norm_num) (by
      rw [one_mul]; omega)
    simp only [List.nil_append, List.length_nil, Nat.zero_add, one_mul, Nat.cast_zero,
      Nat.cast_one] at e1
    simp only
    rw [e1]
    simp only [res_ok_bind]
    rw [show atE (l :: ls) 0 = Except.ok l by simp [atE]]
    simp only [res_ok_bind]
    rw [List.length_cons, List.sum_cons] at hB hge
    have hcd : ls.length + 1 - 1 = ls.length := by omega
    rw [hcd] at hB hge
    have e2 := index2Loop_ok hf (i := i) (ps := ps) (ss := s) ls [l] 0 l 0 (by simp) le_rfl
      (by simp) (by omega) (by rw [Nat.zero_add]; omega) (by rw [Nat.zero_add]; omega)
    simp only [List.singleton_append, List.length_cons, List.length_nil, Nat.zero_add] at e2
    rw [List.length_cons, hcd, e2]
    have hr20 : (0 : ℤ) + r2 1 l ls = r2 0 0 (l :: ls) := by simp [r2]
    simp only [res_ok_bind]
    rw [hr20, ← List.sum_cons, Int.toNat_natCast]
    rw [if_neg (by rintro (h' | h') <;> omega)]
    have hpow : (0 : ℤ) < 2 ^ (l :: ls).sum := by positivity
    have hnn : 0 ≤ r2 0 0 (l :: ls) * 2 ^ (l :: ls).sum := mul_nonneg hr2.1 hpow.le
    have hbz : (0 : ℤ) ≤ below (l :: ls).length (l :: ls).sum := by positivity
    have hr1z : (0 : ℤ) ≤ r1 (l :: ls) ps := by positivity
    have hbB : ((below (l :: ls).length ((l :: ls).sum + 1) : ℕ) : ℤ) ≤ B := by
      rw [List.length_cons, List.sum_cons]
      omega
    rw [hf _ (by linarith) (by linarith)]
    simp only [res_ok_bind]
    have e3 := index3Loop_ok hf ls.length (l :: ls).sum 0 0 (by rw [List.sum_cons]; omega)
      (by rw [Nat.zero_add, List.sum_cons]; omega) (by
        have hb := below_mono (l :: ls).length (Nat.le_succ (l :: ls).sum)
        have : ∑ j ∈ range (l :: ls).sum, Nat.choose (ls.length + (0 + j)) ls.length * 2 ^ (0 + j)
            = below (l :: ls).length (l :: ls).sum := by simp [below]
        rw [this]
        rw [Nat.succ_eq_add_one, List.length_cons, List.sum_cons] at hb
        rw [List.length_cons, List.sum_cons]
        omega)
    have hbel : 0 + ∑ j ∈ range (l :: ls).sum,
        Nat.choose (ls.length + (0 + j)) ls.length * 2 ^ (0 + j)
          = below (l :: ls).length (l :: ls).sum := by simp [below]
    rw [hbel] at e3
    simp only [Nat.cast_zero] at e3
    rw [e3]
    simp only [res_ok_bind]
    rw [hf _ (by linarith) (by linarith)]
    simp only [res_ok_bind]
    rw [hf _ (by linarith) (by linarith)]
    simp only [res_ok_bind, res_pure]
    rfl

theorem foldlM_sum_ok {ar : Arith} {B : ℕ} (hf : Fits ar B) (ls : List ℕ) : ∀ acc : ℕ,
    acc + ls.sum ≤ B →
    ls.foldlM (fun (acc : Int) (l : Nat) => ar (acc + l)) (acc : ℤ)
      = Except.ok ((acc + ls.sum : ℕ) : ℤ) := by
  induction ls with
  | nil => intro acc _; simp
  | cons l ls ih =>
    intro acc h
    rw [List.sum_cons] at h
    rw [List.foldlM_cons, ← Nat.cast_add, fits_nat hf (by omega)]
    simp only [res_ok_bind]
    rw [ih (acc + l) (by omega), List.sum_cons]
    congr 2
    ring

theorem setLevelSum_ok {ar : Arith} {B : ℕ} (hf : Fits ar B) {i : ℤ} {ls ps : List ℕ} {s : ℕ}
    (h : ls.sum ≤ B) : setLevelSum ar ⟨i, ls, ps, s⟩ = Except.ok ⟨i, ls, ps, ls.sum⟩ := by
  have := foldlM_sum_ok hf ls 0 (by omega)
  simp only [Nat.cast_zero, Nat.zero_add] at this
  unfold setLevelSum
  simp only
  rw [this]
  simp only [res_ok_bind, res_pure, Int.toNat_natCast]

/-! ### The traversal -/

/-- The states of the traversal. -/
theorem advanceN_ok {ar : Arith} {B : ℕ} (hf : Fits ar B) {d : ℕ} (hd : 0 < d) : ∀ n : ℕ,
    (∀ s, (below d s) < n → need d s ≤ B) →
    ∃ ls ps, advanceN ar d n = Except.ok ⟨n, ls, ps, ls.sum⟩ ∧ ls.length = d ∧ PosOk ls ps ∧
      rank ls ps = n := by
  intro n
  induction n with
  | zero =>
    intro _
    refine ⟨List.replicate d 0, List.replicate d 0, ?_, by simp, ?_, ?_⟩
    · simp [advanceN, center]
    · have := posOk_zeros (List.replicate d 0)
      simpa using this
    · have : r2 0 0 (List.replicate d 0) = 0 := r2_all_zeros 0 0 d
      simp [rank, r1_zeros, this, below]
  | succ n ih =>
    intro hB
    obtain ⟨ls, ps, h1, h2, h3, h4⟩ := ih (fun s hs => hB s (by omega))
    have hne : ls ≠ [] := by
      intro h
      subst h
      simp at h2
      omega
    have hb := rank_bounds hne h3
    rw [h4, h2] at hb
    have hneed : need d ls.sum ≤ B := hB _ (by omega)
    have hge := below_ge d ls.sum
    unfold need at hneed
    have := advance_ok hf (i := n) hne h3 (by omega) (by omega) (by omega)
    obtain ⟨g1, g2, g3⟩ := next_spec hne h3
    refine ⟨(next ls ps).1, (next ls ps).2, ?_, g2.trans h2, g1, ?_⟩
    · rw [advanceN, h1]
      simp only [res_ok_bind]
      rw [this]
      simp
    · rw [g3, h4]
      push_cast
      ring

end Verif.Point
