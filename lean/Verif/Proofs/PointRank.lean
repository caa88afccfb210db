import Verif.Model.Point
import Verif.Spec.Grid
import Verif.Proofs.GridCard
import Mathlib.Tactic.Ring
import Mathlib.Tactic.Linarith

/-! Closed-form rank of a grid point and the pure successor function. -/
namespace Verif.Point

open Finset Verif.Counting Verif.Spec

/-- Position part of the index. -/
def r1 : List ℕ → List ℕ → ℕ
  | l :: ls, p :: ps => p + 2 ^ l * r1 ls ps
  | _, _ => 0

/-- Level part of the index (before multiplication with `2^sum`). -/
def r2 : ℕ → ℕ → List ℕ → ℤ
  | _, _, [] => 0
  | t, s, l :: ls => (Nat.choose (t + (s + l)) t : ℤ) - Nat.choose (t + s) t + r2 (t + 1) (s + l) ls

/-- Number of points with smaller level sum. -/
def below (d s : ℕ) : ℕ := ∑ j ∈ range s, Nat.choose (d - 1 + j) (d - 1) * 2 ^ j

/-- The closed-form index. -/
def rank (ls ps : List ℕ) : ℤ :=
  r1 ls ps + r2 0 0 ls * 2 ^ ls.sum + below ls.length ls.sum

theorem below_eq_gridCount (d k : ℕ) : below d (k + 1) = gridCount d k := by
  unfold below gridCount
  refine sum_congr rfl fun j _ => ?_
  rw [Nat.choose_symm_add]

theorem below_mono (d : ℕ) {s s' : ℕ} (h : s ≤ s') : below d s ≤ below d s' :=
  sum_le_sum_of_subset (range_mono h)

theorem below_succ (d s : ℕ) :
    below d (s + 1) = below d s + Nat.choose (d - 1 + s) (d - 1) * 2 ^ s := sum_range_succ _ _

/-- Positions are in range of their levels. -/
def PosOk (ls ps : List ℕ) : Prop := List.Forall₂ (fun l p => p < 2 ^ l) ls ps

theorem posOk_iff {ls ps : List ℕ} : PosOk ls ps ↔ ls.length = ps.length ∧
    ∀ t (h1 : t < ls.length) (h2 : t < ps.length), ps[t] < 2 ^ ls[t] := by
  unfold PosOk
  rw [List.forall₂_iff_get]
  simp

theorem isGridPoint_iff {d k : ℕ} {ls ps : List ℕ} :
    IsGridPoint d k ls ps ↔ ls.length = d ∧ ls.sum ≤ k ∧ PosOk ls ps := by
  rw [posOk_iff]
  constructor
  · rintro ⟨h1, h2, h3, h4⟩
    exact ⟨h1, h3, h1.trans h2.symm, h4⟩
  · rintro ⟨h1, h2, h3, h4⟩
    exact ⟨h1, h3.symm.trans h1, h2, h4⟩

theorem r1_lt {ls ps : List ℕ} (h : PosOk ls ps) : r1 ls ps + 1 ≤ 2 ^ ls.sum := by
  induction h with
  | nil => simp [r1]
  | @cons l p ls ps hp _ ih =>
    rw [r1, List.sum_cons, pow_add]
    have h2 : 2 ^ l * (r1 ls ps + 1) ≤ 2 ^ l * 2 ^ ls.sum := Nat.mul_le_mul_left _ ih
    rw [Nat.mul_add] at h2
    omega

/-- Mixed-radix increment of the positions; `none` when all are maximal. -/
def incPos : List ℕ → List ℕ → Option (List ℕ)
  | l :: ls, p :: ps => if p + 1 < 2 ^ l then some ((p + 1) :: ps) else (incPos ls ps).map (0 :: ·)
  | _, _ => none

theorem incPos_some {ls ps ps' : List ℕ} (h : PosOk ls ps) (hi : incPos ls ps = some ps') :
    PosOk ls ps' ∧ r1 ls ps' = r1 ls ps + 1 := by
  induction h generalizing ps' with
  | nil => simp [incPos] at hi
  | @cons l p ls ps hp hps ih =>
    rw [incPos] at hi
    split at hi
    · rename_i hlt
      cases hi
      exact ⟨List.Forall₂.cons hlt hps, by simp only [r1]; ring⟩
    · rename_i hlt
      rw [Option.map_eq_some_iff] at hi
      obtain ⟨qs, hq, rfl⟩ := hi
      obtain ⟨h1, h2⟩ := ih hq
      refine ⟨List.Forall₂.cons (by positivity) h1, ?_⟩
      simp only [r1, h2]
      have : p + 1 = 2 ^ l := by omega
      rw [Nat.mul_add]
      omega

theorem incPos_none {ls ps : List ℕ} (h : PosOk ls ps) (hi : incPos ls ps = none) :
    r1 ls ps + 1 = 2 ^ ls.sum := by
  induction h with
  | nil => simp [r1]
  | @cons l p ls ps hp hps ih =>
    rw [incPos] at hi
    split at hi
    · cases hi
    · rename_i hlt
      rw [Option.map_eq_none_iff] at hi
      have h2 := ih hi
      rw [r1, List.sum_cons, pow_add, ← h2]
      have : p + 1 = 2 ^ l := by omega
      rw [Nat.mul_add]
      omega

theorem r1_zeros (ls : List ℕ) (n : ℕ) : r1 ls (List.replicate n 0) = 0 := by
  induction ls generalizing n with
  | nil => simp [r1]
  | cons l ls ih => cases n with
    | zero => simp [r1]
    | succ n => simp [List.replicate_succ, r1, ih]

theorem posOk_zeros (ls : List ℕ) : PosOk ls (List.replicate ls.length 0) := by
  unfold PosOk
  induction ls with
  | nil => simp
  | cons l ls ih => simpa [List.replicate_succ] using ih

theorem r2_zeros (t s m : ℕ) (xs : List ℕ) :
    r2 t s (List.replicate m 0 ++ xs) = r2 (t + m) s xs := by
  induction m generalizing t with
  | zero => simp
  | succ m ih =>
    rw [List.replicate_succ, List.cons_append, r2]
    simp only [Nat.add_zero, sub_self, zero_add]
    rw [ih]
    congr 1
    ring

theorem r2_all_zeros (t s m : ℕ) : r2 t s (List.replicate m 0) = 0 := by
  have := r2_zeros t s m []
  simpa [r2] using this

/-- The level step raises the level rank by one (Pascal's rule). -/
theorem r2_step (t0 a b : ℕ) (rest : List ℕ) :
    r2 0 0 (a :: (List.replicate t0 0 ++ (b + 1) :: rest))
      = r2 0 0 (List.replicate t0 0 ++ (a + 1) :: b :: rest) + 1 := by
  rw [r2_zeros, r2, r2_zeros]
  simp only [r2, Nat.choose_zero_right, Nat.zero_add, Nat.cast_one, sub_self, zero_add, Nat.add_zero]
  have e : a + 1 + b = a + (b + 1) := by ring
  rw [e]
  have h1 : Nat.choose (t0 + 1 + (a + 1)) (t0 + 1)
      = Nat.choose (t0 + (a + 1)) t0 + Nat.choose (t0 + (a + 1)) (t0 + 1) := by
    rw [show t0 + 1 + (a + 1) = (t0 + (a + 1)) + 1 by ring, Nat.choose_succ_succ]
  have h2 : Nat.choose (t0 + (a + 1)) (t0 + 1) = Nat.choose (1 + t0 + a) (t0 + 1) := by
    congr 1; ring
  rw [Nat.add_comm 1 t0]
  rw [h1, h2, Nat.choose_self, Nat.add_comm 1 t0]
  push_cast
  ring

theorem r2_last (n s : ℕ) :
    r2 0 0 (List.replicate n 0 ++ [s]) + 1 = Nat.choose (n + s) n := by
  rw [r2_zeros]
  simp [r2]

theorem r2_first (n s : ℕ) : r2 0 0 (s :: List.replicate n 0) = 0 := by
  rw [r2, r2_all_zeros]
  simp

/-- Decomposition at the first non-zero level. -/
theorem exists_first_nonzero {ls : List ℕ} (h : 0 < ls.sum) :
    ∃ t0 a rest, ls = List.replicate t0 0 ++ (a + 1) :: rest := by
  induction ls with
  | nil => simp at h
  | cons l ls ih =>
    cases l with
    | zero =>
      obtain ⟨t0, a, rest, e⟩ := ih (by simpa using h)
      exact ⟨t0 + 1, a, rest, by rw [List.replicate_succ, e]; rfl⟩
    | succ a => exact ⟨0, a, ls, by simp⟩

/-- Cases of the level step: either the levels are the last ones of their sum or there is a
non-zero level before the last. -/
theorem levels_cases {ls : List ℕ} (h : ls ≠ []) :
    (∃ n, ls = List.replicate n 0 ++ [ls.sum]) ∨
    (∃ t0 a b rest, ls = List.replicate t0 0 ++ (a + 1) :: b :: rest) := by
  rcases Nat.eq_zero_or_pos ls.sum with h0 | h0
  · left
    refine ⟨ls.length - 1, ?_⟩
    rw [h0]
    have hz : ls = List.replicate ls.length 0 := by
      rw [List.eq_replicate_iff]
      exact ⟨rfl, fun b hb => List.sum_eq_zero_iff.mp h0 b hb⟩
    conv_lhs => rw [hz]
    have : 0 < ls.length := List.length_pos_iff.mpr h
    conv_lhs => rw [show ls.length = (ls.length - 1) + 1 by omega]
    rw [List.replicate_succ']
  · obtain ⟨t0, a, rest, e⟩ := exists_first_nonzero h0
    cases rest with
    | nil =>
      left
      exact ⟨t0, by rw [e]; simp⟩
    | cons b rest => right; exact ⟨t0, a, b, rest, e⟩

/-- Upper bound of the level rank. -/
theorem r2_bounds (ls : List ℕ) : ∀ t s : ℕ,
    0 ≤ r2 t s ls ∧ r2 t s ls + Nat.choose (t + s) (t) ≤
      Nat.choose (t + ls.length + (s + ls.sum)) (t + ls.length) := by
  induction ls with
  | nil => intro t s; simp [r2]
  | cons l ls ih =>
    intro t s
    obtain ⟨h1, h2⟩ := ih (t + 1) (s + l)
    have h3 : Nat.choose (t + s) t ≤ Nat.choose (t + (s + l)) t := Nat.choose_le_choose _ (by omega)
    have h4 : Nat.choose (t + (s + l)) t ≤ Nat.choose (t + 1 + (s + l)) (t + 1) := by
      rw [show t + 1 + (s + l) = (t + (s + l)) + 1 by ring, Nat.choose_succ_succ]
      omega
    rw [r2, List.length_cons, List.sum_cons]
    rw [show t + 1 + ls.length + (s + l + ls.sum) = t + (ls.length + 1) + (s + (l + ls.sum)) by ring,
      show t + 1 + ls.length = t + (ls.length + 1) by ring] at h2
    have h3' : (Nat.choose (t + s) t : ℤ) ≤ Nat.choose (t + (s + l)) t := by exact_mod_cast h3
    have h4' : (Nat.choose (t + (s + l)) t : ℤ) ≤ Nat.choose (t + 1 + (s + l)) (t + 1) := by
      exact_mod_cast h4
    constructor
    · linarith
    · linarith

/-- The level rank is below the number of level vectors. -/
theorem r2_lt {ls : List ℕ} (h : ls ≠ []) :
    0 ≤ r2 0 0 ls ∧
      r2 0 0 ls + 1 ≤ (Nat.choose (ls.length - 1 + ls.sum) (ls.length - 1) : ℤ) := by
  cases ls with
  | nil => exact absurd rfl h
  | cons l ls =>
    obtain ⟨h1, h2⟩ := r2_bounds ls 1 l
    rw [r2]
    simp only [Nat.choose_zero_right, sub_self, zero_add, Nat.zero_add, List.length_cons,
      Nat.add_sub_cancel, List.sum_cons]
    refine ⟨h1, ?_⟩
    -- sharper bound through the head
    have key : ∀ (ls : List ℕ) (t s : ℕ),
        r2 (t + 1) s ls + Nat.choose (t + s) t ≤
          (Nat.choose (t + ls.length + (s + ls.sum)) (t + ls.length) : ℤ) := by
      intro ls
      induction ls with
      | nil => intro t s; simp [r2]
      | cons l ls ih =>
        intro t s
        have h5 := ih (t + 1) (s + l)
        rw [r2, List.length_cons, List.sum_cons]
        rw [show t + 1 + ls.length + (s + l + ls.sum) = t + (ls.length + 1) + (s + (l + ls.sum)) by
            ring,
          show t + 1 + ls.length = t + (ls.length + 1) by ring] at h5
        have h6 : Nat.choose (t + s) t ≤ Nat.choose (t + 1 + s) (t + 1) := by
          rw [show t + 1 + s = (t + s) + 1 by ring, Nat.choose_succ_succ]
          omega
        have h6' : (Nat.choose (t + s) t : ℤ) ≤ Nat.choose (t + 1 + s) (t + 1) := by
          exact_mod_cast h6
        linarith
    have := key ls 0 l
    simpa using this

theorem rank_bounds {ls ps : List ℕ} (h : ls ≠ []) (hp : PosOk ls ps) :
    (below ls.length ls.sum : ℤ) ≤ rank ls ps ∧ rank ls ps < below ls.length (ls.sum + 1) := by
  have h1 := r1_lt hp
  obtain ⟨h2, h3⟩ := r2_lt h
  unfold rank
  rw [below_succ]
  push_cast
  have h1' : (r1 ls ps : ℤ) + 1 ≤ 2 ^ ls.sum := by exact_mod_cast h1
  have hpow : (0 : ℤ) < 2 ^ ls.sum := by positivity
  constructor
  · have : 0 ≤ r2 0 0 ls * 2 ^ ls.sum := mul_nonneg h2 hpow.le
    have : (0 : ℤ) ≤ r1 ls ps := by positivity
    linarith
  · have := mul_le_mul_of_nonneg_right h3 hpow.le
    rw [add_mul, one_mul] at this
    linarith

/-- Pure successor of a grid point. -/
def next (ls ps : List ℕ) : List ℕ × List ℕ :=
  match incPos ls ps with
  | some ps' => (ls, ps')
  | none =>
    if ls.getLast? = some ls.sum then
      (match ls with
        | [] => []
        | _ :: tl => (ls.sum + 1) :: List.replicate tl.length 0, List.replicate ps.length 0)
    else
      let t0 := (ls.takeWhile (· == 0)).length
      match ls.drop t0 with
      | a :: b :: rest => ((a - 1) :: (List.replicate t0 0 ++ (b + 1) :: rest),
          List.replicate ps.length 0)
      | _ => (ls, List.replicate ps.length 0)

theorem takeWhile_zeros (t0 a : ℕ) (rest : List ℕ) :
    (List.replicate t0 0 ++ (a + 1) :: rest).takeWhile (· == 0) = List.replicate t0 0 := by
  induction t0 with
  | zero => simp
  | succ n ih => rw [List.replicate_succ, List.cons_append, List.takeWhile_cons]; simp [ih]

/-- Case form of the successor. -/
theorem next_pos {ls ps ps' : List ℕ} (h : incPos ls ps = some ps') : next ls ps = (ls, ps') := by
  simp [next, h]

theorem getLast?_lt {t0 a b : ℕ} {rest : List ℕ} :
    ∃ x, (List.replicate t0 0 ++ (a + 1) :: b :: rest).getLast? = some x ∧
      x < (List.replicate t0 0 ++ (a + 1) :: b :: rest).sum := by
  obtain ⟨x, hx⟩ : ∃ x, (b :: rest).getLast? = some x := ⟨_, List.getLast?_eq_some_getLast (by simp)⟩
  refine ⟨x, ?_, ?_⟩
  · rw [List.getLast?_append_of_ne_nil _ (by simp), List.getLast?_cons_cons, hx]
  · have hm : x ∈ (b :: rest) := List.mem_of_getLast? hx
    have := List.le_sum_of_mem hm
    rw [List.sum_append, List.sum_cons]
    omega

theorem next_level {t0 a b : ℕ} {rest ps : List ℕ}
    (h : incPos (List.replicate t0 0 ++ (a + 1) :: b :: rest) ps = none) :
    next (List.replicate t0 0 ++ (a + 1) :: b :: rest) ps
      = (a :: (List.replicate t0 0 ++ (b + 1) :: rest), List.replicate ps.length 0) := by
  obtain ⟨x, hx, hlt⟩ := getLast?_lt (t0 := t0) (a := a) (b := b) (rest := rest)
  unfold next
  rw [h, hx]
  simp only
  rw [if_neg (by simp only [Option.some.injEq]; omega), takeWhile_zeros]
  simp

theorem next_sum {n s : ℕ} {ps : List ℕ} (h : incPos (List.replicate n 0 ++ [s]) ps = none) :
    next (List.replicate n 0 ++ [s]) ps
      = ((s + 1) :: List.replicate n 0, List.replicate ps.length 0) := by
  unfold next
  rw [h]
  have hs : (List.replicate n 0 ++ [s]).sum = s := by simp
  have hl : (List.replicate n 0 ++ [s]).getLast? = some s := by simp
  simp only [hs, hl, if_true]
  cases n with
  | zero => simp
  | succ n => simp [List.replicate_succ]

/-- The successor is a grid point and its rank is one larger. -/
theorem next_spec {ls ps : List ℕ} (h : ls ≠ []) (hp : PosOk ls ps) :
    PosOk (next ls ps).1 (next ls ps).2 ∧ (next ls ps).1.length = ls.length ∧
      rank (next ls ps).1 (next ls ps).2 = rank ls ps + 1 := by
  cases hi : incPos ls ps with
  | some ps' =>
    rw [next_pos hi]
    obtain ⟨h1, h2⟩ := incPos_some hp hi
    refine ⟨h1, rfl, ?_⟩
    simp only [rank, h2]
    push_cast
    ring
  | none =>
    have h1 := incPos_none hp hi
    have h1' : (r1 ls ps : ℤ) + 1 = 2 ^ ls.sum := by exact_mod_cast h1
    have hlen : ps.length = ls.length := hp.length_eq.symm
    rcases levels_cases h with ⟨n, e⟩ | ⟨t0, a, b, rest, e⟩
    · generalize hs : ls.sum = s at e
      subst e
      rw [next_sum hi]
      have hl2 : ps.length = ((s + 1) :: List.replicate n 0).length := by rw [hlen]; simp
      refine ⟨?_, by simp, ?_⟩
      · rw [hl2]; exact posOk_zeros _
      · have h3 := r2_last n s
        simp only [rank, r1_zeros, r2_first]
        have hl : (List.replicate n 0 ++ [s]).length = n + 1 := by simp
        have hsum : (List.replicate n 0 ++ [s]).sum = s := by simp
        have hl' : ((s + 1) :: List.replicate n 0).length = n + 1 := by simp
        have hsum' : ((s + 1) :: List.replicate n 0).sum = s + 1 := by simp
        rw [hsum] at h1'
        rw [hl, hsum, hl', hsum', below_succ, Nat.add_sub_cancel]
        push_cast
        rw [← h3]
        linarith
    · subst e
      rw [next_level hi]
      refine ⟨?_, by simp; ring, ?_⟩
      · have hl2 : ps.length = (a :: (List.replicate t0 0 ++ (b + 1) :: rest)).length := by
          rw [hlen]; simp; ring
        rw [hl2]; exact posOk_zeros _
      · simp only [rank, r1_zeros]
        rw [r2_step]
        have hl : (a :: (List.replicate t0 0 ++ (b + 1) :: rest)).length
            = (List.replicate t0 0 ++ (a + 1) :: b :: rest).length := by simp; ring
        have hsum : (a :: (List.replicate t0 0 ++ (b + 1) :: rest)).sum
            = (List.replicate t0 0 ++ (a + 1) :: b :: rest).sum := by simp; ring
        rw [hl, hsum, add_mul, one_mul, ← h1']
        push_cast
        ring

end Verif.Point
