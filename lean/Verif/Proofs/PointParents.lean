import Verif.Proofs.PointRun
import Mathlib.Data.List.Range

/-! Parent traversal in one direction. -/
namespace Verif.Point

open Finset Verif.Counting Verif.Spec

/-- One step of the traversal in one direction. -/
def stepPair (x : ℕ × ℕ) : ℕ × ℕ := if x.2 + 1 < 2 ^ x.1 then (x.1, x.2 + 1) else (x.1 + 1, 0)

/-- The `n`-th (level, position) pair of a one-dimensional traversal. -/
def dec : ℕ → ℕ × ℕ
  | 0 => (0, 0)
  | n + 1 => stepPair (dec n)

theorem dec_eq (l p : ℕ) (h : p < 2 ^ l) : dec (2 ^ l - 1 + p) = (l, p) := by
  induction l generalizing p with
  | zero =>
    have : p = 0 := by simpa using h
    subst this
    simp [dec]
  | succ l ih =>
    induction p with
    | zero =>
      have hpos : 0 < 2 ^ l := by positivity
      have e : 2 ^ (l + 1) - 1 + 0 = (2 ^ l - 1 + (2 ^ l - 1)) + 1 := by rw [pow_succ]; omega
      rw [e, dec, ih _ (by omega), stepPair, if_neg (by simp only; omega)]
    | succ p ihp =>
      have e : 2 ^ (l + 1) - 1 + (p + 1) = (2 ^ (l + 1) - 1 + p) + 1 := by omega
      rw [e, dec, ihp (by omega), stepPair, if_pos (by simpa using h)]

theorem dec_lt (n : ℕ) : (dec n).2 < 2 ^ (dec n).1 := by
  induction n with
  | zero => simp [dec]
  | succ n ih =>
    rw [dec, stepPair]
    split
    · simpa using ‹_›
    · simp

theorem enc_dec (n : ℕ) : 2 ^ (dec n).1 - 1 + (dec n).2 = n := by
  induction n with
  | zero => simp [dec]
  | succ n ih =>
    have hlt := dec_lt n
    rw [dec, stepPair]
    split
    · simp only; omega
    · simp only [pow_succ]
      omega

theorem dec_level_lt_iff (n L : ℕ) : (dec n).1 < L ↔ n + 1 < 2 ^ L := by
  have h1 := dec_lt n
  have h2 := enc_dec n
  have hpos : 0 < 2 ^ (dec n).1 := by positivity
  constructor
  · intro h
    have h3 : 2 ^ ((dec n).1 + 1) ≤ 2 ^ L := Nat.pow_le_pow_right (by norm_num) h
    rw [pow_succ] at h3
    omega
  · intro h
    by_contra hcon
    have h3 : 2 ^ L ≤ 2 ^ (dec n).1 := Nat.pow_le_pow_right (by norm_num) (by omega)
    omega

/-- Listing of the (level, position) pairs below level `L`, level first. -/
def coarser (L : ℕ) : List (ℕ × ℕ) :=
  (List.range L).flatMap fun l => (List.range (2 ^ l)).map fun p => (l, p)

theorem coarser_eq_map_dec (L : ℕ) : coarser L = (List.range (2 ^ L - 1)).map dec := by
  induction L with
  | zero => simp [coarser]
  | succ L ih =>
    have h1 : coarser (L + 1) = coarser L ++ (List.range (2 ^ L)).map fun p => (L, p) := by
      unfold coarser
      rw [List.range_succ, List.flatMap_append]
      simp
    rw [h1, ih]
    have hpos : 0 < 2 ^ L := by positivity
    have e : 2 ^ (L + 1) - 1 = (2 ^ L - 1) + 2 ^ L := by rw [pow_succ]; omega
    rw [e, List.range_add, List.map_append, List.map_map]
    congr 1
    apply List.map_congr_left
    intro p hp
    rw [Function.comp_apply, dec_eq L p (List.mem_range.mp hp)]

theorem mem_coarser {L : ℕ} {x : ℕ × ℕ} : x ∈ coarser L ↔ x.1 < L ∧ x.2 < 2 ^ x.1 := by
  obtain ⟨l, p⟩ := x
  simp only [coarser, List.mem_flatMap, List.mem_range, List.mem_map, Prod.mk.injEq]
  constructor
  · rintro ⟨a, ha, b, hb, rfl, rfl⟩
    exact ⟨ha, hb⟩
  · rintro ⟨h1, h2⟩
    exact ⟨l, h1, p, h2, rfl, rfl⟩

theorem coarser_nodup (L : ℕ) : (coarser L).Nodup := by
  rw [coarser_eq_map_dec]
  apply List.Nodup.map _ List.nodup_range
  intro a b h
  have h1 := enc_dec a
  have h2 := enc_dec b
  rw [h] at h1
  omega

theorem posOk_append {lpre ppre ls ps : List ℕ} {l p : ℕ} (h : lpre.length = ppre.length) :
    PosOk (lpre ++ l :: ls) (ppre ++ p :: ps) ↔ PosOk lpre ppre ∧ p < 2 ^ l ∧ PosOk ls ps := by
  unfold PosOk
  induction lpre generalizing ppre with
  | nil =>
    cases ppre with
    | nil => simp
    | cons a b => simp at h
  | cons a b ih =>
    cases ppre with
    | nil => simp at h
    | cons c d =>
      simp only [List.cons_append, List.forall₂_cons, ih (Nat.succ.inj h)]
      tauto

theorem sum_append_cons (lpre ls : List ℕ) (l : ℕ) :
    (lpre ++ l :: ls).sum = lpre.sum + l + ls.sum := by
  rw [List.sum_append, List.sum_cons]; ring

theorem advanceInDirection_ok {ar : Arith} {B : ℕ} (hf : Fits ar B) {i : ℤ}
    (lpre ls ppre ps : List ℕ) (x : ℕ × ℕ) (hl : lpre.length = ppre.length)
    (hp : PosOk (lpre ++ x.1 :: ls) (ppre ++ x.2 :: ps)) (hB1 : 2 ^ x.1 ≤ B)
    (hB : need (lpre.length + 1 + ls.length) (lpre ++ (stepPair x).1 :: ls).sum ≤ B) :
    advanceInDirection ar ⟨i, lpre ++ x.1 :: ls, ppre ++ x.2 :: ps, (lpre ++ x.1 :: ls).sum⟩
        ppre.length
      = Except.ok ⟨rank (lpre ++ (stepPair x).1 :: ls) (ppre ++ (stepPair x).2 :: ps),
          lpre ++ (stepPair x).1 :: ls, ppre ++ (stepPair x).2 :: ps,
          (lpre ++ (stepPair x).1 :: ls).sum⟩ := by
  obtain ⟨l, p⟩ := x
  obtain ⟨hp1, hp2, hp3⟩ := (posOk_append hl).mp hp
  simp only at hp1 hp2 hp3 hB1
  unfold advanceInDirection
  simp only
  rw [advancePositionInDirection_ok hf lpre ls ppre ps l p hl hp2 hB1]
  simp only [res_ok_bind]
  have hlen : ∀ y, (lpre ++ y :: ls).length = lpre.length + 1 + ls.length := by
    intro y; simp; ring
  by_cases h : p + 1 < 2 ^ l
  · have e : stepPair (l, p) = (l, p + 1) := by simp [stepPair, h]
    rw [e] at hB ⊢
    simp only [h, if_true]
    rw [setIndex_ok hf (by simp) ((posOk_append hl).mpr ⟨hp1, h, hp3⟩) (by rw [hlen]; exact hB)]
  · have e : stepPair (l, p) = (l + 1, 0) := by simp [stepPair, h]
    rw [e] at hB ⊢
    simp only [h, if_false, Bool.false_eq_true]
    rw [← hl, atE_append]
    simp only [res_ok_bind]
    have hs : (lpre ++ (l + 1) :: ls).sum ≤ B := by
      simp only at hB
      unfold need at hB
      omega
    have hl1 : l + 1 ≤ B := by rw [sum_append_cons] at hs; omega
    rw [show ((l : ℤ) + 1) = ((l + 1 : ℕ) : ℤ) by push_cast; ring, fits_nat hf hl1]
    simp only [res_ok_bind]
    rw [setE_append]
    simp only [res_ok_bind]
    rw [setLevelSum_ok hf hs]
    simp only [res_ok_bind]
    rw [setIndex_ok hf (by simp) ((posOk_append hl).mpr ⟨hp1, by positivity, hp3⟩)
      (by rw [hlen]; exact hB)]

theorem firstParent_ok {ar : Arith} {B : ℕ} (hf : Fits ar B) {i : ℤ} {s : ℕ}
    (lpre ls ppre ps : List ℕ) (l p : ℕ) (hl : lpre.length = ppre.length)
    (hp : PosOk (lpre ++ l :: ls) (ppre ++ p :: ps))
    (hB : need (lpre.length + 1 + ls.length) (lpre ++ 0 :: ls).sum ≤ B) :
    firstParent ar ⟨i, lpre ++ l :: ls, ppre ++ p :: ps, s⟩ ppre.length
      = Except.ok ⟨rank (lpre ++ 0 :: ls) (ppre ++ 0 :: ps), lpre ++ 0 :: ls, ppre ++ 0 :: ps,
          (lpre ++ 0 :: ls).sum⟩ := by
  obtain ⟨hp1, hp2, hp3⟩ := (posOk_append hl).mp hp
  unfold firstParent
  simp only [setE_append, res_ok_bind]
  rw [← hl, setE_append]
  simp only [res_ok_bind]
  have hs : (lpre ++ 0 :: ls).sum ≤ B := by
    unfold need at hB
    omega
  rw [setLevelSum_ok hf hs]
  simp only [res_ok_bind]
  have hlen : (lpre ++ 0 :: ls).length = lpre.length + 1 + ls.length := by simp; ring
  rw [setIndex_ok hf (by simp) ((posOk_append hl).mpr ⟨hp1, by positivity, hp3⟩)
    (by rw [hlen]; exact hB)]

/-- The point with direction `t` (between the prefixes and suffixes) set to `x`. -/
def mkPt (lpre ls ppre ps : List ℕ) (x : ℕ × ℕ) : Pt :=
  ⟨rank (lpre ++ x.1 :: ls) (ppre ++ x.2 :: ps), lpre ++ x.1 :: ls, ppre ++ x.2 :: ps,
    (lpre ++ x.1 :: ls).sum⟩

/-- Stepping is possible while the level is below `L`. -/
theorem advance_mkPt {ar : Arith} {B : ℕ} (hf : Fits ar B)
    {lpre ls ppre ps : List ℕ} (hl : lpre.length = ppre.length)
    (hp1 : PosOk lpre ppre) (hp3 : PosOk ls ps) (L : ℕ)
    (hB : need (lpre.length + 1 + ls.length) (lpre ++ L :: ls).sum ≤ B) (n : ℕ)
    (hn : (dec n).1 < L) :
    advanceInDirection ar (mkPt lpre ls ppre ps (dec n)) ppre.length
      = Except.ok (mkPt lpre ls ppre ps (dec (n + 1))) := by
  have hle : (stepPair (dec n)).1 ≤ L := by
    unfold stepPair
    split
    · exact hn.le
    · exact hn
  have hpow : 2 ^ (dec n).1 ≤ B := by
    have h1 := (below_ge (lpre.length + 1 + ls.length) (lpre ++ L :: ls).sum).1
    have h2 : 2 ^ (dec n).1 ≤ 2 ^ (lpre ++ L :: ls).sum :=
      Nat.pow_le_pow_right (by norm_num) (by rw [sum_append_cons]; omega)
    unfold need at hB
    omega
  exact advanceInDirection_ok hf lpre ls ppre ps (dec n) hl
    ((posOk_append hl).mpr ⟨hp1, dec_lt n, hp3⟩) hpow
    (le_trans (need_mono _ (by rw [sum_append_cons, sum_append_cons]; omega)) hB)

theorem parentsFrom_ok {ar : Arith} {B : ℕ} (hf : Fits ar B)
    {lpre ls ppre ps : List ℕ} (hl : lpre.length = ppre.length)
    (hp1 : PosOk lpre ppre) (hp3 : PosOk ls ps) (L : ℕ)
    (hB : need (lpre.length + 1 + ls.length) (lpre ++ L :: ls).sum ≤ B) :
    ∀ (m n fuel : ℕ), n + m + 1 = 2 ^ L → m < fuel →
    parentsFrom ar ppre.length L fuel (mkPt lpre ls ppre ps (dec n))
      = Except.ok ((List.range' n m).map fun j => mkPt lpre ls ppre ps (dec j)) := by
  intro m
  induction m with
  | zero =>
    intro n fuel hn hfuel
    obtain ⟨fuel, rfl⟩ : ∃ f, fuel = f + 1 := ⟨fuel - 1, by omega⟩
    have : ¬ (dec n).1 < L := by rw [dec_level_lt_iff]; omega
    rw [parentsFrom, show (mkPt lpre ls ppre ps (dec n)).levels = lpre ++ (dec n).1 :: ls from rfl,
      ← hl, atE_append]
    simp [this]
  | succ m ih =>
    intro n fuel hn hfuel
    obtain ⟨fuel, rfl⟩ : ∃ f, fuel = f + 1 := ⟨fuel - 1, by omega⟩
    have hlt : (dec n).1 < L := by rw [dec_level_lt_iff]; omega
    rw [parentsFrom, show (mkPt lpre ls ppre ps (dec n)).levels = lpre ++ (dec n).1 :: ls from rfl]
    conv_lhs => enter [1]; rw [← hl, atE_append]
    simp only [res_ok_bind, hlt, if_true]
    rw [advance_mkPt hf hl hp1 hp3 L hB n hlt]
    simp only [res_ok_bind]
    rw [ih (n + 1) fuel (by omega) (by omega)]
    simp [List.range'_succ]

theorem parents_ok {ar : Arith} {B : ℕ} (hf : Fits ar B) {i : ℤ} {s : ℕ}
    (lpre ls ppre ps : List ℕ) (L p : ℕ) (hl : lpre.length = ppre.length)
    (hp : PosOk (lpre ++ L :: ls) (ppre ++ p :: ps))
    (hB : need (lpre.length + 1 + ls.length) (lpre ++ L :: ls).sum ≤ B) (fuel : ℕ)
    (hfuel : 2 ^ L ≤ fuel) :
    parents ar ⟨i, lpre ++ L :: ls, ppre ++ p :: ps, s⟩ ppre.length fuel
      = Except.ok ((coarser L).map (mkPt lpre ls ppre ps)) := by
  obtain ⟨hp1, hp2, hp3⟩ := (posOk_append hl).mp hp
  unfold parents
  rw [firstParent_ok hf lpre ls ppre ps L p hl hp
    (le_trans (need_mono _ (by rw [sum_append_cons, sum_append_cons]; omega)) hB)]
  simp only [res_ok_bind]
  conv_lhs => enter [1]; rw [← hl, atE_append]
  simp only [res_ok_bind]
  have hpos : 0 < 2 ^ L := by positivity
  have := parentsFrom_ok hf hl hp1 hp3 L hB (2 ^ L - 1) 0 fuel (by omega) (by omega)
  rw [coarser_eq_map_dec, List.map_map]
  rw [show (mkPt lpre ls ppre ps (dec 0)) = ⟨rank (lpre ++ 0 :: ls) (ppre ++ 0 :: ps),
    lpre ++ 0 :: ls, ppre ++ 0 :: ps, (lpre ++ 0 :: ls).sum⟩ from rfl] at this
  rw [this, List.range_eq_range']
  rfl

end Verif.Point
