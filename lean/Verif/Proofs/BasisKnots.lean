import Verif.Proofs.Spline
import Verif.Proofs.GridTraverse
import Verif.Spec.Quantile

/-! Knots, grid ids and interval lookup of `BasisLevel`. -/
namespace Verif.BasisLevel

open Finset Verif.Spec Verif.SparseGrid

section
variable {Q : ℝ → ℝ}

theorem scale_pos (L : ℕ) : 0 < scale L := by
  unfold scale
  have : (0 : ℝ) ≤ L := Nat.cast_nonneg L
  norm_num
  positivity

/-- Smallest distance of probabilities from 1/2. -/
noncomputable def dlt (l : ℕ) : ℝ := 1 / 2 ^ (l + 1)

theorem dlt_pos (l : ℕ) : 0 < dlt l := by unfold dlt; positivity

theorem dlt_le (l : ℕ) (hl : 1 ≤ l) : dlt l ≤ 1 / 4 := by
  unfold dlt
  rw [div_le_div_iff₀ (by positivity) (by norm_num)]
  have : (2 : ℝ) ^ 2 ≤ 2 ^ (l + 1) := pow_le_pow_right₀ (by norm_num) (by omega)
  norm_num at this ⊢
  linarith

theorem dlt_anti {l L : ℕ} (h : l ≤ L) : dlt L ≤ dlt l := by
  unfold dlt
  exact one_div_le_one_div_of_le (by positivity) (pow_le_pow_right₀ (by norm_num) (by omega))

theorem bandwidth_eq (Q : ℝ → ℝ) {L : ℕ} (hL : 1 ≤ L) :
    bandwidth Q L = scale L * Q (1 / 2 + dlt L) / 10 := by
  unfold bandwidth
  rw [if_pos (by omega)]
  have h : (2 : ℝ) ^ (-(L : ℤ) - 1) = dlt L := by
    rw [show -(L : ℤ) - 1 = -((L + 1 : ℕ) : ℤ) by push_cast; ring, zpow_neg, zpow_natCast, dlt,
      one_div]
  rw [h]
  norm_num

theorem Qd_pos (hQ : QuantileOk Q) {L : ℕ} (hL : 1 ≤ L) : 0 < Q (1 / 2 + dlt L) := by
  have h1 := dlt_pos L
  have h2 := dlt_le L hL
  rw [← hQ.half]
  exact hQ.strictMono _ _ (by norm_num) (by linarith) (by linarith)

theorem bandwidth_pos (hQ : QuantileOk Q) {L : ℕ} (hL : 1 ≤ L) : 0 < bandwidth Q L := by
  rw [bandwidth_eq Q hL]
  have := mul_pos (scale_pos L) (Qd_pos hQ hL)
  linarith

/-- Knot number for a probability. -/
noncomputable def kid (Q : ℝ → ℝ) (L : ℕ) (p : ℝ) : ℤ := trunc (scale L * Q p / bandwidth Q L)

theorem trunc_bounds (y : ℝ) : y - 1 < trunc y ∧ (trunc y : ℝ) < y + 1 := by
  unfold trunc
  split
  · have h1 := Int.floor_le y
    have h2 := Int.lt_floor_add_one y
    constructor <;> linarith
  · have h1 := Int.le_ceil y
    have h2 := Int.ceil_lt_add_one y
    constructor <;> linarith

theorem trunc_nonpos {y : ℝ} (h : y ≤ 0) : trunc y ≤ 0 := by
  unfold trunc
  split
  · have : y = 0 := le_antisymm h ‹_›
    rw [this]; simp
  · rw [Int.ceil_le]
    exact_mod_cast h

theorem kid_arg (Q : ℝ → ℝ) {L : ℕ} (hL : 1 ≤ L) (p : ℝ) :
    scale L * Q p / bandwidth Q L = 10 * (Q p / Q (1 / 2 + dlt L)) := by
  rw [bandwidth_eq Q hL]
  have := (scale_pos L).ne'
  rw [div_div_eq_mul_div, mul_assoc, mul_div_mul_left _ _ this, mul_comm, mul_div_assoc]

/-- Probability of total knot `i` of level `l`. -/
noncomputable def prob (l i : ℕ) : ℝ := (i + 1) / 2 ^ (l + 1)

theorem prob_pos (l i : ℕ) : 0 < prob l i := by unfold prob; positivity

theorem prob_lt_one {l i : ℕ} (hi : i + 1 < 2 ^ (l + 1)) : prob l i < 1 := by
  unfold prob
  rw [div_lt_one (by positivity)]
  exact_mod_cast hi

theorem prob_succ (l i : ℕ) : prob l (i + 1) = prob l i + dlt l := by
  unfold prob dlt
  push_cast
  ring

/-- Number of total knots of level `l`. -/
def nTot (l : ℕ) : ℕ := 2 * 2 ^ l - 1

theorem nTot_add_one (l : ℕ) : nTot l + 1 = 2 ^ (l + 1) := by
  unfold nTot
  have : 0 < 2 ^ l := by positivity
  rw [pow_succ]
  omega

theorem Q_step (hQ : QuantileOk Q) {l L i : ℕ} (hl : l ≤ L) (hL : 1 ≤ L) (hi : i + 1 < nTot l) :
    Q (1 / 2 + dlt L) ≤ Q (prob l (i + 1)) - Q (prob l i) := by
  have hn := nTot_add_one l
  have hp0 := prob_pos l i
  have hp1 : prob l (i + 1) < 1 := prob_lt_one (by omega)
  have hd := dlt_pos l
  have hdL := dlt_pos L
  have hdd := dlt_anti hl
  have hstep := prob_succ l i
  have hmono : ∀ h, dlt L ≤ h → 1 / 2 + h < 1 → Q (1 / 2 + dlt L) ≤ Q (1 / 2 + h) := by
    intro h h1 h2
    rcases eq_or_lt_of_le h1 with e | e
    · rw [e]
    · exact (hQ.strictMono _ _ (by linarith) (by linarith) h2).le
  rcases Nat.lt_or_ge (i + 1) (2 ^ l) with h | h
  · -- left half: use symmetry
    have hle : prob l (i + 1) ≤ 1 / 2 := by
      unfold prob
      rw [div_le_div_iff₀ (by positivity) (by norm_num), pow_succ]
      have : ((i + 1 : ℕ) : ℝ) + 1 ≤ 2 ^ l := by exact_mod_cast h
      linarith
    have s1 := hQ.symm (prob l i) hp0 (by linarith)
    have s2 := hQ.symm (prob l (i + 1)) (by linarith) hp1
    have sp := hQ.spread (1 - prob l (i + 1)) (dlt l) (by linarith) hd (by linarith)
    rw [show 1 - prob l (i + 1) + dlt l = 1 - prob l i by rw [hstep]; ring, s1, s2] at sp
    have := hmono (dlt l) hdd (by linarith)
    linarith
  · have hge : 1 / 2 ≤ prob l i := by
      unfold prob
      rw [div_le_div_iff₀ (by norm_num) (by positivity), pow_succ]
      have : (2 : ℝ) ^ l ≤ ((i + 1 : ℕ) : ℝ) := by exact_mod_cast h
      push_cast at this
      linarith
    have sp := hQ.spread (prob l i) (dlt l) hge hd (by linarith)
    rw [← hstep] at sp
    have := hmono (dlt l) hdd (by linarith)
    linarith

theorem kid_lt (hQ : QuantileOk Q) {l L i : ℕ} (hl : l ≤ L) (hL : 1 ≤ L) (hi : i + 1 < nTot l) :
    kid Q L (prob l i) < kid Q L (prob l (i + 1)) := by
  have hpos := Qd_pos hQ hL
  have hstep := Q_step hQ hl hL hi
  have h1 := (trunc_bounds (scale L * Q (prob l i) / bandwidth Q L)).2
  have h2 := (trunc_bounds (scale L * Q (prob l (i + 1)) / bandwidth Q L)).1
  rw [kid_arg Q hL] at h1 h2
  have h3 : 1 ≤ Q (prob l (i + 1)) / Q (1 / 2 + dlt L) - Q (prob l i) / Q (1 / 2 + dlt L) := by
    rw [← sub_div, le_div_iff₀ hpos]
    linarith
  unfold kid
  rw [kid_arg Q hL, kid_arg Q hL]
  have : ((trunc (10 * (Q (prob l i) / Q (1 / 2 + dlt L))) : ℤ) : ℝ)
      < (trunc (10 * (Q (prob l (i + 1)) / Q (1 / 2 + dlt L))) : ℤ) := by linarith
  exact_mod_cast this

theorem kid_zero_nonpos (hQ : QuantileOk Q) {l L : ℕ} (hL : 1 ≤ L) :
    kid Q L (prob l 0) ≤ 0 := by
  apply trunc_nonpos
  rw [kid_arg Q hL]
  have hpos := Qd_pos hQ hL
  have : Q (prob l 0) ≤ 0 := by
    have hle : prob l 0 ≤ 1 / 2 := by
      unfold prob
      rw [div_le_div_iff₀ (by positivity) (by norm_num), pow_succ]
      have : (1 : ℝ) ≤ 2 ^ l := one_le_pow₀ (by norm_num)
      push_cast
      linarith
    rw [← hQ.half]
    rcases eq_or_lt_of_le hle with e | e
    · rw [e]
    · exact (hQ.strictMono _ _ (prob_pos l 0) e (by norm_num)).le
  have := div_nonpos_of_nonpos_of_nonneg this hpos.le
  linarith

/-- Total knot `i` of level `l`. -/
noncomputable def tk (Q : ℝ → ℝ) (L l i : ℕ) : ℝ := kid Q L (prob l i) * bandwidth Q L

theorem tk_lt (hQ : QuantileOk Q) {l L i : ℕ} (hl : l ≤ L) (hL : 1 ≤ L) (hi : i + 1 < nTot l) :
    tk Q L l i < tk Q L l (i + 1) := by
  unfold tk
  have h := kid_lt hQ hl hL hi
  have h' : ((kid Q L (prob l i) : ℤ) : ℝ) < (kid Q L (prob l (i + 1)) : ℤ) := by exact_mod_cast h
  exact mul_lt_mul_of_pos_right h' (bandwidth_pos hQ hL)

theorem tk_strictMono (hQ : QuantileOk Q) {l L : ℕ} (hl : l ≤ L) (hL : 1 ≤ L) {i j : ℕ}
    (hij : i < j) (hj : j < nTot l) :
    kid Q L (prob l i) < kid Q L (prob l j) ∧ tk Q L l i < tk Q L l j := by
  induction j with
  | zero => omega
  | succ j ih =>
    have h1 := kid_lt hQ hl hL hj
    have h2 := tk_lt hQ hl hL hj
    rcases Nat.lt_or_ge i j with h | h
    · obtain ⟨g1, g2⟩ := ih h (by omega)
      exact ⟨by omega, by linarith⟩
    · have : i = j := by omega
      subst this
      exact ⟨h1, h2⟩

/-- Knot `p` of level `l` is total knot `(2p+1) 2^(l'-l) - 1` of every higher level `l'`. -/
theorem prob_embed {l l' p : ℕ} (h : l ≤ l') :
    prob l' ((2 * p + 1) * 2 ^ (l' - l) - 1) = prob l (2 * p) := by
  unfold prob
  have hpos : 1 ≤ (2 * p + 1) * 2 ^ (l' - l) := by
    have : 0 < (2 * p + 1) * 2 ^ (l' - l) := by positivity
    omega
  rw [Nat.cast_sub hpos]
  push_cast
  rw [div_eq_div_iff (by positivity) (by positivity)]
  have e : (2 : ℝ) ^ (l' + 1) = 2 ^ (l' - l) * 2 ^ (l + 1) := by
    rw [← pow_add]; congr 1; omega
  rw [e]
  ring

/-! ### The construction loops -/

/-- The conversions of the knot numbers of level `l` are exact. -/
def KnotFits (ar : Arith) (Q : ℝ → ℝ) (L l : ℕ) : Prop :=
  ∀ i < nTot l, ar (kid Q L (prob l i)) = Except.ok (kid Q L (prob l i))

theorem knotId_ok {ar : Arith} (hQ : QuantileOk Q) {L l i : ℕ} (hL : 1 ≤ L)
    (hf : KnotFits ar Q L l) (hi : i < nTot l) {q : ℝ} (hq : q = prob l i) :
    knotId ar Q L q = Except.ok (kid Q L (prob l i)) := by
  unfold knotId divToInt
  rw [if_neg (bandwidth_pos hQ hL).ne', hq]
  exact hf i hi

theorem prob_eq_own (l i : ℕ) :
    ((2.0 * i + 1.0) / (2.0 * ((2 ^ l : ℕ) : ℝ)) : ℝ) = prob l (2 * i) := by
  unfold prob
  push_cast
  rw [pow_succ]
  norm_num
  ring

theorem prob_eq_tot (l i : ℕ) :
    ((i + 1.0) / ((nTot l : ℝ) + 1.0) : ℝ) = prob l i := by
  unfold prob
  have : ((nTot l : ℝ) + 1.0) = 2 ^ (l + 1) := by
    have := nTot_add_one l
    have h : ((nTot l + 1 : ℕ) : ℝ) = ((2 ^ (l + 1) : ℕ) : ℝ) := by rw [this]
    push_cast at h
    norm_num at h ⊢
    exact h
  rw [this]
  norm_num

theorem own_lt {l i : ℕ} (hi : i < 2 ^ l) : 2 * i < nTot l := by
  have := nTot_add_one l
  rw [pow_succ] at this
  omega

theorem initializeKnots_ok {ar : Arith} (hQ : QuantileOk Q) {L l : ℕ} (hL : 1 ≤ L)
    (hf : KnotFits ar Q L l) :
    initializeKnots ar Q l L = Except.ok ((List.range (2 ^ l)).map fun i => tk Q L l (2 * i)) := by
  unfold initializeKnots
  simp only
  apply mapM_ok
  intro i hi
  rw [List.mem_range] at hi
  rw [knotId_ok hQ hL hf (own_lt hi) (prob_eq_own l i)]
  rfl

theorem findKnotsTotal_ok {ar : Arith} (hQ : QuantileOk Q) {L l : ℕ} (hL : 1 ≤ L)
    (hf : KnotFits ar Q L l) :
    findKnotsTotal ar Q l L = Except.ok ((List.range (nTot l)).map fun i => tk Q L l i) := by
  unfold findKnotsTotal
  simp only
  apply mapM_ok
  intro i hi
  rw [List.mem_range] at hi
  change i < nTot l at hi
  change (knotId ar Q L ((i + 1.0) / ((nTot l : ℝ) + 1.0)) >>= _) = _
  rw [knotId_ok hQ hL hf hi (prob_eq_tot l i)]
  rfl

/-- Grid ids: position `e` holds the interval number. -/
def IdsOk (Q : ℝ → ℝ) (L l i : ℕ) (ids : List ℕ) : Prop :=
  (ids.length : ℤ) = kid Q L (prob l (i - 1)) - kid Q L (prob l 0) ∧
  ∀ e (he : e < ids.length), 1 ≤ ids[e] ∧ ids[e] < i ∧
    kid Q L (prob l (ids[e] - 1)) - kid Q L (prob l 0) ≤ e ∧
    (e : ℤ) < kid Q L (prob l ids[e]) - kid Q L (prob l 0)

theorem gridIdsLoop_ok {ar : Arith} (hQ : QuantileOk Q) {L l : ℕ} (hl : l ≤ L) (hL : 1 ≤ L)
    (hf : KnotFits ar Q L l) (m : ℕ) :
    ∀ (i : ℕ) (ids : List ℕ), 1 ≤ i → i + m = nTot l → IdsOk Q L l i ids →
    ∃ ids', gridIdsLoop ar Q L (nTot l) m i (kid Q L (prob l (i - 1))) ids = Except.ok ids' ∧
      IdsOk Q L l (nTot l) ids' := by
  induction m with
  | zero =>
    intro i ids hi him h
    rw [Nat.add_zero] at him
    subst him
    exact ⟨ids, rfl, h⟩
  | succ m ih =>
    intro i ids hi him h
    rw [gridIdsLoop, knotId_ok hQ hL hf (by omega) (prob_eq_tot l i)]
    simp only [res_ok_bind]
    have hlt := (tk_strictMono hQ hl hL (i := i - 1) (j := i) (by omega) (by omega)).1
    obtain ⟨h1, h2⟩ := h
    have := ih (i + 1) (ids ++ List.replicate
      (kid Q L (prob l i) - kid Q L (prob l (i - 1))).toNat i) (by omega) (by omega) (by
      constructor
      · simp only [List.length_append, List.length_replicate, Nat.add_sub_cancel]
        push_cast
        rw [Int.toNat_of_nonneg (by omega)]
        omega
      · intro e he
        simp only [List.length_append, List.length_replicate] at he
        by_cases hlen : e < ids.length
        · rw [List.getElem_append_left hlen]
          obtain ⟨g1, g2, g3, g4⟩ := h2 e hlen
          exact ⟨g1, by omega, g3, g4⟩
        · rw [List.getElem_append_right (by omega)]
          simp only [List.getElem_replicate]
          have hz := Int.toNat_of_nonneg
            (show 0 ≤ kid Q L (prob l i) - kid Q L (prob l (i - 1)) by omega)
          exact ⟨hi, by omega, by omega, by omega⟩)
    simpa using this

theorem initializeGridIds_ok {ar : Arith} (hQ : QuantileOk Q) {L l : ℕ} (hl : l ≤ L) (hL : 1 ≤ L)
    (hf : KnotFits ar Q L l) :
    ∃ ids, initializeGridIds ar Q l L = Except.ok ids ∧ IdsOk Q L l (nTot l) ids := by
  unfold initializeGridIds
  simp only
  change ∃ ids, gridIdsLoop ar Q L (nTot l) (nTot l) 0 0 [] = _ ∧ _
  obtain ⟨m, hm⟩ : ∃ m, nTot l = m + 1 := by
    have := nTot_add_one l
    have h2 : 2 ^ 1 ≤ 2 ^ (l + 1) := Nat.pow_le_pow_right (by norm_num) (by omega)
    exact ⟨nTot l - 1, by omega⟩
  have hunf : gridIdsLoop ar Q L (nTot l) (nTot l) 0 0 []
      = gridIdsLoop ar Q L (nTot l) (m + 1) 0 0 [] := by
    conv_lhs => rw [show gridIdsLoop ar Q L (nTot l) (nTot l) 0 0 []
      = (fun x => gridIdsLoop ar Q L (nTot l) x 0 0 []) (nTot l) from rfl, hm]
    rw [hm]
  rw [hunf, gridIdsLoop, knotId_ok hQ hL hf (by omega) (prob_eq_tot l 0)]
  simp only [res_ok_bind]
  have hz := kid_zero_nonpos hQ (l := l) hL
  rw [show (kid Q L (prob l 0) - 0).toNat = 0 by omega]
  have := gridIdsLoop_ok hQ hl hL hf m 1 [] le_rfl (by omega) ⟨by simp, by simp⟩
  simpa using this

end

end Verif.BasisLevel
