import Verif.Spec.SubExpr
import Verif.Props.Frames
import Mathlib.Data.List.GetD

/-!
# Lemmas for `Sub(.)` expressions
-/
namespace Verif.SubExpr

open Verif.Frames Verif.Frames.Spec Verif.SubExpr.Spec Finset

/-! ## Frames made from one frame -/

/-- `F` has the coefficients and random effects of `F0`. -/
def Shape (F0 F : Frame) : Prop :=
  F.X.ncol = F0.X.ncol ∧ ((F0.reTrms = none ∧ F.reTrms = none) ∨
    ∃ R Z, F0.reTrms = some R ∧ F.reTrms = some (withZt R Z) ∧ Z.nrow = R.Zt.nrow)

theorem Shape.refl (F : Frame) : Shape F F := by
  refine ⟨rfl, ?_⟩
  rcases h : F.reTrms with _ | R
  · exact Or.inl ⟨rfl, rfl⟩
  · exact Or.inr ⟨R, R.Zt, rfl, rfl, rfl⟩

theorem predictor_length (F : Frame) (n : ℕ) (θ β u : ℕ → ℝ) :
    (predictor F n θ β u).length = n := by
  rw [predictor, List.length_map, List.length_range]

theorem predictor_getD {F : Frame} {n : ℕ} {θ β u : ℕ → ℝ} {i : ℕ} (h : i < n) :
    (predictor F n θ β u).getD i 0 = lp F θ β u i := by
  rw [List.getD_eq_getElem _ _ (by rw [predictor_length]; exact h)]
  simp [predictor]

theorem lp_none {F : Frame} (h : F.reTrms = none) (θ β u : ℕ → ℝ) (i : ℕ) :
    lp F θ β u i = ∑ j ∈ range F.X.ncol, F.X.e i j * β j := by
  unfold lp
  rw [h, add_zero]

theorem lp_some {F : Frame} {R : ReTrms} (h : F.reTrms = some R) (θ β u : ℕ → ℝ) (i : ℕ) :
    lp F θ β u i = (∑ j ∈ range F.X.ncol, F.X.e i j * β j) + randomPart R θ u i := by
  unfold lp
  rw [h]

theorem withZt_wf {R : ReTrms} {Z : Mat} (h : WellFormedRe R) (hz : Z.nrow = R.Zt.nrow) :
    WellFormedRe (withZt R Z) :=
  ⟨⟨h.square.1.trans hz.symm, h.square.2.trans hz.symm⟩, h.inside, h.size, h.index⟩

theorem select_lt {n : ℕ} {v : List ℝ} {rows : List ℕ} (h : select n v = Except.ok rows) :
    ∀ k ∈ rows, k < n := by
  unfold select at h
  dsimp only at h
  split at h
  · split at h
    · cases h
    · have h := Except.ok.inj h
      subst h
      intro k hk
      exact List.mem_range.1 (List.mem_filter.1 hk).1
  · split at h
    · cases h
    · rename_i hb
      have h := Except.ok.inj h
      subst h
      intro k hk
      obtain ⟨z, hz, rfl⟩ := List.mem_map.1 hk
      have h1 := (List.mem_filter.1 hz).2
      rw [Bool.not_eq_true, List.any_eq_false] at hb
      have h2 := hb z hz
      simp only [decide_eq_true_eq] at h1 h2
      omega

theorem indexFr_spec {F0 F G : Frame} {n : ℕ} {w : List ℝ} (hS : Shape F0 F) (hF : WellFormed F n)
    (h : indexFr F w = Except.ok G) : ∃ rows, select n w = Except.ok rows ∧ Shape F0 G ∧
      WellFormed G rows.length ∧ ∀ θ β u,
      predictor G rows.length θ β u = rows.map fun k => lp F θ β u k := by
  unfold indexFr at h
  rw [hF.rows] at h
  rcases hs : select n w with err | rows
  · rw [hs] at h
    cases h
  rw [hs] at h
  simp only [res_ok_bind] at h
  have key : ∀ (θ β u : ℕ → ℝ), (∀ k, lp G θ β u k = lp F θ β u (rows.getD k 0)) →
      predictor G rows.length θ β u = rows.map fun k => lp F θ β u k := by
    intro θ β u hk
    refine List.ext_getElem (by simp [predictor]) fun k h1 h2 => ?_
    rw [predictor_length] at h1
    simp only [predictor, List.getElem_map, List.getElem_range]
    rw [hk, List.getD_eq_getElem _ _ h1]
  refine ⟨rows, rfl, ?_⟩
  rcases hr : F.reTrms with _ | R
  · rw [hr] at h
    have h := Except.ok.inj h
    subst h
    refine ⟨⟨hS.1, ?_⟩, ⟨rfl, fun R hR => by cases hR⟩, fun θ β u => key θ β u fun k => ?_⟩
    · rcases hS.2 with ⟨h1, -⟩ | ⟨R, Z, -, h2, -⟩
      · exact Or.inl ⟨h1, rfl⟩
      · rw [hr] at h2
        cases h2
    · rw [lp_none rfl, lp_none hr]
      rfl
  · obtain ⟨hw, hc⟩ := hF.re R hr
    rw [hr] at h
    simp only [hc, hs, res_ok_bind] at h
    have h := Except.ok.inj h
    subst h
    refine ⟨⟨hS.1, ?_⟩, ⟨rfl, fun R' hR' => ?_⟩, fun θ β u => key θ β u fun k => ?_⟩
    · rcases hS.2 with ⟨-, h2⟩ | ⟨R0, Z, h1, h2, h3⟩
      · rw [hr] at h2
        cases h2
      · rw [hr] at h2
        cases h2
        exact Or.inr ⟨R0, Z.cols rows, h1, rfl, h3⟩
    · cases hR'
      exact ⟨withZt_wf (Z := R.Zt.cols rows) hw rfl, rfl⟩
    · rw [lp_some rfl, lp_some hr]
      rfl

theorem scaleFr_shape {F0 F G : Frame} {a : List ℝ} (hS : Shape F0 F)
    (h : scaleFr F a = Except.ok G) : Shape F0 G := by
  obtain ⟨hX, hre⟩ := scaleFr_inv h
  refine ⟨(scale_spec hX).2.1.trans hS.1, ?_⟩
  rcases hS.2 with ⟨h1, h2⟩ | ⟨R0, Z0, h1, h2, h3⟩
  · rcases hre with ⟨-, h4⟩ | ⟨R, Z, h4, -⟩
    · exact Or.inl ⟨h1, h4⟩
    · rw [h2] at h4
      cases h4
  · rcases hre with ⟨h4, -⟩ | ⟨R, Z, h4, h5, h6⟩
    · rw [h2] at h4
      cases h4
    · rw [h2] at h4
      cases h4
      exact Or.inr ⟨R0, Z, h1, h6, (scale_spec h5).1.trans h3⟩

theorem scaleFr_predictor {F G : Frame} {n : ℕ} {c : ℝ} (hF : WellFormed F n)
    (h : scaleFr F [c] = Except.ok G) (θ β u : ℕ → ℝ) :
    predictor G n θ β u = (predictor F n θ β u).map (c * ·) := by
  rw [predictor, predictor, List.map_map]
  refine List.map_congr_left fun i hi => ?_
  exact scaleFr_const hF (by simp) (by simp) h θ β u (List.mem_range.1 hi)

theorem addFr_spec {F0 F G H : Frame} {n m : ℕ} (hSF : Shape F0 F) (hSG : Shape F0 G)
    (hF : WellFormed F n) (hG : WellFormed G m) (h : addFr F G = Except.ok H) :
    n = m ∧ Shape F0 H ∧ WellFormed H n ∧ ∀ θ β u i,
      lp H θ β u i = lp F θ β u i + lp G θ β u i := by
  unfold addFr at h
  split at h
  · cases h
  split at h
  · cases h
  rename_i hd
  rw [hF.rows, hG.rows] at hd
  have hd1 : n = m := by omega
  have hd2 : F.X.ncol = G.X.ncol := by omega
  refine ⟨hd1, ?_⟩
  have hx : ∀ (β : ℕ → ℝ) i, (∑ j ∈ range (F.X.add G.X).ncol, (F.X.add G.X).e i j * β j) =
      (∑ j ∈ range F.X.ncol, F.X.e i j * β j) + ∑ j ∈ range G.X.ncol, G.X.e i j * β j := by
    intro β i
    rw [← hd2, ← sum_add_distrib]
    exact sum_congr rfl fun j _ => add_mul _ _ _
  rcases hSF.2 with ⟨a1, a2⟩ | ⟨R, Z, a1, a2, a3⟩
  · rcases hSG.2 with ⟨-, b2⟩ | ⟨R, Z, b1, -⟩
    · rw [a2, b2] at h
      have h := Except.ok.inj h
      subst h
      refine ⟨⟨hSF.1, Or.inl ⟨a1, rfl⟩⟩, ⟨hF.rows, fun R hR => by cases hR⟩, fun θ β u i => ?_⟩
      rw [lp_none rfl, lp_none a2, lp_none b2]
      exact hx β i
    · rw [a1] at b1
      cases b1
  · rcases hSG.2 with ⟨b1, -⟩ | ⟨R', Z', b1, b2, b3⟩
    · rw [a1] at b1
      cases b1
    · rw [a1] at b1
      cases b1
      rw [a2, b2] at h
      dsimp only at h
      split at h
      · cases h
      · have h := Except.ok.inj h
        subst h
        refine ⟨⟨hSF.1, Or.inr ⟨R, Z.add Z', a1, rfl, a3⟩⟩, ⟨hF.rows, fun R'' hR'' => ?_⟩,
          fun θ β u i => ?_⟩
        · cases hR''
          obtain ⟨w, hc⟩ := hF.re _ a2
          exact ⟨withZt_wf (R := withZt R Z) (Z := Z.add Z') w rfl, hc⟩
        · rw [lp_some rfl, lp_some a2, lp_some b2, hx]
          have : randomPart (withZt R (Z.add Z')) θ u i =
              randomPart (withZt R Z) θ u i + randomPart (withZt R Z') θ u i := by
            rw [randomPart_withZt, randomPart_withZt, randomPart_withZt, ← sum_add_distrib]
            refine sum_congr rfl fun r _ => ?_
            rw [← mul_add, b3, ← a3, ← sum_add_distrib]
            congr 1
            exact sum_congr rfl fun c _ => mul_add _ _ _
          show _ + randomPart (withZt R (Z.add Z')) θ u i = _
          rw [this]
          ring

/-! ## Indexing -/

theorem truncate_nat (j : ℕ) : truncate (j : ℝ) = j := by
  unfold truncate
  rw [if_pos (Nat.cast_nonneg j), Int.floor_natCast]

theorem truncate_neg (j : ℕ) : truncate (-(j : ℝ)) = -j := by
  unfold truncate
  split
  · rename_i h
    have h0 : (j : ℝ) = 0 := le_antisymm (by linarith) (Nat.cast_nonneg j)
    have h1 : j = 0 := by exact_mod_cast h0
    subst h1
    simp
  · rw [Int.ceil_neg, Int.floor_natCast]

theorem select_picks {x w v : List ℝ} {rows : List ℕ} (h : select x.length w = Except.ok rows)
    (hp : Picks x w v) : v = rows.map fun k => x.getD k 0 := by
  unfold select at h
  dsimp only at h
  rcases hp with ⟨js, rfl, hj, rfl⟩ | ⟨js, rfl, ⟨j0, hj0, hpos⟩, rfl⟩
  · have ht : (js.map fun j : ℕ => (j : ℝ)).map truncate = js.map fun j : ℕ => (j : ℤ) := by
      rw [List.map_map]
      exact List.map_congr_left fun j _ => truncate_nat j
    rw [ht] at h
    rw [if_neg (by
      rw [Bool.not_eq_true, List.any_eq_false]
      intro z hz
      obtain ⟨j, -, rfl⟩ := List.mem_map.1 hz
      simp)] at h
    split at h
    · cases h
    · have h := Except.ok.inj h
      subst h
      rw [List.filter_map, List.map_map, List.map_map]
      have : (js.filter (0 < ·)) = js.filter ((fun z : ℤ => decide (0 < z)) ∘ fun j : ℕ => (j : ℤ)) :=
        List.filter_congr fun j _ => by simp
      rw [this]
      refine List.map_congr_left fun j _ => ?_
      show _ = x.getD ((j : ℤ) - 1).toNat 0
      congr 1
      omega
  · have ht : (js.map fun j : ℕ => -(j : ℝ)).map truncate = js.map fun j : ℕ => -(j : ℤ) := by
      rw [List.map_map]
      exact List.map_congr_left fun j _ => truncate_neg j
    rw [ht] at h
    rw [if_pos (by
      rw [List.any_eq_true]
      exact ⟨_, List.mem_map_of_mem hj0, by simpa using hpos⟩)] at h
    rw [if_neg (by
      rw [Bool.not_eq_true, List.any_eq_false]
      intro z hz
      obtain ⟨j, -, rfl⟩ := List.mem_map.1 hz
      simp)] at h
    have h := Except.ok.inj h
    subst h
    congr 1
    refine List.filter_congr fun i _ => ?_
    congr 1
    rw [Bool.eq_iff_iff, List.contains_iff_mem, List.contains_iff_mem, List.mem_map]
    constructor
    · intro hi
      exact ⟨_, hi, by push_cast; ring⟩
    · rintro ⟨j, hj, e⟩
      have : j = i + 1 := by omega
      exact this ▸ hj

/-! ## Expressions -/

theorem mem_namesList {x : String} : ∀ {xs : List Expr}, x ∈ namesList xs ↔ ∃ e ∈ xs, x ∈ names e
  | [] => by simp [namesList]
  | e :: xs => by
    rw [namesList, List.mem_append, mem_namesList]
    simp

mutual
theorem status_spec {y : String} : ∀ {e : Expr} {s : Bool}, NoTrue e → status y e = Except.ok s →
    (s = true ↔ y ∈ names e)
  | .name x, s, _, h => by
    rw [status] at h
    have h := Except.ok.inj h
    subst h
    rw [names, List.mem_singleton, decide_eq_true_eq]
    exact eq_comm
  | .lit (.logical b), s, hT, h => by
    rw [status] at h
    have h := Except.ok.inj h
    subst h
    have hT : b = false := hT
    simp [hT, names]
  | .lit (.num _), _, _, h => by
    rw [status] at h
    · cases h
    · exact fun b hb => by cases hb
  | .lit (.str _), _, _, h => by
    rw [status] at h
    · cases h
    · exact fun b hb => by cases hb
  | .call xs, s, hT, h => by
    rw [status] at h
    rw [names]
    rw [NoTrue] at hT
    exact statusList_spec hT h

theorem statusList_spec {y : String} : ∀ {xs : List Expr} {s : Bool}, NoTrueList xs →
    statusList y xs = Except.ok s → (s = true ↔ y ∈ namesList xs)
  | [], s, _, h => by
    rw [statusList] at h
    have h := Except.ok.inj h
    subst h
    simp [namesList]
  | x :: xs, s, hT, h => by
    rw [statusList] at h
    rw [NoTrueList] at hT
    rcases ha : status y x with err | a
    · rw [ha] at h
      cases h
    rcases hb : statusList y xs with err | b
    · rw [ha, hb] at h
      cases h
    rw [ha, hb] at h
    have h := Except.ok.inj h
    subst h
    rw [Bool.or_eq_true, status_spec hT.1 ha, statusList_spec hT.2 hb, namesList, List.mem_append]
end

theorem status2_spec {y : String} {rest : List Expr} {s : Bool} (hT : NoTrueList rest)
    (h : status2 y rest = Except.ok s) : s = true ↔ ∃ b ∈ rest.head?, y ∈ names b := by
  unfold status2 at h
  split at h
  · have h := Except.ok.inj h
    subst h
    simp
  · rw [NoTrueList] at hT
    rw [status_spec hT.1 h]
    simp

mutual
/-- Expressions without the variable are not changed. -/
theorem modify_const {y : String} : ∀ {e e' : Expr}, NoTrue e → y ∉ names e →
    modify y e = Except.ok e' → e' = e
  | .name x, e', _, _, h => by
    rw [modify] at h
    exact (Except.ok.inj h).symm
  | .lit x, e', _, _, h => by
    rw [modify] at h
    exact (Except.ok.inj h).symm
  | .call [], e', _, _, h => by
    rw [modify] at h
    exact (Except.ok.inj h).symm
  | .call (g :: []), e', hT, hy, h => by
    rw [modify] at h
    rw [NoTrue, NoTrueList] at hT
    rw [names, namesList, List.mem_append, not_or] at hy
    rcases hg : modify y g with err | g'
    · rw [hg] at h
      cases h
    rw [hg] at h
    rw [modify_const hT.1 hy.1 hg] at h
    exact (Except.ok.inj h).symm
  | .call (g :: a :: rest), e', hT, hy, h => by
    rw [modify] at h
    rw [NoTrue, NoTrueList, NoTrueList] at hT
    rw [names, namesList, namesList, List.mem_append, List.mem_append, not_or, not_or] at hy
    rcases h1 : status y a with err | s1
    · rw [h1] at h
      cases h
    have e1 : s1 = false := by
      rw [← Bool.not_eq_true, status_spec hT.2.1 h1]
      exact hy.2.1
    subst e1
    rw [h1] at h
    simp only [res_ok_bind] at h
    rcases h2 : status2 y rest with err | s2
    · rw [h2] at h
      cases h
    have e2 : s2 = false := by
      rw [← Bool.not_eq_true, status2_spec hT.2.2 h2]
      rintro ⟨b, hb, hyb⟩
      exact hy.2.2 (mem_namesList.2 ⟨b, List.mem_of_mem_head? hb, hyb⟩)
    subst e2
    rw [h2] at h
    simp only [res_ok_bind, Bool.or_false, Bool.false_eq_true, if_false] at h
    rcases hg : modify y g with err | g'
    · rw [hg] at h
      cases h
    rcases ha : modify y a with err | a'
    · rw [hg, ha] at h
      cases h
    rcases hr : modifyList y rest with err | r'
    · rw [hg, ha, hr] at h
      cases h
    rw [hg, ha, hr] at h
    rw [modify_const hT.1 hy.1 hg, modify_const hT.2.1 hy.2.1 ha,
      modifyList_const hT.2.2 hy.2.2 hr] at h
    exact (Except.ok.inj h).symm

theorem modifyList_const {y : String} : ∀ {xs xs' : List Expr}, NoTrueList xs → y ∉ namesList xs →
    modifyList y xs = Except.ok xs' → xs' = xs
  | [], xs', _, _, h => by
    rw [modifyList] at h
    exact (Except.ok.inj h).symm
  | x :: xs, xs', hT, hy, h => by
    rw [modifyList] at h
    rw [NoTrueList] at hT
    rw [namesList, List.mem_append, not_or] at hy
    rcases ha : modify y x with err | x'
    · rw [ha] at h
      cases h
    rcases hr : modifyList y xs with err | r'
    · rw [ha, hr] at h
      cases h
    rw [ha, hr] at h
    rw [modify_const hT.1 hy.1 ha, modifyList_const hT.2 hy.2 hr] at h
    exact (Except.ok.inj h).symm
end

theorem modifyList_length {y : String} : ∀ {xs xs' : List Expr}, modifyList y xs = Except.ok xs' →
    xs'.length = xs.length
  | [], xs', h => by
    rw [modifyList] at h
    rw [← Except.ok.inj h]
  | x :: xs, xs', h => by
    rw [modifyList] at h
    rcases ha : modify y x with err | x'
    · rw [ha] at h
      cases h
    rcases hr : modifyList y xs with err | r'
    · rw [ha, hr] at h
      cases h
    rw [ha, hr] at h
    rw [← Except.ok.inj h, List.length_cons, List.length_cons, modifyList_length hr]

theorem isName_iff {h : Expr} {s : String} : isName h s = true ↔ h = .name s := by
  unfold isName
  split
  · rw [decide_eq_true_eq, Expr.name.injEq]
  · rename_i hn
    constructor
    · intro h
      cases h
    · intro e
      exact absurd e (hn s)

theorem frName_inv {h : Expr} {f : String} (e : frName h = some f) :
    (h = .name "+" ∧ f = "+fr") ∨ (h = .name "-" ∧ f = "-fr") ∨ (h = .name "*" ∧ f = "*fr") ∨
      (h = .name "/" ∧ f = "/fr") := by
  unfold frName at e
  split at e
  · rename_i hh
    exact Or.inl ⟨isName_iff.1 hh, (Option.some.inj e).symm⟩
  split at e
  · rename_i hh
    exact Or.inr (Or.inl ⟨isName_iff.1 hh, (Option.some.inj e).symm⟩)
  split at e
  · rename_i hh
    exact Or.inr (Or.inr (Or.inl ⟨isName_iff.1 hh, (Option.some.inj e).symm⟩))
  split at e
  · rename_i hh
    exact Or.inr (Or.inr (Or.inr ⟨isName_iff.1 hh, (Option.some.inj e).symm⟩))
  · cases e

theorem modify_call_inv {y : String} {h a : Expr} {rest : List Expr} {e' : Expr}
    (hv : Visible y (.call (h :: a :: rest))) (hT : NoTrue (.call (h :: a :: rest)))
    (hy : y ∈ names (.call (h :: a :: rest))) (hm : modify y (.call (h :: a :: rest)) = Except.ok e') :
    (∃ a', h = .name "[" ∧ y ∈ names a ∧ y ∉ namesList rest ∧ modify y a = Except.ok a' ∧
      ((∃ l, 2 ≤ rest.length ∧ allNames rest = some l ∧
          e' = .call [.name "[fr", a', .name (joinNames l)]) ∨
        (rest.length ≤ 1 ∧ e' = .call (.name "[fr" :: a' :: rest)))) ∨
    (∃ f a' rest', frName h = some f ∧ modify y a = Except.ok a' ∧
      modifyList y rest = Except.ok rest' ∧ e' = .call (.name f :: a' :: rest')) := by
  rw [modify] at hm
  rw [NoTrue, NoTrueList, NoTrueList] at hT
  rw [Visible] at hv
  rw [names, namesList, namesList, List.mem_append, List.mem_append] at hy
  rcases h1 : status y a with err | s1
  · rw [h1] at hm
    cases hm
  have e1 := status_spec hT.2.1 h1
  rw [h1] at hm
  simp only [res_ok_bind] at hm
  rcases h2 : status2 y rest with err | s2
  · rw [h2] at hm
    cases hm
  have e2 := status2_spec hT.2.2 h2
  rw [h2] at hm
  simp only [res_ok_bind] at hm
  have hrest : y ∈ namesList rest → s2 = true := by
    intro hr
    rcases rest with _ | ⟨b, rest⟩
    · simp [namesList] at hr
    · rw [e2]
      rw [namesList, List.mem_append] at hr
      rcases hr with hr | hr
      · exact ⟨b, rfl, hr⟩
      · exact absurd hr hv.2.1
  have hor : (s1 || s2) = true := by
    rw [Bool.or_eq_true]
    rcases hy with hy | hy | hy
    · exact absurd hy hv.1
    · exact Or.inl (e1.2 hy)
    · exact Or.inr (hrest hy)
  rw [if_pos hor] at hm
  split at hm
  · rename_i hc
    simp only [Bool.and_eq_true, Bool.not_eq_true'] at hc
    obtain ⟨⟨c1, c2⟩, c3⟩ := hc
    left
    have hyr : y ∉ namesList rest := fun hr => by
      rw [hrest hr] at c3
      cases c3
    split at hm
    · rename_i hlen
      rcases hf : flatIndex rest with err | idx
      · rw [hf] at hm
        cases hm
      rcases ha : modify y a with err | a'
      · rw [hf, ha] at hm
        cases hm
      rw [hf, ha] at hm
      refine ⟨a', isName_iff.1 c1, e1.1 c2, hyr, rfl, Or.inl ?_⟩
      unfold flatIndex at hf
      split at hf
      · rename_i l hl
        refine ⟨l, hlen, hl, ?_⟩
        rw [Except.ok.inj hf]
        exact (Except.ok.inj hm).symm
      · cases hf
    · rename_i hlen
      rcases ha : modify y a with err | a'
      · rw [ha] at hm
        cases hm
      rcases hr : modifyList y rest with err | r'
      · rw [ha, hr] at hm
        cases hm
      rw [ha, hr] at hm
      refine ⟨a', isName_iff.1 c1, e1.1 c2, hyr, rfl, Or.inr ⟨by omega, ?_⟩⟩
      rw [← modifyList_const hT.2.2 hyr hr]
      exact (Except.ok.inj hm).symm
  · right
    split at hm
    · rename_i f hf
      rcases ha : modify y a with err | a'
      · rw [ha] at hm
        cases hm
      rcases hr : modifyList y rest with err | r'
      · rw [ha, hr] at hm
        cases hm
      rw [ha, hr] at hm
      exact ⟨f, a', r', hf, rfl, rfl, (Except.ok.inj hm).symm⟩
    · cases hm

theorem allNames_map : ∀ {xs : List Expr} {l : List String}, allNames xs = some l →
    xs = l.map .name
  | [], l, h => by
    rw [allNames] at h
    rw [← Option.some.inj h]
    rfl
  | .name s :: xs, l, h => by
    rw [allNames] at h
    rcases hx : allNames xs with _ | l'
    · rw [hx] at h
      cases h
    · rw [hx] at h
      rw [← Option.some.inj h, List.map_cons, ← allNames_map hx]
  | .lit _ :: xs, l, h => by
    rw [allNames] at h
    · cases h
    · exact fun s hs => by cases hs
  | .call _ :: xs, l, h => by
    rw [allNames] at h
    · cases h
    · exact fun s hs => by cases hs

theorem extract_call_inv {y : String} {h a : Expr} {rest : List Expr} {ex : List (List String)}
    (he : extract y (.call (h :: a :: rest)) = Except.ok ex) :
    ∃ own eh ea er, extractOwn y h a rest = Except.ok own ∧ extract y h = Except.ok eh ∧
      extract y a = Except.ok ea ∧ extractList y rest = Except.ok er ∧
      ex = own ++ (eh ++ (ea ++ er)) := by
  rw [extract] at he
  rcases h1 : extractOwn y h a rest with err | own
  · rw [h1] at he
    cases he
  rcases h2 : extract y h with err | eh
  · rw [h1, h2] at he
    cases he
  rcases h3 : extract y a with err | ea
  · rw [h1, h2, h3] at he
    cases he
  rcases h4 : extractList y rest with err | er
  · rw [h1, h2, h3, h4] at he
    cases he
  rw [h1, h2, h3, h4] at he
  exact ⟨own, eh, ea, er, rfl, rfl, rfl, rfl, (Except.ok.inj he).symm⟩

theorem extractList_cons_inv {y : String} {x : Expr} {xs : List Expr} {ex : List (List String)}
    (he : extractList y (x :: xs) = Except.ok ex) :
    ∃ ea er, extract y x = Except.ok ea ∧ extractList y xs = Except.ok er ∧ ex = ea ++ er := by
  rw [extractList] at he
  rcases h1 : extract y x with err | ea
  · rw [h1] at he
    cases he
  rcases h2 : extractList y xs with err | er
  · rw [h1, h2] at he
    cases he
  rw [h1, h2] at he
  exact ⟨ea, er, rfl, rfl, (Except.ok.inj he).symm⟩

mutual
theorem extract_indexed {y : String} : ∀ {e : Expr} {ex : List (List String)},
    extract y e = Except.ok ex → ∀ idx ∈ ex, IndexedBy idx e ∧ 2 ≤ idx.length
  | .name _, ex, h, idx, hi => by
    rw [extract] at h
    rw [← Except.ok.inj h] at hi
    cases hi
  | .lit _, ex, h, idx, hi => by
    rw [extract] at h
    rw [← Except.ok.inj h] at hi
    cases hi
  | .call [], ex, h, idx, hi => by
    rw [extract] at h
    rw [← Except.ok.inj h] at hi
    cases hi
  | .call (g :: []), ex, h, idx, hi => by
    rw [extract] at h
    obtain ⟨i1, i2⟩ := extract_indexed h idx hi
    exact ⟨.inside (List.mem_cons_self ..) i1, i2⟩
  | .call (g :: a :: rest), ex, h, idx, hi => by
    obtain ⟨own, eh, ea, er, h1, h2, h3, h4, rfl⟩ := extract_call_inv h
    rw [List.mem_append, List.mem_append, List.mem_append] at hi
    rcases hi with hi | hi | hi | hi
    · unfold extractOwn at h1
      split at h1
      · rename_i hc
        rw [Bool.and_eq_true, decide_eq_true_eq] at hc
        rcases hs : status y a with err | s
        · rw [hs] at h1
          cases h1
        rw [hs] at h1
        simp only [res_ok_bind] at h1
        split at h1
        · split at h1
          · rename_i l hl
            rw [← Except.ok.inj h1, List.mem_singleton] at hi
            subst hi
            have e := allNames_map hl
            rw [isName_iff.1 hc.1]
            refine ⟨?_, ?_⟩
            · rw [e]
              exact .here a
            · have := congrArg List.length e
              rw [List.length_map] at this
              omega
          · cases h1
        · rw [← Except.ok.inj h1] at hi
          cases hi
      · rw [← Except.ok.inj h1] at hi
        cases hi
    · obtain ⟨i1, i2⟩ := extract_indexed h2 idx hi
      exact ⟨.inside (List.mem_cons_self ..) i1, i2⟩
    · obtain ⟨i1, i2⟩ := extract_indexed h3 idx hi
      exact ⟨.inside (List.mem_cons_of_mem _ (List.mem_cons_self ..)) i1, i2⟩
    · obtain ⟨x, hx, i1, i2⟩ := extractList_indexed h4 idx hi
      exact ⟨.inside (List.mem_cons_of_mem _ (List.mem_cons_of_mem _ hx)) i1, i2⟩

theorem extractList_indexed {y : String} : ∀ {xs : List Expr} {ex : List (List String)},
    extractList y xs = Except.ok ex → ∀ idx ∈ ex, ∃ x ∈ xs, IndexedBy idx x ∧ 2 ≤ idx.length
  | [], ex, h, idx, hi => by
    rw [extractList] at h
    rw [← Except.ok.inj h] at hi
    cases hi
  | x :: xs, ex, h, idx, hi => by
    obtain ⟨ea, er, h1, h2, rfl⟩ := extractList_cons_inv h
    rw [List.mem_append] at hi
    rcases hi with hi | hi
    · obtain ⟨i1, i2⟩ := extract_indexed h1 idx hi
      exact ⟨x, List.mem_cons_self .., i1, i2⟩
    · obtain ⟨x', hx, i⟩ := extractList_indexed h2 idx hi
      exact ⟨x', List.mem_cons_of_mem _ hx, i⟩
end

/-! ## Evaluation -/

theorem frOp_none {f : String} (h : f ≠ "[fr" ∧ f ≠ "+fr" ∧ f ≠ "-fr" ∧ f ≠ "*fr" ∧ f ≠ "/fr") :
    frOp f = none := by
  unfold frOp
  rw [if_neg h.1, if_neg h.2.1, if_neg h.2.2.1, if_neg h.2.2.2.1, if_neg h.2.2.2.2]

theorem eval_host {host : Host} {env : Env} {e : Expr} (hN : NoFrames e) :
    eval host env e = host.eval env e := by
  rcases e with x | x | xs
  · rw [eval]
  · rw [eval]
  rcases xs with _ | ⟨h, args⟩
  · rw [eval] <;> simp
  rcases h with f | x | xs
  · have hf : frOp f = none := frOp_none (hN f (by simp [names, namesList]))
    rcases args with _ | ⟨a, _ | ⟨b, _ | ⟨c, args⟩⟩⟩
    · rw [eval, hf]
      simp
    · rw [eval, hf]
      simp
    · rw [eval, hf]
    · rw [eval, hf]
      simp
  · rw [eval] <;> simp
  · rw [eval] <;> simp

theorem eval_fr {host : Host} {env : Env} {f : String} {op : Val → Val → Res Val} {args : List Expr}
    {V : Val} (hf : frOp f = some op) (h : eval host env (.call (.name f :: args)) = Except.ok V) :
    ∃ a b va vb, args = [a, b] ∧ eval host env a = Except.ok va ∧ eval host env b = Except.ok vb ∧
      op va vb = Except.ok V := by
  rcases args with _ | ⟨a, _ | ⟨b, _ | ⟨c, args⟩⟩⟩
  · rw [eval, hf] at h
    · cases h
    · simp
  · rw [eval, hf] at h
    · cases h
    · simp
  · rw [eval, hf] at h
    dsimp only at h
    rcases ha : eval host env a with err | va
    · rw [ha] at h
      cases h
    rcases hb : eval host env b with err | vb
    · rw [ha, hb] at h
      cases h
    rw [ha, hb] at h
    exact ⟨a, b, va, vb, rfl, ha, hb, h⟩
  · rw [eval, hf] at h
    · cases h
    · simp

/-- The value of a constant of the expression is not a frame, and it is the value in the data if its
variables are. -/
theorem eval_const {host : Host} {env data : Env} {y : String} {b b' : Expr} (hT : NoTrue b)
    (hN : NoFrames b) (hy : y ∉ names b) (hnf : ∀ x g, x ≠ y → env x ≠ some (.frame g))
    (hm : modify y b = Except.ok b') :
    ((∀ x ∈ names b, x ≠ y → env x = data x) → eval host env b' = host.eval data b) ∧
      ∀ F, eval host env b' ≠ Except.ok (.frame F) := by
  rw [modify_const hT hy hm, eval_host hN]
  exact ⟨fun henv => host.congr _ _ _ fun x hx => henv x hx fun e => hy (e ▸ hx), fun F =>
    host.noFrame _ _ _ fun x hx g => hnf x g fun e => hy (e ▸ hx)⟩

theorem numeric_asNumeric {v : Val} {w : List ℝ} (h : Numeric v w) :
    asNumeric v = Except.ok w := by
  cases h <;> rfl

theorem indexVal_inv {x i V : Val} (h : indexVal x i = Except.ok V) :
    ∃ F w G, x = .frame F ∧ asNumeric i = Except.ok w ∧ indexFr F w = Except.ok G ∧
      V = .frame G := by
  unfold indexVal at h
  cases x with
  | frame F =>
    dsimp only at h
    rcases hw : asNumeric i with err | w
    · rw [hw] at h
      cases h
    rcases hG : indexFr F w with err | G
    · rw [hw] at h
      simp only [res_ok_bind] at h
      rw [hG] at h
      cases h
    rw [hw] at h
    simp only [res_ok_bind] at h
    rw [hG] at h
    exact ⟨F, w, G, rfl, rfl, hG, (Except.ok.inj h).symm⟩
  | _ => cases h

theorem addVal_inv {x y V : Val} (h : addVal x y = Except.ok V) :
    ∃ F G H, x = .frame F ∧ y = .frame G ∧ addFr F G = Except.ok H ∧ V = .frame H := by
  unfold addVal at h
  split at h
  · rename_i F G
    rcases hH : addFr F G with err | H
    · rw [hH] at h
      cases h
    rw [hH] at h
    exact ⟨F, G, H, rfl, rfl, hH, (Except.ok.inj h).symm⟩
  · cases h

theorem subVal_inv {x y V : Val} (h : subVal x y = Except.ok V) :
    ∃ F G M H, x = .frame F ∧ y = .frame G ∧ scaleFr G [-1] = Except.ok M ∧
      addFr F M = Except.ok H ∧ V = .frame H := by
  unfold subVal at h
  split at h
  · rename_i F G
    unfold subFr at h
    rcases hM : scaleFr G [-1] with err | M
    · rw [hM] at h
      cases h
    rw [hM] at h
    simp only [res_ok_bind] at h
    rcases hH : addFr F M with err | H
    · rw [hH] at h
      cases h
    rw [hH] at h
    exact ⟨F, G, M, H, rfl, rfl, hM, hH, (Except.ok.inj h).symm⟩
  · cases h

theorem mulVal_inv {x y V : Val} (h : mulVal x y = Except.ok V) :
    ∃ F a G, ((x = .frame F ∧ y = .num a) ∨ (x = .num a ∧ y = .frame F)) ∧
      scaleFr F a = Except.ok G ∧ V = .frame G := by
  unfold mulVal at h
  split at h
  · rename_i F a
    rcases hG : scaleFr F a with err | G
    · rw [hG] at h
      cases h
    rw [hG] at h
    exact ⟨F, a, G, Or.inl ⟨rfl, rfl⟩, hG, (Except.ok.inj h).symm⟩
  · rename_i a F
    rcases hG : scaleFr F a with err | G
    · rw [hG] at h
      cases h
    rw [hG] at h
    exact ⟨F, a, G, Or.inr ⟨rfl, rfl⟩, hG, (Except.ok.inj h).symm⟩
  · cases h

theorem divVal_inv {x y V : Val} (h : divVal x y = Except.ok V) :
    ∃ F a r G, x = .frame F ∧ y = .num a ∧ recip a = Except.ok r ∧ scaleFr F r = Except.ok G ∧
      V = .frame G := by
  unfold divVal at h
  split at h
  · rename_i F a
    rcases hr : recip a with err | r
    · rw [hr] at h
      cases h
    rw [hr] at h
    simp only [res_ok_bind] at h
    obtain ⟨F', a', G, h1, h2, h3⟩ := mulVal_inv h
    rcases h1 with ⟨e1, e2⟩ | ⟨e1, -⟩
    · cases e1
      cases e2
      exact ⟨F, a, r, G, rfl, rfl, hr, h2, h3⟩
    · cases e1
  · cases h

/-! ## The flattened index variables -/

theorem mapM_inv {α β : Type} {f : α → Res β} : ∀ {l : List α} {r : List β},
    l.mapM f = Except.ok r → List.Forall₂ (fun a b => f a = Except.ok b) l r
  | [], r, h => by
    rw [List.mapM_nil] at h
    have h := Except.ok.inj h
    subst h
    exact List.Forall₂.nil
  | a :: l, r, h => by
    rw [List.mapM_cons] at h
    rcases ha : f a with err | b
    · rw [ha] at h
      cases h
    rcases hl : l.mapM f with err | r'
    · rw [ha, hl] at h
      cases h
    rw [ha, hl] at h
    have h := Except.ok.inj h
    subst h
    exact List.Forall₂.cons ha (mapM_inv hl)

theorem flatVar_inv {data : Env} {l : List ℕ} {vars : List String} {p : String × Val}
    (h : flatVar data l vars = Except.ok p) : ∃ vs w,
    List.Forall₂ (fun x v => ∃ val, data x = some val ∧ asNumeric val = Except.ok v) vars vs ∧
      Indexing.flattenVars vs l = Except.ok w ∧ p = (joinNames vars, .num w) := by
  unfold flatVar at h
  rcases hv : vars.mapM (lookupNumeric data) with err | vs
  · rw [hv] at h
    cases h
  rw [hv] at h
  simp only [res_ok_bind] at h
  rcases hw : Indexing.flattenVars vs l with err | w
  · rw [hw] at h
    cases h
  rw [hw] at h
  refine ⟨vs, w, ?_, hw, (Except.ok.inj h).symm⟩
  refine (mapM_inv hv).imp fun x v hx => ?_
  unfold lookupNumeric at hx
  rcases hd : data x with _ | val
  · rw [hd] at hx
    cases hx
  · rw [hd] at hx
    exact ⟨val, rfl, hx⟩

theorem forall2_unique {data : Env} : ∀ {idx : List String} {vs vals : List (List ℝ)},
    List.Forall₂ (fun x v => ∃ val, data x = some val ∧ asNumeric val = Except.ok v) idx vs →
    List.Forall₂ (fun s w => ∃ val, data s = some val ∧ Numeric val w) idx vals → vs = vals
  | [], _, _, .nil, .nil => rfl
  | _ :: _, _, _, .cons ⟨v1, a1, a2⟩ h1, .cons ⟨v2, b1, b2⟩ h2 => by
    rw [a1] at b1
    cases b1
    rw [numeric_asNumeric b2] at a2
    rw [Except.ok.inj a2, forall2_unique h1 h2]

/-- Selecting by flattened indices gives the cells of the array. -/
theorem multi_select {l : List ℕ} {vals : List (List ℝ)} {w η v : List ℝ} {rows : List ℕ}
    (hl : l ≠ []) (hw : Indexing.flattenVars vals l = Except.ok w)
    (hlen : ∀ x ∈ vals, x.length = v.length)
    (hc : ∀ k < v.length, ∃ t row, (Indexing.Spec.grid l)[row]? = some t ∧ row < η.length ∧
      vals.map (fun w => w.getD k 0) = t.map (fun a : ℕ => (a : ℝ)) ∧ v.getD k 0 = η.getD row 0)
    (hs : select η.length w = Except.ok rows) : v = rows.map fun k => η.getD k 0 := by
  obtain ⟨h1, h2⟩ := Indexing.c46_vars hl hlen hw
  have key : ∀ k < v.length, ∃ row < η.length, w.getD k 0 = ((row + 1 : ℕ) : ℝ) ∧
      v.getD k 0 = η.getD row 0 := by
    intro k hk
    obtain ⟨t, row, g1, g2, g3, g4⟩ := hc k hk
    obtain ⟨r, r1, r2⟩ := h2 k hk t (Indexing.grid_tuple (List.mem_of_getElem? g1)) g3
    have : r = row := by
      rw [← Indexing.grid_get_rank l r r2, ← Indexing.grid_get_rank l row g1]
    subst this
    exact ⟨r, g2, by rw [r1]; push_cast; ring, g4⟩
  choose! f f1 f2 f3 using key
  have hp : Picks η w v := by
    left
    refine ⟨(List.range v.length).map fun k => f k + 1, ?_, ?_, ?_⟩
    · refine List.ext_getElem (by simp [h1]) fun k k1 k2 => ?_
      rw [h1] at k1
      have := f2 k k1
      rw [List.getD_eq_getElem _ _ (by rw [h1]; exact k1)] at this
      simp [this]
    · intro j hj
      obtain ⟨k, hk, rfl⟩ := List.mem_map.1 hj
      exact f1 k (List.mem_range.1 hk)
    · rw [List.filter_eq_self.2 (by
        intro j hj
        obtain ⟨k, hk, rfl⟩ := List.mem_map.1 hj
        simp), List.map_map]
      refine List.ext_getElem (by simp) fun k k1 k2 => ?_
      have := f3 k k1
      rw [List.getD_eq_getElem _ _ k1] at this
      rw [this]
      simp
  exact select_picks hs hp

theorem namesList_singleton {b : Expr} {x : String} : x ∈ namesList [b] ↔ x ∈ names b := by
  rw [mem_namesList]
  simp

/-- The rewritten expression sees the variables and the flattened indices it should. -/
def Sees (env data : Env) (y : String) (l : List ℕ) (e : Expr) (ex : List (List String)) : Prop :=
  (∀ x ∈ names e, x ≠ y → env x = data x) ∧
  ∀ idx ∈ ex, ∃ w, flatVar data l idx = Except.ok (joinNames idx, .num w) ∧
    env (joinNames idx) = some (.num w)

/-- What is known of the evaluation of a rewritten expression. -/
theorem eval_main {host : Host} {env data : Env} {y : String} {l : List ℕ} {F0 : Frame} {n0 : ℕ}
    (hF0 : WellFormed F0 n0) (hl : l ≠ []) (hy0 : env y = some (.frame F0))
    (hnf : ∀ x g, x ≠ y → env x ≠ some (.frame g)) :
    ∀ (e e' : Expr) (V : Val) (ex : List (List String)),
    Visible y e → NoTrue e → NoFrames e → y ∈ names e → extract y e = Except.ok ex →
    modify y e = Except.ok e' → eval host env e' = Except.ok V →
    LinearIn y e ∧ ∃ F n, V = .frame F ∧ Shape F0 F ∧ WellFormed F n ∧
      (Sees env data y l e ex → ∀ θ β u v, Value host data y l (predictor F0 n0 θ β u) e v → predictor F n θ β u = v)
  | .name x, e', V, ex, _, _, _, hy, _, hm, hV => by
    rw [names, List.mem_singleton] at hy
    subst hy
    rw [modify] at hm
    rw [← Except.ok.inj hm, eval, host.lookup _ _ _ hy0] at hV
    refine ⟨.var, F0, n0, (Except.ok.inj hV).symm, Shape.refl F0, hF0, fun _ θ β u v hv => ?_⟩
    cases hv
    rfl
  | .lit x, _, _, _, _, _, _, hy, _, _, _ => by
    rw [names] at hy
    cases hy
  | .call [], _, _, _, _, _, _, hy, _, _, _ => by
    rw [names, namesList] at hy
    cases hy
  | .call (h :: []), _, _, _, hvis, _, _, hy, _, _, _ => by
    rw [Visible] at hvis
    rw [names, namesList_singleton] at hy
    exact absurd hy hvis.1
  | .call (h :: a :: rest), e', V, ex, hvis, hT, hN, hy, hex, hm, hV => by
    have hinv := modify_call_inv hvis hT hy hm
    obtain ⟨own, eh, ea, er, x1, x2, x3, x4, rfl⟩ := extract_call_inv hex
    rw [Visible] at hvis
    rw [NoTrue, NoTrueList, NoTrueList] at hT
    obtain ⟨hv1, hv2, hv3⟩ := hvis
    rw [VisibleList] at hv3
    have hNa : NoFrames a := fun x hx => hN x (by simp [names, namesList, hx])
    have hsa : Sees env data y l (.call (h :: a :: rest)) (own ++ (eh ++ (ea ++ er))) →
        Sees env data y l a ea := fun hs =>
      ⟨fun x hx => hs.1 x (by simp [names, namesList, hx]), fun idx hi => hs.2 idx (by simp [hi])⟩
    have IHa : ∀ {a' : Expr} {va : Val}, y ∈ names a → modify y a = Except.ok a' →
        eval host env a' = Except.ok va → LinearIn y a ∧ ∃ F n, va = .frame F ∧ Shape F0 F ∧
          WellFormed F n ∧ (Sees env data y l a ea → ∀ θ β u v,
          Value host data y l (predictor F0 n0 θ β u) a v → predictor F n θ β u = v) :=
      fun hya hma hva => eval_main hF0 hl hy0 hnf a _ _ ea hv3.1 hT.2.1 hNa hya x3 hma hva
    rcases hinv with ⟨a', rfl, hya, hyr, ha', hcase⟩ | ⟨f, a', rest', hf, ha', hr', rfl⟩
    · rcases hcase with ⟨il, hlen, hil, rfl⟩ | ⟨hlen, rfl⟩
      · -- several indices
        obtain ⟨p, q, va, vb, hpq, hva, hvb, hop⟩ := eval_fr (op := indexVal) (by simp [frOp]) hV
        cases hpq
        obtain ⟨hlin, F, n, rfl, hS, hW, hval⟩ := IHa hya ha' hva
        have hrest := allNames_map hil
        have hmem : il ∈ own ++ (eh ++ (ea ++ er)) := by
          rw [List.mem_append]
          left
          unfold extractOwn at x1
          rw [if_pos (by
            rw [Bool.and_eq_true, decide_eq_true_eq]
            exact ⟨by simp [isName], hlen⟩)] at x1
          rcases hs : status y a with err | s
          · rw [hs] at x1
            cases x1
          rw [hs] at x1
          simp only [res_ok_bind] at x1
          rw [if_pos ((status_spec hT.2.1 hs).2 hya), hil] at x1
          rw [← Except.ok.inj x1]
          exact List.mem_singleton.2 rfl
        obtain ⟨F', w', G, e1, e2, e3, rfl⟩ := indexVal_inv hop
        cases e1
        obtain ⟨rows, s1, s2, s3, s4⟩ := indexFr_spec hS hW e3
        refine ⟨.index hlin (by rintro rfl; simp at hlen) (fun i hi hyi =>
          hyr (mem_namesList.2 ⟨i, hi, hyi⟩)), G, rows.length, rfl, s2, s3,
          fun hsee θ β u v hv => ?_⟩
        obtain ⟨w, hw, hwe⟩ := hsee.2 il hmem
        rw [eval, host.lookup _ _ _ hwe] at hvb
        have hvb := Except.ok.inj hvb
        subst hvb
        have e2 := Except.ok.inj e2
        subst e2
        have hval := hval (hsa hsee)
        generalize hE : Expr.call (.name "[" :: a :: rest) = E at hv
        cases hv with
        | multi m1 m0 m2 m3 m4 m5 =>
          rename_i idx vals
          simp only [Expr.call.injEq, List.cons.injEq, true_and] at hE
          obtain ⟨rfl, hE⟩ := hE
          rw [hrest] at hE
          have hidx : il = idx := List.map_injective_iff.2 (fun _ _ h => Expr.name.inj h) hE
          subst hidx
          have hη : predictor F n θ β u = predictor F0 n0 θ β u := hval θ β u _ .var
          have hn : n = n0 := by
            rw [← predictor_length F n θ β u, hη, predictor_length]
          obtain ⟨vs, w2, f1, f2, f3⟩ := flatVar_inv hw
          cases f3
          have := forall2_unique f1 m3
          subst this
          have := multi_select (η := predictor F0 n0 θ β u) hl f2 m4 m5
            (by rw [predictor_length, ← hn]; exact s1)
          rw [this, s4]
          refine List.map_congr_left fun k hk => ?_
          rw [← hη, predictor_getD (select_lt s1 k hk)]
        | index =>
          simp only [Expr.call.injEq, List.cons.injEq, true_and] at hE
          rw [hE.2] at hlen
          simp at hlen
        | _ => simp at hE
      · -- one index
        obtain ⟨p, b, va, vb, hpq, hva, hvb, hop⟩ := eval_fr (op := indexVal) (by simp [frOp]) hV
        cases hpq
        obtain ⟨hlin, F, n, rfl, hS, hW, hval⟩ := IHa hya ha' hva
        have hyb : y ∉ names b := fun h => hyr (namesList_singleton.2 h)
        have hNb : NoFrames b := fun x hx => hN x (by simp [names, namesList, hx])
        obtain ⟨F', w, G, e1, e2, e3, rfl⟩ := indexVal_inv hop
        cases e1
        obtain ⟨rows, s1, s2, s3, s4⟩ := indexFr_spec hS hW e3
        refine ⟨.index hlin (by simp) (fun i hi hyi =>
          hyr (mem_namesList.2 ⟨i, hi, hyi⟩)), G, rows.length, rfl, s2, s3,
          fun hsee θ β u v hv => ?_⟩
        have hvb' : host.eval data b = Except.ok vb := by
          rw [eval_host hNb] at hvb
          rw [← hvb]
          exact host.congr _ _ _ fun x hx => (hsee.1 x (by simp [names, namesList, hx])
            fun e => hyb (e ▸ hx)).symm
        have hval := hval (hsa hsee)
        generalize hE : Expr.call [.name "[", a, b] = E at hv
        cases hv with
        | index i1 i2 i3 i4 i5 =>
          simp only [Expr.call.injEq, List.cons.injEq, true_and, and_true] at hE
          obtain ⟨rfl, rfl⟩ := hE
          rw [hvb'] at i3
          have i3 := Except.ok.inj i3
          subst i3
          rw [numeric_asNumeric i4] at e2
          have e2 := Except.ok.inj e2
          subst e2
          have hx := hval θ β u _ i1
          subst hx
          rw [s4, select_picks (by rw [predictor_length]; exact s1) i5]
          refine List.map_congr_left fun k hk => ?_
          rw [predictor_getD (select_lt s1 k hk)]
        | multi m1 =>
          simp only [Expr.call.injEq, List.cons.injEq, true_and] at hE
          have := congrArg List.length hE.2
          simp only [List.length_cons, List.length_nil, List.length_map] at this
          omega
        | _ => simp at hE
    · -- arithmetic
      have hargs : ∃ b b', rest = [b] ∧ rest' = [b'] ∧ modify y b = Except.ok b' := by
        have hop : ∃ op, frOp f = some op := by
          rcases frName_inv hf with ⟨-, rfl⟩ | ⟨-, rfl⟩ | ⟨-, rfl⟩ | ⟨-, rfl⟩ <;>
            exact ⟨_, by simp [frOp]; rfl⟩
        obtain ⟨op, hop⟩ := hop
        obtain ⟨p, q, va, vb, hpq, -⟩ := eval_fr hop hV
        cases hpq
        have hlen := modifyList_length hr'
        rcases rest with _ | ⟨b, _ | ⟨c, rest⟩⟩
        · cases hlen
        · rw [modifyList] at hr'
          rcases hb : modify y b with err | b'
          · rw [hb] at hr'
            cases hr'
          rw [hb, modifyList] at hr'
          have hr' := Except.ok.inj hr'
          exact ⟨b, b', rfl, hr'.symm, hb⟩
        · simp at hlen
      obtain ⟨b, b', rfl, rfl, hb'⟩ := hargs
      obtain ⟨eb, er', y1, y2, rfl⟩ := extractList_cons_inv x4
      rw [VisibleList] at hv3
      rw [NoTrueList] at hT
      have hNb : NoFrames b := fun x hx => hN x (by simp [names, namesList, hx])
      have hsb : Sees env data y l (.call [h, a, b]) (own ++ (eh ++ (ea ++ (eb ++ er')))) →
          Sees env data y l b eb := fun hs =>
        ⟨fun x hx => hs.1 x (by simp [names, namesList, hx]), fun idx hi => hs.2 idx (by simp [hi])⟩
      have IHb : ∀ {vb : Val}, y ∈ names b →
          eval host env b' = Except.ok vb → LinearIn y b ∧ ∃ F n, vb = .frame F ∧ Shape F0 F ∧
            WellFormed F n ∧ (Sees env data y l b eb → ∀ θ β u v,
            Value host data y l (predictor F0 n0 θ β u) b v → predictor F n θ β u = v) :=
        fun hyb hvb => eval_main hF0 hl hy0 hnf b _ _ eb hv3.2.1 hT.2.2.1 hNb hyb y1 hb' hvb
      have hca := fun h : y ∉ names a => eval_const (host := host) (data := data) hT.2.1 hNa h hnf ha'
      have hcb := fun h : y ∉ names b =>
        eval_const (host := host) (data := data) hT.2.2.1 hNb h hnf hb'
      rcases frName_inv hf with ⟨rfl, rfl⟩ | ⟨rfl, rfl⟩ | ⟨rfl, rfl⟩ | ⟨rfl, rfl⟩
      · -- sum
        obtain ⟨p, q, va, vb, hpq, hva, hvb, hop⟩ := eval_fr (op := addVal) (by simp [frOp]) hV
        cases hpq
        obtain ⟨F, G, H, rfl, rfl, hadd, rfl⟩ := addVal_inv hop
        have hya : y ∈ names a := by
          by_contra h
          exact (hca h).2 _ hva
        have hyb : y ∈ names b := by
          by_contra h
          exact (hcb h).2 _ hvb
        obtain ⟨la, F', n, e1, sa, wa, vala⟩ := IHa hya ha' hva
        cases e1
        obtain ⟨lb, G', m, e1, sb, wb, valb⟩ := IHb hyb hvb
        cases e1
        obtain ⟨rfl, sH, wH, hlp⟩ := addFr_spec sa sb wa wb hadd
        refine ⟨.add la lb, H, n, rfl, sH, wH, fun hsee θ β u v hv => ?_⟩
        have vala := vala (hsa hsee)
        have valb := valb (hsb hsee)
        generalize hE : Expr.call [.name "+", a, b] = E at hv
        cases hv with
        | add i1 i2 i3 =>
          simp only [Expr.call.injEq, List.cons.injEq, true_and, and_true] at hE
          obtain ⟨rfl, rfl⟩ := hE
          rw [← vala θ β u _ i1, ← valb θ β u _ i2]
          refine List.ext_getElem (by simp [predictor]) fun k k1 k2 => ?_
          simp [predictor, hlp]
        | _ => simp at hE
      · -- difference
        obtain ⟨p, q, va, vb, hpq, hva, hvb, hop⟩ := eval_fr (op := subVal) (by simp [frOp]) hV
        cases hpq
        obtain ⟨F, G, M, H, rfl, rfl, hneg, hadd, rfl⟩ := subVal_inv hop
        have hya : y ∈ names a := by
          by_contra h
          exact (hca h).2 _ hva
        have hyb : y ∈ names b := by
          by_contra h
          exact (hcb h).2 _ hvb
        obtain ⟨la, F', n, e1, sa, wa, vala⟩ := IHa hya ha' hva
        cases e1
        obtain ⟨lb, G', m, e1, sb, wb, valb⟩ := IHb hyb hvb
        cases e1
        have hpm := scaleFr_predictor wb hneg
        obtain ⟨rfl, sH, wH, hlp⟩ :=
          addFr_spec sa (scaleFr_shape sb hneg) wa (scaleFr_wf wb hneg) hadd
        refine ⟨.sub la lb, H, n, rfl, sH, wH, fun hsee θ β u v hv => ?_⟩
        have vala := vala (hsa hsee)
        have valb := valb (hsb hsee)
        generalize hE : Expr.call [.name "-", a, b] = E at hv
        cases hv with
        | sub i1 i2 i3 =>
          simp only [Expr.call.injEq, List.cons.injEq, true_and, and_true] at hE
          obtain ⟨rfl, rfl⟩ := hE
          rw [← vala θ β u _ i1, ← valb θ β u _ i2]
          have hpm := hpm θ β u
          refine List.ext_getElem (by simp [predictor]) fun k k1 k2 => ?_
          rw [predictor_length] at k1
          have hM : lp M θ β u k = -1 * lp G θ β u k := by
            rw [← predictor_getD k1, hpm, ← predictor_getD (F := G) k1,
              List.getD_eq_getElem _ _ (by rw [List.length_map, predictor_length]; exact k1),
              List.getElem_map, List.getD_eq_getElem _ _ (by rw [predictor_length]; exact k1)]
          simp [predictor, hlp, hM, sub_eq_add_neg]
        | _ => simp at hE
      · -- product
        obtain ⟨p, q, va, vb, hpq, hva, hvb, hop⟩ := eval_fr (op := mulVal) (by simp [frOp]) hV
        cases hpq
        obtain ⟨F, c, G, hcase, hsc, rfl⟩ := mulVal_inv hop
        rcases hcase with ⟨rfl, rfl⟩ | ⟨rfl, rfl⟩
        · have hya : y ∈ names a := by
            by_contra h
            exact (hca h).2 _ hva
          have hyb : y ∉ names b := by
            intro h
            obtain ⟨-, F', n, e1, -⟩ := IHb h hvb
            cases e1
          obtain ⟨la, F', n, e1, sa, wa, vala⟩ := IHa hya ha' hva
          cases e1
          refine ⟨.mulRight la hyb, G, n, rfl, scaleFr_shape sa hsc, scaleFr_wf wa hsc,
            fun hsee θ β u v hv => ?_⟩
          rw [(hcb hyb).1 (hsb hsee).1] at hvb
          have vala := vala (hsa hsee)
          generalize hE : Expr.call [.name "*", a, b] = E at hv
          cases hv with
          | mulRight i1 i2 i3 =>
            simp only [Expr.call.injEq, List.cons.injEq, true_and, and_true] at hE
            obtain ⟨rfl, rfl⟩ := hE
            rw [hvb] at i3
            cases i3
            rw [← vala θ β u _ i1, scaleFr_predictor wa hsc]
            exact List.map_congr_left fun x _ => mul_comm _ _
          | mulLeft i1 i2 i3 =>
            simp only [Expr.call.injEq, List.cons.injEq, true_and, and_true] at hE
            obtain ⟨rfl, rfl⟩ := hE
            exact absurd hya i1
          | _ => simp at hE
        · have hyb : y ∈ names b := by
            by_contra h
            exact (hcb h).2 _ hvb
          have hya : y ∉ names a := by
            intro h
            obtain ⟨-, F', n, e1, -⟩ := IHa h ha' hva
            cases e1
          obtain ⟨lb, F', n, e1, sb, wb, valb⟩ := IHb hyb hvb
          cases e1
          refine ⟨.mulLeft hya lb, G, n, rfl, scaleFr_shape sb hsc, scaleFr_wf wb hsc,
            fun hsee θ β u v hv => ?_⟩
          rw [(hca hya).1 (hsa hsee).1] at hva
          have valb := valb (hsb hsee)
          generalize hE : Expr.call [.name "*", a, b] = E at hv
          cases hv with
          | mulRight i1 i2 i3 =>
            simp only [Expr.call.injEq, List.cons.injEq, true_and, and_true] at hE
            obtain ⟨rfl, rfl⟩ := hE
            exact absurd hyb i2
          | mulLeft i1 i2 i3 =>
            simp only [Expr.call.injEq, List.cons.injEq, true_and, and_true] at hE
            obtain ⟨rfl, rfl⟩ := hE
            rw [hva] at i2
            cases i2
            rw [← valb θ β u _ i3, scaleFr_predictor wb hsc]
          | _ => simp at hE
      · -- quotient
        obtain ⟨p, q, va, vb, hpq, hva, hvb, hop⟩ := eval_fr (op := divVal) (by simp [frOp]) hV
        cases hpq
        obtain ⟨F, c, r, G, rfl, rfl, hrec, hsc, rfl⟩ := divVal_inv hop
        have hya : y ∈ names a := by
          by_contra h
          exact (hca h).2 _ hva
        have hyb : y ∉ names b := by
          intro h
          obtain ⟨-, F', n, e1, -⟩ := IHb h hvb
          cases e1
        obtain ⟨la, F', n, e1, sa, wa, vala⟩ := IHa hya ha' hva
        cases e1
        refine ⟨.div la hyb, G, n, rfl, scaleFr_shape sa hsc, scaleFr_wf wa hsc,
          fun hsee θ β u v hv => ?_⟩
        rw [(hcb hyb).1 (hsb hsee).1] at hvb
        have vala := vala (hsa hsee)
        generalize hE : Expr.call [.name "/", a, b] = E at hv
        cases hv with
        | div i1 i2 i3 i4 =>
          simp only [Expr.call.injEq, List.cons.injEq, true_and, and_true] at hE
          obtain ⟨rfl, rfl⟩ := hE
          rw [hvb] at i3
          cases i3
          unfold recip at hrec
          rw [if_neg (by simpa using i4)] at hrec
          have hrec := Except.ok.inj hrec
          subst hrec
          rw [← vala θ β u _ i1, scaleFr_predictor wa hsc]
          refine List.map_congr_left fun x _ => ?_
          show 1 / _ * x = x / _
          ring
        | _ => simp at hE

end Verif.SubExpr
