import Verif.Proofs.SubExpr

/-!
# C42, C43, C56: `Sub(.)` expressions
-/
namespace Verif.SubExpr

open Verif.Frames Verif.Frames.Spec Verif.SubExpr.Spec

/-! ## The specification is about linear functions -/

/-- `s x + t z`, element by element. -/
def Spec.comb (s t : ℝ) (x z : List ℝ) : List ℝ := x.zipWith (fun a b => s * a + t * b) z

theorem comb_length {s t : ℝ} {x z : List ℝ} (h : x.length = z.length) :
    (comb s t x z).length = x.length := by
  rw [comb, List.length_zipWith, ← h, min_self]

theorem comb_getD {s t : ℝ} {x z : List ℝ} (h : x.length = z.length) (k : ℕ) :
    (comb s t x z).getD k 0 = s * x.getD k 0 + t * z.getD k 0 := by
  by_cases hk : k < x.length
  · rw [List.getD_eq_getElem _ _ (by rw [comb_length h]; exact hk), List.getD_eq_getElem _ _ hk,
      List.getD_eq_getElem _ _ (by rw [← h]; exact hk)]
    simp [comb]
  · rw [List.getD_eq_default _ _ (by rw [comb_length h]; omega), List.getD_eq_default _ _ (by omega),
      List.getD_eq_default _ _ (by omega)]
    ring

theorem numeric_unique {v : Val} {w w' : List ℝ} (h : Numeric v w) (h' : Numeric v w') : w = w' := by
  cases h <;> cases h' <;> rfl

theorem forall2_numeric {data : Env} : ∀ {idx : List String} {vs vals : List (List ℝ)},
    List.Forall₂ (fun s w => ∃ val, data s = some val ∧ Numeric val w) idx vs →
    List.Forall₂ (fun s w => ∃ val, data s = some val ∧ Numeric val w) idx vals → vs = vals
  | [], _, _, .nil, .nil => rfl
  | _ :: _, _, _, .cons ⟨v1, a1, a2⟩ h1, .cons ⟨v2, b1, b2⟩ h2 => by
    rw [a1] at b1
    cases b1
    rw [numeric_unique a2 b2, forall2_numeric h1 h2]

theorem picks_comb {s t : ℝ} {x x' w v v' : List ℝ} (hx : x.length = x'.length)
    (h : Picks x w v) (h' : Picks x' w v') :
    v.length = v'.length ∧ Picks (comb s t x x') w (comb s t v v') := by
  have key : ∀ js : List ℕ, ∀ f : ℕ → ℕ,
      comb s t (js.map fun j => x.getD (f j) 0) (js.map fun j => x'.getD (f j) 0) =
        js.map fun j => (comb s t x x').getD (f j) 0 := by
    intro js f
    rw [comb, List.zipWith_map, List.zipWith_self]
    exact List.map_congr_left fun j _ => (comb_getD hx _).symm
  rcases h with ⟨js, rfl, hj, rfl⟩ | ⟨js, rfl, hj, rfl⟩
  · rcases h' with ⟨js', e, hj', rfl⟩ | ⟨js', e, ⟨j, hj', hpos⟩, rfl⟩
    · have : js = js' := List.map_injective_iff.2 Nat.cast_injective e
      subst this
      refine ⟨by simp, Or.inl ⟨js, rfl, ?_, key _ _⟩⟩
      rw [comb_length hx]
      exact hj
    · have hm : -(j : ℝ) ∈ js.map fun j : ℕ => (j : ℝ) := e ▸ List.mem_map_of_mem hj'
      obtain ⟨k, -, hk⟩ := List.mem_map.1 hm
      have h1 : (0 : ℝ) ≤ k := Nat.cast_nonneg k
      have h2 : (0 : ℝ) < j := Nat.cast_pos.2 hpos
      linarith
  · rcases h' with ⟨js', e, hj', rfl⟩ | ⟨js', e, hj', rfl⟩
    · obtain ⟨j, hj, hpos⟩ := hj
      have hm : -(j : ℝ) ∈ js'.map fun j : ℕ => (j : ℝ) := e ▸ List.mem_map_of_mem hj
      obtain ⟨k, -, hk⟩ := List.mem_map.1 hm
      have h1 : (0 : ℝ) ≤ k := Nat.cast_nonneg k
      have h2 : (0 : ℝ) < j := Nat.cast_pos.2 hpos
      linarith
    · have : js = js' := List.map_injective_iff.2
        (fun a b h => Nat.cast_injective (neg_injective h)) e
      subst this
      rw [← hx]
      refine ⟨by simp, Or.inr ⟨js, rfl, hj, ?_⟩⟩
      rw [comb_length hx]
      exact key _ id

/-- Only expressions in the variable have a value, and they are linear in it. -/
theorem value_linearIn {host : Host} {data : Env} {y : String} {l : List ℕ} {η : List ℝ} {e : Expr}
    {v : List ℝ} (h : Value host data y l η e v) : LinearIn y e := by
  induction h with
  | var => exact .var
  | index _ i2 _ _ _ ih =>
    refine .index ih (by simp) fun i hi => ?_
    rw [List.mem_singleton] at hi
    exact hi ▸ i2
  | @multi idx vals v m1 m0 m2 =>
    refine .index .var (fun e => ?_) fun i hi => ?_
    · rw [List.map_eq_nil_iff] at e
      rw [e] at m1
      simp at m1
    · obtain ⟨x, hx, rfl⟩ := List.mem_map.1 hi
      rw [names, List.mem_singleton]
      rintro rfl
      exact m2 hx
  | add _ _ _ iha ihb => exact .add iha ihb
  | sub _ _ _ iha ihb => exact .sub iha ihb
  | mulRight _ i2 _ ih => exact .mulRight ih i2
  | mulLeft i1 _ _ ih => exact .mulLeft i1 ih
  | div _ i2 _ _ ih => exact .div ih i2

theorem linearIn_uses {y : String} {e : Expr} (h : LinearIn y e) : y ∈ names e := by
  induction h with
  | var => simp [names]
  | index _ _ _ ih => simp [names, namesList, ih]
  | add _ _ ih _ => simp [names, namesList, ih]
  | sub _ _ ih _ => simp [names, namesList, ih]
  | mulRight _ _ ih => simp [names, namesList, ih]
  | mulLeft _ _ ih => simp [names, namesList, ih]
  | div _ _ ih => simp [names, namesList, ih]

theorem value_uses {host : Host} {data : Env} {y : String} {l : List ℕ} {η : List ℝ} {e : Expr}
    {v : List ℝ} (h : Value host data y l η e v) : y ∈ names e := linearIn_uses (value_linearIn h)

/-- The values of an expression are linear in the vector put for the variable. -/
theorem value_linear {host : Host} {data : Env} {y : String} {l : List ℕ} {η η' : List ℝ}
    (hη : η.length = η'.length) (s t : ℝ) {e : Expr} {v : List ℝ} (h : Value host data y l η e v) :
    ∀ {v' : List ℝ}, Value host data y l η' e v' → v.length = v'.length ∧
      Value host data y l (comb s t η η') e (comb s t v v') := by
  induction h with
  | var =>
    intro v' h'
    generalize hE : Expr.name y = E at h'
    cases h' with
    | var => exact ⟨hη, .var⟩
    | _ => simp at hE
  | @index a i x w v val i1 i2 i3 i4 i5 ih =>
    intro v' h'
    generalize hE : Expr.call [.name "[", a, i] = E at h'
    cases h' with
    | index j1 j2 j3 j4 j5 =>
      simp only [Expr.call.injEq, List.cons.injEq, true_and, and_true] at hE
      obtain ⟨rfl, rfl⟩ := hE
      rw [i3] at j3
      have j3 := Except.ok.inj j3
      subst j3
      have := numeric_unique i4 j4
      subst this
      obtain ⟨e1, e2⟩ := ih j1
      obtain ⟨p1, p2⟩ := picks_comb (s := s) (t := t) e1 i5 j5
      exact ⟨p1, .index e2 i2 i3 i4 p2⟩
    | multi m1 =>
      simp only [Expr.call.injEq, List.cons.injEq, true_and] at hE
      have := congrArg List.length hE.2
      simp only [List.length_cons, List.length_nil, List.length_map] at this
      omega
    | _ => simp at hE
  | @multi idx vals v m1 m0 m2 m3 m4 m5 =>
    intro v' h'
    generalize hE : Expr.call (.name "[" :: .name y :: idx.map .name) = E at h'
    cases h' with
    | index j1 j2 j3 j4 j5 =>
      simp only [Expr.call.injEq, List.cons.injEq, true_and] at hE
      have := congrArg List.length hE.2
      simp only [List.length_cons, List.length_nil, List.length_map] at this
      omega
    | multi n1 n0 n2 n3 n4 n5 =>
      simp only [Expr.call.injEq, List.cons.injEq, true_and] at hE
      have hidx := List.map_injective_iff.2 (fun _ _ h => Expr.name.inj h) hE
      subst hidx
      have := forall2_numeric m3 n3
      subst this
      have hlen : v.length = v'.length := by
        have hl := m3.length_eq
        rcases vals with _ | ⟨w, vals⟩
        · simp only [List.length_nil] at hl
          omega
        · rw [← m4 w (List.mem_cons_self ..), n4 w (List.mem_cons_self ..)]
      refine ⟨hlen, .multi m1 m0 m2 m3 (by rw [comb_length hlen]; exact m4) fun k hk => ?_⟩
      rw [comb_length hlen] at hk
      obtain ⟨t1, r1, a1, a2, a3, a4⟩ := m5 k hk
      obtain ⟨t2, r2, b1, b2, b3, b4⟩ := n5 k (by omega)
      have ht : t1 = t2 := List.map_injective_iff.2 Nat.cast_injective (a3.symm.trans b3)
      subst ht
      have hr : r1 = r2 := by
        rw [← Indexing.grid_get_rank l r1 a1, ← Indexing.grid_get_rank l r2 b1]
      subst hr
      refine ⟨t1, r1, a1, by rw [comb_length hη]; exact a2, a3, ?_⟩
      rw [comb_getD hlen, comb_getD hη, a4, b4]
    | _ => simp at hE
  | @add a b x z i1 i2 i3 iha ihb =>
    intro v' h'
    generalize hE : Expr.call [.name "+", a, b] = E at h'
    cases h' with
    | add j1 j2 j3 =>
      simp only [Expr.call.injEq, List.cons.injEq, true_and, and_true] at hE
      obtain ⟨rfl, rfl⟩ := hE
      obtain ⟨a1, a2⟩ := iha j1
      obtain ⟨b1, b2⟩ := ihb j2
      refine ⟨by simp [a1, b1], ?_⟩
      have := Value.add a2 b2 (by rw [comb_length a1, comb_length b1, i3])
      convert this using 1
      refine List.ext_getElem (by simp [comb, a1, b1, i3, j3]) fun k k1 k2 => ?_
      simp only [comb, List.getElem_zipWith]
      ring
    | _ => simp at hE
  | @sub a b x z i1 i2 i3 iha ihb =>
    intro v' h'
    generalize hE : Expr.call [.name "-", a, b] = E at h'
    cases h' with
    | sub j1 j2 j3 =>
      simp only [Expr.call.injEq, List.cons.injEq, true_and, and_true] at hE
      obtain ⟨rfl, rfl⟩ := hE
      obtain ⟨a1, a2⟩ := iha j1
      obtain ⟨b1, b2⟩ := ihb j2
      refine ⟨by simp [a1, b1], ?_⟩
      have := Value.sub a2 b2 (by rw [comb_length a1, comb_length b1, i3])
      convert this using 1
      refine List.ext_getElem (by simp [comb, a1, b1, i3, j3]) fun k k1 k2 => ?_
      simp only [comb, List.getElem_zipWith]
      ring
    | _ => simp at hE
  | @mulRight a b x c i1 i2 i3 ih =>
    intro v' h'
    generalize hE : Expr.call [.name "*", a, b] = E at h'
    cases h' with
    | mulRight j1 j2 j3 =>
      simp only [Expr.call.injEq, List.cons.injEq, true_and, and_true] at hE
      obtain ⟨rfl, rfl⟩ := hE
      rw [i3] at j3
      cases j3
      obtain ⟨a1, a2⟩ := ih j1
      refine ⟨by simp [a1], ?_⟩
      have := Value.mulRight a2 i2 i3
      convert this using 1
      refine List.ext_getElem (by simp [comb, a1]) fun k k1 k2 => ?_
      simp only [comb, List.getElem_zipWith, List.getElem_map]
      ring
    | mulLeft j1 j2 j3 =>
      simp only [Expr.call.injEq, List.cons.injEq, true_and, and_true] at hE
      obtain ⟨rfl, rfl⟩ := hE
      exact absurd (value_uses j3) i2
    | _ => simp at hE
  | @mulLeft a b x c i1 i2 i3 ih =>
    intro v' h'
    generalize hE : Expr.call [.name "*", a, b] = E at h'
    cases h' with
    | mulRight j1 j2 j3 =>
      simp only [Expr.call.injEq, List.cons.injEq, true_and, and_true] at hE
      obtain ⟨rfl, rfl⟩ := hE
      exact absurd (value_uses j1) i1
    | mulLeft j1 j2 j3 =>
      simp only [Expr.call.injEq, List.cons.injEq, true_and, and_true] at hE
      obtain ⟨rfl, rfl⟩ := hE
      rw [i2] at j2
      cases j2
      obtain ⟨a1, a2⟩ := ih j3
      refine ⟨by simp [a1], ?_⟩
      have := Value.mulLeft i1 i2 a2
      convert this using 1
      refine List.ext_getElem (by simp [comb, a1]) fun k k1 k2 => ?_
      simp only [comb, List.getElem_zipWith, List.getElem_map]
      ring
    | _ => simp at hE
  | @div a b x c i1 i2 i3 i4 ih =>
    intro v' h'
    generalize hE : Expr.call [.name "/", a, b] = E at h'
    cases h' with
    | div j1 j2 j3 j4 =>
      simp only [Expr.call.injEq, List.cons.injEq, true_and, and_true] at hE
      obtain ⟨rfl, rfl⟩ := hE
      rw [i3] at j3
      cases j3
      obtain ⟨a1, a2⟩ := ih j1
      refine ⟨by simp [a1], ?_⟩
      have := Value.div a2 i2 i3 i4
      convert this using 1
      refine List.ext_getElem (by simp [comb, a1]) fun k k1 k2 => ?_
      simp only [comb, List.getElem_zipWith, List.getElem_map]
      ring
    | _ => simp at hE

/-! ## The variables seen by the rewritten expression -/

theorem flats_lookup {data : Env} {l : List ℕ} : ∀ {ex : List (List String)}
    {flats : List (String × Val)}, ex.mapM (flatVar data l) = Except.ok flats →
    (∀ p ∈ ex, ∀ q ∈ ex, joinNames p = joinNames q → p = q) → ∀ idx ∈ ex, ∃ w,
      flatVar data l idx = Except.ok (joinNames idx, .num w) ∧
      flats.lookup (joinNames idx) = some (.num w)
  | [], _, _, _, idx, hi => by cases hi
  | p :: ex, flats, h, hinj, idx, hi => by
    have h2 := mapM_inv h
    cases h2 with
    | @cons _ q _ flats' hq hrest =>
      obtain ⟨vs, w, -, -, rfl⟩ := flatVar_inv hq
      by_cases e : joinNames idx = joinNames p
      · have := hinj idx hi p (List.mem_cons_self ..) e
        subst this
        refine ⟨w, hq, ?_⟩
        rw [List.lookup_cons, beq_self_eq_true]
      · have hi' : idx ∈ ex := by
          rcases List.mem_cons.1 hi with rfl | hi
          · exact absurd rfl e
          · exact hi
        have hm : ex.mapM (flatVar data l) = Except.ok flats' := by
          rw [List.mapM_cons, hq] at h
          simp only [res_ok_bind] at h
          rcases hx : ex.mapM (flatVar data l) with err | r
          · rw [hx] at h
            cases h
          rw [hx] at h
          have h := Except.ok.inj h
          cases h
          rfl
        obtain ⟨w', e1, e2⟩ := flats_lookup hm (fun p hp q hq => hinj p (List.mem_cons_of_mem _ hp) q
          (List.mem_cons_of_mem _ hq)) idx hi'
        refine ⟨w', e1, ?_⟩
        rw [List.lookup_cons, beq_eq_false_iff_ne.2 e]
        exact e2

theorem flats_none {data : Env} {l : List ℕ} {x : String} : ∀ {ex : List (List String)}
    {flats : List (String × Val)},
    List.Forall₂ (fun a b => flatVar data l a = Except.ok b) ex flats →
    (∀ p ∈ ex, joinNames p ≠ x) → flats.lookup x = none
  | _, _, .nil, _ => rfl
  | _, _, .cons hq hrest, hne => by
    obtain ⟨vs, w, -, -, rfl⟩ := flatVar_inv hq
    rw [List.lookup_cons, beq_eq_false_iff_ne.2 (hne _ (List.mem_cons_self ..)).symm]
    exact flats_none hrest fun p hp => hne p (List.mem_cons_of_mem _ hp)

theorem flats_num {data : Env} {l : List ℕ} {x : String} {v : Val} : ∀ {ex : List (List String)}
    {flats : List (String × Val)},
    List.Forall₂ (fun a b => flatVar data l a = Except.ok b) ex flats →
    flats.lookup x = some v → ∃ w, v = .num w
  | _, _, .nil, h => by cases h
  | _, _, .cons hq hrest, h => by
    obtain ⟨vs, w, -, -, rfl⟩ := flatVar_inv hq
    rw [List.lookup_cons] at h
    split at h
    · exact ⟨w, (Option.some.inj h).symm⟩
    · exact flats_num hrest h

theorem subEnv_noFrame {data : Env} {l : List ℕ} {y : String} {F0 : Frame}
    {ex : List (List String)} {flats : List (String × Val)}
    (hf : ex.mapM (flatVar data l) = Except.ok flats) (hd : ∀ x g, data x ≠ some (.frame g)) (x : String)
    (g : Frame) (hx : x ≠ y) : subEnv y F0 flats data x ≠ some (.frame g) := by
  unfold subEnv
  rw [if_neg hx]
  split
  · rename_i v hv
    obtain ⟨w, rfl⟩ := flats_num (mapM_inv hf) hv
    simp
  · exact hd x g

theorem subEnv_sees {data : Env} {l : List ℕ} {y : String} {F0 : Frame} {e : Expr}
    {ex : List (List String)} {flats : List (String × Val)} (hex : extract y e = Except.ok ex)
    (hf : ex.mapM (flatVar data l) = Except.ok flats) (hy : y ∈ names e) (hc : NoClash e) :
    Sees (subEnv y F0 flats data) data y l e ex := by
  have hidx := extract_indexed hex
  refine ⟨fun x hx hxy => ?_, fun idx hi => ?_⟩
  · unfold subEnv
    rw [if_neg hxy, flats_none (mapM_inv hf) fun p hp e => ?_]
    obtain ⟨p1, p2⟩ := hidx p hp
    exact (hc p p p1 p1 p2 p2).2 (by show joinNames p ∈ _; rw [e]; exact hx)
  · obtain ⟨w, e1, e2⟩ := flats_lookup hf (fun p hp q hq e => by
      obtain ⟨p1, p2⟩ := hidx p hp
      obtain ⟨q1, q2⟩ := hidx q hq
      exact (hc p q p1 q1 p2 q2).1 e) idx hi
    refine ⟨w, e1, ?_⟩
    obtain ⟨p1, p2⟩ := hidx idx hi
    have : joinNames idx ≠ y := fun e =>
      (hc idx idx p1 p1 p2 p2).2 (by show joinNames idx ∈ _; rw [e]; exact hy)
    unfold subEnv
    rw [if_neg this, e2]

mutual
theorem findDim_const {y : String} : ∀ {e : Expr} {d : Option ℕ}, y ∉ names e →
    findDim y e d = Except.ok d
  | .name _, _, _ => by rw [findDim]
  | .lit _, _, _ => by rw [findDim]
  | .call [], _, _ => by rw [findDim]
  | .call (h :: rest), d, hy => by
    rw [names, namesList, List.mem_append, not_or] at hy
    have hown : dimOwn y h rest d = Except.ok d := by
      unfold dimOwn
      split
      · rename_i a idx
        rw [if_neg]
        rw [Bool.and_eq_true, not_and]
        intro _ ha
        rw [isName_iff.1 ha] at hy
        exact hy.2 (by simp [namesList, names])
      · rfl
    rw [findDim, hown]
    simp only [res_ok_bind]
    rw [findDim_const hy.1]
    exact findDimList_const hy.2

theorem findDimList_const {y : String} : ∀ {xs : List Expr} {d : Option ℕ}, y ∉ namesList xs →
    findDimList y xs d = Except.ok d
  | [], _, _ => by rw [findDimList]
  | x :: xs, d, hy => by
    rw [namesList, List.mem_append, not_or] at hy
    rw [findDimList, findDim_const hy.1]
    exact findDimList_const hy.2
end

theorem parseSub_inv {host : Host} {y : String} {e : Expr} {l : List ℕ} {F0 : Frame} {data : Env}
    {V : Val} (h : parseSub host y e l F0 data = Except.ok V) :
    findDim y e none = Except.ok (some l.length) ∧ ∃ e' ex flats, modify y e = Except.ok e' ∧
      extract y e = Except.ok ex ∧ ex.mapM (flatVar data l) = Except.ok flats ∧
      eval host (subEnv y F0 flats data) e' = Except.ok V := by
  unfold parseSub at h
  rcases hd : findDim y e none with err | d
  · rw [hd] at h
    cases h
  rw [hd] at h
  simp only [res_ok_bind] at h
  split at h
  · cases h
  rename_i hdl
  rw [not_not] at hdl
  subst hdl
  refine ⟨rfl, ?_⟩
  rcases h1 : modify y e with err | e'
  · rw [h1] at h
    cases h
  rcases h2 : extract y e with err | ex
  · rw [h1, h2] at h
    cases h
  rcases h3 : ex.mapM (flatVar data l) with err | flats
  · rw [h1, h2] at h
    simp only [res_ok_bind] at h
    rw [h3] at h
    cases h
  rw [h1, h2] at h
  simp only [res_ok_bind] at h
  rw [h3] at h
  exact ⟨e', ex, flats, rfl, rfl, h3, h⟩

theorem parseSub_uses {host : Host} {y : String} {e : Expr} {l : List ℕ} {F0 : Frame} {data : Env}
    {V : Val} (h : parseSub host y e l F0 data = Except.ok V) : y ∈ names e := by
  by_contra hy
  have := (parseSub_inv h).1
  rw [findDim_const hy] at this
  cases this

/-! ## C42 and C43 -/

/-- C42: whenever an expression is accepted, the result is a model frame, and its linear predictor
is the value of the written expression with the variable replaced by its own linear predictor. (The
value is that of indexing by whole numbers, sums, differences, multiples by and quotients of
scalars; multiples by vectors are C44.)
Missing: expressions in which joined index names clash (`c42_clash`), which contain the constant
`TRUE`, or which use the variable in a later argument of a function (`c43_violated`). -/
theorem c42_partial {host : Host} {y : String} {e : Expr} {l : List ℕ} {F0 : Frame} {n0 : ℕ}
    {data : Env} {V : Val} (hF0 : WellFormed F0 n0) (hl : l ≠ [])
    (hd : ∀ x g, data x ≠ some (.frame g)) (hvis : Visible y e) (hT : NoTrue e) (hN : NoFrames e)
    (hc : NoClash e) (h : parseSub host y e l F0 data = Except.ok V) :
    ∃ F n, V = .frame F ∧ WellFormed F n ∧ ∀ θ β u v,
      Value host data y l (predictor F0 n0 θ β u) e v → predictor F n θ β u = v := by
  have hy := parseSub_uses h
  obtain ⟨-, e', ex, flats, h1, h2, h3, h4⟩ := parseSub_inv h
  obtain ⟨-, F, n, r1, -, r3, r4⟩ := eval_main hF0 hl (by simp [subEnv])
    (fun x g hx => subEnv_noFrame h3 hd x g hx) e e' V ex hvis hT hN hy h2 h1 h4
  exact ⟨F, n, r1, r3, r4 (subEnv_sees h2 h3 hy hc)⟩

/-- C43: an accepted expression is linear in the variable, without a constant term.
Missing: expressions which contain the constant `TRUE`, or which use the variable in a later argument
of a function (`c43_violated`). -/
theorem c43_partial {host : Host} {y : String} {e : Expr} {l : List ℕ} {F0 : Frame} {n0 : ℕ}
    {data : Env} {V : Val} (hF0 : WellFormed F0 n0) (hl : l ≠ [])
    (hd : ∀ x g, data x ≠ some (.frame g)) (hvis : Visible y e) (hT : NoTrue e) (hN : NoFrames e)
    (h : parseSub host y e l F0 data = Except.ok V) : LinearIn y e := by
  have hy := parseSub_uses h
  obtain ⟨-, e', ex, flats, h1, h2, h3, h4⟩ := parseSub_inv h
  exact (eval_main hF0 hl (by simp [subEnv]) (data := data)
    (fun x g hx => subEnv_noFrame h3 hd x g hx) e e' V ex hvis hT hN hy h2 h1 h4).1

/-! ## Accepted expressions -/

mutual
theorem noLit_noTrue : ∀ {e : Expr}, NoLit e → NoTrue e
  | .name _, _ => by rw [NoTrue]; trivial
  | .lit _, h => by rw [NoLit] at h; exact h.elim
  | .call xs, h => by
    rw [NoLit] at h
    rw [NoTrue]
    exact noLitList_noTrue h

theorem noLitList_noTrue : ∀ {xs : List Expr}, NoLitList xs → NoTrueList xs
  | [], _ => by rw [NoTrueList]; trivial
  | x :: xs, h => by
    rw [NoLitList] at h
    rw [NoTrueList]
    exact ⟨noLit_noTrue h.1, noLitList_noTrue h.2⟩
end

mutual
theorem status_runs {y : String} : ∀ {e : Expr}, NoLit e → ∃ s, status y e = Except.ok s
  | .name _, _ => by rw [status]; exact ⟨_, rfl⟩
  | .lit _, h => by rw [NoLit] at h; exact h.elim
  | .call xs, h => by
    rw [NoLit] at h
    rw [status]
    exact statusList_runs h

theorem statusList_runs {y : String} : ∀ {xs : List Expr}, NoLitList xs →
    ∃ s, statusList y xs = Except.ok s
  | [], _ => by rw [statusList]; exact ⟨_, rfl⟩
  | x :: xs, h => by
    rw [NoLitList] at h
    obtain ⟨a, ha⟩ := status_runs (y := y) h.1
    obtain ⟨b, hb⟩ := statusList_runs (y := y) h.2
    rw [statusList, ha, hb]
    exact ⟨_, rfl⟩
end

theorem status_eq {y : String} {e : Expr} (h : NoLit e) :
    status y e = Except.ok (decide (y ∈ names e)) := by
  obtain ⟨s, hs⟩ := status_runs (y := y) h
  rw [hs]
  congr 1
  rw [Bool.eq_iff_iff, decide_eq_true_eq]
  exact status_spec (noLit_noTrue h) hs

mutual
theorem modify_runs {y : String} : ∀ {e : Expr}, NoLit e → y ∉ names e → modify y e = Except.ok e
  | .name _, _, _ => by rw [modify]
  | .lit _, h, _ => by rw [NoLit] at h; exact h.elim
  | .call [], _, _ => by rw [modify]
  | .call (g :: []), h, hy => by
    rw [NoLit, NoLitList] at h
    rw [names, namesList, List.mem_append, not_or] at hy
    rw [modify, modify_runs h.1 hy.1]
    rfl
  | .call (g :: a :: rest), h, hy => by
    rw [NoLit, NoLitList, NoLitList] at h
    rw [names, namesList, namesList, List.mem_append, List.mem_append, not_or, not_or] at hy
    have h2 : status2 y rest = Except.ok false := by
      rcases rest with _ | ⟨b, rest⟩
      · rfl
      · have hr := h.2.2
        rw [NoLitList] at hr
        have hyr := hy.2.2
        rw [namesList, List.mem_append, not_or] at hyr
        show status y b = _
        rw [status_eq hr.1, decide_eq_false hyr.1]
    rw [modify, status_eq h.2.1, decide_eq_false hy.2.1, h2]
    simp only [res_ok_bind, Bool.or_false, Bool.false_eq_true, if_false]
    rw [modify_runs h.1 hy.1, modify_runs h.2.1 hy.2.1, modifyList_runs h.2.2 hy.2.2]
    rfl

theorem modifyList_runs {y : String} : ∀ {xs : List Expr}, NoLitList xs → y ∉ namesList xs →
    modifyList y xs = Except.ok xs
  | [], _, _ => by rw [modifyList]
  | x :: xs, h, hy => by
    rw [NoLitList] at h
    rw [namesList, List.mem_append, not_or] at hy
    rw [modifyList, modify_runs h.1 hy.1, modifyList_runs h.2 hy.2]
    rfl
end

mutual
theorem extract_runs {y : String} : ∀ {e : Expr}, NoLit e → y ∉ names e → extract y e = Except.ok []
  | .name _, _, _ => by rw [extract]
  | .lit _, h, _ => by rw [NoLit] at h; exact h.elim
  | .call [], _, _ => by rw [extract]
  | .call (g :: []), h, hy => by
    rw [NoLit, NoLitList] at h
    rw [names, namesList, List.mem_append, not_or] at hy
    rw [extract, extract_runs h.1 hy.1]
  | .call (g :: a :: rest), h, hy => by
    rw [NoLit, NoLitList, NoLitList] at h
    rw [names, namesList, namesList, List.mem_append, List.mem_append, not_or, not_or] at hy
    have ho : extractOwn y g a rest = Except.ok [] := by
      unfold extractOwn
      split
      · rw [status_eq h.2.1, decide_eq_false hy.2.1]
        rfl
      · rfl
    rw [extract, ho, extract_runs h.1 hy.1, extract_runs h.2.1 hy.2.1, extractList_runs h.2.2 hy.2.2]
    rfl

theorem extractList_runs {y : String} : ∀ {xs : List Expr}, NoLitList xs → y ∉ namesList xs →
    extractList y xs = Except.ok []
  | [], _, _ => by rw [extractList]
  | x :: xs, h, hy => by
    rw [NoLitList] at h
    rw [namesList, List.mem_append, not_or] at hy
    rw [extractList, extract_runs h.1 hy.1, extractList_runs h.2 hy.2]
    rfl
end

theorem select_runs {x w v : List ℝ} (h : Picks x w v) : ∃ rows, select x.length w = Except.ok rows := by
  unfold select
  dsimp only
  rcases h with ⟨js, rfl, hj, -⟩ | ⟨js, rfl, ⟨j0, hj0, hpos⟩, -⟩
  · have ht : (js.map fun j : ℕ => (j : ℝ)).map truncate = js.map fun j : ℕ => (j : ℤ) := by
      rw [List.map_map]
      exact List.map_congr_left fun j _ => truncate_nat j
    rw [ht, if_neg (by
      rw [Bool.not_eq_true, List.any_eq_false]
      intro z hz
      obtain ⟨j, -, rfl⟩ := List.mem_map.1 hz
      simp), if_neg (by
      rw [Bool.not_eq_true, List.any_eq_false]
      intro z hz
      obtain ⟨j, hj', rfl⟩ := List.mem_map.1 (List.mem_filter.1 hz).1
      simpa using hj j hj')]
    exact ⟨_, rfl⟩
  · have ht : (js.map fun j : ℕ => -(j : ℝ)).map truncate = js.map fun j : ℕ => -(j : ℤ) := by
      rw [List.map_map]
      exact List.map_congr_left fun j _ => truncate_neg j
    rw [ht, if_pos (by
      rw [List.any_eq_true]
      exact ⟨_, List.mem_map_of_mem hj0, by simpa using hpos⟩), if_neg (by
      rw [Bool.not_eq_true, List.any_eq_false]
      intro z hz
      obtain ⟨j, -, rfl⟩ := List.mem_map.1 hz
      simp)]
    exact ⟨_, rfl⟩

theorem indexFr_runs {F : Frame} {n : ℕ} {w : List ℝ} {rows : List ℕ} (hF : WellFormed F n)
    (h : select n w = Except.ok rows) : ∃ G, indexFr F w = Except.ok G := by
  unfold indexFr
  rw [hF.rows, h]
  simp only [res_ok_bind]
  rcases hr : F.reTrms with _ | R
  · exact ⟨_, rfl⟩
  · simp only [(hF.re R hr).2, h, res_ok_bind]
    exact ⟨_, rfl⟩

theorem scaleFr_runs (F : Frame) (c : ℝ) : ∃ G, scaleFr F [c] = Except.ok G := by
  have hs : ∀ m : Mat, ∃ M, m.scale [c] = Except.ok M := fun m => scale_runs (by
    rcases Nat.eq_zero_or_pos (m.nrow * m.ncol) with h | h
    · exact Or.inl h
    · exact Or.inr ⟨by simp, h⟩)
  unfold scaleFr
  obtain ⟨X, hX⟩ := hs F.X
  rw [hX]
  simp only [res_ok_bind]
  rcases F.reTrms with _ | R
  · exact ⟨_, rfl⟩
  · obtain ⟨Z, hZ⟩ := hs R.Zt
    simp only [hZ, res_ok_bind]
    exact ⟨_, rfl⟩

theorem addFr_runs {F0 F G : Frame} {n : ℕ} (sF : Shape F0 F) (sG : Shape F0 G)
    (wF : WellFormed F n) (wG : WellFormed G n) : ∃ H, addFr F G = Except.ok H := by
  unfold addFr
  rw [if_neg (c := _ ∨ _) (by
    rw [wF.rows, wG.rows, sF.1, sG.1]
    simp)]
  rcases sF.2 with ⟨a1, a2⟩ | ⟨R, Z, a1, a2, a3⟩
  · rcases sG.2 with ⟨-, b2⟩ | ⟨R, Z, b1, -⟩
    · rw [a2, b2, if_neg (by simp)]
      exact ⟨_, rfl⟩
    · rw [a1] at b1
      cases b1
  · rcases sG.2 with ⟨b1, -⟩ | ⟨R', Z', b1, b2, b3⟩
    · rw [a1] at b1
      cases b1
    · rw [a1] at b1
      cases b1
      have c1 := (wF.re _ a2).2
      have c2 := (wG.re _ b2).2
      rw [a2, b2, if_neg (by simp)]
      dsimp only
      rw [if_neg (by
        rw [c1, c2]
        show ¬ (Z.nrow ≠ Z'.nrow ∨ _)
        rw [a3, b3]
        simp)]
      exact ⟨_, rfl⟩

mutual
theorem visible_const {y : String} : ∀ {e : Expr}, y ∉ names e → Visible y e
  | .name _, _ => by rw [Visible]; trivial
  | .lit _, _ => by rw [Visible]; trivial
  | .call [], _ => by rw [Visible]; trivial
  | .call (h :: args), hy => by
    rw [names, namesList, List.mem_append, not_or] at hy
    rw [Visible]
    refine ⟨hy.1, fun h => hy.2 ?_, visibleList_const hy.2⟩
    obtain ⟨e, he, hye⟩ := mem_namesList.1 h
    exact mem_namesList.2 ⟨e, List.mem_of_mem_drop he, hye⟩

theorem visibleList_const {y : String} : ∀ {xs : List Expr}, y ∉ namesList xs → VisibleList y xs
  | [], _ => by rw [VisibleList]; trivial
  | x :: xs, hy => by
    rw [namesList, List.mem_append, not_or] at hy
    rw [VisibleList]
    exact ⟨visible_const hy.1, visibleList_const hy.2⟩
end

/-- Names of the arithmetic functions. -/
def Spec.opNames : List String := ["[", "+", "-", "*", "/"]

theorem linearIn_visible {y : String} (hy : y ∉ opNames) {e : Expr} (h : LinearIn y e) :
    Visible y e := by
  simp only [opNames, List.mem_cons, List.not_mem_nil, or_false, not_or] at hy
  have two : ∀ {f : String} {a b : Expr}, y ≠ f → Visible y a → Visible y b →
      Visible y (.call [.name f, a, b]) := by
    intro f a b hf ha hb
    rw [Visible, VisibleList, VisibleList, VisibleList]
    exact ⟨by simpa [names] using hf, by simp [namesList], ha, hb, trivial⟩
  induction h with
  | var => rw [Visible]; trivial
  | @index a idx _ _ hi ih =>
    rw [Visible, VisibleList]
    have hidx : y ∉ namesList idx := fun h => by
      obtain ⟨e, he, hye⟩ := mem_namesList.1 h
      exact hi e he hye
    refine ⟨by simpa [names] using hy.1, fun h => hidx ?_, ih, visibleList_const hidx⟩
    obtain ⟨e, he, hye⟩ := mem_namesList.1 h
    exact mem_namesList.2 ⟨e, List.mem_of_mem_drop (l := idx) (i := 1) (by simpa using he), hye⟩
  | add _ _ iha ihb => exact two hy.2.1 iha ihb
  | sub _ _ iha ihb => exact two hy.2.2.1 iha ihb
  | mulRight _ hb ih => exact two hy.2.2.2.1 ih (visible_const hb)
  | mulLeft ha _ ih => exact two hy.2.2.2.1 (visible_const ha) ih
  | div _ hb ih => exact two hy.2.2.2.2 ih (visible_const hb)

theorem eval_frOp {host : Host} {env : Env} {f : String} {op : Val → Val → Res Val} {a b : Expr}
    {va vb : Val} (hf : frOp f = some op) (ha : eval host env a = Except.ok va)
    (hb : eval host env b = Except.ok vb) : eval host env (.call [.name f, a, b]) = op va vb := by
  rw [eval, hf]
  dsimp only
  rw [ha, hb]
  rfl

theorem allNames_of_map : ∀ l : List String, allNames (l.map .name) = some l
  | [] => rfl
  | s :: l => by
    rw [List.map_cons, allNames, allNames_of_map l]
    rfl

theorem forall2_lookup {data : Env} : ∀ {idx : List String} {vals : List (List ℝ)},
    List.Forall₂ (fun s w => ∃ val, data s = some val ∧ Numeric val w) idx vals →
    idx.mapM (lookupNumeric data) = Except.ok vals
  | _, _, .nil => rfl
  | s :: idx, w :: vals, .cons ⟨v, h1, h2⟩ h => by
    have e : lookupNumeric data s = Except.ok w := by
      unfold lookupNumeric
      rw [h1]
      exact numeric_asNumeric h2
    rw [List.mapM_cons, e, forall2_lookup h]
    rfl

theorem modify_arith {y : String} {f g : String} {a b a' b' : Expr} (hfg : frName (.name f) = some g)
    (hf : f ≠ "[") (h : NoLit (.call [.name f, a, b])) (hab : y ∈ names a ∨ y ∈ names b)
    (ha : modify y a = Except.ok a') (hb : modify y b = Except.ok b') :
    modify y (.call [.name f, a, b]) = Except.ok (.call [.name g, a', b']) := by
  rw [NoLit, NoLitList, NoLitList, NoLitList] at h
  rw [modify, status_eq h.2.1]
  show (do let s ← status y b; _) = _
  rw [status_eq h.2.2.1]
  simp only [res_ok_bind]
  rw [if_pos (by simpa using hab), if_neg (by simp [isName, hf]), hfg]
  dsimp only
  rw [ha, modifyList, hb, modifyList]
  rfl

theorem extract_arith {y : String} {f : String} {a b : Expr} {ea eb : List (List String)}
    (ha : extract y a = Except.ok ea) (hb : extract y b = Except.ok eb) :
    extract y (.call [.name f, a, b]) = Except.ok (ea ++ eb) := by
  have ho : extractOwn y (.name f) a [b] = Except.ok [] := by
    unfold extractOwn
    rw [if_neg (by simp)]
  rw [extract, ho, extract, ha, extractList, hb, extractList]
  simp only [res_ok_bind, List.nil_append, List.append_nil]
  rfl

/-- What is needed to accept an expression that has a value. -/
theorem accept_main {host : Host} {data : Env} {y : String} {l : List ℕ} {F0 : Frame} {n0 : ℕ}
    {θ β u : ℕ → ℝ} (hF0 : WellFormed F0 n0) (hl : l ≠ []) (hy : y ∉ opNames) {e : Expr} {v : List ℝ}
    (h : Value host data y l (predictor F0 n0 θ β u) e v) : NoLit e → NoFrames e →
    ∃ e' ex, modify y e = Except.ok e' ∧ extract y e = Except.ok ex ∧
      (∀ idx ∈ ex, ∃ p, flatVar data l idx = Except.ok p) ∧
      ∀ env : Env, env y = some (.frame F0) → (∀ x g, x ≠ y → env x ≠ some (.frame g)) →
        Sees env data y l e ex → ∃ F, eval host env e' = Except.ok (.frame F) := by
  have main : ∀ {e e' : Expr} {v : List ℝ} {ex : List (List String)} {env : Env} {F : Frame},
      Value host data y l (predictor F0 n0 θ β u) e v → NoLit e → NoFrames e →
      modify y e = Except.ok e' → extract y e = Except.ok ex →
      env y = some (.frame F0) → (∀ x g, x ≠ y → env x ≠ some (.frame g)) →
      Sees env data y l e ex → eval host env e' = Except.ok (.frame F) →
      Shape F0 F ∧ WellFormed F v.length := by
    intro e e' v ex env F hv hL hN hm hx he hnf hsee hev
    obtain ⟨-, F', n, e1, s, w, val⟩ := eval_main hF0 hl he hnf e e' _ ex
      (linearIn_visible hy (value_linearIn hv)) (noLit_noTrue hL) hN (value_uses hv) hx hm hev
    cases e1
    have := val hsee θ β u v hv
    rw [← this, predictor_length]
    exact ⟨s, w⟩
  induction h with
  | var =>
    intro _ _
    refine ⟨.name y, [], by rw [modify], by rw [extract], by simp, fun env he _ _ => ⟨F0, ?_⟩⟩
    rw [eval, host.lookup _ _ _ he]
  | @index a i x w v val i1 i2 i3 i4 i5 ih =>
    intro hL hN
    have hL' := hL
    rw [NoLit, NoLitList, NoLitList, NoLitList] at hL
    have hNa : NoFrames a := fun x hx => hN x (by simp [names, namesList, hx])
    have hNi : NoFrames i := fun x hx => hN x (by simp [names, namesList, hx])
    obtain ⟨a', ea, h1, h2, h3, h4⟩ := ih hL.2.1 hNa
    refine ⟨.call [.name "[fr", a', i], ea ++ [], ?_, extract_arith h2 (extract_runs hL.2.2.1 i2),
      by simpa using h3, fun env he hnf hsee => ?_⟩
    · rw [modify, status_eq hL.2.1]
      show (do let s ← status y i; _) = _
      rw [status_eq hL.2.2.1, decide_eq_true (value_uses i1), decide_eq_false i2]
      simp only [res_ok_bind]
      rw [if_pos (by simp), if_pos (by simp [isName]), if_neg (by simp), h1, modifyList,
        modify_runs hL.2.2.1 i2, modifyList]
      rfl
    · have hsa : Sees env data y l a ea :=
        ⟨fun x hx => hsee.1 x (by simp [names, namesList, hx]), fun idx hi => hsee.2 idx (by simp [hi])⟩
      obtain ⟨F, hF⟩ := h4 env he hnf hsa
      obtain ⟨sF, wF⟩ := main i1 hL.2.1 hNa h1 h2 he hnf hsa hF
      obtain ⟨rows, hrows⟩ := select_runs i5
      obtain ⟨G, hG⟩ := indexFr_runs wF hrows
      have hi : eval host env i = Except.ok val := by
        rw [eval_host hNi, ← i3]
        exact host.congr _ _ _ fun x hx => hsee.1 x (by simp [names, namesList, hx])
          fun e => i2 (e ▸ hx)
      refine ⟨G, ?_⟩
      rw [eval_frOp (op := indexVal) (by simp [frOp]) hF hi]
      unfold indexVal
      dsimp only
      rw [numeric_asNumeric i4]
      simp only [res_ok_bind]
      rw [hG]
      rfl
  | @multi idx vals v m1 m0 m2 m3 m4 m5 =>
    intro hL hN
    have hL' := hL
    rw [NoLit, NoLitList, NoLitList] at hL
    have hyr : y ∉ namesList (idx.map .name) := fun h => by
      obtain ⟨e, he, hye⟩ := mem_namesList.1 h
      obtain ⟨s, hs, rfl⟩ := List.mem_map.1 he
      rw [names, List.mem_singleton] at hye
      exact m2 (hye ▸ hs)
    have hlen : 1 < (idx.map Expr.name).length := by
      rw [List.length_map]
      exact m1
    have ho : extractOwn y (.name "[") (.name y) (idx.map .name) = Except.ok [idx] := by
      unfold extractOwn
      rw [if_pos (by rw [Bool.and_eq_true, decide_eq_true_eq]; exact ⟨by simp [isName], hlen⟩), status]
      simp only [res_ok_bind, decide_true, if_true]
      rw [allNames_of_map]
    obtain ⟨w, hw⟩ := Indexing.c46_runs (vs := vals) (ls := l) (n := v.length)
      (by rw [← m3.length_eq]; exact m1) (by rw [← m3.length_eq]; exact m0) m4
    have hflat : flatVar data l idx = Except.ok (joinNames idx, .num w) := by
      unfold flatVar
      rw [forall2_lookup m3]
      simp only [res_ok_bind]
      rw [hw]
      rfl
    refine ⟨.call [.name "[fr", .name y, .name (joinNames idx)], [idx], ?_, ?_, ?_,
      fun env he hnf hsee => ?_⟩
    · have h2 : status2 y (idx.map .name) = Except.ok false := by
        rcases idx with _ | ⟨s, idx⟩
        · rfl
        · show status y (.name s) = _
          rw [status]
          congr 1
          rw [decide_eq_false]
          rintro rfl
          exact m2 (List.mem_cons_self ..)
      rw [modify, status, h2]
      simp only [res_ok_bind, decide_true, Bool.or_false]
      rw [if_pos trivial, if_pos (by simp [isName]), if_pos hlen]
      unfold flatIndex
      rw [allNames_of_map]
      simp only [res_ok_bind]
      rw [modify]
      rfl
    · rw [extract, ho, extract, extract, extractList_runs hL.2.2 hyr]
      rfl
    · intro p hp
      rw [List.mem_singleton] at hp
      exact ⟨_, hp ▸ hflat⟩
    · obtain ⟨w', e1, e2⟩ := hsee.2 idx (List.mem_singleton.2 rfl)
      rw [hflat] at e1
      have e1 := Except.ok.inj e1
      simp only [Prod.mk.injEq, true_and, Val.num.injEq] at e1
      subst e1
      obtain ⟨w1, w2⟩ := Indexing.c46_vars hl m4 hw
      have hsel : ∃ rows, select n0 w = Except.ok rows := by
        have key : ∀ k < v.length, ∃ row < n0, w.getD k 0 = ((row + 1 : ℕ) : ℝ) := by
          intro k hk
          obtain ⟨t, row, g1, g2, g3, g4⟩ := m5 k hk
          obtain ⟨r, r1, r2⟩ := w2 k hk t (Indexing.grid_tuple (List.mem_of_getElem? g1)) g3
          have : r = row := by
            rw [← Indexing.grid_get_rank l r r2, ← Indexing.grid_get_rank l row g1]
          subst this
          rw [predictor_length] at g2
          exact ⟨r, g2, by rw [r1]; push_cast; ring⟩
        choose! f f1 f2 using key
        have hp : Picks (predictor F0 n0 θ β u) w
            ((((List.range v.length).map fun k => f k + 1).filter (0 < ·)).map
              fun j => (predictor F0 n0 θ β u).getD (j - 1) 0) := by
          refine Or.inl ⟨(List.range v.length).map fun k => f k + 1, ?_, ?_, rfl⟩
          · refine List.ext_getElem (by simp [w1]) fun k k1 k2 => ?_
            rw [w1] at k1
            have := f2 k k1
            rw [List.getD_eq_getElem _ _ (by rw [w1]; exact k1)] at this
            simp [this]
          · intro j hj
            obtain ⟨k, hk, rfl⟩ := List.mem_map.1 hj
            rw [predictor_length]
            exact f1 k (List.mem_range.1 hk)
        have := select_runs hp
        rwa [predictor_length] at this
      obtain ⟨rows, hrows⟩ := hsel
      obtain ⟨G, hG⟩ := indexFr_runs hF0 hrows
      refine ⟨G, ?_⟩
      rw [eval_frOp (op := indexVal) (va := .frame F0) (vb := .num w) (by simp [frOp])
        (by rw [eval, host.lookup _ _ _ he]) (by rw [eval, host.lookup _ _ _ e2])]
      unfold indexVal
      dsimp only
      rw [asNumeric]
      simp only [res_ok_bind]
      rw [hG]
      rfl
  | @add a b x z i1 i2 i3 iha ihb =>
    intro hL hN
    have hL' := hL
    rw [NoLit, NoLitList, NoLitList, NoLitList] at hL
    have hNa : NoFrames a := fun x hx => hN x (by simp [names, namesList, hx])
    have hNb : NoFrames b := fun x hx => hN x (by simp [names, namesList, hx])
    obtain ⟨a', ea, a1, a2, a3, a4⟩ := iha hL.2.1 hNa
    obtain ⟨b', eb, b1, b2, b3, b4⟩ := ihb hL.2.2.1 hNb
    refine ⟨_, ea ++ eb, modify_arith (g := "+fr") (by simp [frName, isName]) (by simp) hL'
      (Or.inl (value_uses i1)) a1 b1, extract_arith a2 b2, ?_, fun env he hnf hsee => ?_⟩
    · intro idx hi
      rcases List.mem_append.1 hi with hi | hi
      · exact a3 idx hi
      · exact b3 idx hi
    · have hsa : Sees env data y l a ea :=
        ⟨fun x hx => hsee.1 x (by simp [names, namesList, hx]), fun idx hi => hsee.2 idx (by simp [hi])⟩
      have hsb : Sees env data y l b eb :=
        ⟨fun x hx => hsee.1 x (by simp [names, namesList, hx]), fun idx hi => hsee.2 idx (by simp [hi])⟩
      obtain ⟨F, hF⟩ := a4 env he hnf hsa
      obtain ⟨G, hG⟩ := b4 env he hnf hsb
      obtain ⟨sF, wF⟩ := main i1 hL.2.1 hNa a1 a2 he hnf hsa hF
      obtain ⟨sG, wG⟩ := main i2 hL.2.2.1 hNb b1 b2 he hnf hsb hG
      rw [← i3] at wG
      obtain ⟨H, hH⟩ := addFr_runs sF sG wF wG
      refine ⟨H, ?_⟩
      rw [eval_frOp (op := addVal) (by simp [frOp]) hF hG]
      unfold addVal
      dsimp only
      rw [hH]
      rfl
  | @sub a b x z i1 i2 i3 iha ihb =>
    intro hL hN
    have hL' := hL
    rw [NoLit, NoLitList, NoLitList, NoLitList] at hL
    have hNa : NoFrames a := fun x hx => hN x (by simp [names, namesList, hx])
    have hNb : NoFrames b := fun x hx => hN x (by simp [names, namesList, hx])
    obtain ⟨a', ea, a1, a2, a3, a4⟩ := iha hL.2.1 hNa
    obtain ⟨b', eb, b1, b2, b3, b4⟩ := ihb hL.2.2.1 hNb
    refine ⟨_, ea ++ eb, modify_arith (g := "-fr") (by simp [frName, isName]) (by simp) hL'
      (Or.inl (value_uses i1)) a1 b1, extract_arith a2 b2, ?_, fun env he hnf hsee => ?_⟩
    · intro idx hi
      rcases List.mem_append.1 hi with hi | hi
      · exact a3 idx hi
      · exact b3 idx hi
    · have hsa : Sees env data y l a ea :=
        ⟨fun x hx => hsee.1 x (by simp [names, namesList, hx]), fun idx hi => hsee.2 idx (by simp [hi])⟩
      have hsb : Sees env data y l b eb :=
        ⟨fun x hx => hsee.1 x (by simp [names, namesList, hx]), fun idx hi => hsee.2 idx (by simp [hi])⟩
      obtain ⟨F, hF⟩ := a4 env he hnf hsa
      obtain ⟨G, hG⟩ := b4 env he hnf hsb
      obtain ⟨sF, wF⟩ := main i1 hL.2.1 hNa a1 a2 he hnf hsa hF
      obtain ⟨sG, wG⟩ := main i2 hL.2.2.1 hNb b1 b2 he hnf hsb hG
      rw [← i3] at wG
      obtain ⟨M, hM⟩ := scaleFr_runs G (-1)
      obtain ⟨H, hH⟩ := addFr_runs sF (scaleFr_shape sG hM) wF (scaleFr_wf wG hM)
      refine ⟨H, ?_⟩
      rw [eval_frOp (op := subVal) (by simp [frOp]) hF hG]
      unfold subVal subFr
      dsimp only
      rw [hM]
      simp only [res_ok_bind]
      rw [hH]
      rfl
  | @mulRight a b x c i1 i2 i3 ih =>
    intro hL hN
    have hL' := hL
    rw [NoLit, NoLitList, NoLitList, NoLitList] at hL
    have hNa : NoFrames a := fun x hx => hN x (by simp [names, namesList, hx])
    have hNb : NoFrames b := fun x hx => hN x (by simp [names, namesList, hx])
    obtain ⟨a', ea, a1, a2, a3, a4⟩ := ih hL.2.1 hNa
    refine ⟨_, ea ++ [], modify_arith (g := "*fr") (by simp [frName, isName]) (by simp) hL'
      (Or.inl (value_uses i1)) a1 (modify_runs hL.2.2.1 i2),
      extract_arith a2 (extract_runs hL.2.2.1 i2), by simpa using a3, fun env he hnf hsee => ?_⟩
    have hsa : Sees env data y l a ea :=
      ⟨fun x hx => hsee.1 x (by simp [names, namesList, hx]), fun idx hi => hsee.2 idx (by simp [hi])⟩
    obtain ⟨F, hF⟩ := a4 env he hnf hsa
    have hb : eval host env b = Except.ok (.num [c]) := by
      rw [eval_host hNb, ← i3]
      exact host.congr _ _ _ fun x hx => hsee.1 x (by simp [names, namesList, hx])
        fun e => i2 (e ▸ hx)
    obtain ⟨G, hG⟩ := scaleFr_runs F c
    refine ⟨G, ?_⟩
    rw [eval_frOp (op := mulVal) (by simp [frOp]) hF hb]
    unfold mulVal
    dsimp only
    rw [hG]
    rfl
  | @mulLeft a b x c i1 i2 i3 ih =>
    intro hL hN
    have hL' := hL
    rw [NoLit, NoLitList, NoLitList, NoLitList] at hL
    have hNa : NoFrames a := fun x hx => hN x (by simp [names, namesList, hx])
    have hNb : NoFrames b := fun x hx => hN x (by simp [names, namesList, hx])
    obtain ⟨b', eb, b1, b2, b3, b4⟩ := ih hL.2.2.1 hNb
    refine ⟨_, [] ++ eb, modify_arith (g := "*fr") (by simp [frName, isName]) (by simp) hL'
      (Or.inr (value_uses i3)) (modify_runs hL.2.1 i1) b1,
      extract_arith (extract_runs hL.2.1 i1) b2, by simpa using b3, fun env he hnf hsee => ?_⟩
    have hsb : Sees env data y l b eb :=
      ⟨fun x hx => hsee.1 x (by simp [names, namesList, hx]), fun idx hi => hsee.2 idx (by simp [hi])⟩
    obtain ⟨F, hF⟩ := b4 env he hnf hsb
    have ha : eval host env a = Except.ok (.num [c]) := by
      rw [eval_host hNa, ← i2]
      exact host.congr _ _ _ fun x hx => hsee.1 x (by simp [names, namesList, hx])
        fun e => i1 (e ▸ hx)
    obtain ⟨G, hG⟩ := scaleFr_runs F c
    refine ⟨G, ?_⟩
    rw [eval_frOp (op := mulVal) (by simp [frOp]) ha hF]
    unfold mulVal
    dsimp only
    rw [hG]
    rfl
  | @div a b x c i1 i2 i3 i4 ih =>
    intro hL hN
    have hL' := hL
    rw [NoLit, NoLitList, NoLitList, NoLitList] at hL
    have hNa : NoFrames a := fun x hx => hN x (by simp [names, namesList, hx])
    have hNb : NoFrames b := fun x hx => hN x (by simp [names, namesList, hx])
    obtain ⟨a', ea, a1, a2, a3, a4⟩ := ih hL.2.1 hNa
    refine ⟨_, ea ++ [], modify_arith (g := "/fr") (by simp [frName, isName]) (by simp) hL'
      (Or.inl (value_uses i1)) a1 (modify_runs hL.2.2.1 i2),
      extract_arith a2 (extract_runs hL.2.2.1 i2), by simpa using a3, fun env he hnf hsee => ?_⟩
    have hsa : Sees env data y l a ea :=
      ⟨fun x hx => hsee.1 x (by simp [names, namesList, hx]), fun idx hi => hsee.2 idx (by simp [hi])⟩
    obtain ⟨F, hF⟩ := a4 env he hnf hsa
    have hb : eval host env b = Except.ok (.num [c]) := by
      rw [eval_host hNb, ← i3]
      exact host.congr _ _ _ fun x hx => hsee.1 x (by simp [names, namesList, hx])
        fun e => i2 (e ▸ hx)
    obtain ⟨G, hG⟩ := scaleFr_runs F (1 / c)
    refine ⟨G, ?_⟩
    rw [eval_frOp (op := divVal) (by simp [frOp]) hF hb]
    unfold divVal recip
    dsimp only
    rw [if_neg (by simpa using i4)]
    simp only [res_ok_bind, List.map_cons, List.map_nil]
    unfold mulVal
    dsimp only
    rw [hG]
    rfl

/-- C42 is not empty: every expression without constants that has a value is accepted, provided that
the variable is always indexed by as many indices as there are. -/
theorem c42_accepted {host : Host} {y : String} {e : Expr} {l : List ℕ} {F0 : Frame} {n0 : ℕ}
    {data : Env} {θ β u : ℕ → ℝ} {v : List ℝ} (hF0 : WellFormed F0 n0) (hl : l ≠ [])
    (hd : ∀ x g, data x ≠ some (.frame g)) (hy : y ∉ opNames) (hL : NoLit e) (hN : NoFrames e)
    (hc : NoClash e) (hdim : findDim y e none = Except.ok (some l.length))
    (h : Value host data y l (predictor F0 n0 θ β u) e v) :
    ∃ F, parseSub host y e l F0 data = Except.ok (.frame F) ∧ WellFormed F v.length ∧
      predictor F v.length θ β u = v := by
  obtain ⟨e', ex, h1, h2, h3, h4⟩ := accept_main hF0 hl hy h hL hN
  have hflats : ∀ {ex : List (List String)}, (∀ idx ∈ ex, ∃ p, flatVar data l idx = Except.ok p) →
      ∃ flats, ex.mapM (flatVar data l) = Except.ok flats := by
    intro ex
    induction ex with
    | nil => exact fun _ => ⟨[], rfl⟩
    | cons p ex ih =>
      intro h
      obtain ⟨q, hq⟩ := h p (List.mem_cons_self ..)
      obtain ⟨flats, hf⟩ := ih fun idx hi => h idx (List.mem_cons_of_mem _ hi)
      exact ⟨q :: flats, by rw [List.mapM_cons, hq, hf]; rfl⟩
  obtain ⟨flats, hf⟩ := hflats h3
  obtain ⟨F, hF⟩ := h4 (subEnv y F0 flats data) (by simp [subEnv])
    (fun x g hx => subEnv_noFrame hf hd x g hx) (subEnv_sees h2 hf (value_uses h) hc)
  have hp : parseSub host y e l F0 data = Except.ok (.frame F) := by
    unfold parseSub
    rw [hdim]
    simp only [res_ok_bind]
    rw [if_neg (by simp), h1, h2]
    simp only [res_ok_bind]
    rw [hf]
    exact hF
  obtain ⟨F', n, e1, w, val⟩ := c42_partial hF0 hl hd
    (linearIn_visible hy (value_linearIn h)) (noLit_noTrue hL) hN hc hp
  cases e1
  have := val θ β u v h
  have hn : n = v.length := by rw [← this, predictor_length]
  subst hn
  exact ⟨F, hp, w, this⟩

/-! ## C56 -/

/-- C56 is violated: multiplication by a numeric literal is rejected, whatever the other factor, the
literal, the data and the order. -/
theorem c56_violated (host : Host) (y : String) (a : Expr) (x : ℝ) (l : List ℕ) (F0 : Frame)
    (data : Env) (V : Val) :
    parseSub host y (.call [.name "*", a, .lit (.num x)]) l F0 data ≠ Except.ok V ∧
    parseSub host y (.call [.name "*", .lit (.num x), a]) l F0 data ≠ Except.ok V := by
  have hs : status y (.lit (.num x)) = Res.raise "Don't know how to handle type" := by
    rw [status]
    simp
  constructor
  · intro h
    obtain ⟨-, e', ex, flats, h1, -⟩ := parseSub_inv h
    rw [modify] at h1
    rcases ha : status y a with err | s
    · rw [ha] at h1
      cases h1
    · rw [ha, status2, hs] at h1
      cases h1
  · intro h
    obtain ⟨-, e', ex, flats, h1, -⟩ := parseSub_inv h
    rw [modify, hs] at h1
    cases h1

/-- Names that may be used for variables. -/
def Spec.Plain (x : String) : Prop :=
  x ∉ opNames ∧ x ≠ "[fr" ∧ x ≠ "+fr" ∧ x ≠ "-fr" ∧ x ≠ "*fr" ∧ x ≠ "/fr"

theorem opNames_noFrames {f : String} (h : f ∈ opNames) :
    f ≠ "[fr" ∧ f ≠ "+fr" ∧ f ≠ "-fr" ∧ f ≠ "*fr" ∧ f ≠ "/fr" := by
  simp only [opNames, List.mem_cons, List.not_mem_nil, or_false] at h
  rcases h with rfl | rfl | rfl | rfl | rfl <;> decide

theorem indexedBy_two {p : List String} {f : String} {a b : Expr}
    (h : IndexedBy p (.call [.name f, a, b])) : p.length = 1 ∨ IndexedBy p a ∨ IndexedBy p b := by
  generalize hE : Expr.call [.name f, a, b] = E at h
  cases h with
  | here c =>
    simp only [Expr.call.injEq, List.cons.injEq] at hE
    have := congrArg List.length hE.2.2
    simp only [List.length_cons, List.length_nil, List.length_map] at this
    omega
  | @inside x xs hx h =>
    simp only [Expr.call.injEq] at hE
    subst hE
    simp only [List.mem_cons, List.not_mem_nil, or_false] at hx
    rcases hx with rfl | rfl | rfl
    · cases h
    · exact Or.inr (Or.inl h)
    · exact Or.inr (Or.inr h)

/-- Multiplication by a variable holding a number: `y[i] * k` and `k * y[i]`. -/
theorem c56_partial (host : Host) {y i k : String} {F0 : Frame} {n0 m : ℕ} {data : Env}
    {js : List ℕ} {c : ℝ} (hF0 : WellFormed F0 n0) (hd : ∀ x g, data x ≠ some (.frame g))
    (py : Plain y) (pi : Plain i) (pk : Plain k) (hyi : y ≠ i) (hyk : y ≠ k)
    (hi : data i = some (.num (js.map fun j : ℕ => (j : ℝ)))) (hjs : ∀ j ∈ js, 1 ≤ j ∧ j ≤ n0)
    (hk : data k = some (.num [c])) (θ β u : ℕ → ℝ) :
    (∃ F, parseSub host y (.call [.name "*", .call [.name "[", .name y, .name i], .name k]) [m] F0 data =
        Except.ok (.frame F) ∧
      predictor F js.length θ β u = js.map fun j => lp F0 θ β u (j - 1) * c) ∧
    (∃ F, parseSub host y (.call [.name "*", .name k, .call [.name "[", .name y, .name i]]) [m] F0 data =
        Except.ok (.frame F) ∧
      predictor F js.length θ β u = js.map fun j => lp F0 θ β u (j - 1) * c) := by
  have hny : y ∉ names (.name i) := by simpa [names] using hyi
  have hnk : y ∉ names (.name k) := by simpa [names] using hyk
  have hfil : js.filter (0 < ·) = js := List.filter_eq_self.2 fun j hj => by
    have := (hjs j hj).1
    simp only [decide_eq_true_eq]
    omega
  have v1 : Value host data y [m] (predictor F0 n0 θ β u) (.call [.name "[", .name y, .name i])
      (js.map fun j => lp F0 θ β u (j - 1)) := by
    refine .index .var hny (host.lookup _ _ _ hi) (.num _) (Or.inl ⟨js, rfl, fun j hj => ?_, ?_⟩)
    · rw [predictor_length]
      exact (hjs j hj).2
    · rw [hfil]
      refine List.map_congr_left fun j hj => ?_
      have := hjs j hj
      rw [predictor_getD (by omega)]
  have hNo : ∀ e : Expr, (∀ x ∈ names e, x = y ∨ x = i ∨ x = k ∨ x ∈ opNames) → NoFrames e := by
    intro e h x hx
    rcases h x hx with rfl | rfl | rfl | h
    · exact py.2
    · exact pi.2
    · exact pk.2
    · exact opNames_noFrames h
  have hdim : ∀ d, findDim y (.name k) d = Except.ok d := fun d => by rw [findDim]
  have hdim1 : findDim y (.call [.name "[", .name y, .name i]) none = Except.ok (some 1) := by
    rw [findDim, dimOwn, if_pos (by simp [isName])]
    simp only [res_ok_bind, List.length_cons, List.length_nil]
    rw [findDim]
    simp only [res_ok_bind]
    rw [findDimList, findDim]
    simp only [res_ok_bind]
    rw [findDimList, findDim]
    simp only [res_ok_bind]
    rw [findDimList]
  have hnoidx : ∀ {p : List String} {x : String}, ¬ IndexedBy p (.name x) := fun h => by cases h
  constructor
  · have hv := Value.mulRight v1 hnk (host.lookup _ _ _ hk)
    obtain ⟨F, e1, -, e3⟩ := c42_accepted hF0 (by simp) hd py.1
      (by simp [NoLit, NoLitList]) (hNo _ (by simp [names, namesList, opNames])) (by
        intro p q hp
        rcases indexedBy_two hp with h | h | h
        · intro _ h2
          omega
        · rcases indexedBy_two h with h | h | h
          · intro _ h2
            omega
          · exact (hnoidx h).elim
          · exact (hnoidx h).elim
        · exact (hnoidx h).elim) (by
        rw [findDim, dimOwn, if_neg (by simp [isName])]
        simp only [res_ok_bind]
        rw [findDim]
        simp only [res_ok_bind]
        rw [findDimList, hdim1]
        simp only [res_ok_bind]
        rw [findDimList, hdim]
        simp only [res_ok_bind]
        rw [findDimList]
        rfl) hv
    refine ⟨F, e1, ?_⟩
    simpa [List.map_map, Function.comp_def] using e3
  · have hv := Value.mulLeft hnk (host.lookup _ _ _ hk) v1
    obtain ⟨F, e1, -, e3⟩ := c42_accepted hF0 (by simp) hd py.1
      (by simp [NoLit, NoLitList]) (hNo _ (by simp [names, namesList, opNames])) (by
        intro p q hp
        rcases indexedBy_two hp with h | h | h
        · intro _ h2
          omega
        · exact (hnoidx h).elim
        · rcases indexedBy_two h with h | h | h
          · intro _ h2
            omega
          · exact (hnoidx h).elim
          · exact (hnoidx h).elim) (by
        rw [findDim, dimOwn, if_neg (by simp [isName])]
        simp only [res_ok_bind]
        rw [findDim]
        simp only [res_ok_bind]
        rw [findDimList, hdim]
        simp only [res_ok_bind]
        rw [findDimList, hdim1]
        simp only [res_ok_bind]
        rw [findDimList]
        rfl) hv
    refine ⟨F, e1, ?_⟩
    simpa [List.map_map, Function.comp_def, mul_comm] using e3

end Verif.SubExpr
