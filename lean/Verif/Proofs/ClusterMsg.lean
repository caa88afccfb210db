import Verif.Proofs.ClusterTree
import Mathlib.Algebra.BigOperators.Group.List.Basic
import Mathlib.Tactic.Ring
import Mathlib.Tactic.Linarith
import Mathlib.Data.Real.Basic

/-! Populating the clusters, and message passing, for beliefs obeying the laws of signed sums. -/
namespace Verif.ClusterGraph

open Verif.Items Verif.DepGraph

variable {β : Type}

/-- Laws of the belief operations: `ev b a` is the log value of belief `b` at the assignment
`a` of values to items. Nothing is assumed about the value of `margin`, only that its items
are the requested ones. -/
structure Laws (ops : Ops β) (WF : β → Prop) (ev : β → (ℤ → ℝ) → ℝ) : Prop where
  items_ofItems : ItemsLaw ops
  ofItems_wf : ∀ l : List ℤ, l.Nodup → WF (ops.ofItems l)
  ofItems_ev : ∀ l a, ev (ops.ofItems l) a = 0
  nodup : ∀ b, WF b → (ops.items b).Nodup
  mul_ok : ∀ b d, WF b → WF d → (∀ x ∈ ops.items d, x ∈ ops.items b) →
    ∃ r, ops.mul b d = Except.ok r ∧ WF r ∧ ops.items r = ops.items b ∧
      ∀ a, ev r a = ev b a + ev d a
  div_ok : ∀ b d, WF b → WF d → (∀ x ∈ ops.items d, x ∈ ops.items b) →
    ∃ r, ops.div b d = Except.ok r ∧ WF r ∧ ops.items r = ops.items b ∧
      ∀ a, ev r a = ev b a - ev d a
  margin_items : ∀ b l na r, WF b → l.Nodup → (∀ x ∈ l, x ∈ ops.items b) →
    ops.margin b l na = Except.ok r → WF r ∧ ∀ x, x ∈ ops.items r ↔ x ∈ l

variable {ops : Ops β} {WF : β → Prop} {ev : β → (ℤ → ℝ) → ℝ}

theorem mulAll_ok (L : Laws ops WF ev) : ∀ (bs : List β) (b : β), WF b →
    (∀ d ∈ bs, WF d ∧ ∀ x ∈ ops.items d, x ∈ ops.items b) →
    ∃ r, mulAll ops b bs = Except.ok r ∧ WF r ∧ ops.items r = ops.items b ∧
      ∀ a, ev r a = ev b a + (bs.map fun d => ev d a).sum
  | [], b, hb, _ => ⟨b, rfl, hb, rfl, fun a => by simp⟩
  | d :: bs, b, hb, h => by
    obtain ⟨hd, hs⟩ := h d (by simp)
    obtain ⟨r1, e1, w1, i1, v1⟩ := L.mul_ok b d hb hd hs
    obtain ⟨r, e, w, i, v⟩ := mulAll_ok L bs r1 w1 fun d' hd' => by
      rw [i1]; exact h d' (by simp [hd'])
    refine ⟨r, ?_, w, i.trans i1, fun a => ?_⟩
    · rw [mulAll, List.foldlM_cons, e1]; exact e
    · rw [v a, v1 a, List.map_cons, List.sum_cons]; ring

theorem perm_filter_not {α : Type} (p : α → Bool) (l : List α) :
    (l.filter p ++ l.filter fun x => !p x).Perm l := List.filter_append_perm p l

/-- The beliefs are distributed over the clusters: each goes to exactly one cluster, one that
contains its items. -/
theorem populateClusters_ok (L : Laws ops WF ev) : ∀ (cs bs : List β), (∀ c ∈ cs, WF c) →
    (∀ b ∈ bs, WF b) → (∀ b ∈ bs, ∃ c ∈ cs, ∀ x ∈ ops.items b, x ∈ ops.items c) →
    ∃ (rs : List β) (bss : List (List β)), populateClusters ops cs bs = Except.ok rs ∧
      rs.length = cs.length ∧ bss.length = cs.length ∧ bss.flatten.Perm bs ∧
      (∀ r ∈ rs, WF r) ∧ rs.map ops.items = cs.map ops.items ∧
      (∀ (k : ℕ) c r B, cs[k]? = some c → rs[k]? = some r → bss[k]? = some B →
        (∀ b ∈ B, ∀ x ∈ ops.items b, x ∈ ops.items c) ∧ mulAll ops c B = Except.ok r ∧
        ∀ a, ev r a = ev c a + (B.map fun b => ev b a).sum)
  | [], bs, _, _, hc => by
    have : bs = [] := by
      cases bs with
      | nil => rfl
      | cons b bs => obtain ⟨c, hc, -⟩ := hc b (by simp); simp at hc
    subst this
    exact ⟨[], [], rfl, rfl, rfl, by simp, by simp, rfl, by simp⟩
  | c :: cs, bs, hcs, hbs, hc => by
    have hcw := hcs c (by simp)
    have hsub : ∀ b ∈ bs, (isSubset (ops.items b) (ops.items c) = true ↔
        ∀ x ∈ ops.items b, x ∈ ops.items c) := fun b hb =>
      isSubset_iff (L.nodup b (hbs b hb)) (L.nodup c hcw)
    set p : β → Bool := fun b => isSubset (ops.items b) (ops.items c) with hp
    obtain ⟨r, e, w, i, v⟩ := mulAll_ok L (bs.filter p) c hcw fun d hd => by
      rw [List.mem_filter] at hd
      exact ⟨hbs d hd.1, (hsub d hd.1).mp hd.2⟩
    obtain ⟨rs, bss, e2, l1, l2, hperm, hw, hi, hk⟩ := populateClusters_ok L cs
      (bs.filter fun b => !p b) (fun c' hc' => hcs c' (by simp [hc']))
      (fun b hb => hbs b (List.mem_of_mem_filter hb)) (fun b hb => by
        rw [List.mem_filter] at hb
        obtain ⟨c', hc', hs⟩ := hc b hb.1
        rcases List.mem_cons.mp hc' with rfl | hc'
        · have := (hsub b hb.1).mpr hs
          simp [hp, this] at hb
        · exact ⟨c', hc', hs⟩)
    refine ⟨r :: rs, (bs.filter p) :: bss, ?_, by simp [l1], by simp [l2], ?_, ?_, ?_, ?_⟩
    · rw [populateClusters]
      simp only
      rw [e]
      simp only [res_ok_bind]
      rw [e2]
      rfl
    · rw [List.flatten_cons]
      exact (hperm.append_left _).trans (perm_filter_not p bs)
    · intro r' hr'
      rcases List.mem_cons.mp hr' with rfl | hr'
      · exact w
      · exact hw r' hr'
    · rw [List.map_cons, List.map_cons, i, hi]
    · intro k c' r' B h1 h2 h3
      cases k with
      | zero =>
        simp only [List.getElem?_cons_zero, Option.some.injEq] at h1 h2 h3
        subst h1 h2 h3
        refine ⟨fun b hb => ?_, e, v⟩
        rw [List.mem_filter] at hb
        exact (hsub b hb.1).mp hb.2
      | succ k =>
        simp only [List.getElem?_cons_succ] at h1 h2 h3
        exact hk k c' r' B h1 h2 h3

theorem sum_of_get {α γ : Type} (f : α → ℝ) (g : γ → ℝ) (q : List γ → ℝ)
    (hq : ∀ l, q l = (l.map g).sum) (e : α → ℝ) :
    ∀ (cs rs : List α) (bss : List (List γ)), rs.length = cs.length → bss.length = cs.length →
    (∀ (k : ℕ) c r B, cs[k]? = some c → rs[k]? = some r → bss[k]? = some B →
      f r = e c + (B.map g).sum) →
    (rs.map f).sum = (cs.map e).sum + (bss.flatten.map g).sum
  | [], rs, bss, h1, h2, _ => by
    have h1' : rs = [] := by simpa using h1
    have h2' : bss = [] := by simpa using h2
    simp [h1', h2']
  | c :: cs, r :: rs, B :: bss, h1, h2, h => by
    have h0 := h 0 c r B rfl rfl rfl
    have ih := sum_of_get f g q hq e cs rs bss (by simpa using h1) (by simpa using h2)
      fun k c' r' B' a b d => h (k + 1) c' r' B' (by simpa using a) (by simpa using b)
        (by simpa using d)
    simp only [List.map_cons, List.sum_cons, List.flatten_cons, List.map_append, List.sum_append]
    rw [ih, h0]
    ring
  | _ :: _, [], _, h1, _, _ => by simp at h1
  | _ :: _, _ :: _, [], _, h2, _ => by simp at h2

/-! ## Message passing -/

/-- The joint log value represented by a cluster graph: clusters minus edges. -/
def joint (ev : β → (ℤ → ℝ) → ℝ) (c : CG β) (a : ℤ → ℝ) : ℝ :=
  (c.clusters.map fun b => ev b a).sum - (c.edges.map fun e => ev e.belief a).sum

/-- Invariant of message passing: everything well formed, each edge joins two existing clusters
and its items belong to both. -/
structure MsgInv (ops : Ops β) (WF : β → Prop) (c : CG β) : Prop where
  wfC : ∀ b ∈ c.clusters, WF b
  wfE : ∀ e ∈ c.edges, WF e.belief
  ends : ∀ e ∈ c.edges, ∃ (i j : ℕ) (hi : i < c.clusters.length) (hj : j < c.clusters.length),
    e.first = i ∧ e.second = j ∧ (∀ x ∈ ops.items e.belief, x ∈ ops.items c.clusters[i]) ∧
    ∀ x ∈ ops.items e.belief, x ∈ ops.items c.clusters[j]

theorem atZ_ok {α : Type} {l : List α} {i : ℕ} (h : i < l.length) :
    atZ l (i : ℤ) = Except.ok l[i] := by
  rw [atZ, if_neg (by omega)]
  simp only [Int.toNat_natCast]
  exact atE_ok h

theorem setZ_ok {α : Type} {l : List α} {i : ℕ} (h : i < l.length) (a : α) :
    setZ l (i : ℤ) a = Except.ok (l.set i a) := by
  rw [setZ, if_neg (by omega)]
  simp only [Int.toNat_natCast]
  exact setE_ok h

theorem sum_set (f : β → ℝ) : ∀ (l : List β) (i : ℕ) (b : β) (h : i < l.length),
    ((l.set i b).map f).sum = (l.map f).sum + (f b - f l[i])
  | x :: l, 0, b, _ => by
    simp only [List.set_cons_zero, List.map_cons, List.sum_cons, List.getElem_cons_zero]; ring
  | x :: l, i + 1, b, h => by
    simp only [List.set_cons_succ, List.map_cons, List.sum_cons, List.getElem_cons_succ]
    rw [sum_set f l i b (by simpa using h)]
    ring

theorem mem_set_cases {α : Type} {l : List α} {i : ℕ} {a x : α} (h : x ∈ l.set i a) :
    x = a ∨ x ∈ l := by
  rcases List.mem_or_eq_of_mem_set h with h | h
  · exact Or.inr h
  · exact Or.inl h

/-- One message that returns normally keeps the invariant and the joint function. -/
theorem passMessage_joint (L : Laws ops WF ev) {c c' : CG β} {k : ℕ} {fw na : Bool}
    (inv : MsgInv ops WF c) (h : passMessage ops c k fw na = Except.ok c') :
    MsgInv ops WF c' ∧ (∀ a, joint ev c' a = joint ev c a) ∧
      c'.clusters.map ops.items = c.clusters.map ops.items ∧
      c'.edges.map Edge.first = c.edges.map Edge.first ∧
      c'.edges.map Edge.second = c.edges.map Edge.second := by
  rw [passMessage] at h
  by_cases hk : k < c.edges.length
  swap
  · rw [nth, List.getElem?_eq_none (by omega)] at h
    cases h
  rw [nth_ok hk] at h
  simp only [res_ok_bind] at h
  set e := c.edges[k] with he
  have hem : e ∈ c.edges := List.getElem_mem hk
  obtain ⟨i0, j0, hi0, hj0, hf, hs, hsi, hsj⟩ := inv.ends e hem
  -- source and target
  obtain ⟨i, j, hi, hj, hij, hci, hcj⟩ : ∃ (i j : ℕ) (hi : i < c.clusters.length)
      (hj : j < c.clusters.length), ends e fw = ((i : ℤ), (j : ℤ)) ∧
      (∀ x ∈ ops.items e.belief, x ∈ ops.items c.clusters[i]) ∧
      ∀ x ∈ ops.items e.belief, x ∈ ops.items c.clusters[j] := by
    cases fw with
    | true => exact ⟨i0, j0, hi0, hj0, by simp [ClusterGraph.ends, hf, hs], hsi, hsj⟩
    | false => exact ⟨j0, i0, hj0, hi0, by simp [ClusterGraph.ends, hf, hs], hsj, hsi⟩
  rw [hij] at h
  simp only at h
  rw [atZ_ok hi] at h
  simp only [res_ok_bind] at h
  have hwe : WF e.belief := inv.wfE e hem
  rcases hm : ops.margin c.clusters[i] (ops.items e.belief) na with err | b
  · rw [hm] at h; cases h
  rw [hm] at h
  simp only [res_ok_bind] at h
  obtain ⟨hbw, hbi⟩ := L.margin_items _ _ _ _ (inv.wfC _ (List.getElem_mem hi))
    (L.nodup _ hwe) hci hm
  rw [setN_ok hk] at h
  simp only [res_ok_bind] at h
  rw [atZ_ok hj] at h
  simp only [res_ok_bind] at h
  have hwj := inv.wfC _ (List.getElem_mem hj)
  obtain ⟨r1, e1, w1, i1, v1⟩ := L.mul_ok _ b hwj hbw fun x hx => hcj x ((hbi x).mp hx)
  rw [e1] at h
  simp only [res_ok_bind] at h
  obtain ⟨r2, e2, w2, i2, v2⟩ := L.div_ok r1 e.belief w1 hwe fun x hx => by
    rw [i1]; exact hcj x hx
  rw [e2] at h
  simp only [res_ok_bind] at h
  rw [setZ_ok hj] at h
  simp only [res_ok_bind] at h
  rcases hpr : ops.isProper r2 with err | pr
  · rw [hpr] at h; cases h
  rw [hpr] at h
  simp only [res_ok_bind] at h
  cases pr with
  | false => cases h
  | true =>
    simp only [if_true, res_pure] at h
    cases h
    have hitems : (c.clusters.set j r2).map ops.items = c.clusters.map ops.items := by
      rw [List.map_set, i2, i1]
      exact DepGraph.set_same (by simp [hj])
    have hget : ∀ (l : ℕ) (hl : l < c.clusters.length)
        (hl' : l < (c.clusters.set j r2).length),
        ops.items (c.clusters.set j r2)[l] = ops.items c.clusters[l] := by
      intro l hl hl'
      have h1 : ((c.clusters.set j r2).map ops.items)[l]? = (c.clusters.map ops.items)[l]? := by
        rw [hitems]
      rw [List.getElem?_map, List.getElem?_map, List.getElem?_eq_getElem hl',
        List.getElem?_eq_getElem hl] at h1
      simpa using h1
    refine ⟨⟨?_, ?_, ?_⟩, ?_, hitems, ?_, ?_⟩
    · intro b' hb'
      rcases mem_set_cases hb' with rfl | hb'
      · exact w2
      · exact inv.wfC _ hb'
    · intro e' he'
      rcases mem_set_cases he' with rfl | he'
      · exact hbw
      · exact inv.wfE _ he'
    · intro e' he'
      rcases mem_set_cases he' with rfl | he'
      · refine ⟨i0, j0, by simpa using hi0, by simpa using hj0, hf, hs, ?_, ?_⟩
        · intro x hx
          rw [hget i0 hi0]
          exact hsi x ((hbi x).mp hx)
        · intro x hx
          rw [hget j0 hj0]
          exact hsj x ((hbi x).mp hx)
      · obtain ⟨i', j', hi', hj', hf', hs', hsi', hsj'⟩ := inv.ends e' he'
        refine ⟨i', j', by simpa using hi', by simpa using hj', hf', hs', ?_, ?_⟩
        · intro x hx; rw [hget i' hi']; exact hsi' x hx
        · intro x hx; rw [hget j' hj']; exact hsj' x hx
    · intro a
      have hE : ((c.edges.set k ⟨e.first, e.second, b⟩).map fun e => ev e.belief a).sum =
          (c.edges.map fun e => ev e.belief a).sum + (ev b a - ev e.belief a) :=
        sum_set (fun e : Edge β => ev e.belief a) c.edges k ⟨e.first, e.second, b⟩ hk
      have hC := sum_set (fun b => ev b a) c.clusters j r2 hj
      simp only [joint]
      rw [hC, hE, v2 a, v1 a]
      ring
    · rw [List.map_set]
      exact DepGraph.set_same (by simp [hk, he])
    · rw [List.map_set]
      exact DepGraph.set_same (by simp [hk, he])

/-- A message to send: edge number, direction, normal approximation only. -/
abbrev Msg := ℕ × Bool × Bool

/-- Send a sequence of messages. -/
def passAll (ops : Ops β) (c : CG β) (ms : List Msg) : Res (CG β) :=
  ms.foldlM (fun c m => passMessage ops c m.1 m.2.1 m.2.2) c

theorem passAll_joint (L : Laws ops WF ev) : ∀ (ms : List Msg) {c c' : CG β},
    MsgInv ops WF c → passAll ops c ms = Except.ok c' →
    MsgInv ops WF c' ∧ (∀ a, joint ev c' a = joint ev c a) ∧
      c'.clusters.map ops.items = c.clusters.map ops.items
  | [], c, c', inv, h => by
    cases h
    exact ⟨inv, fun a => rfl, rfl⟩
  | m :: ms, c, c', inv, h => by
    rw [passAll, List.foldlM_cons] at h
    rcases hm : passMessage ops c m.1 m.2.1 m.2.2 with err | c1
    · rw [hm] at h; cases h
    rw [hm] at h
    obtain ⟨inv1, hj1, hi1, -⟩ := passMessage_joint L inv hm
    obtain ⟨inv2, hj2, hi2⟩ := passAll_joint L ms inv1 h
    exact ⟨inv2, fun a => (hj2 a).trans (hj1 a), hi2.trans hi1⟩

/-- `extractBeliefs` returns beliefs whose product is the joint function. -/
theorem extract_joint (L : Laws ops WF ev) {c : CG β} (inv : MsgInv ops WF c) :
    ∃ bs, extractBeliefs ops c = Except.ok bs ∧ bs.length = c.clusters.length ∧
      ∀ a, (bs.map fun b => ev b a).sum = joint ev c a := by
  have key : ∀ (es : List (Edge β)) (bs : List β), (∀ b ∈ bs, WF b) →
      (∀ e ∈ es, WF e.belief ∧ ∃ (j : ℕ) (hj : j < bs.length), e.second = j ∧
        ∀ x ∈ ops.items e.belief, x ∈ ops.items bs[j]) →
      ∃ bs', es.foldlM (fun bs e => do
          let b ← atZ bs e.second
          let b' ← ops.div b e.belief
          setZ bs e.second b') bs = (Except.ok bs' : Res _) ∧ bs'.length = bs.length ∧
        ∀ a, (bs'.map fun b => ev b a).sum =
          (bs.map fun b => ev b a).sum - (es.map fun e => ev e.belief a).sum := by
    intro es
    induction es with
    | nil => intro bs _ _; exact ⟨bs, rfl, rfl, fun a => by simp⟩
    | cons e es ih =>
      intro bs hw hes
      obtain ⟨hwe, j, hj, hs, hsub⟩ := hes e (by simp)
      obtain ⟨r, er, wr, ir, vr⟩ := L.div_ok bs[j] e.belief (hw _ (List.getElem_mem hj)) hwe hsub
      rw [List.foldlM_cons]
      rw [hs, atZ_ok hj]
      simp only [res_ok_bind]
      rw [er]
      simp only [res_ok_bind]
      rw [setZ_ok hj]
      simp only [res_ok_bind]
      obtain ⟨bs', e', l', v'⟩ := ih (bs.set j r) (by
        intro b hb
        rcases mem_set_cases hb with rfl | hb
        · exact wr
        · exact hw b hb) (by
        intro e1 he1
        obtain ⟨hw1, j1, hj1, hs1, hsub1⟩ := hes e1 (by simp [he1])
        refine ⟨hw1, j1, by simpa using hj1, hs1, fun x hx => ?_⟩
        rw [List.getElem_set]
        split
        · rename_i hjj
          subst hjj
          rw [ir]; exact hsub1 x hx
        · exact hsub1 x hx)
      refine ⟨bs', e', by rw [l', List.length_set], fun a => ?_⟩
      rw [v' a, sum_set (fun b => ev b a) bs j r hj, vr a]
      simp only [List.map_cons, List.sum_cons]
      ring
  obtain ⟨bs, e, l, v⟩ := key c.edges c.clusters inv.wfC fun e he => by
    obtain ⟨i, j, hi, hj, -, hs, -, hsj⟩ := inv.ends e he
    exact ⟨inv.wfE e he, j, hj, hs, hsj⟩
  exact ⟨bs, e, l, v⟩

/-- The cluster graph built from well-formed beliefs. -/
theorem ofBeliefs_ok (L : Laws ops WF ev) (beliefs : List β) (hb : ∀ b ∈ beliefs, WF b)
    {ar : Arith} {B : ℤ} (hf : Fits ar B) (hB1 : 1 ≤ B)
    (hb1 : (((depA (beliefs.map ops.items)).active.card : ℕ) : ℤ) *
      ((depA (beliefs.map ops.items)).active.card - 1) ≤ B)
    (hb2 : (((depA (beliefs.map ops.items)).active.card : ℕ) : ℤ) ≤ B) :
    ∃ c, ofBeliefs ar ops beliefs = Except.ok c ∧ Built ops (beliefs.map ops.items) c ∧
      MsgInv ops WF c ∧ (∀ e ∈ c.edges, ∀ a, ev e.belief a = 0) ∧
      ∃ bss : List (List β), bss.length = c.clusters.length ∧ bss.flatten.Perm beliefs ∧
        (∀ (k : ℕ) r B, c.clusters[k]? = some r → bss[k]? = some B →
          (∀ b ∈ B, ∀ x ∈ ops.items b, x ∈ ops.items r) ∧
          (∃ c0, c0 = ops.ofItems (ops.items r) ∧ mulAll ops c0 B = Except.ok r) ∧
          ∀ a, ev r a = (B.map fun b => ev b a).sum) ∧
        ∀ a, joint ev c a = (beliefs.map fun b => ev b a).sum := by
  have hFn : ∀ F ∈ beliefs.map ops.items, F.Nodup := by
    intro F hF
    obtain ⟨b, hbm, rfl⟩ := List.mem_map.mp hF
    exact L.nodup b (hb b hbm)
  obtain ⟨g, c0, eg, ec, hB⟩ := init_ok L.items_ofItems (beliefs.map ops.items) hFn hf hB1 hb1 hb2
  have hform := init_form (ops := ops) ec
  have hwfC : ∀ b ∈ c0.clusters, WF b := by
    intro b hbm
    obtain ⟨l, rfl⟩ := hform.1 b hbm
    refine L.ofItems_wf l ?_
    obtain ⟨k, hk⟩ := List.mem_iff_getElem?.mp hbm
    have := hB.ndC k
    simpa [cl, hk, L.items_ofItems l] using this
  have hwfE : ∀ e ∈ c0.edges, WF e.belief ∧ ∀ a, ev e.belief a = 0 := by
    intro e he
    obtain ⟨l, hl⟩ := hform.2 e he
    rw [hl]
    refine ⟨L.ofItems_wf l ?_, L.ofItems_ev l⟩
    obtain ⟨k, hk⟩ := List.mem_iff_getElem?.mp he
    have := hB.ndS k
    simpa [sp, hk, hl, L.items_ofItems l] using this
  have hcov : ∀ b ∈ beliefs, ∃ c ∈ c0.clusters, ∀ x ∈ ops.items b, x ∈ ops.items c := by
    intro b hbm
    obtain ⟨k, hk, hc⟩ := hB.cover _ (List.mem_map_of_mem (f := ops.items) hbm)
    exact ⟨c0.clusters[k], List.getElem_mem hk, fun x hx => by simpa [cl, hk] using hc x hx⟩
  obtain ⟨rs, bss, er, l1, l2, hperm, hw, hi, hk⟩ := populateClusters_ok L c0.clusters beliefs
    hwfC hb hcov
  have hcl : ∀ k, cl ops ⟨rs, c0.edges⟩ k = cl ops c0 k := by
    intro k
    unfold cl
    rw [← List.getElem?_map, ← List.getElem?_map, hi]
  have hri : ∀ k (hk : k < rs.length), ops.items rs[k] = cl ops c0 k := by
    intro k hk
    rw [← hcl]; simp [cl, hk]
  refine ⟨⟨rs, c0.edges⟩, ?_, ?_, ?_, fun e he => (hwfE e he).2, bss, by simp [l1, l2], hperm,
    ?_, ?_⟩
  · rw [ofBeliefs, eg]
    simp only [res_ok_bind]
    rw [ec]
    simp only [res_ok_bind]
    rw [populate, er]
    rfl
  · refine ⟨by simpa [l1] using hB.len, hB.ndS, fun k => by rw [hcl]; exact hB.ndC k, ?_, ?_, ?_, ?_⟩
    · intro k hk
      obtain ⟨h1, p, h2, h3, h4, h5⟩ := hB.edge k hk
      exact ⟨h1, p, h2, by simpa [l1] using h3, h4, fun x hx => by rw [hcl]; exact h5 x hx⟩
    · intro k hk
      obtain ⟨v, h1, h2, h3, h4⟩ := hB.elim k hk
      exact ⟨v, h1, fun x => by rw [hcl]; exact h2 x, fun j hj => by rw [hcl]; exact h3 j hj,
        fun x hx => by
          obtain ⟨j, hj, hxj⟩ := h4 x hx
          exact ⟨j, hj, by rw [hcl]; exact hxj⟩⟩
    · intro F hF
      obtain ⟨k, hk, hc⟩ := hB.cover F hF
      exact ⟨k, by simpa [l1] using hk, fun x hx => by rw [hcl]; exact hc x hx⟩
    · intro x
      rw [← hB.items x]
      simp only [hcl]
  · refine ⟨hw, fun e he => (hwfE e he).1, ?_⟩
    intro e he
    obtain ⟨k, hk, rfl⟩ := List.mem_iff_getElem.mp he
    obtain ⟨h1, p, h2, h3, h4, h5⟩ := hB.edge k hk
    have hkr : k < rs.length := by
      rw [l1, ← hB.len]; exact Nat.lt_succ_of_lt hk
    have hpr : p < rs.length := by rw [l1]; exact h3
    refine ⟨k, p, hkr, hpr, h1, h4, ?_, ?_⟩
    · intro x hx
      rw [hri k hkr]
      rw [← sp_eq hk] at hx
      exact ((hB.sep_iff hk x).mp hx).1
    · intro x hx
      rw [hri p hpr]
      rw [← sp_eq hk] at hx
      exact h5 x hx
  · intro k r B' h1 h2
    have h1' : rs[k]? = some r := h1
    have hkl : k < c0.clusters.length := by
      rw [← l1]; exact (List.getElem?_eq_some_iff.mp h1').1
    have h0 : c0.clusters[k]? = some c0.clusters[k] := List.getElem?_eq_getElem hkl
    obtain ⟨hs, hm, hv⟩ := hk k _ r B' h0 h1' h2
    obtain ⟨l, hl⟩ := hform.1 _ (List.getElem_mem hkl)
    have hir : ops.items r = ops.items c0.clusters[k] := by
      have := congrArg (fun l => l[k]?) hi
      simp only [List.getElem?_map, h1', h0] at this
      simpa using this
    have hlr : ops.items r = l := by rw [hir, hl, L.items_ofItems]
    refine ⟨fun b hb x hx => by rw [hir]; exact hs b hb x hx, ⟨_, rfl, ?_⟩, fun a => ?_⟩
    · rw [hlr, ← hl]; exact hm
    · rw [hv a, hl, L.ofItems_ev, zero_add]
  · intro a
    simp only [joint]
    have h1 := sum_of_get (fun r => ev r a) (fun b => ev b a) (fun l => (l.map fun b => ev b a).sum)
      (fun _ => rfl) (fun c => ev c a) c0.clusters rs bss l1 l2
      (fun k c r B h1 h2 h3 => (hk k c r B h1 h2 h3).2.2 a)
    have h2 : (c0.clusters.map fun c => ev c a).sum = 0 := by
      refine List.sum_eq_zero ?_
      intro y hy
      obtain ⟨b, hbm, rfl⟩ := List.mem_map.mp hy
      obtain ⟨l, rfl⟩ := hform.1 b hbm
      exact L.ofItems_ev l a
    have h3 : (c0.edges.map fun e => ev e.belief a).sum = 0 := by
      refine List.sum_eq_zero ?_
      intro y hy
      obtain ⟨e, hem, rfl⟩ := List.mem_map.mp hy
      exact (hwfE e hem).2 a
    rw [h1, h2, h3, zero_add, sub_zero]
    exact (hperm.map _).sum_eq

end Verif.ClusterGraph
