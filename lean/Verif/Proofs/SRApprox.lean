import Verif.Proofs.ClusterApprox
import Verif.Props.Calibrate
import Verif.Props.SR

/-! `setNormalApprox` changes normal approximations only, for the concrete beliefs. -/
namespace Verif.SR

open Verif.Gauss Verif.Belief Verif.ClusterGraph Verif.Store Verif.Pars Verif.Items

section Generic

variable {β : Type} {ops : Ops β} {WF : β → Prop} {ev : β → (ℤ → ℝ) → ℝ} {factors : List (List ℤ)}
  {c0 c c' : CG β}

theorem same_cl (S : Same ops WF c0 c) (k : ℕ) : cl ops c k = cl ops c0 k := by
  by_cases hk : k < c.clusters.length
  · rw [← S.cl hk]
    simp [cl, hk]
  · rw [cl, cl, List.getElem?_eq_none (by omega), List.getElem?_eq_none (by
      have := S.lenC
      omega)]

theorem same_sp (S : Same ops WF c0 c) (k : ℕ) (x : ℤ) :
    x ∈ sp ops c.edges k ↔ x ∈ sp ops c0.edges k := by
  by_cases hk : k < c.edges.length
  · rw [← S.seps k hk x, sp_eq hk]
  · rw [sp, sp, List.getElem?_eq_none (by omega), List.getElem?_eq_none (by
      have := S.len
      omega)]

/-- Messages keep the structure of a cluster graph. -/
theorem Built.same (L : Laws ops WF ev) (hB : Built ops factors c0) (S : Same ops WF c0 c) :
    Built ops factors c := by
  refine ⟨by rw [S.len, S.lenC, hB.len], fun k => ?_, fun k => by rw [same_cl S]; exact hB.ndC k,
    fun k hk => ?_, fun k hk => ?_, fun F hF => ?_, fun x => ?_⟩
  · by_cases hk : k < c.edges.length
    · rw [sp_eq hk]
      exact L.nodup _ (S.inv.wfE _ (List.getElem_mem hk))
    · rw [sp, List.getElem?_eq_none (by omega)]
      exact List.nodup_nil
  · have hk' : k < c0.edges.length := by rw [← S.len]; exact hk
    obtain ⟨h1, p, h2, h3, h4, h5⟩ := hB.edge k hk'
    obtain ⟨e1, e2⟩ := S.ends k hk hk'
    refine ⟨e1.trans h1, p, h2, by rw [S.lenC]; exact h3, e2.trans h4, fun x hx => ?_⟩
    rw [same_cl S]
    exact h5 x ((same_sp S k x).1 hx)
  · obtain ⟨v, h1, h2, h3, h4⟩ := hB.elim k (by rw [← S.len]; exact hk)
    refine ⟨v, fun h => h1 ((same_sp S k v).1 h), fun x => ?_, fun j hj => by
      rw [same_cl S]; exact h3 j hj, fun x hx => ?_⟩
    · rw [same_cl S, same_sp S]
      exact h2 x
    · obtain ⟨j, hj, h⟩ := h4 x ((same_sp S k x).1 hx)
      exact ⟨j, hj, by rw [same_cl S]; exact h⟩
  · obtain ⟨k, hk, h⟩ := hB.cover F hF
    exact ⟨k, by rw [S.lenC]; exact hk, fun x hx => by rw [same_cl S]; exact h x hx⟩
  · simp only [same_cl S]
    exact hB.items x

/-- Same structure, the same values of the clusters, and edges of value 0. -/
structure Kin (ops : Ops β) (WF : β → Prop) (ev : β → (ℤ → ℝ) → ℝ) (c0 c : CG β) : Prop where
  same : Same ops WF c0 c
  val : ∀ (k : ℕ) (h : k < c.clusters.length) (h' : k < c0.clusters.length) a,
    ev c.clusters[k] a = ev c0.clusters[k] a
  zero : ∀ e ∈ c.edges, ∀ a, ev e.belief a = 0

/-- A message without factors. -/
theorem kin_step (L : Laws ops WF ev)
    (hz : ∀ b l r, ops.margin b l true = Except.ok r → ∀ a, ev r a = 0) {k : ℕ} {fw : Bool}
    (K : Kin ops WF ev c0 c) (h : passMessage ops c k fw true = Except.ok c') :
    Kin ops WF ev c0 c' := by
  obtain ⟨hke, i, j, hi, hj, b, r, hends, hsub, hm, hbw, hrw, hri, hrv, hc1, hc2, -⟩ :=
    passMessage_form L K.same.inv h
  refine ⟨same_step L K.same h, fun l hl hl' a => ?_, fun e he a => ?_⟩
  · simp only [hc1, List.getElem_set]
    split_ifs with hjl
    · subst hjl
      rw [hrv a, hz _ _ _ hm a, K.zero _ (List.getElem_mem hke) a, add_zero, sub_zero]
      exact K.val _ hj hl' a
    · exact K.val _ _ hl' a
  · rw [hc2] at he
    rcases List.mem_or_eq_of_mem_set he with he | rfl
    · exact K.zero e he a
    · exact hz _ _ _ hm a

theorem kin_passAll (L : Laws ops WF ev)
    (hz : ∀ b l r, ops.margin b l true = Except.ok r → ∀ a, ev r a = 0) : ∀ (ms : List Msg)
    {c c' : CG β}, (∀ m ∈ ms, m.2.2 = true) → Kin ops WF ev c0 c → passAll ops c ms = Except.ok c' →
    Kin ops WF ev c0 c'
  | [], c, c', _, K, h => by
    cases h
    exact K
  | m :: ms, c, c', hna, K, h => by
    rw [passAll, List.foldlM_cons] at h
    rcases hp : passMessage ops c m.1 m.2.1 m.2.2 with err | c1
    · rw [hp] at h; cases h
    rw [hp] at h
    rw [hna m (by simp)] at hp
    exact kin_passAll L hz ms (fun m' hm' => hna m' (by simp [hm'])) (kin_step L hz K hp) h

theorem kin_calibrate (L : Laws ops WF ev)
    (hz : ∀ b l r, ops.margin b l true = Except.ok r → ∀ a, ev r a = 0) {fw : Bool}
    (K : Kin ops WF ev c0 c) (h : calibrateInternal ops c fw true = Except.ok c') :
    Kin ops WF ev c0 c' := by
  rw [calibrate_is_passAll] at h
  refine kin_passAll L hz _ (fun m hm => ?_) K h
  obtain ⟨k, -, rfl⟩ := List.mem_map.mp hm
  rfl

/-- Messages without items shift the values of the clusters. -/
theorem shift_passAll (L : Laws ops WF ev)
    (hloc : ∀ b, WF b → ops.items b = [] → ∀ a a', ev b a = ev b a') : ∀ (ms : List Msg)
    {c c' : CG β}, MsgInv ops WF c → (∀ e ∈ c.edges, ops.items e.belief = []) →
    passAll ops c ms = Except.ok c' → ∀ (k : ℕ) (h' : k < c'.clusters.length)
      (h : k < c.clusters.length), ∃ s, ∀ a, ev c'.clusters[k] a = ev c.clusters[k] a + s
  | [], c, c', _, _, h => by
    cases h
    exact fun k _ _ => ⟨0, fun a => (add_zero _).symm⟩
  | m :: ms, c, c', inv, he, h => by
    rw [passAll, List.foldlM_cons] at h
    rcases hp : passMessage ops c m.1 m.2.1 m.2.2 with err | c1
    · rw [hp] at h; cases h
    rw [hp] at h
    obtain ⟨hke, i, j, hi, hj, b, r, hends, hsub, hm, hbw, hrw, hri, hrv, hc1, hc2, -⟩ :=
      passMessage_form L inv hp
    have hn := L.nodup _ (inv.wfE _ (List.getElem_mem hke))
    have hb0 : ops.items b = [] := by
      rw [List.eq_nil_iff_forall_not_mem]
      intro x hx
      have := ((L.margin_items _ _ _ _ (inv.wfC _ (List.getElem_mem hi)) hn hsub hm).2 x).1 hx
      rw [he _ (List.getElem_mem hke)] at this
      simp at this
    have he1 : ∀ e ∈ c1.edges, ops.items e.belief = [] := by
      intro e hem
      rw [hc2] at hem
      rcases List.mem_or_eq_of_mem_set hem with hem | rfl
      · exact he e hem
      · exact hb0
    intro k h' h0
    have hk1 : k < c1.clusters.length := by rw [hc1, List.length_set]; exact h0
    obtain ⟨s, hs⟩ := shift_passAll L hloc ms (passMessage_joint L inv hp).1 he1 h k h' hk1
    by_cases hjk : j = k
    · subst hjk
      refine ⟨s + (ev b (fun _ => 0) - ev c.edges[m.1].belief fun _ => 0), fun a => ?_⟩
      rw [hs a]
      have : c1.clusters[j] = r := by
        simp only [hc1, List.getElem_set_self]
      rw [this, hrv a, hloc b hbw hb0 a fun _ => 0,
        hloc _ (inv.wfE _ (List.getElem_mem hke)) (he _ (List.getElem_mem hke)) a fun _ => 0]
      ring
    · refine ⟨s, fun a => ?_⟩
      rw [hs a]
      have : c1.clusters[k] = c.clusters[k] := by
        simp only [hc1]
        exact List.getElem_set_ne hjk _
      rw [this]

end Generic

section Mixed

variable {γ : Type} {fo : FactorOps γ} {GWF : γ → Prop} {F : γ → List ℝ → ℝ} {st : Belief.Store γ NB}

theorem margin_normal {b r : Mixed γ NB} {l : List ℤ}
    (h : (Mixed.ops fo NB.ops st).margin b l true = Except.ok r) (a : ℤ → ℝ) :
    value fo F r a = 0 := by
  change Mixed.margin fo NB.ops st b l true = Except.ok r at h
  rw [Mixed.margin, if_pos rfl] at h
  rcases hn : NB.ops.margin b.normalApprox l with err | n
  · rw [hn] at h; cases h
  rw [hn] at h
  simp only [res_ok_bind, res_pure] at h
  cases h
  rw [value_setNormal]
  simp [value, Mixed.ofItems]

theorem restrictMixed_ok {N : ℕ} {mean : Fin N → ℝ} {Q : Matrix (Fin N) (Fin N) ℝ}
    {b r : Mixed γ NB} (hb : Belief.WF fo NB.ops GWF NWF b)
    (h : restrictMixed mean Q b = Except.ok r) :
    Belief.WF fo NB.ops GWF NWF r ∧ r.items = b.items ∧ ∀ a, value fo F r a = value fo F b a := by
  rw [restrictMixed] at h
  rcases hn : restrict mean Q b.items with err | nb
  · rw [hn] at h; cases h
  rw [hn] at h
  simp only [res_ok_bind, res_pure] at h
  cases h
  have hnb : NWF nb ∧ nb.items = b.items := by
    rw [restrict] at hn
    split_ifs at hn
    · rcases h1 : Eigen.getVectorSubset mean (fun k : Fin b.items.length => b.items[k].toNat) with
        err | m
      · rw [h1] at hn; cases hn
      rw [h1] at hn
      simp only [res_ok_bind] at hn
      rcases h2 : Eigen.getMatrixSubset Q (fun k : Fin b.items.length => b.items[k].toNat) with
        err | p
      · rw [h2] at hn; cases hn
      rw [h2] at hn
      simp only [res_ok_bind, res_pure] at hn
      cases hn
      exact ⟨⟨hb.nodup, Or.inl rfl⟩, rfl⟩
    · cases hn
  refine ⟨wf_setNormal hb hnb.1 hnb.2, ?_, fun a => value_setNormal _ _ a⟩
  rw [Mixed.setNormalApprox]
  split <;> rfl

theorem mapM_forall₂ {α δ : Type} {f : α → Res δ} : ∀ {l : List α} {r : List δ},
    l.mapM f = Except.ok r → List.Forall₂ (fun x y => f x = Except.ok y) l r
  | [], r, h => by
    cases Except.ok.inj h
    exact .nil
  | x :: l, r, h => by
    rw [List.mapM_cons] at h
    rcases hx : f x with err | y
    · rw [hx] at h; cases h
    rw [hx] at h
    simp only [res_ok_bind] at h
    rcases hl : l.mapM f with err | ys
    · rw [hl] at h; cases h
    rw [hl] at h
    simp only [res_ok_bind, res_pure] at h
    cases h
    exact .cons hx (mapM_forall₂ hl)

/-- `setNormalApprox`, whenever it returns, changes neither structure nor values. -/
theorem kin_setNormalApprox (hgn : ∀ g, GWF g → (fo.items g).Nodup) (hst : StoreLaw fo GWF st)
    {N : ℕ} {mean : Fin N → ℝ} {Q : Matrix (Fin N) (Fin N) ℝ} {c c' : CG (Mixed γ NB)}
    (inv : MsgInv (Mixed.ops fo NB.ops st) (Belief.WF fo NB.ops GWF NWF) c)
    (hE : ∀ e ∈ c.edges, ∀ a, value fo F e.belief a = 0)
    (h : setNormalApprox fo st mean Q c = Except.ok c') :
    Kin (Mixed.ops fo NB.ops st) (Belief.WF fo NB.ops GWF NWF) (value fo F) c c' := by
  have L := mixed_laws_nd (fo := fo) F hgn nb_laws hst
  have hz : ∀ b l r, (Mixed.ops fo NB.ops st).margin b l true = Except.ok r →
      ∀ a, value fo F r a = 0 := fun b l r h a => margin_normal h a
  rw [setNormalApprox] at h
  rcases h0 : initNormal mean Q c with err | c0
  · rw [h0] at h; cases h
  rw [h0] at h
  simp only [res_ok_bind] at h
  rcases h1 : calibrateInternal (Mixed.ops fo NB.ops st) c0 true true with err | c1
  · rw [h1] at h; cases h
  rw [h1] at h
  simp only [res_ok_bind] at h
  rcases h2 : calibrateInternal (Mixed.ops fo NB.ops st) c1 false true with err | c2
  · rw [h2] at h; cases h
  rw [h2] at h
  simp only [res_ok_bind, res_pure] at h
  cases h
  -- the restricted normal approximations
  have K0 : Kin (Mixed.ops fo NB.ops st) (Belief.WF fo NB.ops GWF NWF) (value fo F) c c0 := by
    rw [initNormal] at h0
    rcases e1 : c.clusters.mapM (restrictMixed mean Q) with err | cs
    · rw [e1] at h0; cases h0
    rw [e1] at h0
    simp only [res_ok_bind] at h0
    rcases e2 : c.edges.mapM (restrictEdge mean Q) with err | es
    · rw [e2] at h0; cases h0
    rw [e2] at h0
    simp only [res_ok_bind, res_pure] at h0
    cases h0
    have f1 := mapM_forall₂ e1
    have f2 := mapM_forall₂ e2
    have l1 := f1.length_eq
    have l2 := f2.length_eq
    have g1 : ∀ (k : ℕ) (h : k < c.clusters.length) (h' : k < cs.length),
        Belief.WF fo NB.ops GWF NWF cs[k] ∧ cs[k].items = c.clusters[k].items ∧
          ∀ a, value fo F cs[k] a = value fo F c.clusters[k] a := by
      intro k hk hk'
      exact restrictMixed_ok (inv.wfC _ (List.getElem_mem hk)) (f1.get hk hk')
    have g2 : ∀ (k : ℕ) (h : k < c.edges.length) (h' : k < es.length),
        Belief.WF fo NB.ops GWF NWF es[k].belief ∧ es[k].belief.items = c.edges[k].belief.items ∧
          (∀ a, value fo F es[k].belief a = value fo F c.edges[k].belief a) ∧
          es[k].first = c.edges[k].first ∧ es[k].second = c.edges[k].second := by
      intro k hk hk'
      have := f2.get hk hk'
      change restrictEdge mean Q c.edges[k] = Except.ok es[k] at this
      rw [restrictEdge] at this
      rcases e3 : restrictMixed mean Q c.edges[k].belief with err | b
      · rw [e3] at this; cases this
      rw [e3] at this
      simp only [res_ok_bind, res_pure] at this
      have e4 := Except.ok.inj this
      rw [← e4]
      obtain ⟨w, i, v⟩ := restrictMixed_ok (F := F) (inv.wfE _ (List.getElem_mem hk)) e3
      exact ⟨w, i, v, rfl, rfl⟩
    refine ⟨⟨⟨fun b hb => ?_, fun e he => ?_, fun e he => ?_⟩, ?_, l2.symm, fun k hk hk' => ?_,
      fun k hk x => ?_⟩, fun k hk hk' a => (g1 k hk' hk).2.2 a, fun e he a => ?_⟩
    · obtain ⟨k, hk, rfl⟩ := List.mem_iff_getElem.mp hb
      exact (g1 k (by rw [l1]; exact hk) hk).1
    · obtain ⟨k, hk, rfl⟩ := List.mem_iff_getElem.mp he
      exact (g2 k (by rw [l2]; exact hk) hk).1
    · obtain ⟨k, hk, rfl⟩ := List.mem_iff_getElem.mp he
      have hk' : k < c.edges.length := by rw [l2]; exact hk
      obtain ⟨i, j, hi, hj, a1, a2, a3, a4⟩ := inv.ends _ (List.getElem_mem hk')
      obtain ⟨-, b2, -, b4, b5⟩ := g2 k hk' hk
      refine ⟨i, j, by show i < cs.length; rw [← l1]; exact hi, by show j < cs.length; rw [← l1]; exact hj,
        b4.trans a1, b5.trans a2, ?_, ?_⟩
      · intro x hx
        show x ∈ (cs[i]'(by rw [← l1]; exact hi)).items
        rw [(g1 i hi _).2.1]
        refine a3 x ?_
        change x ∈ es[k].belief.items at hx
        rw [b2] at hx
        exact hx
      · intro x hx
        show x ∈ (cs[j]'(by rw [← l1]; exact hj)).items
        rw [(g1 j hj _).2.1]
        refine a4 x ?_
        change x ∈ es[k].belief.items at hx
        rw [b2] at hx
        exact hx
    · refine List.ext_getElem (by simp [clusterItems, l1]) fun k hk hk' => ?_
      simp only [clusterItems, List.getElem_map]
      simp only [clusterItems, List.length_map] at hk hk'
      exact (g1 k hk' hk).2.1
    · exact ⟨(g2 k hk' hk).2.2.2.1, (g2 k hk' hk).2.2.2.2⟩
    · have hk' : k < c.edges.length := by rw [l2]; exact hk
      rw [sp_eq hk']
      show x ∈ es[k].belief.items ↔ x ∈ c.edges[k].belief.items
      rw [(g2 k hk' hk).2.1]
    · obtain ⟨k, hk, rfl⟩ := List.mem_iff_getElem.mp he
      have hk' : k < c.edges.length := by rw [l2]; exact hk
      rw [(g2 k hk' hk).2.2.1 a]
      exact hE _ (List.getElem_mem hk') a
  have K2 := kin_calibrate L hz (kin_calibrate L hz K0 h1) h2
  -- fixing the normal approximations
  obtain ⟨⟨⟨i1, i2, i3⟩, s1, s2, s3, s4⟩, v1, z1⟩ := K2
  refine ⟨⟨⟨fun b hb => ?_, fun e he => ?_, fun e he => ?_⟩, ?_, by simpa using s2,
    fun k hk hk' => ?_, fun k hk x => ?_⟩, fun k hk hk' a => ?_, fun e he a => ?_⟩
  · obtain ⟨b', hb', rfl⟩ := List.mem_map.mp hb
    exact wf_fix (i1 b' hb')
  · obtain ⟨e', he', rfl⟩ := List.mem_map.mp he
    exact wf_fix (i2 e' he')
  · obtain ⟨e', he', rfl⟩ := List.mem_map.mp he
    obtain ⟨i, j, hi, hj, a1, a2, a3, a4⟩ := i3 e' he'
    refine ⟨i, j, by simpa using hi, by simpa using hj, a1, a2, ?_, ?_⟩
    · intro x hx
      simp only [List.getElem_map]
      exact a3 x hx
    · intro x hx
      simp only [List.getElem_map]
      exact a4 x hx
  · rw [← s1, clusterItems, clusterItems, List.map_map]
    rfl
  · simp only [List.length_map] at hk
    simp only [List.getElem_map]
    exact s3 k hk hk'
  · simp only [List.length_map] at hk
    simp only [List.getElem_map]
    exact s4 k hk x
  · simp only [List.length_map] at hk
    simp only [List.getElem_map]
    exact v1 k hk hk' a
  · obtain ⟨e', he', rfl⟩ := List.mem_map.mp he
    exact z1 e' he' a

/-- What an evaluation that returns normally returns. -/
theorem evaluate_value {m : Mixed γ NB} (h : Belief.WF fo NB.ops GWF NWF m) {a : ℤ → ℝ} {v : ℝ}
    (hv : m.evaluate fo (m.items.map a) = Except.ok v) : v = value fo (fval fo) m a := by
  have key : ∀ (bs : List γ) (is : List Bool) (n : ℕ) (acc v : ℝ),
      (∀ g ∈ bs, GWF g ∧ ∀ x ∈ fo.items g, x ∈ m.items) → is.length = bs.length →
      m.isInverted.drop n = is →
      m.relativeItems.drop n = bs.map (fun g => findRelativeItems (fo.items g) m.items) →
      (bs.zipIdx n).foldlM (m.evalStep fo (m.items.map a)) acc = Except.ok v →
      v = acc + ((bs.zip is).map fun p => sgn p.2 (fval fo p.1 ((fo.items p.1).map a))).sum := by
    intro bs
    induction bs with
    | nil =>
      intro is n acc v _ _ _ _ hv
      cases Except.ok.inj hv
      simp
    | cons g bs ih =>
      intro is n acc v hs hl hi hr hv
      obtain ⟨i, is, rfl⟩ : ∃ i is', is = i :: is' := by
        cases is with
        | nil => simp at hl
        | cons i is => exact ⟨i, is, rfl⟩
      obtain ⟨hg, hsub⟩ := hs g (by simp)
      have hrel : atE m.relativeItems n = Except.ok (findRelativeItems (fo.items g) m.items) := by
        have := congrArg (fun l => l[0]?) hr
        simp only [List.getElem?_drop, Nat.add_zero, List.map_cons,
          List.getElem?_cons_zero] at this
        rw [atE, this]
      have hinv : atE m.isInverted n = Except.ok i := by
        have := congrArg (fun l => l[0]?) hi
        simp only [List.getElem?_drop, Nat.add_zero, List.getElem?_cons_zero] at this
        rw [atE, this]
      rw [List.zipIdx_cons, List.foldlM_cons] at hv
      rcases he : fo.eval g ((fo.items g).map a) with err | w
      · rw [Mixed.evalStep] at hv
        simp only at hv
        rw [hrel] at hv
        simp only [res_ok_bind] at hv
        rw [findSubset_map m.items a _ hsub] at hv
        simp only [res_ok_bind] at hv
        rw [he] at hv
        cases hv
      have hstep : m.evalStep fo (m.items.map a) acc (g, n) =
          Except.ok (acc + sgn i (fval fo g ((fo.items g).map a))) := by
        rw [Mixed.evalStep]
        simp only
        rw [hrel]
        simp only [res_ok_bind]
        rw [findSubset_map m.items a _ hsub]
        simp only [res_ok_bind]
        rw [fval, he]
        simp only [res_ok_bind]
        rw [hinv]
        cases i <;> simp [sgn, res_pure, sub_eq_add_neg]
      rw [hstep] at hv
      simp only [res_ok_bind] at hv
      rw [ih is (n + 1) _ v (fun g' hg' => hs g' (by simp [hg'])) (by simpa using hl)
        (by rw [← List.drop_drop, hi]; rfl) (by rw [← List.drop_drop, hr]; rfl) hv]
      simp only [List.zip_cons_cons, List.map_cons, List.sum_cons]
      ring
  have := key m.beliefs m.isInverted 0 0 v h.sub h.inv (by simp) (by simpa using h.rel) hv
  rw [zero_add] at this
  exact this

theorem WF.mono {GWF' : γ → Prop} (hg : ∀ g, GWF g → GWF' g) {m : Mixed γ NB}
    (h : Belief.WF fo NB.ops GWF NWF m) : Belief.WF fo NB.ops GWF' NWF m :=
  ⟨h.nodup, h.normal, h.normalWF, h.inv, h.rel, fun g hm => ⟨hg g (h.sub g hm).1, (h.sub g hm).2⟩⟩

end Mixed

/-! ## The laws of the concrete beliefs -/

section Concrete

variable (lib : Lib) (pars : Parameters)

/-- Factors without repeated items. -/
def Nd (g : Factor) : Prop := ((Factor.ops lib pars).items g).Nodup

omit lib pars in
theorem bind_ok {α δ : Type} {x : Res α} {f : α → Res δ} {r : δ} (h : (x >>= f) = Except.ok r) :
    ∃ y, x = Except.ok y ∧ f y = Except.ok r := by
  rcases x with err | y
  · cases h
  · exact ⟨y, rfl, h⟩

theorem store_law : StoreLaw (Factor.ops lib pars) (Nd lib pars) (store lib pars) := by
  intro k f d h n l g hl hg
  have : g.items = l := by
    rw [store] at hg
    split at hg
    · rw [storeWith] at hg
      simp only at hg
      obtain ⟨_, -, hg⟩ := bind_ok hg
      obtain ⟨_, -, hg⟩ := bind_ok hg
      obtain ⟨s, -, hg⟩ := bind_ok hg
      cases Except.ok.inj hg
      rfl
    · cases hg
  exact ⟨by show g.items.Nodup; rw [this]; exact hl, this⟩

end Concrete

end Verif.SR
