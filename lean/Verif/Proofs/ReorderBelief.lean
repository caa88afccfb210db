import Verif.Proofs.ReorderNormal
import Verif.Proofs.BeliefTotal
import Verif.Proofs.Param

/-!
# Beliefs whose factors are listed in another order
-/
namespace Verif.Reorder

open Verif.Gauss Verif.Items Verif.Belief Verif.Param Verif.ClusterGraph

variable {γ : Type} {fo : FactorOps γ}

/-- The factors of a belief with their signs. -/
def fz {ν : Type} (m : Mixed γ ν) : List (γ × Bool) := m.beliefs.zip m.isInverted

/-- Factors whose items are distinct; nothing is assumed of their functions. -/
def Nd (fo : FactorOps γ) (g : γ) : Prop := (fo.items g).Nodup

/-- Well-formed belief. -/
abbrev Wf (fo : FactorOps γ) (m : Mixed γ NB) : Prop := WF fo NB.ops (Nd fo) NWF m

/-! ## The functions of a belief as a pass over its signed factors -/

theorem zipIdx_zip {σ : Type} {f : σ → γ × ℕ → Res σ} {f' : σ → γ × Bool → Res σ} :
    ∀ (bs : List γ) (is : List Bool) (n : ℕ), is.length = bs.length →
    (∀ s k, (h : k < bs.length) → (h' : k < is.length) → f s (bs[k], n + k) = f' s (bs[k], is[k])) →
    ∀ s, (bs.zipIdx n).foldlM f s = (bs.zip is).foldlM f' s
  | [], _, _, _, _, _ => by simp
  | b :: bs, [], _, h, _, _ => by simp at h
  | b :: bs, i :: is, n, h, hf, s => by
    rw [List.zipIdx_cons, List.zip_cons_cons, List.foldlM_cons, List.foldlM_cons]
    have h0 := hf s 0 (by simp) (by simp)
    simp only [List.getElem_cons_zero, Nat.add_zero] at h0
    rw [h0]
    congr 1
    funext s'
    refine zipIdx_zip bs is (n + 1) (by simpa using h) (fun t k hk hk' => ?_) s'
    have h1 := hf t (k + 1) (by simpa using hk) (by simpa using hk')
    simp only [List.getElem_cons_succ] at h1
    rw [← h1]
    congr 2
    omega

/-- Signed factor in `evaluate`. -/
def pEval (fo : FactorOps γ) (items : List ℤ) (x : List ℝ) (s : ℝ) (p : γ × Bool) : Res ℝ := do
  let xs ← findSubset x (findRelativeItems (fo.items p.1) items)
  let v ← fo.eval p.1 xs
  return if p.2 then s - v else s + v

/-- Signed factor in `evaluateDerivative`. -/
def pDeriv (fo : FactorOps γ) (items : List ℤ) (x : List ℝ) (s : List ℝ) (p : γ × Bool) :
    Res (List ℝ) := do
  let xs ← findSubset x (findRelativeItems (fo.items p.1) items)
  let d ← fo.deriv p.1 xs
  addVectorSubset s (findRelativeItems (fo.items p.1) items) (if p.2 then d.map (- ·) else d)

/-- Signed factor in `evaluateSecondDerivative`. -/
def pHess (fo : FactorOps γ) (items : List ℤ) (x : List ℝ) (s : List (List ℝ)) (p : γ × Bool) :
    Res (List (List ℝ)) := do
  let xs ← findSubset x (findRelativeItems (fo.items p.1) items)
  let d ← fo.hess p.1 xs
  addMatrixSubset s (findRelativeItems (fo.items p.1) items)
    (if p.2 then d.map (·.map (- ·)) else d)

section Pass

variable {ν : Type} {no : NormalOps ν} {GWF : γ → Prop} {NWF : ν → Prop} {m : Mixed γ ν}

theorem evaluate_pass (h : WF fo no GWF NWF m) (x : List ℝ) :
    m.evaluate fo x = (fz m).foldlM (pEval fo m.items x) 0 := by
  refine zipIdx_zip _ _ 0 h.inv (fun s k hk hk' => ?_) 0
  unfold Mixed.evalStep pEval
  simp only [Nat.zero_add]
  rw [atE_ok (by rw [h.rel]; simpa using hk), atE_ok hk']
  simp only [res_ok_bind]
  have : m.relativeItems[k]'(by rw [h.rel]; simpa using hk) =
      findRelativeItems (fo.items m.beliefs[k]) m.items := by
    simp [h.rel]
  rw [this]

theorem evaluateDerivative_pass (h : WF fo no GWF NWF m) (x : List ℝ) :
    m.evaluateDerivative fo x =
      (fz m).foldlM (pDeriv fo m.items x) (List.replicate x.length 0) := by
  refine zipIdx_zip _ _ 0 h.inv (fun s k hk hk' => ?_) _
  unfold Mixed.derivStep pDeriv
  simp only [Nat.zero_add]
  rw [atE_ok hk']
  rfl

theorem evaluateSecondDerivative_pass (h : WF fo no GWF NWF m) (x : List ℝ) :
    m.evaluateSecondDerivative fo x = (fz m).foldlM (pHess fo m.items x)
      (List.replicate x.length (List.replicate x.length 0)) := by
  refine zipIdx_zip _ _ 0 h.inv (fun s k hk hk' => ?_) _
  unfold Mixed.hessStep pHess
  simp only [Nat.zero_add]
  rw [atE_ok hk']
  rfl

end Pass

/-! ## Total factors may be permuted -/

/-- A belief of given items and signed factors. -/
noncomputable def packed (fo : FactorOps γ) (items : List ℤ) (l : List (γ × Bool)) : Mixed γ NB :=
  { items := items, beliefs := l.map Prod.fst,
    relativeItems := (l.map Prod.fst).map fun g => findRelativeItems (fo.items g) items,
    isInverted := l.map Prod.snd, normalApprox := NB.ofItems items, isNormalFixed := false }

theorem fz_packed (items : List ℤ) (l : List (γ × Bool)) : fz (packed fo items l) = l := by
  show (l.map Prod.fst).zip (l.map Prod.snd) = l
  rw [List.zip_map']
  simp

theorem wf_packed {items : List ℤ} (hnd : items.Nodup) {l : List (γ × Bool)}
    (h : ∀ p ∈ l, Tot fo p.1 ∧ ∀ x ∈ fo.items p.1, x ∈ items) :
    WF fo NB.ops (Tot fo) NWF (packed fo items l) where
  nodup := hnd
  normal := rfl
  normalWF := ⟨hnd, Or.inl rfl⟩
  inv := by simp [packed]
  rel := rfl
  sub g hg := by
    obtain ⟨p, hp, rfl⟩ := List.mem_map.mp hg
    exact h p hp

theorem exists_map {items : List ℤ} (hnd : items.Nodup) {x : List ℝ} (hx : x.length = items.length) :
    ∃ a : ℤ → ℝ, x = items.map a := ⟨_, eq_map_getD hnd hx 0⟩

theorem pass_perm {items : List ℤ} (hnd : items.Nodup) {l l' : List (γ × Bool)} (hp : l.Perm l')
    (h : ∀ p ∈ l, Tot fo p.1 ∧ ∀ x ∈ fo.items p.1, x ∈ items) {x : List ℝ}
    (hx : x.length = items.length) :
    l.foldlM (pEval fo items x) 0 = l'.foldlM (pEval fo items x) 0 ∧
    l.foldlM (pDeriv fo items x) (List.replicate x.length 0) =
      l'.foldlM (pDeriv fo items x) (List.replicate x.length 0) ∧
    l.foldlM (pHess fo items x) (List.replicate x.length (List.replicate x.length 0)) =
      l'.foldlM (pHess fo items x) (List.replicate x.length (List.replicate x.length 0)) := by
  obtain ⟨a, rfl⟩ := exists_map hnd hx
  have w := wf_packed hnd h
  have w' := wf_packed (l := l') hnd fun p hm => h p (hp.mem_iff.mpr hm)
  have e := fz_packed (fo := fo) items l
  have e' := fz_packed (fo := fo) items l'
  refine ⟨?_, ?_, ?_⟩
  · have h1 := evaluate_pass w (items.map a)
    have h2 := evaluate_pass w' (items.map a)
    rw [e] at h1
    rw [e'] at h2
    refine h1.symm.trans (Eq.trans ?_ h2)
    have h3 := evaluate_ok (tot_laws fo) w a
    have h4 := evaluate_ok (tot_laws fo) w' a
    refine h3.trans (Eq.trans ?_ h4.symm)
    congr 1
    show ((fz _).map _).sum = ((fz _).map _).sum
    rw [e, e']
    exact (hp.map _).sum_eq
  · have h1 := evaluateDerivative_pass w (items.map a)
    have h2 := evaluateDerivative_pass w' (items.map a)
    rw [e] at h1
    rw [e'] at h2
    refine h1.symm.trans (Eq.trans ?_ h2)
    have h3 := evaluateDerivative_ok (tot_laws fo) (tot_dok fo) w a
    have h4 := evaluateDerivative_ok (tot_laws fo) (tot_dok fo) w' a
    refine h3.trans (Eq.trans ?_ h4.symm)
    congr 1
    refine List.map_congr_left fun y _ => ?_
    show ((fz _).map _).sum = ((fz _).map _).sum
    rw [e, e']
    exact (hp.map _).sum_eq
  · have h1 := evaluateSecondDerivative_pass w (items.map a)
    have h2 := evaluateSecondDerivative_pass w' (items.map a)
    rw [e] at h1
    rw [e'] at h2
    refine h1.symm.trans (Eq.trans ?_ h2)
    have h3 := evaluateSecondDerivative_ok (tot_laws fo) (tot_dok fo) w a
    have h4 := evaluateSecondDerivative_ok (tot_laws fo) (tot_dok fo) w' a
    refine h3.trans (Eq.trans ?_ h4.symm)
    congr 1
    refine List.map_congr_left fun y _ => List.map_congr_left fun z _ => ?_
    show ((fz _).map _).sum = ((fz _).map _).sum
    rw [e, e']
    exact (hp.map _).sum_eq

/-- Total factors in another order, followed by the same factors. -/
def PS (fo : FactorOps γ) (l l' : List (γ × Bool)) : Prop :=
  ∃ pre pre' suf, l = pre ++ suf ∧ l' = pre' ++ suf ∧ pre.Perm pre' ∧ ∀ p ∈ pre, Tot fo p.1

theorem PS.append {l l' : List (γ × Bool)} (h : PS fo l l') (k : List (γ × Bool)) :
    PS fo (l ++ k) (l' ++ k) := by
  obtain ⟨pre, pre', suf, rfl, rfl, hp, ht⟩ := h
  exact ⟨pre, pre', suf ++ k, by simp, by simp, hp, ht⟩

theorem PS.length_eq {l l' : List (γ × Bool)} (h : PS fo l l') : l.length = l'.length := by
  obtain ⟨pre, pre', suf, rfl, rfl, hp, -⟩ := h
  simp [hp.length_eq]

/-- Beliefs of two clusters: the same items in the same order, the same normal approximation, total
factors in another order. -/
structure ClRel (fo : FactorOps γ) (m m' : Mixed γ NB) : Prop where
  items : m.items = m'.items
  factors : PS fo (fz m) (fz m')
  normal : m.normalApprox = m'.normalApprox
  fixed : m.isNormalFixed = m'.isNormalFixed
  wf : Wf fo m
  wf' : Wf fo m'

/-- Beliefs of two edges: the same items in another order, the same factors. -/
structure EdRel (fo : FactorOps γ) (m m' : Mixed γ NB) : Prop where
  items : m.items.Perm m'.items
  factors : fz m = fz m'
  normal : NBPerm m.normalApprox m'.normalApprox
  wf : Wf fo m
  wf' : Wf fo m'

theorem EdRel.refl {m : Mixed γ NB} (h : Wf fo m) : EdRel fo m m :=
  ⟨.refl _, rfl, .refl _, h, h⟩

theorem functions_same {m m' : Mixed γ NB} (h : ClRel fo m m') {x : List ℝ}
    (hx : x.length = m.items.length) :
    m.evaluate fo x = m'.evaluate fo x ∧ m.evaluateDerivative fo x = m'.evaluateDerivative fo x ∧
      m.evaluateSecondDerivative fo x = m'.evaluateSecondDerivative fo x := by
  rw [evaluate_pass h.wf, evaluate_pass h.wf', evaluateDerivative_pass h.wf,
    evaluateDerivative_pass h.wf', evaluateSecondDerivative_pass h.wf,
    evaluateSecondDerivative_pass h.wf', ← h.items]
  obtain ⟨pre, pre', suf, e, e', hp, ht⟩ := h.factors
  obtain ⟨h1, h2, h3⟩ := pass_perm (fo := fo) h.wf.nodup hp (fun p hm => ⟨ht p hm,
    (h.wf.sub p.1 (List.of_mem_zip (show p ∈ fz m from e ▸ List.mem_append_left _ hm)).1).2⟩) hx
  rw [e, e']
  simp only [List.foldlM_append]
  rw [h1, h2, h3]
  exact ⟨rfl, rfl, rfl⟩

/-! ## Operations -/

theorem fz_length {m : Mixed γ NB} (h : Wf fo m) : (fz m).length = m.beliefs.length := by
  simp [fz, h.inv]

theorem mul_fz {m o r : Mixed γ NB} (hm : Wf fo m) (ho : Wf fo o)
    (h : Mixed.mul fo NB.ops m o = Except.ok r) : fz r = fz m ++ fz o := by
  rw [Mixed.mul, flags_ok ho] at h
  rcases hn : Mixed.combineNormal NB.ops.mul m o with err | n
  · rw [hn] at h; cases h
  rw [hn] at h
  cases Except.ok.inj h
  exact List.zip_append hm.inv.symm

theorem div_fz {m o r : Mixed γ NB} (hm : Wf fo m) (ho : Wf fo o)
    (h : Mixed.div fo NB.ops m o = Except.ok r) :
    fz r = fz m ++ (fz o).map fun p => (p.1, !p.2) := by
  rw [Mixed.div, flags_ok ho] at h
  rcases hn : Mixed.combineNormal NB.ops.div m o with err | n
  · rw [hn] at h; cases h
  rw [hn] at h
  cases Except.ok.inj h
  refine (List.zip_append hm.inv.symm).trans ?_
  congr 1
  rw [List.zip_map_right]
  rfl

theorem mul_normalApprox {m o r : Mixed γ NB} (h : Mixed.mul fo NB.ops m o = Except.ok r) :
    Mixed.combineNormal NB.ops.mul m o = Except.ok r.normalApprox := by
  rw [Mixed.mul] at h
  rcases hn : Mixed.combineNormal NB.ops.mul m o with err | n
  · rw [hn] at h; cases h
  rw [hn] at h
  rcases hf : Mixed.flags o with err | l
  · rw [hf] at h; cases h
  rw [hf] at h
  cases Except.ok.inj h
  rfl

theorem div_normalApprox {m o r : Mixed γ NB} (h : Mixed.div fo NB.ops m o = Except.ok r) :
    Mixed.combineNormal NB.ops.div m o = Except.ok r.normalApprox := by
  rw [Mixed.div] at h
  rcases hn : Mixed.combineNormal NB.ops.div m o with err | n
  · rw [hn] at h; cases h
  rw [hn] at h
  rcases hf : Mixed.flags o with err | l
  · rw [hf] at h; cases h
  rw [hf] at h
  cases Except.ok.inj h
  rfl

theorem mulC {a a' b b' : Mixed γ NB} (ha : ClRel fo a a') (hb : EdRel fo b b')
    (hs : ∀ x ∈ b.items, x ∈ a.items) :
    RelRes (ClRel fo) (Mixed.mul fo NB.ops a b) (Mixed.mul fo NB.ops a' b') := by
  have hs' : ∀ x ∈ b'.items, x ∈ a'.items := fun x hx => by
    rw [← ha.items]
    exact hs x (hb.items.mem_iff.mpr hx)
  obtain ⟨r, e, w, i, f, -⟩ := mul_ok (F := fun _ _ => 0) nb_laws ha.wf hb.wf hs
  obtain ⟨r', e', w', i', f', -⟩ := mul_ok (F := fun _ _ => 0) nb_laws ha.wf' hb.wf' hs'
  have hn : Mixed.combineNormal NB.ops.mul a b = Mixed.combineNormal NB.ops.mul a' b' := by
    unfold Mixed.combineNormal
    rw [ha.fixed, ha.normal]
    split
    · rfl
    · refine mul_same hb.wf.normalWF.nodup hb.wf'.normalWF.nodup (fun x hx => ?_)
        (fun x hx => ?_) hb.normal
      · rw [← ha.normal]
        have h1 := hb.wf.normal
        have h2 := ha.wf.normal
        change b.normalApprox.items = b.items at h1
        change a.normalApprox.items = a.items at h2
        rw [h1] at hx
        rw [h2]
        exact hs x hx
      · have h1 := hb.wf'.normal
        have h2 := ha.wf'.normal
        change b'.normalApprox.items = b'.items at h1
        change a'.normalApprox.items = a'.items at h2
        rw [h1] at hx
        rw [h2]
        exact hs' x hx
  have h1 := mul_normalApprox e
  have h2 := mul_normalApprox e'
  rw [e, e']
  refine .ok ⟨by rw [i, i', ha.items], ?_, ?_, by rw [f, f', ha.fixed], w, w'⟩
  · rw [mul_fz ha.wf hb.wf e, mul_fz ha.wf' hb.wf' e', ← hb.factors]
    exact ha.factors.append _
  · rw [hn, h2] at h1
    exact (Except.ok.inj h1).symm

theorem divC {a a' b b' : Mixed γ NB} (ha : ClRel fo a a') (hb : EdRel fo b b')
    (hs : ∀ x ∈ b.items, x ∈ a.items) :
    RelRes (ClRel fo) (Mixed.div fo NB.ops a b) (Mixed.div fo NB.ops a' b') := by
  have hs' : ∀ x ∈ b'.items, x ∈ a'.items := fun x hx => by
    rw [← ha.items]
    exact hs x (hb.items.mem_iff.mpr hx)
  obtain ⟨r, e, w, i, f, -⟩ := div_ok (F := fun _ _ => 0) nb_laws ha.wf hb.wf hs
  obtain ⟨r', e', w', i', f', -⟩ := div_ok (F := fun _ _ => 0) nb_laws ha.wf' hb.wf' hs'
  have hn : Mixed.combineNormal NB.ops.div a b = Mixed.combineNormal NB.ops.div a' b' := by
    unfold Mixed.combineNormal
    rw [ha.fixed, ha.normal]
    split
    · rfl
    · refine div_same hb.wf.normalWF.nodup hb.wf'.normalWF.nodup (fun x hx => ?_)
        (fun x hx => ?_) hb.normal
      · rw [← ha.normal]
        have h1 := hb.wf.normal
        have h2 := ha.wf.normal
        change b.normalApprox.items = b.items at h1
        change a.normalApprox.items = a.items at h2
        rw [h1] at hx
        rw [h2]
        exact hs x hx
      · have h1 := hb.wf'.normal
        have h2 := ha.wf'.normal
        change b'.normalApprox.items = b'.items at h1
        change a'.normalApprox.items = a'.items at h2
        rw [h1] at hx
        rw [h2]
        exact hs' x hx
  have h1 := div_normalApprox e
  have h2 := div_normalApprox e'
  rw [e, e']
  refine .ok ⟨by rw [i, i', ha.items], ?_, ?_, by rw [f, f', ha.fixed], w, w'⟩
  · rw [div_fz ha.wf hb.wf e, div_fz ha.wf' hb.wf' e', ← hb.factors]
    exact ha.factors.append _
  · rw [hn, h2] at h1
    exact (Except.ok.inj h1).symm

/-- A margin of the normal approximation only. -/
theorem marginN {a a' : Mixed γ NB} (st : Store γ NB) (ha : ClRel fo a a') {l l' : List ℤ}
    (hp : l.Perm l') (hl : l.Nodup) (hs : ∀ x ∈ l, x ∈ a.items) :
    RelRes (fun b b' => EdRel fo b b' ∧ b.items = l) (Mixed.margin fo NB.ops st a l true)
      (Mixed.margin fo NB.ops st a' l' true) := by
  have hi : a.normalApprox.items = a.items := ha.wf.normal
  obtain ⟨n, n', e, e', hn, i, i'⟩ := margin_same (a := a.normalApprox) hp hl (by rw [hi]; exact hs)
  rw [Mixed.margin, if_pos rfl, Mixed.margin, if_pos rfl, ← ha.normal]
  change RelRes _ ((NB.margin a.normalApprox l : Res NB) >>= _)
    ((NB.margin a.normalApprox l' : Res NB) >>= _)
  rw [e, e']
  simp only [res_ok_bind, res_pure]
  obtain ⟨w1, -⟩ := nb_laws.margin_ok a.normalApprox l n ha.wf.normalWF hl
    (by change ∀ x ∈ l, x ∈ a.normalApprox.items; rw [hi]; exact hs) e
  obtain ⟨w2, -⟩ := nb_laws.margin_ok a.normalApprox l' n' ha.wf.normalWF (hp.nodup_iff.mp hl)
    (by
      change ∀ x ∈ l', x ∈ a.normalApprox.items
      rw [hi]
      exact fun x hx => hs x (hp.mem_iff.mpr hx)) e'
  refine .ok ⟨⟨hp, rfl, hn, ?_, ?_⟩, rfl⟩
  · exact wf_setNormal (wf_ofItems nb_laws hl) w1 i
  · exact wf_setNormal (wf_ofItems nb_laws (hp.nodup_iff.mp hl)) w2 i'

/-- The stored factor depends on the functions only at vectors of the right length. -/
def StoreExt (st : Store γ NB) : Prop :=
  ∀ k f f' d d' h h' (n : NB) l, (∀ x : List ℝ, x.length = n.items.length → f x = f' x ∧ d x = d' x ∧ h x = h' x) →
    st k f d h n l = st k f' d' h' n l

variable {st : Store γ NB}

theorem integrate_same (hx : StoreExt st) {a a' : Mixed γ NB} (ha : ClRel fo a a') (item : ℤ) :
    Mixed.integrate fo NB.ops st a item = Mixed.integrate fo NB.ops st a' item := by
  unfold Mixed.integrate
  rw [← ha.items, ← ha.normal]
  dsimp only
  congr 1
  funext rem
  rw [hx _ _ (a'.evaluate fo) _ (a'.evaluateDerivative fo) _ (a'.evaluateSecondDerivative fo)]
  intro x hl
  have hi : a.normalApprox.items = a.items := ha.wf.normal
  rw [hi] at hl
  exact functions_same ha hl

theorem difference_perm (items : List ℤ) {l l' : List ℤ} (hp : l.Perm l') :
    findItemsDifference items l = findItemsDifference items l' := by
  rw [difference_eq, difference_eq]
  simp [hp.mem_iff]

/-- A margin in which an item is integrated. -/
theorem marginF (hx : StoreExt st) {a a' : Mixed γ NB} (ha : ClRel fo a a') {l l' : List ℤ}
    (hp : l.Perm l') (hs : ∃ v ∈ a.items, v ∉ l) :
    Mixed.margin fo NB.ops st a l false = Mixed.margin fo NB.ops st a' l' false := by
  rw [Mixed.margin, if_neg (by simp), Mixed.margin, if_neg (by simp), ← ha.items,
    difference_perm _ hp]
  rcases hd : findItemsDifference a.items l' with _ | ⟨y, ys⟩
  · exfalso
    obtain ⟨v, h1, h2⟩ := hs
    have : v ∈ findItemsDifference a.items l' := by
      rw [difference_eq]
      simpa [h1] using fun h => h2 (hp.mem_iff.mpr h)
    rw [hd] at this
    simp at this
  · rw [List.foldlM_cons, List.foldlM_cons, integrate_same hx ha]

theorem isProper_same {a a' : Mixed γ NB} (ha : ClRel fo a a') :
    Mixed.isProper fo NB.ops a = Mixed.isProper fo NB.ops a' := by
  have hi : a.normalApprox.items = a.items := ha.wf.normal
  have hl : a.beliefs.length = a'.beliefs.length := by
    rw [← fz_length ha.wf, ← fz_length ha.wf', ha.factors.length_eq]
  unfold Mixed.isProper Mixed.factorsProper
  rw [← ha.normal, hl, (functions_same ha (x := NB.ops.mean a.normalApprox) (by
    show (List.ofFn a.normalApprox.normal.mean).length = _
    rw [List.length_ofFn, hi])).1]

theorem logNorm_same (hx : StoreExt st) {a a' : Mixed γ NB} (ha : ClRel fo a a') :
    Mixed.logNorm fo NB.ops st a = Mixed.logNorm fo NB.ops st a' := by
  unfold Mixed.logNorm
  rcases hi : a.items with _ | ⟨v, vs⟩
  · have e : ∀ m : Mixed γ NB, m.items = [] → Mixed.margin fo NB.ops st m [] false = Except.ok m := by
      intro m hm
      rw [Mixed.margin, if_neg (by simp), hm]
      rfl
    rw [e a hi, e a' (ha.items ▸ hi)]
    exact (functions_same ha (by simp [hi])).1
  · rw [marginF hx ha (.refl []) ⟨v, by simp [hi], by simp⟩]

end Verif.Reorder
