import Verif.Model.Belief
import Verif.Proofs.Items
import Verif.Proofs.ClusterMsg

/-! Mixed beliefs evaluate to signed sums; they obey the laws used by the cluster graph. -/
namespace Verif.Belief

open Verif.Items

variable {γ ν : Type}

/-- Laws of factors: evaluation at a vector of the right length returns `F g x`. -/
structure FLaws (fo : FactorOps γ) (GWF : γ → Prop) (F : γ → List ℝ → ℝ) : Prop where
  nodup : ∀ g, GWF g → (fo.items g).Nodup
  eval_ok : ∀ g, GWF g → ∀ x : List ℝ, x.length = (fo.items g).length →
    fo.eval g x = Except.ok (F g x)

/-- Laws of normal approximations: only how items behave. -/
structure NLaws (no : NormalOps ν) (NWF : ν → Prop) : Prop where
  items_ofItems : ∀ l, no.items (no.ofItems l) = l
  ofItems_wf : ∀ l : List ℤ, l.Nodup → NWF (no.ofItems l)
  setItems_ok : ∀ a, ∀ l : List ℤ, NWF a → l.Nodup →
    NWF (no.setItems a l) ∧ no.items (no.setItems a l) = l
  mul_ok : ∀ a b, NWF a → NWF b → (∀ x ∈ no.items b, x ∈ no.items a) →
    ∃ r, no.mul a b = Except.ok r ∧ NWF r ∧ no.items r = no.items a
  div_ok : ∀ a b, NWF a → NWF b → (∀ x ∈ no.items b, x ∈ no.items a) →
    ∃ r, no.div a b = Except.ok r ∧ NWF r ∧ no.items r = no.items a
  margin_ok : ∀ a l r, NWF a → l.Nodup → (∀ x ∈ l, x ∈ no.items a) →
    no.margin a l = Except.ok r → NWF r ∧ no.items r = l

/-- Law of storing: the stored factor is well formed and has the remaining items. -/
def StoreLaw (fo : FactorOps γ) (GWF : γ → Prop) (store : Store γ ν) : Prop :=
  ∀ k f d h n l g, l.Nodup → store k f d h n l = Except.ok g → GWF g ∧ fo.items g = l

/-- Representation invariant of a mixed belief. -/
structure WF (fo : FactorOps γ) (no : NormalOps ν) (GWF : γ → Prop) (NWF : ν → Prop)
    (m : Mixed γ ν) : Prop where
  nodup : m.items.Nodup
  normal : no.items m.normalApprox = m.items
  normalWF : NWF m.normalApprox
  inv : m.isInverted.length = m.beliefs.length
  rel : m.relativeItems = m.beliefs.map fun g => findRelativeItems (fo.items g) m.items
  sub : ∀ g ∈ m.beliefs, GWF g ∧ ∀ x ∈ fo.items g, x ∈ m.items

/-- Signed value. -/
def sgn (inv : Bool) (v : ℝ) : ℝ := if inv then -v else v

/-- Signed sum of the factors, each at its own items. -/
def value (fo : FactorOps γ) (F : γ → List ℝ → ℝ) (m : Mixed γ ν) (a : ℤ → ℝ) : ℝ :=
  ((m.beliefs.zip m.isInverted).map fun p => sgn p.2 (F p.1 ((fo.items p.1).map a))).sum

theorem findSubset_map (items : List ℤ) (a : ℤ → ℝ) : ∀ l : List ℤ, (∀ x ∈ l, x ∈ items) →
    findSubset (items.map a) (findRelativeItems l items) = Except.ok (l.map a)
  | [], _ => rfl
  | x :: l, h => by
    have hx := h x (by simp)
    have h1 := (relativeItem_getElem? hx).1
    have h2 : nth (items.map a) (findRelativeItem x items) = Except.ok (a x) := by
      rw [nth, List.getElem?_map, h1]; rfl
    have ih := findSubset_map items a l fun y hy => h y (by simp [hy])
    rw [findSubset, findRelativeItems] at ih
    rw [findSubset, findRelativeItems, List.map_cons, List.mapM_cons, h2]
    simp only [res_ok_bind]
    rw [ih]
    rfl

variable {fo : FactorOps γ} {no : NormalOps ν} {GWF : γ → Prop} {NWF : ν → Prop}
  {F : γ → List ℝ → ℝ}

theorem evaluate_ok (L : FLaws fo GWF F) {m : Mixed γ ν} (h : WF fo no GWF NWF m) (a : ℤ → ℝ) :
    m.evaluate fo (m.items.map a) = Except.ok (value fo F m a) := by
  have key : ∀ (bs : List γ) (is : List Bool) (n : ℕ) (acc : ℝ),
      (∀ g ∈ bs, GWF g ∧ ∀ x ∈ fo.items g, x ∈ m.items) → is.length = bs.length →
      m.isInverted.drop n = is →
      m.relativeItems.drop n = bs.map (fun g => findRelativeItems (fo.items g) m.items) →
      (bs.zipIdx n).foldlM (m.evalStep fo (m.items.map a)) acc =
        Except.ok (acc + ((bs.zip is).map fun p => sgn p.2 (F p.1 ((fo.items p.1).map a))).sum) := by
    intro bs
    induction bs with
    | nil => intro is n acc _ _ _ _; simp [res_pure]
    | cons g bs ih =>
      intro is n acc hs hl hi hr
      obtain ⟨i, is, rfl⟩ : ∃ i is', is = i :: is' := by
        cases is with
        | nil => simp at hl
        | cons i is => exact ⟨i, is, rfl⟩
      obtain ⟨hg, hsub⟩ := hs g (by simp)
      have hrel : atE m.relativeItems n = Except.ok (findRelativeItems (fo.items g) m.items) := by
        have := congrArg (fun l => l[0]?) hr
        simp only [List.getElem?_drop, Nat.add_zero, List.map_cons,
          List.getElem?_cons_zero] at this
        rw [atE, this]
      have hinv : atE m.isInverted n = Except.ok i := by
        have := congrArg (fun l => l[0]?) hi
        simp only [List.getElem?_drop, Nat.add_zero, List.getElem?_cons_zero] at this
        rw [atE, this]
      have hstep : m.evalStep fo (m.items.map a) acc (g, n) =
          Except.ok (acc + sgn i (F g ((fo.items g).map a))) := by
        rw [Mixed.evalStep]
        simp only
        rw [hrel]
        simp only [res_ok_bind]
        rw [findSubset_map m.items a _ hsub]
        simp only [res_ok_bind]
        rw [L.eval_ok g hg _ (by simp)]
        simp only [res_ok_bind]
        rw [hinv]
        cases i <;> simp [sgn, res_pure, sub_eq_add_neg]
      rw [List.zipIdx_cons, List.foldlM_cons, hstep]
      simp only [res_ok_bind]
      rw [ih is (n + 1) _ (fun g' hg' => hs g' (by simp [hg'])) (by simpa using hl)
        (by rw [← List.drop_drop, hi]; rfl) (by rw [← List.drop_drop, hr]; rfl)]
      simp only [List.zip_cons_cons, List.map_cons, List.sum_cons]
      congr 1
      ring
  have := key m.beliefs m.isInverted 0 0 h.sub h.inv (by simp) (by simpa using h.rel)
  rw [zero_add] at this
  exact this

theorem wf_ofItems (N : NLaws no NWF) {l : List ℤ} (h : l.Nodup) :
    WF fo no GWF NWF (Mixed.ofItems no l : Mixed γ ν) :=
  ⟨h, N.items_ofItems l, N.ofItems_wf l h, rfl, rfl, by simp [Mixed.ofItems]⟩

theorem wf_ofFactor_nd (hnd : ∀ g, GWF g → (fo.items g).Nodup) (N : NLaws no NWF) {g : γ}
    (h : GWF g) :
    WF fo no GWF NWF (Mixed.ofFactor fo no g) := by
  refine ⟨hnd g h, N.items_ofItems _, N.ofItems_wf _ (hnd g h), rfl, rfl, ?_⟩
  intro g' hg'
  simp only [Mixed.ofFactor, Mixed.recomputeRelativeItems, List.mem_singleton] at hg' ⊢
  subst hg'
  exact ⟨h, fun x hx => hx⟩

theorem wf_ofFactor (L : FLaws fo GWF F) (N : NLaws no NWF) {g : γ} (h : GWF g) :
    WF fo no GWF NWF (Mixed.ofFactor fo no g) := wf_ofFactor_nd L.nodup N h

theorem combine_ok (op : ν → ν → Res ν)
    (hop : ∀ a b, NWF a → NWF b → (∀ x ∈ no.items b, x ∈ no.items a) →
      ∃ r, op a b = Except.ok r ∧ NWF r ∧ no.items r = no.items a)
    {m o : Mixed γ ν} (hm : WF fo no GWF NWF m) (ho : WF fo no GWF NWF o)
    (hs : ∀ x ∈ o.items, x ∈ m.items) :
    ∃ n, Mixed.combineNormal op m o = Except.ok n ∧ NWF n ∧ no.items n = m.items := by
  rw [Mixed.combineNormal]
  split
  · exact ⟨_, rfl, hm.normalWF, hm.normal⟩
  · obtain ⟨r, e, w, i⟩ := hop _ _ hm.normalWF ho.normalWF (by
      rw [ho.normal, hm.normal]; exact hs)
    exact ⟨r, e, w, i.trans hm.normal⟩

theorem zip_append_sum (f : γ × Bool → ℝ) {b1 b2 : List γ} {i1 i2 : List Bool}
    (h : i1.length = b1.length) :
    (((b1 ++ b2).zip (i1 ++ i2)).map f).sum = ((b1.zip i1).map f).sum + ((b2.zip i2).map f).sum := by
  rw [List.zip_append h.symm, List.map_append, List.sum_append]

theorem zip_not_sum (f : γ → ℝ) : ∀ (b : List γ) (i : List Bool),
    ((b.zip (i.map (!·))).map fun p => sgn p.2 (f p.1)).sum =
      -((b.zip i).map fun p => sgn p.2 (f p.1)).sum
  | [], _ => by simp
  | _ :: _, [] => by simp
  | g :: b, i :: is => by
    simp only [List.map_cons, List.zip_cons_cons, List.sum_cons]
    rw [zip_not_sum f b is]
    cases i <;> simp [sgn] <;> ring

theorem flags_ok {o : Mixed γ ν} (h : WF fo no GWF NWF o) :
    Mixed.flags o = Except.ok o.isInverted := by
  rw [Mixed.flags, ← h.inv]
  generalize o.isInverted = l
  have key : ∀ (k l0 : List Bool), (List.range' l0.length k.length).mapM
      (fun i : ℕ => nth (l0 ++ k) i) = (Except.ok k : Res _) := by
    intro k
    induction k with
    | nil => intro l0; simp [res_pure]
    | cons b k ih =>
      intro l0
      have h1 : nth (l0 ++ b :: k) l0.length = Except.ok b := by
        rw [nth, List.getElem?_append_right le_rfl]; simp
      have h2 := ih (l0 ++ [b])
      simp only [List.append_assoc, List.singleton_append, List.length_append,
        List.length_singleton] at h2
      rw [List.length_cons, List.range'_succ, List.mapM_cons, h1]
      simp only [res_ok_bind]
      rw [h2]
      rfl
  have := key l []
  rw [List.range_eq_range']
  exact this

theorem mul_ok (N : NLaws no NWF) {m o : Mixed γ ν} (hm : WF fo no GWF NWF m)
    (ho : WF fo no GWF NWF o) (hs : ∀ x ∈ o.items, x ∈ m.items) :
    ∃ r, Mixed.mul fo no m o = Except.ok r ∧ WF fo no GWF NWF r ∧ r.items = m.items ∧
      r.isNormalFixed = m.isNormalFixed ∧
      ∀ a, value fo F r a = value fo F m a + value fo F o a := by
  obtain ⟨n, e, w, i⟩ := combine_ok no.mul N.mul_ok hm ho hs
  rw [Mixed.mul, e]
  simp only [res_ok_bind]
  rw [flags_ok ho]
  simp only [res_ok_bind, res_pure]
  refine ⟨_, rfl, ⟨?_, ?_, w, ?_, rfl, ?_⟩, i, rfl, fun a => ?_⟩
  · simp only [Mixed.recomputeRelativeItems]; rw [i]; exact hm.nodup
  · simp only [Mixed.recomputeRelativeItems]
  · simp only [Mixed.recomputeRelativeItems, List.length_append]; rw [hm.inv, ho.inv]
  · simp only [Mixed.recomputeRelativeItems]
    intro g hg
    rw [i]
    rcases List.mem_append.mp hg with hg | hg
    · exact hm.sub g hg
    · exact ⟨(ho.sub g hg).1, fun x hx => hs x ((ho.sub g hg).2 x hx)⟩
  · simp only [value, Mixed.recomputeRelativeItems]
    exact zip_append_sum _ hm.inv

theorem div_ok (N : NLaws no NWF) {m o : Mixed γ ν} (hm : WF fo no GWF NWF m)
    (ho : WF fo no GWF NWF o) (hs : ∀ x ∈ o.items, x ∈ m.items) :
    ∃ r, Mixed.div fo no m o = Except.ok r ∧ WF fo no GWF NWF r ∧ r.items = m.items ∧
      r.isNormalFixed = m.isNormalFixed ∧
      ∀ a, value fo F r a = value fo F m a - value fo F o a := by
  obtain ⟨n, e, w, i⟩ := combine_ok no.div N.div_ok hm ho hs
  rw [Mixed.div, e]
  simp only [res_ok_bind]
  rw [flags_ok ho]
  simp only [res_ok_bind, res_pure]
  refine ⟨_, rfl, ⟨?_, ?_, w, ?_, rfl, ?_⟩, i, rfl, fun a => ?_⟩
  · simp only [Mixed.recomputeRelativeItems]; rw [i]; exact hm.nodup
  · simp only [Mixed.recomputeRelativeItems]
  · simp only [Mixed.recomputeRelativeItems, List.length_append, List.length_map]
    rw [hm.inv, ho.inv]
  · simp only [Mixed.recomputeRelativeItems]
    intro g hg
    rw [i]
    rcases List.mem_append.mp hg with hg | hg
    · exact hm.sub g hg
    · exact ⟨(ho.sub g hg).1, fun x hx => hs x ((ho.sub g hg).2 x hx)⟩
  · simp only [value, Mixed.recomputeRelativeItems]
    rw [zip_append_sum _ hm.inv, zip_not_sum fun g => F g ((fo.items g).map a)]
    ring

theorem wf_setNormal {m : Mixed γ ν} (hm : WF fo no GWF NWF m) {n : ν} (hn : NWF n)
    (hi : no.items n = m.items) : WF fo no GWF NWF (m.setNormalApprox n) := by
  rw [Mixed.setNormalApprox]
  split
  · exact hm
  · exact ⟨hm.nodup, hi, hn, hm.inv, hm.rel, hm.sub⟩

theorem wf_fix {m : Mixed γ ν} (hm : WF fo no GWF NWF m) :
    WF fo no GWF NWF m.fixNormalApprox :=
  ⟨hm.nodup, hm.normal, hm.normalWF, hm.inv, hm.rel, hm.sub⟩

theorem wf_setItems (N : NLaws no NWF) {m : Mixed γ ν} (hm : WF fo no GWF NWF m) {l : List ℤ}
    (hl : l.Nodup) (hs : ∀ x ∈ m.items, x ∈ l) : WF fo no GWF NWF (m.setItems fo no l) := by
  obtain ⟨h1, h2⟩ := N.setItems_ok m.normalApprox l hm.normalWF hl
  exact ⟨hl, h2, h1, hm.inv, rfl, fun g hg => ⟨(hm.sub g hg).1, fun x hx =>
    hs x ((hm.sub g hg).2 x hx)⟩⟩

theorem value_setNormal (m : Mixed γ ν) (n : ν) (a : ℤ → ℝ) :
    value fo F (m.setNormalApprox n) a = value fo F m a := by
  rw [Mixed.setNormalApprox]
  split <;> rfl

theorem value_ofFactor (g : γ) (a : ℤ → ℝ) :
    value fo F (Mixed.ofFactor fo no g) a = F g ((fo.items g).map a) := by
  simp [value, Mixed.ofFactor, Mixed.recomputeRelativeItems, sgn]

theorem eraseIdx_relative {item : ℤ} {items : List ℤ} (hnd : items.Nodup) (h : item ∈ items) :
    items.eraseIdx (findRelativeItem item items) = items.filter fun x => decide (x ≠ item) := by
  have h1 := (relativeItem_getElem? h).1
  obtain ⟨hl, he⟩ := List.getElem?_eq_some_iff.mp h1
  have := hnd.erase_getElem _ hl
  rw [he] at this
  rw [← this, hnd.erase_eq_filter]
  congr 1
  funext x
  by_cases hx : x = item <;> simp [bne, hx]

theorem integrate_nd (hgn : ∀ g, GWF g → (fo.items g).Nodup) (N : NLaws no NWF) {store : Store γ ν}
    (hst : StoreLaw fo GWF store) {m r : Mixed γ ν} (hm : WF fo no GWF NWF m) {item : ℤ}
    (hi : item ∈ m.items) (h : Mixed.integrate fo no store m item = Except.ok r) :
    WF fo no GWF NWF r ∧ r.items = m.items.filter (fun x => decide (x ≠ item)) ∧
      ∃ g, store (findRelativeItem item m.items) (m.evaluate fo) (m.evaluateDerivative fo)
        (m.evaluateSecondDerivative fo) m.normalApprox
        (m.items.filter fun x => decide (x ≠ item)) = Except.ok g ∧
        fo.items g = m.items.filter (fun x => decide (x ≠ item)) ∧ GWF g ∧
        ∀ a, value fo F r a = F g ((fo.items g).map a) := by
  rw [Mixed.integrate, Mixed.eraseAt, if_pos (relativeItem_lt hi)] at h
  simp only [res_ok_bind] at h
  rw [eraseIdx_relative hm.nodup hi] at h
  have hnd : (m.items.filter fun x => decide (x ≠ item)).Nodup := hm.nodup.filter _
  rcases hg : store (findRelativeItem item m.items) (m.evaluate fo) (m.evaluateDerivative fo)
        (m.evaluateSecondDerivative fo) m.normalApprox
        (m.items.filter fun x => decide (x ≠ item)) with err | g
  · rw [hg] at h; cases h
  rw [hg] at h
  simp only [res_ok_bind] at h
  obtain ⟨gw, gi⟩ := hst _ _ _ _ _ _ _ hnd hg
  rcases hn : no.margin m.normalApprox (m.items.filter fun x => decide (x ≠ item)) with err | n
  · rw [hn] at h; cases h
  rw [hn] at h
  simp only [res_ok_bind, res_pure] at h
  cases h
  obtain ⟨nw, ni⟩ := N.margin_ok _ _ _ hm.normalWF hnd
    (fun x hx => by rw [hm.normal]; exact List.mem_of_mem_filter hx) hn
  have hw := wf_ofFactor_nd (fo := fo) (no := no) hgn N gw
  refine ⟨wf_setNormal hw nw (ni.trans gi.symm), ?_, g, rfl, gi, gw, fun a => ?_⟩
  · rw [Mixed.setNormalApprox]
    split <;> exact gi
  · rw [value_setNormal, value_ofFactor]

theorem integrate_ok (L : FLaws fo GWF F) (N : NLaws no NWF) {store : Store γ ν}
    (hst : StoreLaw fo GWF store) {m r : Mixed γ ν} (hm : WF fo no GWF NWF m) {item : ℤ}
    (hi : item ∈ m.items) (h : Mixed.integrate fo no store m item = Except.ok r) :
    WF fo no GWF NWF r ∧ r.items = m.items.filter (fun x => decide (x ≠ item)) ∧
      ∃ g, store (findRelativeItem item m.items) (m.evaluate fo) (m.evaluateDerivative fo)
        (m.evaluateSecondDerivative fo) m.normalApprox
        (m.items.filter fun x => decide (x ≠ item)) = Except.ok g ∧
        fo.items g = m.items.filter (fun x => decide (x ≠ item)) ∧ GWF g ∧
        ∀ a, value fo F r a = F g ((fo.items g).map a) :=
  integrate_nd L.nodup N hst hm hi h

theorem integrateAll_nd (hgn : ∀ g, GWF g → (fo.items g).Nodup) (N : NLaws no NWF)
    {store : Store γ ν}
    (hst : StoreLaw fo GWF store) : ∀ (l : List ℤ) {m r : Mixed γ ν}, l.Nodup →
    WF fo no GWF NWF m → (∀ x ∈ l, x ∈ m.items) →
    l.foldlM (Mixed.integrate fo no store) m = Except.ok r →
    WF fo no GWF NWF r ∧ r.items = m.items.filter fun x => decide (x ∉ l)
  | [], m, r, _, hm, _, h => by
    cases h
    exact ⟨hm, by simp⟩
  | x :: l, m, r, hl, hm, hs, h => by
    rw [List.foldlM_cons] at h
    rcases hi : Mixed.integrate fo no store m x with err | m1
    · rw [hi] at h; cases h
    rw [hi] at h
    obtain ⟨w1, i1, -⟩ := integrate_nd (F := fun _ _ => 0) hgn N hst hm (hs x (by simp)) hi
    rw [List.nodup_cons] at hl
    obtain ⟨w, i⟩ := integrateAll_nd hgn N hst l hl.2 w1 (fun y hy => by
      rw [i1, List.mem_filter]
      refine ⟨hs y (by simp [hy]), ?_⟩
      simp only [ne_eq, decide_not, Bool.not_eq_eq_eq_not, Bool.not_true, decide_eq_false_iff_not]
      rintro rfl
      exact hl.1 hy) h
    refine ⟨w, ?_⟩
    rw [i, i1, List.filter_filter]
    congr 1
    funext y
    by_cases h1 : y = x <;> by_cases h2 : y ∈ l <;> simp [h1, h2]

theorem integrateAll_ok (L : FLaws fo GWF F) (N : NLaws no NWF) {store : Store γ ν}
    (hst : StoreLaw fo GWF store) (l : List ℤ) {m r : Mixed γ ν} (hl : l.Nodup)
    (hm : WF fo no GWF NWF m) (hs : ∀ x ∈ l, x ∈ m.items)
    (h : l.foldlM (Mixed.integrate fo no store) m = Except.ok r) :
    WF fo no GWF NWF r ∧ r.items = m.items.filter fun x => decide (x ∉ l) :=
  integrateAll_nd L.nodup N hst l hl hm hs h

/-- Mixed beliefs obey the laws of signed sums used by the cluster graph; nothing is assumed about
the evaluation of factors. -/
theorem mixed_laws_nd (F : γ → List ℝ → ℝ) (hgn : ∀ g, GWF g → (fo.items g).Nodup)
    (N : NLaws no NWF) {store : Store γ ν} (hst : StoreLaw fo GWF store) :
    ClusterGraph.Laws (Mixed.ops fo no store) (WF fo no GWF NWF) (value fo F) where
  items_ofItems _ := rfl
  ofItems_wf l h := wf_ofItems N h
  ofItems_ev l a := by simp [value, Mixed.ops, Mixed.ofItems]
  nodup b h := h.nodup
  mul_ok b d hb hd hs := by
    obtain ⟨r, e, w, i, -, v⟩ := mul_ok (F := F) N hb hd hs
    exact ⟨r, e, w, i, v⟩
  div_ok b d hb hd hs := by
    obtain ⟨r, e, w, i, -, v⟩ := div_ok (F := F) N hb hd hs
    exact ⟨r, e, w, i, v⟩
  margin_items b l na r hb hl hs h := by
    change Mixed.margin fo no store b l na = Except.ok r at h
    change ∀ x ∈ l, x ∈ b.items at hs
    rw [Mixed.margin] at h
    split at h
    · rcases hn : no.margin b.normalApprox l with err | n
      · rw [hn] at h; cases h
      rw [hn] at h
      simp only [res_ok_bind, res_pure] at h
      cases h
      obtain ⟨nw, ni⟩ := N.margin_ok _ _ _ hb.normalWF hl (by rw [hb.normal]; exact hs) hn
      refine ⟨wf_setNormal (wf_ofItems N hl) nw ni, ?_⟩
      intro x
      show x ∈ (Mixed.setNormalApprox (Mixed.ofItems no l : Mixed γ ν) n).items ↔ x ∈ l
      rw [Mixed.setNormalApprox]
      split <;> rfl
    · rw [difference_eq] at h
      obtain ⟨w, i⟩ := integrateAll_nd hgn N hst _ (hb.nodup.filter _) hb
        (fun x hx => List.mem_of_mem_filter hx) h
      refine ⟨w, fun x => ?_⟩
      show x ∈ r.items ↔ x ∈ l
      rw [i, List.mem_filter]
      simp only [List.mem_filter, decide_eq_true_eq, not_and, not_not]
      exact ⟨fun ⟨h1, h2⟩ => h2 h1, fun hx => ⟨hs x hx, fun _ => hx⟩⟩

/-- Mixed beliefs obey the laws of signed sums used by the cluster graph. -/
theorem mixed_laws (L : FLaws fo GWF F) (N : NLaws no NWF) {store : Store γ ν}
    (hst : StoreLaw fo GWF store) :
    ClusterGraph.Laws (Mixed.ops fo no store) (WF fo no GWF NWF) (value fo F) :=
  mixed_laws_nd F L.nodup N hst

end Verif.Belief
