import Verif.Proofs.Belief
import Verif.Proofs.ClusterExact

/-! Mixed beliefs whose one-dimensional integrals are exact. -/
namespace Verif.Belief

open Verif.Items Verif.ClusterGraph MeasureTheory
open scoped ENNReal

variable {γ ν : Type} {fo : FactorOps γ} {no : NormalOps ν} {GWF : γ → Prop} {NWF : ν → Prop}
  {F : γ → List ℝ → ℝ}

/-- Exact storing: the stored factor is the log of the exact integral of `exp` of the function
over coordinate `k`. -/
def ExactStore (F : γ → List ℝ → ℝ) (store : Store γ ν) : Prop :=
  ∀ (k : ℕ) f d h n l g (φ : List ℝ → ℝ), k ≤ l.length →
    (∀ x : List ℝ, x.length = l.length + 1 → f x = Except.ok (φ x)) →
    store k f d h n l = Except.ok g → ∀ x : List ℝ, x.length = l.length →
      ENNReal.ofReal (Real.exp (F g x)) =
        ∫⁻ t : ℝ, ENNReal.ofReal (Real.exp (φ (x.insertIdx k t)))

theorem exists_assignment : ∀ {items : List ℤ}, items.Nodup → ∀ x : List ℝ,
    x.length = items.length → ∃ a : ℤ → ℝ, x = items.map a
  | [], _, x, h => ⟨fun _ => 0, by simpa using h⟩
  | i :: items, hn, x, h => by
    cases x with
    | nil => simp at h
    | cons y x =>
      rw [List.nodup_cons] at hn
      obtain ⟨a, ha⟩ := exists_assignment hn.2 x (by simpa using h)
      refine ⟨Function.update a i y, ?_⟩
      rw [List.map_cons, Function.update_self, ha]
      congr 1
      exact List.map_congr_left fun z hz =>
        (Function.update_of_ne (fun (e : z = i) => hn.1 (e ▸ hz)) _ _).symm

/-- Setting the integrated item is inserting its coordinate. -/
theorem map_update_insert {item : ℤ} {items : List ℤ} (hnd : items.Nodup) (h : item ∈ items)
    (a : ℤ → ℝ) (t : ℝ) :
    items.map (Function.update a item t) =
      ((items.filter fun x => decide (x ≠ item)).map a).insertIdx (findRelativeItem item items) t := by
  have h1 := (relativeItem_getElem? h).1
  obtain ⟨hl, he⟩ := List.getElem?_eq_some_iff.mp h1
  rw [← eraseIdx_relative hnd h]
  have h2 : (items.eraseIdx (findRelativeItem item items)).map a =
      (items.map (Function.update a item t)).eraseIdx (findRelativeItem item items) := by
    rw [List.eraseIdx_map, eraseIdx_relative hnd h]
    refine List.map_congr_left fun x hx => ?_
    have := List.of_mem_filter hx
    rw [Function.update_of_ne (by simpa using this)]
  rw [h2]
  have h3 : (items.map (Function.update a item t))[findRelativeItem item items]? = some t := by
    rw [List.getElem?_map, h1]; simp
  obtain ⟨hyl, h4⟩ := List.getElem?_eq_some_iff.mp h3
  have := List.insertIdx_eraseIdx_getElem hyl
  rw [h4] at this
  exact this.symm

theorem value_local {m : Mixed γ ν} (h : WF fo no GWF NWF m) {a a' : ℤ → ℝ}
    (haa : ∀ x ∈ m.items, a x = a' x) : value fo F m a = value fo F m a' := by
  rw [value, value]
  congr 1
  refine List.map_congr_left fun p hp => ?_
  congr 2
  exact List.map_congr_left fun x hx => haa x ((h.sub p.1 (List.of_mem_zip hp).1).2 x hx)

theorem value_measurable (hM : ∀ g, GWF g → Measurable fun a : ℤ → ℝ => F g ((fo.items g).map a))
    {m : Mixed γ ν} (h : WF fo no GWF NWF m) : Measurable (value fo F m) := by
  refine measurable_sum (β := γ × Bool)
    (f := fun p a => sgn p.2 (F p.1 ((fo.items p.1).map a))) _ fun p hp => ?_
  have := hM p.1 (h.sub p.1 (List.of_mem_zip hp).1).1
  cases hp2 : p.2
  · simpa [sgn] using this
  · simp only [sgn, if_true]
    exact this.neg

theorem integrate_exact (L : FLaws fo GWF F) (N : NLaws no NWF) {store : Store γ ν}
    (hst : StoreLaw fo GWF store) (hx : ExactStore F store) {m r : Mixed γ ν}
    (hM : ∀ g, GWF g → Measurable fun a : ℤ → ℝ => F g ((fo.items g).map a))
    (hm : WF fo no GWF NWF m) {item : ℤ} (hi : item ∈ m.items)
    (h : Mixed.integrate fo no store m item = Except.ok r) :
    wt (value fo F r) = integ {item} (wt (value fo F m)) := by
  obtain ⟨-, -, g, hg, gi, -, hv⟩ := integrate_ok L N hst hm hi h
  have hlen : (m.items.filter fun x => decide (x ≠ item)).length + 1 = m.items.length := by
    rw [← eraseIdx_relative hm.nodup hi, List.length_eraseIdx_of_lt (relativeItem_lt hi)]
    have := relativeItem_lt hi
    omega
  classical
  let φ : List ℝ → ℝ := fun x =>
    if hx : x.length = m.items.length then
      value fo F m (exists_assignment hm.nodup x hx).choose else 0
  have hφ : ∀ a : ℤ → ℝ, φ (m.items.map a) = value fo F m a := by
    intro a
    have hl : (m.items.map a).length = m.items.length := by simp
    simp only [φ, hl, dif_pos]
    have := (exists_assignment hm.nodup _ hl).choose_spec
    refine value_local hm fun x hx => ?_
    exact (List.map_inj_left.mp this x hx).symm
  have key := hx _ _ _ _ _ _ _ φ (by have := relativeItem_lt hi; omega) (fun x hx => by
    obtain ⟨a, rfl⟩ := exists_assignment hm.nodup x (by omega)
    rw [evaluate_ok L hm a, hφ]) hg
  funext a
  rw [wt, hv a, gi, key _ (by simp), integ, lmarginal_singleton]
  refine lintegral_congr fun t => ?_
  rw [← map_update_insert hm.nodup hi, hφ]
  rfl

theorem integrateAll_exact (L : FLaws fo GWF F) (N : NLaws no NWF) {store : Store γ ν}
    (hst : StoreLaw fo GWF store) (hx : ExactStore F store)
    (hM : ∀ g, GWF g → Measurable fun a : ℤ → ℝ => F g ((fo.items g).map a)) :
    ∀ (l : List ℤ) {m r : Mixed γ ν}, l.Nodup →
    WF fo no GWF NWF m → (∀ x ∈ l, x ∈ m.items) →
    l.foldlM (Mixed.integrate fo no store) m = Except.ok r →
    wt (value fo F r) = integ l.toFinset (wt (value fo F m))
  | [], m, r, _, hm, _, h => by
    cases h
    simp [integ]
  | x :: l, m, r, hl, hm, hs, h => by
    rw [List.foldlM_cons] at h
    rcases hi : Mixed.integrate fo no store m x with err | m1
    · rw [hi] at h; cases h
    rw [hi] at h
    obtain ⟨w1, i1, -⟩ := integrate_ok L N hst hm (hs x (by simp)) hi
    rw [List.nodup_cons] at hl
    have e1 := integrate_exact L N hst hx hM hm (hs x (by simp)) hi
    rw [integrateAll_exact L N hst hx hM l hl.2 w1 (fun y hy => by
      rw [i1, List.mem_filter]
      refine ⟨hs y (by simp [hy]), ?_⟩
      simp only [ne_eq, decide_not, Bool.not_eq_eq_eq_not, Bool.not_true, decide_eq_false_iff_not]
      rintro rfl
      exact hl.1 hy) h, e1]
    have : (x :: l).toFinset = {x} ∪ l.toFinset := by ext; simp
    rw [this]
    have hd : Disjoint ({x} : Finset ℤ) l.toFinset :=
      Finset.disjoint_singleton_left.mpr (by simpa using hl.1)
    have := lmarginal_union' (fun _ : ℤ => (volume : Measure ℝ)) (wt (value fo F m))
      (wt_measurable (value_measurable hM hm)) hd
    simp only [integ]
    rw [this]

/-- Mixed beliefs with exact one-dimensional integrals obey the laws of exact local operations. -/
theorem mixed_exact (L : FLaws fo GWF F) (N : NLaws no NWF) {store : Store γ ν}
    (hst : StoreLaw fo GWF store) (hx : ExactStore F store)
    (hM : ∀ g, GWF g → Measurable fun a : ℤ → ℝ => F g ((fo.items g).map a)) :
    ExactLaws (Mixed.ops fo no store) (WF fo no GWF NWF) (value fo F) where
  local_ b hb a a' h := value_local hb h
  meas b hb := value_measurable hM hb
  margin_exact b l r hb hl hs h a := by
    change Mixed.margin fo no store b l false = Except.ok r at h
    rw [Mixed.margin] at h
    simp only [Bool.false_eq_true, if_false] at h
    rw [difference_eq] at h
    rw [integrateAll_exact L N hst hx hM _ (hb.nodup.filter _) hb
      (fun x hx => List.mem_of_mem_filter hx) h]
    congr 1
    ext x
    show _ ↔ x ∈ b.items.toFinset \ l.toFinset
    simp
  logNorm_exact b v hb h a := by
    change Mixed.logNorm fo no store b = Except.ok v at h
    rw [Mixed.logNorm] at h
    rcases hm : Mixed.margin fo no store b [] false with err | e
    · rw [hm] at h; cases h
    rw [hm] at h
    simp only [res_ok_bind] at h
    rw [Mixed.margin] at hm
    simp only [Bool.false_eq_true, if_false] at hm
    rw [difference_eq] at hm
    have e1 := integrateAll_exact L N hst hx hM _ (hb.nodup.filter _) hb
      (fun x hx => List.mem_of_mem_filter hx) hm
    obtain ⟨w, i⟩ := integrateAll_ok L N hst _ (hb.nodup.filter _) hb
      (fun x hx => List.mem_of_mem_filter hx) hm
    have hnil : e.items = [] := by
      rw [i]
      refine List.filter_eq_nil_iff.mpr fun x hx => ?_
      simp [hx]
    have ev := evaluate_ok L w a
    rw [hnil, List.map_nil, h] at ev
    cases ev
    have := congrFun e1 a
    rw [wt] at this
    rw [this]
    congr 1
    ext x
    show _ ↔ x ∈ b.items.toFinset
    simp

end Verif.Belief
