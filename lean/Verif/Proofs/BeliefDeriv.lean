import Verif.Proofs.Belief
import Mathlib.Analysis.Calculus.Deriv.Add

/-! Derivatives of mixed beliefs. -/
namespace Verif.Belief

open Verif.Items

variable {γ ν : Type}

/-- `v(i) = y` for the position of an item. -/
theorem set_relative {α : Type} {items : List ℤ} (hnd : items.Nodup) {x : ℤ} (hx : x ∈ items)
    (φ : ℤ → α) (y : α) :
    setN (items.map φ) (findRelativeItem x items) y =
      Except.ok (items.map (Function.update φ x y)) := by
  rw [setN_ok (by simpa using relativeItem_lt hx)]
  congr 1
  refine List.ext_getElem (by simp) fun i h1 h2 => ?_
  have hg := (relativeItem_getElem? hx).1
  obtain ⟨hl, he⟩ := List.getElem?_eq_some_iff.mp hg
  have hi : i < items.length := by simpa using h2
  rw [List.getElem_set]
  split
  · rename_i h
    subst h
    simp [he]
  · rename_i h
    have : items[i] ≠ x := by
      rintro rfl
      exact h (hnd.getElem_inj_iff.mp he)
    simp [this]

theorem nth_relative {α : Type} {items : List ℤ} {x : ℤ} (hx : x ∈ items) (φ : ℤ → α) :
    nth (items.map φ) (findRelativeItem x items) = Except.ok (φ x) := by
  rw [nth, List.getElem?_map, (relativeItem_getElem? hx).1]; rfl

theorem addVectorSubset_ok {items l : List ℤ} (hnd : items.Nodup) (hl : l.Nodup)
    (hs : ∀ x ∈ l, x ∈ items) (φ ψ : ℤ → ℝ) :
    addVectorSubset (items.map φ) (findRelativeItems l items) (l.map ψ) =
      Except.ok (items.map fun x => φ x + if x ∈ l then ψ x else 0) := by
  have key : ∀ (k : List ℤ) (n : ℕ) (φ : ℤ → ℝ), k.Nodup → (∀ x ∈ k, x ∈ items) →
      (l.map ψ).drop n = k.map ψ →
      ((findRelativeItems k items).zipIdx n).foldlM (fun v s => do
        let old ← nth v s.1
        let d ← nth (l.map ψ) s.2
        setN v s.1 (old + d)) (items.map φ) =
      (Except.ok (items.map fun x => φ x + if x ∈ k then ψ x else 0) : Res _) := by
    intro k
    induction k with
    | nil => intro n φ _ _ _; simp [findRelativeItems, res_pure]
    | cons x k ih =>
      intro n φ hk hsk hd
      have hx := hsk x (by simp)
      rw [List.nodup_cons] at hk
      have hn : nth (l.map ψ) n = Except.ok (ψ x) := by
        have := congrArg (fun l => l[0]?) hd
        simp only [List.getElem?_drop, Nat.add_zero, List.map_cons,
          List.getElem?_cons_zero] at this
        rw [nth, this]
      rw [findRelativeItems, List.map_cons, List.zipIdx_cons, List.foldlM_cons]
      simp only
      rw [nth_relative hx φ, hn]
      simp only [res_ok_bind]
      rw [set_relative hnd hx]
      simp only [res_ok_bind]
      have := ih (n + 1) (Function.update φ x (φ x + ψ x)) hk.2
        (fun y hy => hsk y (by simp [hy])) (by rw [← List.drop_drop, hd]; rfl)
      rw [findRelativeItems] at this
      refine this.trans ?_
      congr 1
      refine List.map_congr_left fun y _ => ?_
      by_cases hyx : y = x
      · subst hyx
        simp [hk.1]
      · simp [Function.update_of_ne hyx, hyx]
  rw [addVectorSubset]
  exact key l 0 φ hl hs (by simp)

theorem addMatrixSubset_ok {items l : List ℤ} (hnd : items.Nodup) (hl : l.Nodup)
    (hs : ∀ x ∈ l, x ∈ items) (φ ψ : ℤ → ℤ → ℝ) :
    addMatrixSubset (items.map fun x => items.map (φ x)) (findRelativeItems l items)
      (l.map fun x => l.map (ψ x)) =
      Except.ok (items.map fun x => items.map fun y =>
        φ x y + if x ∈ l ∧ y ∈ l then ψ x y else 0) := by
  have key : ∀ (k : List ℤ) (n : ℕ) (φ : ℤ → ℤ → ℝ), k.Nodup → (∀ x ∈ k, x ∈ items) →
      (l.map fun x => l.map (ψ x)).drop n = (k.map fun x => l.map (ψ x)) →
      ((findRelativeItems k items).zipIdx n).foldlM (fun m s =>
        addMatrixRow m (findRelativeItems l items) (l.map fun x => l.map (ψ x)) s)
        (items.map fun x => items.map (φ x)) =
      (Except.ok (items.map fun x => items.map fun y =>
        φ x y + if x ∈ k ∧ y ∈ l then ψ x y else 0) : Res _) := by
    intro k
    induction k with
    | nil => intro n φ _ _ _; simp [findRelativeItems, res_pure]
    | cons x k ih =>
      intro n φ hk hsk hd
      have hx := hsk x (by simp)
      rw [List.nodup_cons] at hk
      have hn : nth (l.map fun x => l.map (ψ x)) n = Except.ok (l.map (ψ x)) := by
        have := congrArg (fun l => l[0]?) hd
        simp only [List.getElem?_drop, Nat.add_zero, List.map_cons,
          List.getElem?_cons_zero] at this
        rw [nth, this]
      rw [show findRelativeItems (x :: k) items =
        findRelativeItem x items :: findRelativeItems k items from rfl,
        List.zipIdx_cons, List.foldlM_cons]
      rw [addMatrixRow]
      simp only
      rw [nth_relative hx fun x => items.map (φ x), hn]
      simp only [res_ok_bind]
      rw [addVectorSubset_ok hnd hl hs]
      simp only [res_ok_bind]
      rw [set_relative hnd hx]
      simp only [res_ok_bind]
      have hfun : (items.map (Function.update (fun x => items.map (φ x)) x
          (items.map fun y => φ x y + if y ∈ l then ψ x y else 0))) =
          items.map fun z => items.map (Function.update φ x
            (fun y => φ x y + if y ∈ l then ψ x y else 0) z) := by
        refine List.map_congr_left fun z _ => ?_
        by_cases hz : z = x
        · subst hz; simp
        · simp [Function.update_of_ne hz]
      rw [hfun]
      have := ih (n + 1) (Function.update φ x (fun y => φ x y + if y ∈ l then ψ x y else 0)) hk.2
        (fun y hy => hsk y (by simp [hy])) (by rw [← List.drop_drop, hd]; rfl)
      refine this.trans ?_
      congr 1
      refine List.map_congr_left fun z _ => ?_
      refine List.map_congr_left fun y _ => ?_
      by_cases hz : z = x
      · subst hz
        simp [hk.1]
      · simp [Function.update_of_ne hz, hz]
  rw [addMatrixSubset]
  exact key l 0 φ hl hs (by simp)

/-- The coded derivative functions return `D g a x` and `H g a x y`. -/
structure DOk (fo : FactorOps γ) (GWF : γ → Prop)
    (D : γ → (ℤ → ℝ) → ℤ → ℝ) (H : γ → (ℤ → ℝ) → ℤ → ℤ → ℝ) : Prop where
  deriv_ok : ∀ g, GWF g → ∀ a : ℤ → ℝ,
    fo.deriv g ((fo.items g).map a) = Except.ok ((fo.items g).map (D g a))
  hess_ok : ∀ g, GWF g → ∀ a : ℤ → ℝ, fo.hess g ((fo.items g).map a) =
    Except.ok ((fo.items g).map fun x => (fo.items g).map (H g a x))

/-- Laws of factor derivatives: `D g a x` and `H g a x y` are the first and second partial
derivatives of the factor in its items, and the coded functions return them. -/
structure DLaws (fo : FactorOps γ) (GWF : γ → Prop) (F : γ → List ℝ → ℝ)
    (D : γ → (ℤ → ℝ) → ℤ → ℝ) (H : γ → (ℤ → ℝ) → ℤ → ℤ → ℝ) : Prop
    extends DOk fo GWF D H where
  isDeriv : ∀ g, GWF g → ∀ (a : ℤ → ℝ), ∀ x ∈ fo.items g,
    HasDerivAt (fun t => F g ((fo.items g).map (Function.update a x t))) (D g a x) (a x)
  isHess : ∀ g, GWF g → ∀ (a : ℤ → ℝ), ∀ x ∈ fo.items g, ∀ y ∈ fo.items g,
    HasDerivAt (fun t => D g (Function.update a y t) x) (H g a x y) (a y)
  derivLocal : ∀ g, GWF g → ∀ a a' : ℤ → ℝ, (∀ z ∈ fo.items g, a z = a' z) →
    ∀ x ∈ fo.items g, D g a x = D g a' x

variable {fo : FactorOps γ} {no : NormalOps ν} {GWF : γ → Prop} {NWF : ν → Prop}
  {F : γ → List ℝ → ℝ} {D : γ → (ℤ → ℝ) → ℤ → ℝ} {H : γ → (ℤ → ℝ) → ℤ → ℤ → ℝ}

/-- Signed sum of the factor gradients, zero outside a factor's items. -/
def grad (fo : FactorOps γ) (D : γ → (ℤ → ℝ) → ℤ → ℝ) (m : Mixed γ ν) (a : ℤ → ℝ) (x : ℤ) : ℝ :=
  ((m.beliefs.zip m.isInverted).map fun p =>
    sgn p.2 (if x ∈ fo.items p.1 then D p.1 a x else 0)).sum

/-- Signed sum of the factor Hessians. -/
def hessian (fo : FactorOps γ) (H : γ → (ℤ → ℝ) → ℤ → ℤ → ℝ) (m : Mixed γ ν) (a : ℤ → ℝ)
    (x y : ℤ) : ℝ :=
  ((m.beliefs.zip m.isInverted).map fun p =>
    sgn p.2 (if x ∈ fo.items p.1 ∧ y ∈ fo.items p.1 then H p.1 a x y else 0)).sum

theorem sgn_if (i : Bool) (c : Prop) [Decidable c] (v : ℝ) :
    sgn i (if c then v else 0) = if c then sgn i v else 0 := by
  cases i <;> by_cases hc : c <;> simp [sgn, hc]

theorem map_sgn (i : Bool) (l : List ℤ) (φ : ℤ → ℝ) :
    (if i then (l.map φ).map (- ·) else l.map φ) = l.map fun x => sgn i (φ x) := by
  cases i <;> simp [sgn]

theorem map_map_sgn (i : Bool) (l : List ℤ) (φ : ℤ → ℤ → ℝ) :
    (if i then (l.map fun x => l.map (φ x)).map (·.map (- ·)) else l.map fun x => l.map (φ x)) =
      l.map fun x => l.map fun y => sgn i (φ x y) := by
  cases i <;> simp [sgn, Function.comp_def]

theorem evaluateDerivative_ok (L : FLaws fo GWF F) (X : DOk fo GWF D H) {m : Mixed γ ν}
    (h : WF fo no GWF NWF m) (a : ℤ → ℝ) :
    m.evaluateDerivative fo (m.items.map a) = Except.ok (m.items.map (grad fo D m a)) := by
  have key : ∀ (bs : List γ) (is : List Bool) (n : ℕ) (φ : ℤ → ℝ),
      (∀ g ∈ bs, GWF g ∧ ∀ x ∈ fo.items g, x ∈ m.items) → is.length = bs.length →
      m.isInverted.drop n = is →
      (bs.zipIdx n).foldlM (m.derivStep fo (m.items.map a)) (m.items.map φ) =
        Except.ok (m.items.map fun x => φ x + ((bs.zip is).map fun p =>
          sgn p.2 (if x ∈ fo.items p.1 then D p.1 a x else 0)).sum) := by
    intro bs
    induction bs with
    | nil => intro is n φ _ _ _; simp [res_pure]
    | cons g bs ih =>
      intro is n φ hs hl hi
      obtain ⟨i, is, rfl⟩ : ∃ i is', is = i :: is' := by
        cases is with
        | nil => simp at hl
        | cons i is => exact ⟨i, is, rfl⟩
      obtain ⟨hg, hsub⟩ := hs g (by simp)
      have hinv : atE m.isInverted n = Except.ok i := by
        have := congrArg (fun l => l[0]?) hi
        simp only [List.getElem?_drop, Nat.add_zero, List.getElem?_cons_zero] at this
        rw [atE, this]
      have hstep : m.derivStep fo (m.items.map a) (m.items.map φ) (g, n) =
          Except.ok (m.items.map fun x => φ x +
            sgn i (if x ∈ fo.items g then D g a x else 0)) := by
        rw [Mixed.derivStep]
        simp only
        rw [findSubset_map m.items a _ hsub]
        simp only [res_ok_bind]
        rw [X.deriv_ok g hg]
        simp only [res_ok_bind]
        rw [hinv]
        simp only [res_ok_bind]
        rw [map_sgn, addVectorSubset_ok h.nodup (L.nodup g hg) hsub]
        simp only [sgn_if]
      rw [List.zipIdx_cons, List.foldlM_cons, hstep]
      simp only [res_ok_bind]
      rw [ih is (n + 1) _ (fun g' hg' => hs g' (by simp [hg'])) (by simpa using hl)
        (by rw [← List.drop_drop, hi]; rfl)]
      congr 1
      refine List.map_congr_left fun x _ => ?_
      simp only [List.zip_cons_cons, List.map_cons, List.sum_cons]
      ring
  have := key m.beliefs m.isInverted 0 (fun _ => 0) h.sub h.inv (by simp)
  rw [Mixed.evaluateDerivative]
  rw [show List.replicate (m.items.map a).length (0 : ℝ) = m.items.map fun _ => 0 by simp]
  refine this.trans ?_
  congr 1
  refine List.map_congr_left fun x _ => ?_
  rw [zero_add]; rfl

theorem evaluateSecondDerivative_ok (L : FLaws fo GWF F) (X : DOk fo GWF D H)
    {m : Mixed γ ν} (h : WF fo no GWF NWF m) (a : ℤ → ℝ) :
    m.evaluateSecondDerivative fo (m.items.map a) =
      Except.ok (m.items.map fun x => m.items.map (hessian fo H m a x)) := by
  have key : ∀ (bs : List γ) (is : List Bool) (n : ℕ) (φ : ℤ → ℤ → ℝ),
      (∀ g ∈ bs, GWF g ∧ ∀ x ∈ fo.items g, x ∈ m.items) → is.length = bs.length →
      m.isInverted.drop n = is →
      (bs.zipIdx n).foldlM (m.hessStep fo (m.items.map a)) (m.items.map fun x => m.items.map (φ x)) =
        Except.ok (m.items.map fun x => m.items.map fun y => φ x y + ((bs.zip is).map fun p =>
          sgn p.2 (if x ∈ fo.items p.1 ∧ y ∈ fo.items p.1 then H p.1 a x y else 0)).sum) := by
    intro bs
    induction bs with
    | nil => intro is n φ _ _ _; simp [res_pure]
    | cons g bs ih =>
      intro is n φ hs hl hi
      obtain ⟨i, is, rfl⟩ : ∃ i is', is = i :: is' := by
        cases is with
        | nil => simp at hl
        | cons i is => exact ⟨i, is, rfl⟩
      obtain ⟨hg, hsub⟩ := hs g (by simp)
      have hinv : atE m.isInverted n = Except.ok i := by
        have := congrArg (fun l => l[0]?) hi
        simp only [List.getElem?_drop, Nat.add_zero, List.getElem?_cons_zero] at this
        rw [atE, this]
      have hstep : m.hessStep fo (m.items.map a) (m.items.map fun x => m.items.map (φ x)) (g, n) =
          Except.ok (m.items.map fun x => m.items.map fun y => φ x y +
            sgn i (if x ∈ fo.items g ∧ y ∈ fo.items g then H g a x y else 0)) := by
        rw [Mixed.hessStep]
        simp only
        rw [findSubset_map m.items a _ hsub]
        simp only [res_ok_bind]
        rw [X.hess_ok g hg]
        simp only [res_ok_bind]
        rw [hinv]
        simp only [res_ok_bind]
        rw [map_map_sgn, addMatrixSubset_ok h.nodup (L.nodup g hg) hsub]
        simp only [sgn_if]
      rw [List.zipIdx_cons, List.foldlM_cons, hstep]
      simp only [res_ok_bind]
      rw [ih is (n + 1) _ (fun g' hg' => hs g' (by simp [hg'])) (by simpa using hl)
        (by rw [← List.drop_drop, hi]; rfl)]
      congr 1
      refine List.map_congr_left fun x _ => ?_
      refine List.map_congr_left fun y _ => ?_
      simp only [List.zip_cons_cons, List.map_cons, List.sum_cons]
      ring
  have := key m.beliefs m.isInverted 0 (fun _ _ => 0) h.sub h.inv (by simp)
  rw [Mixed.evaluateSecondDerivative]
  rw [show List.replicate (m.items.map a).length (List.replicate (m.items.map a).length (0 : ℝ)) =
    m.items.map fun _ => m.items.map fun _ => 0 by simp]
  refine this.trans ?_
  congr 1
  refine List.map_congr_left fun x _ => ?_
  refine List.map_congr_left fun y _ => ?_
  rw [zero_add]; rfl

theorem hasDerivAt_sum {α : Type} (f : α → ℝ → ℝ) (f' : α → ℝ) (t : ℝ) : ∀ l : List α,
    (∀ p ∈ l, HasDerivAt (f p) (f' p) t) →
    HasDerivAt (fun s => (l.map fun p => f p s).sum) (l.map f').sum t
  | [], _ => by simpa using hasDerivAt_const t (0 : ℝ)
  | p :: l, h => by
    simp only [List.map_cons, List.sum_cons]
    exact (h p (by simp)).add (hasDerivAt_sum f f' t l fun q hq => h q (by simp [hq]))

theorem HasDerivAt.sgn' {f : ℝ → ℝ} {f' t : ℝ} (h : HasDerivAt f f' t) (i : Bool) :
    HasDerivAt (fun s => sgn i (f s)) (sgn i f') t := by
  cases i
  · simpa [sgn] using h
  · simpa [sgn] using h.fun_neg

theorem map_update_notMem {l : List ℤ} {x : ℤ} (h : x ∉ l) (a : ℤ → ℝ) (t : ℝ) :
    l.map (Function.update a x t) = l.map a :=
  List.map_congr_left fun y hy => Function.update_of_ne (fun (he : y = x) => h (he ▸ hy)) _ _

theorem grad_isDeriv (X : DLaws fo GWF F D H) {m : Mixed γ ν} (h : WF fo no GWF NWF m)
    (a : ℤ → ℝ) (x : ℤ) :
    HasDerivAt (fun t => value fo F m (Function.update a x t)) (grad fo D m a x) (a x) := by
  refine hasDerivAt_sum (fun (p : γ × Bool) t => sgn p.2 (F p.1 ((fo.items p.1).map (Function.update a x t))))
    (fun (p : γ × Bool) => sgn p.2 (if x ∈ fo.items p.1 then D p.1 a x else 0)) (a x) _ fun p hp => ?_
  have hg := h.sub p.1 (List.of_mem_zip hp).1
  refine HasDerivAt.sgn' ?_ p.2
  split
  · rename_i hx
    exact X.isDeriv p.1 hg.1 a x hx
  · rename_i hx
    simp only [map_update_notMem hx]
    exact hasDerivAt_const _ _

theorem hessian_isDeriv (X : DLaws fo GWF F D H) {m : Mixed γ ν} (h : WF fo no GWF NWF m)
    (a : ℤ → ℝ) (x y : ℤ) :
    HasDerivAt (fun t => grad fo D m (Function.update a y t) x) (hessian fo H m a x y) (a y) := by
  refine hasDerivAt_sum (fun (p : γ × Bool) t => sgn p.2 (if x ∈ fo.items p.1 then
      D p.1 (Function.update a y t) x else 0))
    (fun (p : γ × Bool) => sgn p.2 (if x ∈ fo.items p.1 ∧ y ∈ fo.items p.1 then H p.1 a x y else 0)) (a y) _
    fun p hp => ?_
  have hg := h.sub p.1 (List.of_mem_zip hp).1
  refine HasDerivAt.sgn' ?_ p.2
  by_cases hx : x ∈ fo.items p.1
  · by_cases hy : y ∈ fo.items p.1
    · simp only [hx, hy, and_self, if_true]
      exact X.isHess p.1 hg.1 a x hx y hy
    · simp only [hx, hy, and_false, if_true, if_false]
      have : (fun t => D p.1 (Function.update a y t) x) = fun _ => D p.1 a x := by
        funext t
        refine X.derivLocal p.1 hg.1 _ _ (fun z hz => ?_) x hx
        exact Function.update_of_ne (fun (he : z = y) => hy (he ▸ hz)) _ _
      rw [this]
      exact hasDerivAt_const _ _
  · simp only [hx, false_and, if_false]
    exact hasDerivAt_const _ _

end Verif.Belief
