import Verif.Proofs.BeliefDeriv

/-! Factors whose functions always return: the laws of factors hold with their results. -/
namespace Verif.Belief

open Verif.Items

variable {γ : Type}

/-- No item twice, and the three functions return for arguments of the right size, with results of
the right size. -/
def Tot (fo : FactorOps γ) (g : γ) : Prop :=
  (fo.items g).Nodup ∧ ∀ x : List ℝ, x.length = (fo.items g).length →
    (∃ v, fo.eval g x = Except.ok v) ∧
    (∃ l, fo.deriv g x = Except.ok l ∧ l.length = (fo.items g).length) ∧
    ∃ l, fo.hess g x = Except.ok l ∧ l.length = (fo.items g).length ∧
      ∀ r ∈ l, r.length = (fo.items g).length

/-- The value returned. -/
def fval (fo : FactorOps γ) (g : γ) (x : List ℝ) : ℝ :=
  match fo.eval g x with
  | .ok v => v
  | .error _ => 0

/-- The entry of the returned gradient for an item. -/
noncomputable def fder (fo : FactorOps γ) (g : γ) (a : ℤ → ℝ) (x : ℤ) : ℝ :=
  match fo.deriv g ((fo.items g).map a) with
  | .ok l => l.getD (findRelativeItem x (fo.items g)) 0
  | .error _ => 0

/-- The entry of the returned Hessian for two items. -/
noncomputable def fhes (fo : FactorOps γ) (g : γ) (a : ℤ → ℝ) (x y : ℤ) : ℝ :=
  match fo.hess g ((fo.items g).map a) with
  | .ok l => (l.getD (findRelativeItem x (fo.items g)) []).getD (findRelativeItem y (fo.items g)) 0
  | .error _ => 0

theorem eq_map_getD {α : Type} {items : List ℤ} (hnd : items.Nodup) {l : List α}
    (hl : l.length = items.length) (d : α) :
    l = items.map fun x => l.getD (findRelativeItem x items) d := by
  refine List.ext_getElem (by simp [hl]) fun i h1 h2 => ?_
  rw [List.getElem_map]
  have hi : i < items.length := by omega
  have hg := (relativeItem_getElem? (List.getElem_mem hi)).1
  obtain ⟨hl', he⟩ := List.getElem?_eq_some_iff.mp hg
  rw [hnd.getElem_inj_iff.mp he]
  simp [h1]

theorem tot_laws (fo : FactorOps γ) : FLaws fo (Tot fo) (fval fo) where
  nodup _ h := h.1
  eval_ok g h x hx := by
    obtain ⟨⟨v, e⟩, -⟩ := h.2 x hx
    rw [fval, e]

theorem tot_dok (fo : FactorOps γ) : DOk fo (Tot fo) (fder fo) (fhes fo) where
  deriv_ok g h a := by
    obtain ⟨-, ⟨l, e, hl⟩, -⟩ := h.2 ((fo.items g).map a) (by simp)
    have : fder fo g a = fun x => l.getD (findRelativeItem x (fo.items g)) 0 := by
      funext x
      rw [fder, e]
    rw [this, e]
    congr 1
    exact eq_map_getD h.1 hl 0
  hess_ok g h a := by
    obtain ⟨-, -, l, e, hl, hr⟩ := h.2 ((fo.items g).map a) (by simp)
    have : fhes fo g a = fun x y => (l.getD (findRelativeItem x (fo.items g)) []).getD
        (findRelativeItem y (fo.items g)) 0 := by
      funext x y
      rw [fhes, e]
    rw [this, e]
    congr 1
    conv_lhs => rw [eq_map_getD h.1 hl []]
    refine List.map_congr_left fun x hx => ?_
    refine eq_map_getD h.1 ?_ 0
    have hlt : findRelativeItem x (fo.items g) < l.length := by
      rw [hl]; exact relativeItem_lt hx
    have hget : l.getD (findRelativeItem x (fo.items g)) [] = l[findRelativeItem x (fo.items g)] := by
      simp [hlt]
    rw [hget]
    exact hr _ (List.getElem_mem hlt)

end Verif.Belief
