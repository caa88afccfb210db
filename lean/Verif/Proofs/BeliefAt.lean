import Verif.Proofs.BeliefTotal

/-! Factors whose functions return at one given point: mixed beliefs made of them can be evaluated
there. -/
namespace Verif.Belief

open Verif.Items

variable {γ ν : Type}

/-- The functions of the factors with the argument replaced by the values of `μ` at the items. -/
def frozenOps (fo : FactorOps γ) (μ : ℤ → ℝ) : FactorOps γ where
  items := fo.items
  eval g _ := fo.eval g ((fo.items g).map μ)
  deriv g _ := fo.deriv g ((fo.items g).map μ)
  hess g _ := fo.hess g ((fo.items g).map μ)

/-- No item twice, and the three functions return at `μ`, with results of the right size. -/
def AtMean (fo : FactorOps γ) (μ : ℤ → ℝ) (g : γ) : Prop :=
  (fo.items g).Nodup ∧ (∃ v, fo.eval g ((fo.items g).map μ) = Except.ok v) ∧
    (∃ l, fo.deriv g ((fo.items g).map μ) = Except.ok l ∧ l.length = (fo.items g).length) ∧
    ∃ l, fo.hess g ((fo.items g).map μ) = Except.ok l ∧ l.length = (fo.items g).length ∧
      ∀ r ∈ l, r.length = (fo.items g).length

theorem AtMean.tot {fo : FactorOps γ} {μ : ℤ → ℝ} {g : γ} (h : AtMean fo μ g) :
    Tot (frozenOps fo μ) g := ⟨h.1, fun _ _ => h.2⟩

theorem Tot.atMean {fo : FactorOps γ} {g : γ} (h : Tot fo g) (μ : ℤ → ℝ) : AtMean fo μ g :=
  ⟨h.1, h.2 _ (by simp)⟩

variable {fo : FactorOps γ} {no : NormalOps ν} {NWF : ν → Prop} {μ : ℤ → ℝ}

/-- Well formed with factors that can be evaluated at `μ`. -/
abbrev WFAt (fo : FactorOps γ) (no : NormalOps ν) (NWF : ν → Prop) (μ : ℤ → ℝ)
    (m : Mixed γ ν) : Prop := WF fo no (AtMean fo μ) NWF m

theorem WFAt.tot {m : Mixed γ ν} (h : WFAt fo no NWF μ m) :
    WF (frozenOps fo μ) no (Tot (frozenOps fo μ)) NWF m :=
  ⟨h.nodup, h.normal, h.normalWF, h.inv, h.rel, fun g hg => ⟨(h.sub g hg).1.tot, (h.sub g hg).2⟩⟩

theorem wfAt_of_tot {m : Mixed γ ν} (h : WF fo no (Tot fo) NWF m) (μ : ℤ → ℝ) :
    WFAt fo no NWF μ m :=
  ⟨h.nodup, h.normal, h.normalWF, h.inv, h.rel,
    fun g hg => ⟨(h.sub g hg).1.atMean μ, (h.sub g hg).2⟩⟩

theorem foldlM_congr_mem {α β : Type} {f f' : β → α → Res β} : ∀ (l : List α) (b : β),
    (∀ a ∈ l, ∀ b, f b a = f' b a) → l.foldlM f b = l.foldlM f' b
  | [], _, _ => rfl
  | a :: l, b, h => by
    rw [List.foldlM_cons, List.foldlM_cons, h a (by simp)]
    congr 1
    funext b'
    exact foldlM_congr_mem l b' fun a' ha' => h a' (by simp [ha'])

theorem WFAt.rel_at {m : Mixed γ ν} (h : WFAt fo no NWF μ m) {g : γ} {n : ℕ}
    (hg : (g, n) ∈ m.beliefs.zipIdx) :
    atE m.relativeItems n = Except.ok (findRelativeItems (fo.items g) m.items) := by
  have := List.mk_mem_zipIdx_iff_getElem?.mp hg
  rw [atE, h.rel, List.getElem?_map, this]
  rfl

theorem evaluate_frozen {m : Mixed γ ν} (h : WFAt fo no NWF μ m) :
    m.evaluate fo (m.items.map μ) = m.evaluate (frozenOps fo μ) (m.items.map μ) := by
  rw [Mixed.evaluate, Mixed.evaluate]
  refine foldlM_congr_mem _ _ fun ⟨g, n⟩ hg ret => ?_
  have hmem := List.fst_mem_of_mem_zipIdx hg
  rw [Mixed.evalStep, Mixed.evalStep]
  simp only
  rw [h.rel_at hg]
  simp only [res_ok_bind]
  rw [findSubset_map m.items μ _ (h.sub g hmem).2]
  rfl

theorem evaluateDerivative_frozen {m : Mixed γ ν} (h : WFAt fo no NWF μ m) :
    m.evaluateDerivative fo (m.items.map μ) =
      m.evaluateDerivative (frozenOps fo μ) (m.items.map μ) := by
  rw [Mixed.evaluateDerivative, Mixed.evaluateDerivative]
  refine foldlM_congr_mem _ _ fun ⟨g, n⟩ hg ret => ?_
  have hmem := List.fst_mem_of_mem_zipIdx hg
  rw [Mixed.derivStep, Mixed.derivStep]
  simp only
  show (findSubset _ (findRelativeItems (fo.items g) m.items) >>= _) =
    (findSubset _ (findRelativeItems (fo.items g) m.items) >>= _)
  rw [findSubset_map m.items μ _ (h.sub g hmem).2]
  rfl

theorem evaluateSecondDerivative_frozen {m : Mixed γ ν} (h : WFAt fo no NWF μ m) :
    m.evaluateSecondDerivative fo (m.items.map μ) =
      m.evaluateSecondDerivative (frozenOps fo μ) (m.items.map μ) := by
  rw [Mixed.evaluateSecondDerivative, Mixed.evaluateSecondDerivative]
  refine foldlM_congr_mem _ _ fun ⟨g, n⟩ hg ret => ?_
  have hmem := List.fst_mem_of_mem_zipIdx hg
  rw [Mixed.hessStep, Mixed.hessStep]
  simp only
  show (findSubset _ (findRelativeItems (fo.items g) m.items) >>= _) =
    (findSubset _ (findRelativeItems (fo.items g) m.items) >>= _)
  rw [findSubset_map m.items μ _ (h.sub g hmem).2]
  rfl

/-- Log value of the factors of a belief at `μ`. -/
noncomputable abbrev valAt (fo : FactorOps γ) (μ : ℤ → ℝ) (m : Mixed γ ν) : ℝ :=
  value fo (fval fo) m μ

theorem evaluateAt_ok {m : Mixed γ ν} (h : WFAt fo no NWF μ m) :
    m.evaluate fo (m.items.map μ) = Except.ok (valAt fo μ m) := by
  rw [evaluate_frozen h, Belief.evaluate_ok (tot_laws _) h.tot μ]
  rfl

theorem evaluateDerivativeAt_ok {m : Mixed γ ν} (h : WFAt fo no NWF μ m) :
    ∃ l, m.evaluateDerivative fo (m.items.map μ) = Except.ok l ∧ l.length = m.items.length := by
  rw [evaluateDerivative_frozen h, evaluateDerivative_ok (tot_laws _) (tot_dok _) h.tot μ]
  exact ⟨_, rfl, by simp⟩

theorem evaluateSecondDerivativeAt_ok {m : Mixed γ ν} (h : WFAt fo no NWF μ m) :
    ∃ l, m.evaluateSecondDerivative fo (m.items.map μ) = Except.ok l ∧
      l.length = m.items.length ∧ ∀ r ∈ l, r.length = m.items.length := by
  rw [evaluateSecondDerivative_frozen h,
    evaluateSecondDerivative_ok (tot_laws _) (tot_dok _) h.tot μ]
  exact ⟨_, rfl, by simp, by simp⟩

end Verif.Belief
