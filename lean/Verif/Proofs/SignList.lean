import Verif.Proofs.SignStore
import Verif.Proofs.SRCentre
import Verif.Proofs.Param2

/-!
# Lists of numbers under changes of sign
-/
namespace Verif.Sign

open Verif.Gauss Verif.Belief Verif.Items

/-- Lists of the same length with related elements; the relation depends on the position. -/
def LR {α β : Type} (P : ℕ → α → β → Prop) (l : List α) (l' : List β) : Prop :=
  ∀ k, Option.Rel (P k) l[k]? l'[k]?

section
variable {α β : Type} {P : ℕ → α → β → Prop}

theorem LR.nil : LR P [] [] := fun k => by simpa using Option.Rel.none

theorem LR.cons {a : α} {b : β} {l : List α} {l' : List β} (h : P 0 a b)
    (hl : LR (fun k => P (k + 1)) l l') : LR P (a :: l) (b :: l')
  | 0 => by simpa using Option.Rel.some h
  | k + 1 => by simpa using hl k

theorem LR.length {l : List α} {l' : List β} (h : LR P l l') : l'.length = l.length := by
  by_contra hne
  rcases Nat.lt_or_gt_of_ne hne with h1 | h1
  · have := h l'.length
    rw [List.getElem?_eq_getElem h1, List.getElem?_eq_none le_rfl] at this
    cases this
  · have := h l.length
    rw [List.getElem?_eq_getElem h1, List.getElem?_eq_none le_rfl] at this
    cases this

theorem LR.at {l : List α} {l' : List β} (h : LR P l l') {k : ℕ} (hk : k < l.length)
    (hk' : k < l'.length) : P k l[k] l'[k] := by
  have := h k
  rw [List.getElem?_eq_getElem hk, List.getElem?_eq_getElem hk'] at this
  cases this with
  | some h => exact h

theorem LR.mk {l : List α} {l' : List β} (hl : l'.length = l.length)
    (h : ∀ k (hk : k < l.length) (hk' : k < l'.length), P k l[k] l'[k]) : LR P l l' := by
  intro k
  by_cases hk : k < l.length
  · rw [List.getElem?_eq_getElem hk, List.getElem?_eq_getElem (hl ▸ hk)]
    exact .some (h k hk _)
  · rw [List.getElem?_eq_none (by omega), List.getElem?_eq_none (by omega)]
    exact .none

theorem LR.imp {Q : ℕ → α → β → Prop} {l : List α} {l' : List β} (h : LR P l l')
    (hi : ∀ k a b, k < l.length → P k a b → Q k a b) : LR Q l l' :=
  LR.mk h.length fun k hk hk' => hi k _ _ hk (h.at hk hk')

theorem LR.nth {l : List α} {l' : List β} (h : LR P l l') (k : ℕ) :
    RelOk (P k) (nth l k) (nth l' k) := by
  unfold Verif.nth
  have := h k
  generalize l[k]? = o at this
  generalize l'[k]? = o' at this
  cases this with
  | some h => exact RelOk.ok h
  | none => exact RelOk.errL _ _

theorem LR.setN {l : List α} {l' : List β} (h : LR P l l') (k : ℕ) {a : α} {b : β} (hab : P k a b) :
    RelOk (LR P) (setN l k a) (setN l' k b) := by
  unfold Verif.setN
  rw [h.length]
  split
  · refine RelOk.ok (LR.mk (by simpa using h.length) fun j hj hj' => ?_)
    rw [List.getElem_set, List.getElem_set]
    split
    · rename_i e
      exact e ▸ hab
    · exact h.at _ _
  · exact RelOk.errL _ _

theorem LR.map {α' β' : Type} {Q : ℕ → α' → β' → Prop} {f : α → α'} {g : β → β'} {l : List α}
    {l' : List β} (h : LR P l l') (hf : ∀ k a b, P k a b → Q k (f a) (g b)) :
    LR Q (l.map f) (l'.map g) :=
  LR.mk (by simpa using h.length) fun k hk hk' => by
    rw [List.getElem_map, List.getElem_map]
    exact hf _ _ _ (h.at _ _)

theorem LR.replicate {n : ℕ} {a : α} {b : β} (h : ∀ k, P k a b) :
    LR P (List.replicate n a) (List.replicate n b) :=
  LR.mk (by simp) fun k hk hk' => by simpa using h k

theorem LR.ofFn {n : ℕ} {f : Fin n → α} {g : Fin n → β} (h : ∀ i : Fin n, P i (f i) (g i)) :
    LR P (List.ofFn f) (List.ofFn g) :=
  LR.mk (by simp) fun k hk hk' => by
    rw [List.getElem_ofFn, List.getElem_ofFn]
    exact h ⟨k, by simpa using hk⟩

theorem LR.mapM {δ : Type} {f : δ → Res α} {f' : δ → Res β} : ∀ {P : ℕ → α → β → Prop} (l : List δ),
    (∀ k i, l[k]? = some i → RelOk (P k) (f i) (f' i)) → RelOk (LR P) (l.mapM f) (l.mapM f')
  | _, [], _ => RelOk.ok LR.nil
  | P, d :: l, h => by
    rw [List.mapM_cons, List.mapM_cons]
    refine (h 0 d (by simp)).bind fun a b hab => ?_
    exact (LR.mapM (P := fun k => P (k + 1)) l fun k i hk => h (k + 1) i (by simpa using hk)).bind
      fun as bs hs => RelOk.ok (LR.cons hab hs)

theorem LR.mapM2 {α' β' : Type} {f : α → Res α'} {f' : β → Res β'} :
    ∀ {P : ℕ → α → β → Prop} {Q : ℕ → α' → β' → Prop} {l : List α} {l' : List β}, LR P l l' →
    (∀ k a b, P k a b → RelOk (Q k) (f a) (f' b)) → RelOk (LR Q) (l.mapM f) (l'.mapM f')
  | _, _, [], [], _, _ => RelOk.ok LR.nil
  | _, _, [], _ :: _, h, _ => by have := h.length; simp at this
  | _, _, _ :: _, [], h, _ => by have := h.length; simp at this
  | P, Q, a :: l, b :: l', h, hf => by
    rw [List.mapM_cons, List.mapM_cons]
    have h0 : P 0 a b := h.at (k := 0) (by simp) (by simp)
    refine (hf 0 a b h0).bind fun c d hcd => ?_
    refine (LR.mapM2 (P := fun k => P (k + 1)) (Q := fun k => Q (k + 1)) (l := l) (l' := l')
      (fun k => by simpa using h (k + 1)) fun k a b hk => hf (k + 1) a b hk).bind
      fun as bs hs => RelOk.ok (LR.cons hcd hs)

end

theorem forall₂_mem {α : Type} {Q : α → Prop} {l : List α} (h : ∀ a ∈ l, Q a) :
    List.Forall₂ (fun a b => a = b ∧ Q a) l l :=
  Param2.forall₂_of_mem fun a ha => ⟨rfl, h a ha⟩

/-- Vectors with the weights `w`. -/
def VR (w : ℕ → ℝ) : List ℝ → List ℝ → Prop := LR fun k a b => b = w k * a

/-- Matrices with the signs `σ` on both sides. -/
def MR (σ : ℕ → ℝ) : List (List ℝ) → List (List ℝ) → Prop :=
  LR fun i => VR fun j => σ i * σ j

theorem findSubset_flip {w u : ℕ → ℝ} {x x' : List ℝ} (h : VR w x x') {sub : List ℕ}
    (hs : ∀ k i, sub[k]? = some i → u k = w i) :
    RelOk (VR u) (findSubset x sub) (findSubset x' sub) := by
  refine LR.mapM sub fun k i hk => ?_
  rw [hs k i hk]
  exact h.nth i

theorem addVectorSubset_flip {w u : ℕ → ℝ} {v v' d d' : List ℝ} (hv : VR w v v') (hd : VR u d d')
    {sub : List ℕ} (hs : ∀ k i, sub[k]? = some i → u k = w i) :
    RelOk (VR w) (addVectorSubset v sub d) (addVectorSubset v' sub d') := by
  unfold addVectorSubset
  refine RelOk.foldlM (A := fun a b => a = b ∧ u a.2 = w a.1) ?_ (forall₂_mem fun a ha => ?_) hv
  · rintro r r' a _ hr ⟨rfl, ha⟩
    refine (hr.nth a.1).bind fun o o' ho => ?_
    refine (hd.nth a.2).bind fun e e' he => ?_
    refine LR.setN hr a.1 ?_
    rw [ho, he, ha]
    ring
  · obtain ⟨i, k⟩ := a
    exact hs k i (List.mk_mem_zipIdx_iff_getElem?.mp ha)

theorem addMatrixSubset_flip {σ τ : ℕ → ℝ} {m m' d d' : List (List ℝ)} (hm : MR σ m m')
    (hd : MR τ d d') {sub : List ℕ} (hs : ∀ k i, sub[k]? = some i → τ k = σ i) :
    RelOk (MR σ) (addMatrixSubset m sub d) (addMatrixSubset m' sub d') := by
  unfold addMatrixSubset
  refine RelOk.foldlM (A := fun a b => a = b ∧ τ a.2 = σ a.1) ?_ (forall₂_mem fun a ha => ?_) hm
  · rintro r r' a _ hr ⟨rfl, ha⟩
    unfold addMatrixRow
    refine (hr.nth a.1).bind fun o o' ho => ?_
    refine (hd.nth a.2).bind fun e e' he => ?_
    refine (addVectorSubset_flip ho he fun k i hk => ?_).bind fun n n' hn => hr.setN a.1 hn
    rw [ha, hs k i hk]
  · obtain ⟨i, k⟩ := a
    exact hs k i (List.mk_mem_zipIdx_iff_getElem?.mp ha)

theorem VR.neg {w : ℕ → ℝ} {v v' : List ℝ} (h : VR w v v') :
    VR w (v.map (- ·)) (v'.map (- ·)) :=
  h.map fun k a b hab => by
    rw [hab]
    ring

theorem MR.neg {σ : ℕ → ℝ} {m m' : List (List ℝ)} (h : MR σ m m') :
    MR σ (m.map (·.map (- ·))) (m'.map (·.map (- ·))) :=
  h.map fun k a b hab => VR.neg hab

theorem VR.zero (w : ℕ → ℝ) (n : ℕ) : VR w (List.replicate n 0) (List.replicate n 0) :=
  LR.replicate fun k => (mul_zero _).symm

theorem MR.zero (σ : ℕ → ℝ) (n : ℕ) : MR σ (List.replicate n (List.replicate n 0))
    (List.replicate n (List.replicate n 0)) :=
  LR.replicate fun _ => VR.zero _ n

theorem VR.ofFn (σ : ℕ → ℝ) {n : ℕ} (v : Fin n → ℝ) : VR σ (List.ofFn v) (List.ofFn (fv σ v)) :=
  LR.ofFn fun _ => rfl

theorem MR.rows (σ : ℕ → ℝ) {n : ℕ} (A : Matrix (Fin n) (Fin n) ℝ) :
    MR σ (SR.rows A) (SR.rows (fm σ A)) :=
  LR.ofFn fun i => LR.ofFn fun j => by
    show σ i * A i j * σ j = σ i * σ j * A i j
    ring

theorem vec_flip {σ : ℕ → ℝ} {x x' : List ℝ} (h : VR σ x x') (n : ℕ) :
    RelOk (fun v v' => v' = fv σ v) (NB.vec n x) (NB.vec n x') := by
  unfold NB.vec
  by_cases hx : x.length = n
  · have hx' : x'.length = n := h.length.trans hx
    rw [dif_pos hx, dif_pos hx']
    refine RelOk.ok (funext fun i => ?_)
    exact h.at (k := i) (by rw [hx]; exact i.2) (by rw [hx']; exact i.2)
  · rw [dif_neg hx]
    exact RelOk.errL _ _

theorem vec_weight {w : ℕ → ℝ} {x x' : List ℝ} (h : VR w x x') (n : ℕ) :
    RelOk (fun v v' => ∀ j : Fin n, v' j = w j * v j) (NB.vec n x) (NB.vec n x') :=
  (vec_flip h n).imp fun v v' _ _ e j => by rw [e]; rfl

theorem mat_flip {σ : ℕ → ℝ} {m m' : List (List ℝ)} (h : MR σ m m') (n : ℕ) :
    RelOk (fun A A' => A' = fm σ A) (SR.mat n m) (SR.mat n m') := by
  unfold SR.mat
  refine (LR.mapM2 (Q := fun i (v v' : Fin n → ℝ) => ∀ j : Fin n, v' j = σ i * σ j * v j) h
    fun k a b hk => vec_weight hk n).bind fun rs rs' hr => ?_
  by_cases hn : rs.length = n
  · have hn' : rs'.length = n := hr.length.trans hn
    rw [dif_pos hn, dif_pos hn']
    refine RelOk.ok (Matrix.ext fun i j => ?_)
    have := hr.at (k := i) (by rw [hn]; exact i.2) (by rw [hn']; exact i.2) j
    show rs'[(i : ℕ)] j = σ i * rs[(i : ℕ)] j * σ j
    rw [this]
    ring
  · rw [dif_neg hn]
    exact RelOk.errL _ _

end Verif.Sign
