import Verif.Proofs.SRLaplaceStep
import Verif.Props.NormalApprox

/-! The determinants of the marginal variances of clusters and edges give the determinant of the
global precision. -/
namespace Verif.SR

open Verif.Gauss Verif.Belief Verif.ClusterGraph Verif.Items Verif.TreeForms Verif.LaplaceDet Matrix

/-- Quadratic form of the marginal precision on a list of items. -/
noncomputable def qf (V : ℤ → ℤ → ℝ) (l : List ℤ) (a : ℤ → ℝ) : ℝ :=
  at_ l a ⬝ᵥ ((vm V l)⁻¹ *ᵥ at_ l a)

theorem vm_pos (V : ℤ → ℤ → ℝ) {l l' : List ℤ} (h : ∀ x ∈ l, x ∈ l') :
    vm V l = (vm V l').submatrix (pos h) (pos h) := by
  ext i j
  simp only [vm, Matrix.submatrix_apply, Matrix.of_apply]
  rw [pos_get h i, pos_get h j]

theorem pos_bij {l l' : List ℤ} (h : ∀ x ∈ l, x ∈ l') (hn : l.Nodup) (hl : l.length = l'.length) :
    Function.Bijective (pos h) :=
  (Fintype.bijective_iff_injective_and_card _).mpr ⟨pos_inj h hn, by simp [hl]⟩

theorem len_eq {l l' : List ℤ} (hn : l.Nodup) (hn' : l'.Nodup) (h : ∀ x, x ∈ l ↔ x ∈ l') :
    l.length = l'.length := ((List.perm_ext_iff_of_nodup hn hn').mpr h).length_eq

theorem det_perm (V : ℤ → ℤ → ℝ) {l l' : List ℤ} (hn : l.Nodup) (hn' : l'.Nodup)
    (h : ∀ x, x ∈ l ↔ x ∈ l') : (vm V l).det = (vm V l').det := by
  have h1 : ∀ x ∈ l, x ∈ l' := fun x => (h x).mp
  set E := Equiv.ofBijective _ (pos_bij h1 hn (len_eq hn hn' h)) with hE
  rw [vm_pos V h1, show pos h1 = E from rfl, Matrix.det_submatrix_equiv_self]

theorem qf_perm (V : ℤ → ℤ → ℝ) {l l' : List ℤ} (hn : l.Nodup) (hn' : l'.Nodup)
    (h : ∀ x, x ∈ l ↔ x ∈ l') (a : ℤ → ℝ) : qf V l a = qf V l' a := by
  have h1 : ∀ x ∈ l, x ∈ l' := fun x => (h x).mp
  set E := Equiv.ofBijective _ (pos_bij h1 hn (len_eq hn hn' h)) with hE
  have e : at_ l a = at_ l' a ∘ E := (at_pos h1 a).symm
  rw [qf, qf, vm_pos V h1, show pos h1 = E from rfl, Matrix.inv_submatrix_equiv, e,
    Matrix.submatrix_mulVec_equiv]
  rw [Function.comp_assoc, Equiv.self_comp_symm, Function.comp_id]
  exact Equiv.sum_comp E fun k => at_ l' a k * ((vm V l')⁻¹ *ᵥ at_ l' a) k

/-- The quadratic form of a precision minus that of the marginal without coordinate `i`. -/
theorem schur_quad {m : ℕ} {W : Matrix (Fin (m + 1)) (Fin (m + 1)) ℝ} (hW : W.PosDef)
    (i : Fin (m + 1)) (x : Fin (m + 1) → ℝ) :
    x ⬝ᵥ (W⁻¹ *ᵥ x) - (fun r => x (i.succAbove r)) ⬝ᵥ
      ((W.submatrix i.succAbove i.succAbove)⁻¹ *ᵥ fun r => x (i.succAbove r)) =
      (W⁻¹ i i)⁻¹ * (W⁻¹ i ⬝ᵥ x) ^ 2 := by
  have hP := hW.inv
  have hd : 0 < W⁻¹ i i := hP.diag_pos
  have hsym : W⁻¹ᵀ = W⁻¹ := by
    have := hP.isHermitian.eq
    rwa [Matrix.conjTranspose_eq_transpose_of_trivial] at this
  have hu : IsUnit W.det := hW.det_pos.ne'.isUnit
  have hs : (W.submatrix i.succAbove i.succAbove).PosDef :=
    hW.submatrix Fin.succAbove_right_injective
  have hu2 : IsUnit (W.submatrix i.succAbove i.succAbove).det := hs.det_pos.ne'.isUnit
  set t : ℝ := (W⁻¹ i i)⁻¹ * (W⁻¹ i ⬝ᵥ x) with ht
  set x' : Fin (m + 1) → ℝ := x - t • Pi.single i 1 with hx'
  set z : Fin (m + 1) → ℝ := W⁻¹ *ᵥ x' with hz
  have hzi : z i = 0 := by
    rw [hz, hx', mulVec_sub, mulVec_smul, Pi.sub_apply, Pi.smul_apply]
    simp only [mulVec_single_one, smul_eq_mul]
    show W⁻¹ i ⬝ᵥ x - t * W⁻¹ i i = 0
    rw [ht]
    field_simp
    ring
  have hxr : ∀ r, x' (i.succAbove r) = x (i.succAbove r) := by
    intro r
    rw [hx', Pi.sub_apply, Pi.smul_apply, Pi.single_eq_of_ne (Fin.succAbove_ne i r)]
    simp
  have hWz : W *ᵥ z = x' := by rw [hz, mulVec_mulVec, Matrix.mul_nonsing_inv _ hu, one_mulVec]
  have hsub : W.submatrix i.succAbove i.succAbove *ᵥ (fun r => z (i.succAbove r)) =
      fun r => x (i.succAbove r) := by
    funext r
    rw [← hxr r, ← hWz]
    simp only [mulVec, dotProduct]
    rw [Fin.sum_univ_succAbove _ i, hzi, mul_zero, zero_add]
    rfl
  have hinv : (W.submatrix i.succAbove i.succAbove)⁻¹ *ᵥ (fun r => x (i.succAbove r)) =
      fun r => z (i.succAbove r) := by
    rw [← hsub, mulVec_mulVec, Matrix.nonsing_inv_mul _ hu2, one_mulVec]
  have hxz : (fun r => x (i.succAbove r)) ⬝ᵥ (fun r => z (i.succAbove r)) = x ⬝ᵥ z := by
    simp only [dotProduct]
    rw [Fin.sum_univ_succAbove _ i, hzi, mul_zero, zero_add]
  rw [hinv, hxz]
  have h1 : x ⬝ᵥ z = x ⬝ᵥ (W⁻¹ *ᵥ x) - t * (W⁻¹ i ⬝ᵥ x) := by
    rw [hz, hx', mulVec_sub, mulVec_smul, dotProduct_sub, dotProduct_smul, mulVec_single_one,
      smul_eq_mul]
    congr 2
    rw [dotProduct_comm]
    congr 1
    funext j
    exact congrFun (congrFun hsym i) j
  rw [h1, ht]
  ring

variable {N : ℕ} {Q : Matrix (Fin N) (Fin N) ℝ}

theorem vm_global {V : Matrix (Fin N) (Fin N) ℝ} {l : List ℤ} {e : Fin l.length → Fin N}
    (he : ∀ k, ((e k : ℕ) : ℤ) = l[k]) : vm (mz V) l = V.submatrix e e := by
  ext i j
  simp only [vm, Matrix.submatrix_apply, Matrix.of_apply]
  rw [← he i, ← he j, mz_coe]

theorem idx_inj {l : List ℤ} (hn : l.Nodup) {e : Fin l.length → Fin N}
    (he : ∀ k, ((e k : ℕ) : ℤ) = l[k]) : Function.Injective e := by
  intro k j hkj
  have h3 : l[(k : ℕ)] = l[(j : ℕ)] := by
    have h4 := he k
    rw [hkj, he j] at h4
    exact h4.symm
  exact Fin.ext (hn.getElem_inj_iff.mp h3)

theorem vm_posDef {V : Matrix (Fin N) (Fin N) ℝ} (hV : V.PosDef) {l : List ℤ} (hn : l.Nodup)
    (hr : ∀ x ∈ l, 0 ≤ x ∧ x < N) : (vm (mz V) l).PosDef := by
  obtain ⟨e, he⟩ := exists_idx hr
  rw [vm_global he]
  exact hV.submatrix (idx_inj hn he)

/-- Removing one item from a list. -/
theorem drop_item (hQ : Q.PosDef) {l l' : List ℤ} (hn : l.Nodup) (hn' : l'.Nodup)
    (hr : ∀ x ∈ l, 0 ≤ x ∧ x < N) {v : ℤ} (hv : v ∉ l') (hm : ∀ x, x ∈ l ↔ x = v ∨ x ∈ l') :
    ∃ (r : Fin N → ℝ) (w : Fin N), ((w : ℕ) : ℤ) = v ∧ 0 < r w ∧
      (∀ j : Fin N, ((j : ℕ) : ℤ) ∉ l → r j = 0) ∧
      Real.log (r w) = Real.log (vm (mz Q⁻¹) l').det - Real.log (vm (mz Q⁻¹) l).det ∧
      ∀ a : ℤ → ℝ, qf (mz Q⁻¹) l a - qf (mz Q⁻¹) l' a =
        (r w)⁻¹ * (r ⬝ᵥ fun j : Fin N => a j) ^ 2 := by
  have hvl : v ∈ l := (hm v).mpr (Or.inl rfl)
  obtain ⟨i, hi, hiv⟩ := List.mem_iff_getElem.mp hvl
  have hvr := hr v hvl
  have hln : (l.eraseIdx i).Nodup := hn.eraseIdx i
  have hmem : ∀ x, x ∈ l.eraseIdx i ↔ x ∈ l' := by
    intro x
    have h1 := hn.erase_getElem i hi
    rw [hiv] at h1
    rw [← h1, hn.mem_erase_iff, hm]
    constructor
    · rintro ⟨h2, h3⟩
      exact h3.resolve_left h2
    · intro h2
      exact ⟨fun h3 => hv (h3 ▸ h2), Or.inr h2⟩
  have e0 : l.length = (l.eraseIdx i).length + 1 := by
    rw [List.length_eraseIdx_of_lt hi]
    omega
  set V := mz Q⁻¹ with hV
  have pl : (vm V l).PosDef := vm_posDef hQ.inv hn hr
  have pl' : (vm V l').PosDef := vm_posDef hQ.inv hn' fun x hx => hr x ((hm x).mpr (Or.inr hx))
  set W := (vm V l).submatrix (Fin.cast e0.symm) (Fin.cast e0.symm) with hW
  have pW : W.PosDef := posDef_cast e0 pl
  set I := Fin.cast e0 ⟨i, hi⟩ with hI
  have hsub : W.submatrix I.succAbove I.succAbove = vm V (l.eraseIdx i) := by
    ext j k
    simp only [hW, vm, Matrix.submatrix_apply, Matrix.of_apply]
    rw [hI, eraseIdx_succAbove hi e0 j, eraseIdx_succAbove hi e0 k]
  have hdl' : (vm V (l.eraseIdx i)).det = (vm V l').det := det_perm V hln hn' hmem
  have hsym : Wᵀ = W := by
    have := pW.isHermitian.eq
    rwa [Matrix.conjTranspose_eq_transpose_of_trivial] at this
  have hWd : W.det = (vm V l).det := det_cast e0 _
  have hentry : W⁻¹ I I = (vm V l').det / (vm V l).det := by
    have h1 := condVar_mul pW.det_pos.ne' I (by rw [hsub, hdl']; exact pl'.det_pos.ne') hsym
    have h2 := det_eq_mul pW.det_pos.ne' I (by rw [hsub, hdl']; exact pl'.det_pos.ne') hsym
    rw [hsub, hdl'] at h2
    rw [hsub] at h1
    rw [← hWd, h2]
    have h3 := pl'.det_pos.ne'
    have h4 := left_ne_zero_of_mul_eq_one h1
    field_simp
    linarith [h1]
  set r : Fin N → ℝ := fun j => ∑ k, W⁻¹ I k * (if l[Fin.cast e0.symm k] = ((j : ℕ) : ℤ) then 1 else 0)
    with hrdef
  have hr1 : ∀ j : Fin N, ((j : ℕ) : ℤ) ∉ l → r j = 0 := by
    intro j hj
    rw [hrdef]
    refine Finset.sum_eq_zero fun k _ => ?_
    rw [if_neg, mul_zero]
    intro h
    exact hj (h ▸ List.getElem_mem _)
  have hdot : ∀ a : ℤ → ℝ, r ⬝ᵥ (fun j : Fin N => a j) =
      W⁻¹ I ⬝ᵥ fun k => a l[Fin.cast e0.symm k] := by
    intro a
    simp only [dotProduct, hrdef, Finset.sum_mul]
    rw [Finset.sum_comm]
    refine Finset.sum_congr rfl fun k _ => ?_
    have hk := hr _ (List.getElem_mem (l := l) (n := Fin.cast e0.symm k) (Fin.cast e0.symm k).isLt)
    rw [Finset.sum_eq_single (⟨l[Fin.cast e0.symm k].toNat, by
      simp only [Fin.getElem_fin]; omega⟩ : Fin N)]
    · have : ((l[Fin.cast e0.symm k].toNat : ℕ) : ℤ) = l[Fin.cast e0.symm k] := by
        simp only [Fin.getElem_fin]
        omega
      simp only [this, if_true, mul_one]
    · intro j _ hj
      rw [if_neg, mul_zero, zero_mul]
      intro h
      refine hj (Fin.ext ?_)
      simp only [h, Int.toNat_natCast]
    · intro h
      exact absurd (Finset.mem_univ _) h
  have hw : r ⟨v.toNat, by omega⟩ = W⁻¹ I I := by
    rw [hrdef]
    simp only
    rw [Finset.sum_eq_single I]
    · rw [if_pos, mul_one]
      show l[i] = _
      rw [hiv]
      omega
    · intro k _ hk
      rw [if_neg, mul_zero]
      intro h
      refine hk (Fin.ext ?_)
      have h2 : l[(k : ℕ)]'(by have := k.isLt; omega) = l[i] := by
        rw [hiv]
        have h3 : l[(k : ℕ)]'(by have := k.isLt; omega) = ((v.toNat : ℕ) : ℤ) := h
        omega
      exact hn.getElem_inj_iff.mp h2
    · intro h
      exact absurd (Finset.mem_univ _) h
  have hpos : 0 < W⁻¹ I I := pW.inv.diag_pos
  refine ⟨r, ⟨v.toNat, by omega⟩, by simp only; omega, by rw [hw]; exact hpos, hr1, ?_, ?_⟩
  · rw [hw, hentry, Real.log_div pl'.det_pos.ne' pl.det_pos.ne']
  · intro a
    rw [hw, hdot]
    rw [← schur_quad pW I]
    congr 1
    · rw [qf]
      have hc : ∀ {n n' : ℕ} (e : n = n') (M : Matrix (Fin n) (Fin n) ℝ) (x : Fin n → ℝ),
          x ⬝ᵥ (M⁻¹ *ᵥ x) = (fun k => x (Fin.cast e.symm k)) ⬝ᵥ
            ((M.submatrix (Fin.cast e.symm) (Fin.cast e.symm))⁻¹ *ᵥ
              fun k => x (Fin.cast e.symm k)) := by
        intro n n' e M x
        subst e
        rfl
      exact hc e0 _ _
    · rw [← qf_perm V hln hn' hmem, qf, hsub]
      have : at_ (l.eraseIdx i) a = fun r => a l[Fin.cast e0.symm (I.succAbove r)] := by
        funext r
        exact congrArg a (eraseIdx_succAbove hi e0 r).symm
      rw [this]

theorem vm_nil_det (V : ℤ → ℤ → ℝ) : (vm V []).det = 1 := Matrix.det_isEmpty (n := Fin 0)

theorem lapTau_nil (V : ℤ → ℤ → ℝ) (c0 : ℝ) (l : List ℤ) :
    lapTau V c0 l [] = l.length * c0 + 1 / 2 * Real.log (vm V l).det := by
  have h1 : (l.filter fun y => decide (y ∉ ([] : List ℤ))) = l := by simp
  have h2 : (l.filter fun y => decide (y ∈ ([] : List ℤ))) = [] := by simp
  rw [lapTau, h1, vm_cons_det _ _ h2, vm_nil_det, Real.log_one, sub_zero]

/-- The sum of what the messages add. -/
theorem sum_lapTau {n : ℕ} {C S : ℕ → Set ℤ} {p : ℕ → ℕ} (hQ : Q.PosDef) (T : JT n C S p)
    {Lc Ls : ℕ → List ℤ} (ndC : ∀ k ≤ n, (Lc k).Nodup) (ndS : ∀ k < n, (Ls k).Nodup)
    (memC : ∀ k ≤ n, ∀ x, x ∈ Lc k ↔ x ∈ C k) (memS : ∀ k < n, ∀ x, x ∈ Ls k ↔ x ∈ S k)
    (hr : ∀ x ∈ covered n C, 0 ≤ x ∧ x < N) (hcov : ∀ i : Fin N, ((i : ℕ) : ℤ) ∈ covered n C)
    (hq : ∀ a : ℤ → ℝ, (fun i : Fin N => a i) ⬝ᵥ (Q *ᵥ fun i : Fin N => a i) =
      ∑ k ∈ Finset.range (n + 1), qf (mz Q⁻¹) (Lc k) a -
        ∑ k ∈ Finset.range n, qf (mz Q⁻¹) (Ls k) a) (c0 : ℝ) :
    ∑ k ∈ Finset.range n, lapTau (mz Q⁻¹) c0 (Lc k) (Ls k) + lapTau (mz Q⁻¹) c0 (Lc n) [] =
      N * c0 - 1 / 2 * Real.log Q.det := by
  set V := mz Q⁻¹ with hV
  have hrC : ∀ k ≤ n, ∀ x ∈ Lc k, 0 ≤ x ∧ x < N := fun k hk x hx =>
    hr x ⟨k, hk, (memC k hk x).mp hx⟩
  rcases Nat.eq_zero_or_pos N with hN0 | hN
  · subst hN0
    have hn0 : n = 0 := by
      rcases Nat.eq_zero_or_pos n with h | h
      · exact h
      · obtain ⟨v, -, hv2, -⟩ := T.elim 0 h
        have := hr v ⟨0, by omega, (hv2 v).mpr (Or.inl rfl)⟩
        omega
    subst hn0
    have hL : Lc 0 = [] := by
      rw [List.eq_nil_iff_forall_not_mem]
      intro x hx
      have := hrC 0 le_rfl x hx
      omega
    rw [hL, lapTau_nil, vm_nil_det, Matrix.det_isEmpty]
    simp
  -- the rows
  have hrow : ∀ k, ∃ (r : Fin N → ℝ) (w : Fin N), k < n → 
      ((w : ℕ) : ℤ) ∉ S k ∧ (∀ x, x ∈ C k ↔ x = ((w : ℕ) : ℤ) ∨ x ∈ S k) ∧
      (∀ j, k < j → ((w : ℕ) : ℤ) ∉ C j) ∧ 0 < r w ∧
      (∀ j : Fin N, ((j : ℕ) : ℤ) ∉ C k → r j = 0) ∧
      Real.log (r w) = Real.log (vm V (Ls k)).det - Real.log (vm V (Lc k)).det ∧
      ∀ a : ℤ → ℝ, qf V (Lc k) a - qf V (Ls k) a = (r w)⁻¹ * (r ⬝ᵥ fun j : Fin N => a j) ^ 2 := by
    intro k
    by_cases hk : k < n
    · obtain ⟨v, hv1, hv2, hv3⟩ := T.elim k hk
      obtain ⟨r, w, rfl, h2, h3, h4, h5⟩ := drop_item hQ (ndC k hk.le) (ndS k hk) (hrC k hk.le)
        (v := v) (by rw [memS k hk]; exact hv1) (by
          intro x
          rw [memC k hk.le, memS k hk]
          exact hv2 x)
      refine ⟨r, w, fun _ => ⟨hv1, hv2, hv3, h2, ?_, h4, h5⟩⟩
      intro j hj
      exact h3 j (by rw [memC k hk.le]; exact hj)
    · exact ⟨0, ⟨0, hN⟩, fun h => absurd h hk⟩
  choose r w hw using hrow
  obtain ⟨e, he⟩ := exists_idx (hrC n le_rfl)
  have hinj := idx_inj (ndC n le_rfl) he
  have hwC : ∀ k < n, ((w k : ℕ) : ℤ) ∈ C k := fun k hk => ((hw k hk).2.1 _).mpr (Or.inl rfl)
  have hwne : ∀ k j, k < j → j < n → w k ≠ w j := by
    intro k j hkj hj h
    refine (hw k (by omega)).2.2.1 j hkj ?_
    rw [h]
    exact hwC j hj
  have heC : ∀ a, ((e a : ℕ) : ℤ) ∈ C n := fun a => by
    rw [he a, ← memC n le_rfl]
    exact List.getElem_mem _
  have hdis : ∀ k < n, ∀ a, e a ≠ w k := by
    intro k hk a h
    refine (hw k hk).2.2.1 n hk ?_
    rw [← h]
    exact heC a
  have hcov' : ∀ i, (∃ a, e a = i) ∨ ∃ k < n, w k = i := by
    intro i
    have key : ∀ m k, m + k = n → ((i : ℕ) : ℤ) ∈ C k → (∃ a, e a = i) ∨ ∃ k < n, w k = i := by
      intro m
      induction m using Nat.strong_induction_on with
      | _ m ih =>
        intro k hk hi
        rcases Nat.lt_or_ge k n with hkn | hkn
        · rcases ((hw k hkn).2.1 _).mp hi with h | h
          · exact Or.inr ⟨k, hkn, Fin.ext (by exact_mod_cast h.symm)⟩
          · have hp := T.lt k hkn
            exact ih (n - p k) (by omega) (p k) (by omega) (T.sub k hkn _ h)
        · obtain rfl : k = n := by omega
          obtain ⟨a, ha, ha'⟩ := List.mem_iff_getElem.mp ((memC k le_rfl _).mpr hi)
          refine Or.inl ⟨⟨a, ha⟩, Fin.ext ?_⟩
          have := he ⟨a, ha⟩
          have h2 : (Lc k)[(⟨a, ha⟩ : Fin _)] = ((i : ℕ) : ℤ) := ha'
          rw [h2] at this
          exact_mod_cast this
    obtain ⟨k, hk, hi⟩ := hcov i
    exact key (n - k) k (by omega) hi
  have hcard := card_pad e hinj w hwne hdis hcov'
  set P := (vm V (Lc n))⁻¹ with hP
  have pn : (vm V (Lc n)).PosDef := vm_posDef hQ.inv (ndC n le_rfl) (hrC n le_rfl)
  have hPsym : Pᵀ = P := by
    have := pn.inv.isHermitian.eq
    rwa [Matrix.conjTranspose_eq_transpose_of_trivial] at this
  -- the global precision as a sum
  have hQs : Q = (∑ k ∈ Finset.range n, (r k (w k))⁻¹ • vecMulVec (r k) (r k)) + pad e P := by
    refine eq_of_quad (posDef_symm hQ) ?_ fun x => ?_
    · rw [transpose_add, pad_symm _ hPsym, transpose_sum]
      congr 1
      refine Finset.sum_congr rfl fun k _ => ?_
      rw [transpose_smul, transpose_vecMulVec]
    · have h1 := hq (vz x)
      simp only [vz_coe] at h1
      rw [h1, Finset.sum_range_succ, add_mulVec, dotProduct_add, dot_pad, sum_mulVec,
        dotProduct_sum]
      have h2 : ∀ k ∈ Finset.range n, x ⬝ᵥ (((r k (w k))⁻¹ • vecMulVec (r k) (r k)) *ᵥ x) =
          qf V (Lc k) (vz x) - qf V (Ls k) (vz x) := by
        intro k hk
        have h3 := (hw k (Finset.mem_range.mp hk)).2.2.2.2.2.2 (vz x)
        simp only [vz_coe] at h3
        rw [h3, smul_mulVec, dotProduct_smul, vecMulVec_mulVec, smul_eq_mul]
        rw [op_smul_eq_smul, dotProduct_smul, smul_eq_mul, dotProduct_comm x (r k), sq]
      rw [Finset.sum_congr rfl h2, Finset.sum_sub_distrib]
      have h4 : (fun k => x (e k)) = at_ (Lc n) (vz x) := by
        funext k
        rw [at_, ← he k, vz_coe]
      rw [h4]
      show _ = _ + qf V (Lc n) (vz x)
      ring
  have hpad : ∀ k < n, ∀ j, pad e P (w k) j = 0 ∧ pad e P j (w k) = 0 := by
    intro k hk j
    have hz : (fun l => (Pi.single (w k) (1 : ℝ) : Fin N → ℝ) (e l)) = 0 := by
      funext l
      exact Pi.single_eq_of_ne (hdis k hk l) _
    constructor
    · rw [entry_eq (pad e P), dot_pad, hz, zero_dotProduct]
    · rw [entry_eq (pad e P), dot_pad, hz, mulVec_zero, dotProduct_zero]
  have hdet : Q.det = (∏ k ∈ Finset.range n, r k (w k)) * P.det := by
    conv_lhs => rw [hQs]
    rw [det_sweep n w r (pad e P) (fun k hk => (hw k hk).2.2.2.1.ne') (fun k j hkj hj =>
      (hw j hj).2.2.2.2.1 _ ((hw k (by omega)).2.2.1 j hkj)) hpad hwne,
      det_pad e hinj P w hwne hdis hcov']
  have hlog : Real.log Q.det = ∑ k ∈ Finset.range n, Real.log (r k (w k)) -
      Real.log (vm V (Lc n)).det := by
    rw [hdet, Real.log_mul (Finset.prod_ne_zero_iff.mpr fun k hk =>
      (hw k (Finset.mem_range.mp hk)).2.2.2.1.ne') pn.inv.det_pos.ne', Real.log_prod (fun k hk =>
      (hw k (Finset.mem_range.mp hk)).2.2.2.1.ne'), det_nonsing_inv, Ring.inverse_eq_inv',
      Real.log_inv]
    ring
  have hk : ∀ k ∈ Finset.range n, lapTau V c0 (Lc k) (Ls k) =
      c0 - 1 / 2 * Real.log (r k (w k)) := by
    intro k hk
    have hkn := Finset.mem_range.mp hk
    obtain ⟨g1, g2, -, -, -, g3, -⟩ := hw k hkn
    have h1 : ((Lc k).filter fun y => decide (y ∉ Ls k)).length = 1 := by
      have := len_eq ((ndC k hkn.le).filter fun y => decide (y ∉ Ls k))
        (List.nodup_singleton ((w k : ℕ) : ℤ)) (by
          intro x
          rw [List.mem_filter, memC k hkn.le, g2, List.mem_singleton, decide_eq_true_eq,
            memS k hkn]
          constructor
          · rintro ⟨h | h, h'⟩
            · exact h
            · exact absurd h h'
          · rintro rfl
            exact ⟨Or.inl rfl, g1⟩)
      simpa using this
    have h2 : (vm V ((Lc k).filter fun y => decide (y ∈ Ls k))).det = (vm V (Ls k)).det := by
      refine det_perm V ((ndC k hkn.le).filter _) (ndS k hkn) fun x => ?_
      rw [List.mem_filter, memC k hkn.le, g2, decide_eq_true_eq, memS k hkn]
      tauto
    rw [lapTau, h1, h2, g3]
    push_cast
    ring
  rw [Finset.sum_congr rfl hk, lapTau_nil, hlog, Finset.sum_sub_distrib, ← Finset.mul_sum]
  simp only [Finset.sum_const, Finset.card_range, nsmul_eq_mul]
  have : (N : ℝ) = n + (Lc n).length := by exact_mod_cast hcard
  rw [this]
  ring

end Verif.SR
