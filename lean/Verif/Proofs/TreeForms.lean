import Mathlib.Algebra.BigOperators.Intervals
import Mathlib.Data.Real.Basic
import Mathlib.Tactic.Linarith
import Mathlib.Tactic.Ring
import Mathlib.Data.Set.Basic

/-! Functions attached to the clusters and edges of a junction tree, given in elimination order. -/
namespace Verif.TreeForms

/-- A junction tree in elimination order: cluster `k < n` consists of the separator `S k` and one
more item that occurs in no later cluster; the separator is contained in the later cluster
`p k`. -/
structure JT (n : ℕ) (C S : ℕ → Set ℤ) (p : ℕ → ℕ) : Prop where
  lt : ∀ k < n, k < p k ∧ p k ≤ n
  sub : ∀ k < n, ∀ x ∈ S k, x ∈ C (p k)
  elim : ∀ k < n, ∃ v, v ∉ S k ∧ (∀ x, x ∈ C k ↔ x = v ∨ x ∈ S k) ∧ ∀ j, k < j → v ∉ C j

/-- Functions of the items of the clusters and of the separators. -/
structure Local (C S : ℕ → Set ℤ) (qc qe : ℕ → (ℤ → ℝ) → ℝ) : Prop where
  c : ∀ k (a a' : ℤ → ℝ), (∀ x ∈ C k, a x = a' x) → qc k a = qc k a'
  e : ∀ k (a a' : ℤ → ℝ), (∀ x ∈ S k, a x = a' x) → qe k a = qe k a'

variable {n : ℕ} {C S : ℕ → Set ℤ} {p : ℕ → ℕ} {qc qe : ℕ → (ℤ → ℝ) → ℝ}

/-- Clusters minus edges, from number `n - m` on. -/
def tail (n : ℕ) (qc qe : ℕ → (ℤ → ℝ) → ℝ) (m : ℕ) (a : ℤ → ℝ) : ℝ :=
  match m with
  | 0 => qc n a
  | m + 1 => tail n qc qe m a + (qc (n - (m + 1)) a - qe (n - (m + 1)) a)

theorem tail_eq (a : ℤ → ℝ) : ∀ m ≤ n, tail n qc qe m a =
    ∑ i ∈ Finset.Ico (n - m) (n + 1), qc i a - ∑ i ∈ Finset.Ico (n - m) n, qe i a
  | 0, _ => by simp [tail]
  | m + 1, h => by
    have h1 : n - m = n - (m + 1) + 1 := by omega
    rw [tail, tail_eq a m (by omega), Finset.sum_eq_sum_Ico_succ_bot (show n - (m + 1) < n + 1 by omega),
      Finset.sum_eq_sum_Ico_succ_bot (show n - (m + 1) < n by omega), h1]
    ring

/-- The total: clusters minus edges. -/
def total (n : ℕ) (qc qe : ℕ → (ℤ → ℝ) → ℝ) (a : ℤ → ℝ) : ℝ :=
  ∑ i ∈ Finset.range (n + 1), qc i a - ∑ i ∈ Finset.range n, qe i a

theorem total_eq (a : ℤ → ℝ) : total n qc qe a = tail n qc qe n a := by
  rw [tail_eq a n le_rfl, total]
  rw [Nat.sub_self, Finset.range_eq_Ico, Finset.range_eq_Ico]

theorem tail_congr (J : JT n C S p) (L : Local C S qc qe) {a a' : ℤ → ℝ} : ∀ m ≤ n,
    (∀ j, n - m ≤ j → ∀ x ∈ C j, a x = a' x) → tail n qc qe m a = tail n qc qe m a'
  | 0, _, h => L.c n a a' (h n (by omega))
  | m + 1, hm, h => by
    rw [tail, tail, tail_congr J L m (by omega) fun j hj => h j (by omega),
      L.c (n - (m + 1)) a a' (h _ le_rfl),
      L.e (n - (m + 1)) a a' fun x hx => h _ (by have := (J.lt (n - (m + 1)) (by omega)).1; omega) x
        (J.sub _ (by omega) x hx)]

/-- Condition at both ends of every edge: a value of the edge is reached by the cluster. -/
def Reach (n : ℕ) (S : ℕ → Set ℤ) (p : ℕ → ℕ) (qc qe : ℕ → (ℤ → ℝ) → ℝ) : Prop :=
  ∀ k < n, ∀ i, (i = k ∨ i = p k) → ∀ a, ∃ a' : ℤ → ℝ, (∀ x ∈ S k, a' x = a x) ∧ qc i a' ≤ qe k a

theorem tail_walk (J : JT n C S p) (L : Local C S qc qe) (hI : Reach n S p qc qe) : ∀ m ≤ n,
    ∀ j, n - m ≤ j → j ≤ n → ∀ a, ∃ a' : ℤ → ℝ, (∀ x ∈ C j, a' x = a x) ∧
      tail n qc qe m a' ≤ qc j a
  | 0, _, j, hj, hjn, a => by
    obtain rfl : j = n := by omega
    exact ⟨a, fun _ _ => rfl, le_rfl⟩
  | m + 1, hm, j, hj, hjn, a => by
    have hk : n - (m + 1) < n := by omega
    obtain ⟨v, hv1, hv2, hv3⟩ := J.elim _ hk
    obtain ⟨hlt, hple⟩ := J.lt _ hk
    set k := n - (m + 1) with hkdef
    rcases Nat.lt_or_ge k j with hkj | hkj
    · obtain ⟨a1, h1, h2⟩ := tail_walk J L hI m (by omega) j (by omega) hjn a
      obtain ⟨a2, h3, h4⟩ := hI k hk k (Or.inl rfl) a1
      refine ⟨Function.update a1 v (a2 v), fun x hx => ?_, ?_⟩
      · rw [Function.update_of_ne, h1 x hx]
        rintro rfl
        exact hv3 j hkj hx
      · rw [tail, ← hkdef]
        have e1 : tail n qc qe m (Function.update a1 v (a2 v)) = tail n qc qe m a1 :=
          tail_congr J L m (by omega) fun j' hj' x hx => by
            rw [Function.update_of_ne]
            rintro rfl
            exact hv3 j' (by omega) hx
        have e2 : qc k (Function.update a1 v (a2 v)) = qc k a2 := L.c k _ _ fun x hx => by
          by_cases hxv : x = v
          · subst hxv; simp
          · rw [Function.update_of_ne hxv]
            exact (h3 x (((hv2 x).mp hx).resolve_left hxv)).symm
        have e3 : qe k (Function.update a1 v (a2 v)) = qe k a1 := L.e k _ _ fun x hx => by
          rw [Function.update_of_ne]
          rintro rfl
          exact hv1 hx
        rw [e1, e2, e3]
        linarith
    · obtain rfl : k = j := by omega
      obtain ⟨a1, h3, h4⟩ := hI k hk (p k) (Or.inr rfl) a
      obtain ⟨a2, h1, h2⟩ := tail_walk J L hI m (by omega) (p k) (by omega) hple a1
      have hS : ∀ x ∈ S k, a2 x = a x := fun x hx => by rw [h1 x (J.sub k hk x hx), h3 x hx]
      have hag : ∀ x ∈ C k, Function.update a2 v (a v) x = a x := fun x hx => by
        by_cases hxv : x = v
        · subst hxv; simp
        · rw [Function.update_of_ne hxv]
          exact hS x (((hv2 x).mp hx).resolve_left hxv)
      refine ⟨Function.update a2 v (a v), hag, ?_⟩
      rw [tail, ← hkdef]
      have e1 : tail n qc qe m (Function.update a2 v (a v)) = tail n qc qe m a2 :=
        tail_congr J L m (by omega) fun j' hj' x hx => by
          rw [Function.update_of_ne]
          rintro rfl
          exact hv3 j' (by omega) hx
      rw [e1, L.c k _ a hag, L.e k _ a fun x hx => hag x ((hv2 x).mpr (Or.inr hx))]
      linarith

/-- Every cluster dominates the best extension of the total. -/
theorem walk (J : JT n C S p) (L : Local C S qc qe) (hI : Reach n S p qc qe) {j : ℕ} (hj : j ≤ n)
    (a : ℤ → ℝ) : ∃ a' : ℤ → ℝ, (∀ x ∈ C j, a' x = a x) ∧ total n qc qe a' ≤ qc j a := by
  obtain ⟨a', h1, h2⟩ := tail_walk J L hI n le_rfl j (by omega) hj a
  exact ⟨a', h1, by rwa [total_eq]⟩

/-- Edges below both their clusters: every cluster is below the total. -/
theorem below (J : JT n C S p) (hE : ∀ k < n, ∀ a, qe k a ≤ qc k a ∧ qe k a ≤ qc (p k) a)
    {j : ℕ} (hj : j ≤ n) (a : ℤ → ℝ) : qc j a ≤ total n qc qe a := by
  rw [total_eq]
  have key : ∀ m ≤ n, ∀ j, n - m ≤ j → j ≤ n → qc j a ≤ tail n qc qe m a := by
    intro m
    induction m with
    | zero =>
      intro _ j h1 h2
      obtain rfl : j = n := by omega
      exact le_rfl
    | succ m ih =>
      intro hm j h1 h2
      have hk : n - (m + 1) < n := by omega
      rw [tail]
      have := hE _ hk a
      obtain ⟨hlt, hple⟩ := J.lt _ hk
      rcases Nat.lt_or_ge (n - (m + 1)) j with hkj | hkj
      · have := ih (by omega) j (by omega) h2
        linarith
      · obtain rfl : n - (m + 1) = j := by omega
        have := ih (by omega) (p (n - (m + 1))) (by omega) hple
        linarith
  exact key n le_rfl j (by omega) hj

/-- One message from `i` to `j` over edge `k`. -/
structure Step (n : ℕ) (S : ℕ → Set ℤ) (p : ℕ → ℕ) (qc qe qc' qe' : ℕ → (ℤ → ℝ) → ℝ)
    (k i j : ℕ) : Prop where
  ends : (i = k ∧ j = p k) ∨ (i = p k ∧ j = k)
  edge : ∀ l, l ≠ k → qe' l = qe l
  cluster : ∀ l, l ≠ j → qc' l = qc l
  target : ∀ a, qc' j a = qc j a + qe' k a - qe k a
  le : ∀ a, qe' k a ≤ qc i a
  ex : ∀ a, ∃ a' : ℤ → ℝ, (∀ x ∈ S k, a' x = a x) ∧ qc i a' ≤ qe' k a

variable {qc' qe' : ℕ → (ℤ → ℝ) → ℝ} {k i j : ℕ}

theorem Step.edge_le (L' : Local C S qc' qe') (hI : Reach n S p qc qe) (hk : k < n)
    (st : Step n S p qc qe qc' qe' k i j) (a : ℤ → ℝ) : qe' k a ≤ qe k a := by
  obtain ⟨a', h1, h2⟩ := hI k hk i (by rcases st.ends with h | h <;> tauto) a
  rw [L'.e k a a' fun x hx => (h1 x hx).symm]
  exact (st.le a').trans h2

theorem Step.reach (L : Local C S qc qe) (L' : Local C S qc' qe') (J : JT n C S p)
    (hI : Reach n S p qc qe) (hk : k < n)
    (st : Step n S p qc qe qc' qe' k i j) : Reach n S p qc' qe' := by
  have hle := st.edge_le L' hI hk
  have hij : i ≠ j := by
    have := (J.lt k hk).1
    rcases st.ends with ⟨rfl, rfl⟩ | ⟨rfl, rfl⟩ <;> omega
  have hmon : ∀ l a, qc' l a ≤ qc l a := by
    intro l a
    by_cases h : l = j
    · subst h
      rw [st.target a]
      linarith [hle a]
    · rw [st.cluster l h]
  intro l hl i' hi' a
  by_cases hlk : l = k
  · subst hlk
    have : i' = i ∨ i' = j := by rcases st.ends with ⟨rfl, rfl⟩ | ⟨rfl, rfl⟩ <;> tauto
    rcases this with rfl | rfl
    · obtain ⟨a', h1, h2⟩ := st.ex a
      exact ⟨a', h1, by rw [st.cluster _ hij]; exact h2⟩
    · obtain ⟨a', h1, h2⟩ := hI l hk i' hi' a
      refine ⟨a', h1, ?_⟩
      rw [st.target, L'.e l a' a h1, L.e l a' a h1]
      linarith
  · obtain ⟨a', h1, h2⟩ := hI l hl i' hi' a
    exact ⟨a', h1, by rw [st.edge l hlk]; exact (hmon i' a').trans h2⟩

/-- After a forward message the edge is below its source; sources of earlier edges are not
touched. -/
theorem Step.forward (J : JT n C S p) (hk : k < n) (st : Step n S p qc qe qc' qe' k k (p k))
    (hE : ∀ l < k, ∀ a, qe l a ≤ qc l a) : ∀ l < k + 1, ∀ a, qe' l a ≤ qc' l a := by
  intro l hl a
  have hp := (J.lt k hk).1
  rw [st.cluster l (by omega)]
  rcases Nat.lt_succ_iff_lt_or_eq.mp hl with h | rfl
  · rw [st.edge l (by omega)]
    exact hE l h a
  · exact st.le a

/-- A backward message makes the edge lie below both its clusters. -/
theorem Step.backward (J : JT n C S p) (hk : k < n) (st : Step n S p qc qe qc' qe' k (p k) k)
    (h1 : ∀ l ≤ k, ∀ a, qe l a ≤ qc l a)
    (h2 : ∀ l, k < l → l < n → ∀ a, qe l a ≤ qc l a ∧ qe l a ≤ qc (p l) a) :
    (∀ l < k, ∀ a, qe' l a ≤ qc' l a) ∧
      ∀ l, k ≤ l → l < n → ∀ a, qe' l a ≤ qc' l a ∧ qe' l a ≤ qc' (p l) a := by
  have hp := (J.lt k hk).1
  constructor
  · intro l hl a
    rw [st.edge l (by omega), st.cluster l (by omega)]
    exact h1 l (by omega) a
  · intro l hl hln a
    have hpl := (J.lt l hln).1
    rcases Nat.eq_or_lt_of_le hl with rfl | hl
    · refine ⟨?_, ?_⟩
      · rw [st.target]
        linarith [h1 k le_rfl a]
      · rw [st.cluster _ (by omega)]
        exact st.le a
    · rw [st.edge l (by omega), st.cluster l (by omega), st.cluster (p l) (by omega)]
      exact h2 l hl hln a

open Classical in
/-- Number of clusters holding both items minus number of separators holding both. -/
theorem count_pair (J : JT n C S p) (u w : ℤ) (a : ℤ → ℝ) :
    total n (fun i _ => if u ∈ C i ∧ w ∈ C i then 1 else 0)
      (fun i _ => if u ∈ S i ∧ w ∈ S i then 1 else 0) a =
    if ∃ i ≤ n, u ∈ C i ∧ w ∈ C i then 1 else 0 := by
  rw [total_eq]
  have key : ∀ m ≤ n, tail n (fun i _ => if u ∈ C i ∧ w ∈ C i then (1 : ℝ) else 0)
      (fun i _ => if u ∈ S i ∧ w ∈ S i then 1 else 0) m a =
      if ∃ i, n - m ≤ i ∧ i ≤ n ∧ u ∈ C i ∧ w ∈ C i then 1 else 0 := by
    intro m
    induction m with
    | zero =>
      intro _
      rw [tail]
      congr 1
      apply propext
      constructor
      · intro h; exact ⟨n, by omega, le_rfl, h⟩
      · rintro ⟨i, h1, h2, h3⟩
        obtain rfl : i = n := by omega
        exact h3
    | succ m ih =>
      intro hm
      have hk : n - (m + 1) < n := by omega
      rw [tail, ih (by omega)]
      obtain ⟨v, hv1, hv2, hv3⟩ := J.elim _ hk
      obtain ⟨hlt, hple⟩ := J.lt _ hk
      have hsub := J.sub _ hk
      have hm1 : n - m = n - (m + 1) + 1 := by omega
      rw [hm1]
      generalize n - (m + 1) = k at *
      by_cases hC : u ∈ C k ∧ w ∈ C k
      · have hex : ∃ i, k ≤ i ∧ i ≤ n ∧ u ∈ C i ∧ w ∈ C i := ⟨k, le_rfl, by omega, hC⟩
        by_cases hS : u ∈ S k ∧ w ∈ S k
        · have hex2 : ∃ i, k + 1 ≤ i ∧ i ≤ n ∧ u ∈ C i ∧ w ∈ C i :=
            ⟨p k, hlt, hple, hsub _ hS.1, hsub _ hS.2⟩
          rw [if_pos hex, if_pos hex2, if_pos hC, if_pos hS]
          ring
        · have hex2 : ¬ ∃ i, k + 1 ≤ i ∧ i ≤ n ∧ u ∈ C i ∧ w ∈ C i := by
            rintro ⟨i, h1, -, h3, h4⟩
            apply hS
            refine ⟨((hv2 u).mp hC.1).resolve_left ?_, ((hv2 w).mp hC.2).resolve_left ?_⟩
            · rintro rfl; exact hv3 i h1 h3
            · rintro rfl; exact hv3 i h1 h4
          rw [if_pos hex, if_neg hex2, if_pos hC, if_neg hS]
          ring
      · have hS : ¬ (u ∈ S k ∧ w ∈ S k) := fun h =>
          hC ⟨(hv2 u).mpr (Or.inr h.1), (hv2 w).mpr (Or.inr h.2)⟩
        have : (∃ i, k + 1 ≤ i ∧ i ≤ n ∧ u ∈ C i ∧ w ∈ C i) ↔
            ∃ i, k ≤ i ∧ i ≤ n ∧ u ∈ C i ∧ w ∈ C i := by
          constructor
          · rintro ⟨i, h1, h2⟩; exact ⟨i, by omega, h2⟩
          · rintro ⟨i, h1, h2, h3⟩
            refine ⟨i, ?_, h2, h3⟩
            rcases Nat.eq_or_lt_of_le h1 with rfl | h
            · exact absurd h3 hC
            · exact h
        rw [if_neg hC, if_neg hS]
        simp only [this]
        ring
  rw [key n le_rfl]
  simp

end Verif.TreeForms
