import Verif.Spec.Nested
import Verif.Proofs.ClusterTree

/-!
# Elimination in nested models adds no edges
-/
namespace Verif.ClusterGraph

open Verif.Items Verif.DepGraph Verif.Spec.Graph Verif.Nested.Spec

variable {β : Type} {factors : List (List ℤ)}

/-- Two items of the same factor. -/
def Joined (factors : List (List ℤ)) (x y : ℤ) : Prop := x ≠ y ∧ ∃ F ∈ factors, x ∈ F ∧ y ∈ F

/-- `y` occurs wherever `x` does. -/
def Below (factors : List (List ℤ)) (x y : ℤ) : Prop := ∀ F ∈ factors, 2 ≤ F.length → x ∈ F → y ∈ F

theorem two_le {F : List ℤ} {x y : ℤ} (hx : x ∈ F) (hy : y ∈ F) (h : x ≠ y) : 2 ≤ F.length := by
  rcases F with _ | ⟨a, _ | ⟨b, l⟩⟩
  · simp at hx
  · simp only [List.mem_singleton] at hx hy
    exact absurd (hx.trans hy.symm) h
  · simp

theorem Joined.symm {x y : ℤ} (h : Joined factors x y) : Joined factors y x :=
  ⟨h.1.symm, h.2.imp fun _ hF => ⟨hF.1, hF.2.2, hF.2.1⟩⟩

theorem Joined.below (hn : Nested factors) {x y : ℤ} (h : Joined factors x y) :
    Below factors x y ∨ Below factors y x := by
  rcases hn x y with h1 | h1 | h1
  · exact .inl h1
  · exact .inr h1
  · obtain ⟨-, F, hF, hx, hy⟩ := h
    exact absurd ⟨hx, hy⟩ (h1 F hF)

/-- Joined with something below: joined with it as well. -/
theorem Joined.up {x y z : ℤ} (h : Joined factors x y) (hb : Below factors y z) (hz : x ≠ z) :
    Joined factors x z := by
  obtain ⟨hne, F, hF, hx, hy⟩ := h
  exact ⟨hz, F, hF, hx, hb F hF (two_le hx hy hne) hy⟩

/-- Items that are pairwise joined occur in one factor. -/
theorem clique_factor (hn : Nested factors) : ∀ {C : List ℤ}, C ≠ [] →
    (∀ x ∈ C, ∃ F ∈ factors, x ∈ F) → (∀ x ∈ C, ∀ y ∈ C, x ≠ y → Joined factors x y) →
    ∃ F ∈ factors, ∀ x ∈ C, x ∈ F := by
  intro C hne hin hj
  -- a least element
  have hmin : ∀ {C : List ℤ}, C ≠ [] → (∀ x ∈ C, ∀ y ∈ C, x ≠ y → Joined factors x y) →
      ∃ m ∈ C, ∀ x ∈ C, x = m ∨ Below factors m x := by
    intro C
    induction C with
    | nil => exact fun h => absurd rfl h
    | cons a l ih =>
      intro _ hj
      rcases l.eq_nil_or_concat with hl | ⟨_, _, hl⟩
      · subst hl
        exact ⟨a, by simp, by simp⟩
      · obtain ⟨m, hm, hlow⟩ := ih (by rw [hl]; simp) fun x hx y hy =>
          hj x (List.mem_cons_of_mem _ hx) y (List.mem_cons_of_mem _ hy)
        by_cases ham : a = m
        · exact ⟨m, List.mem_cons_of_mem _ hm, fun x hx => (List.mem_cons.1 hx).elim
            (fun e => .inl (e.trans ham)) (hlow x)⟩
        rcases (hj a (by simp) m (List.mem_cons_of_mem _ hm) ham).below hn with h | h
        · refine ⟨a, by simp, fun x hx => (List.mem_cons.1 hx).elim .inl fun hx => .inr ?_⟩
          rcases hlow x hx with e | hb
          · exact e ▸ h
          · exact fun F hF h2 ha => hb F hF h2 (h F hF h2 ha)
        · exact ⟨m, List.mem_cons_of_mem _ hm, fun x hx => (List.mem_cons.1 hx).elim
            (fun e => .inr (e ▸ h)) (hlow x)⟩
  obtain ⟨m, hm, hlow⟩ := hmin hne hj
  by_cases h1 : ∃ x ∈ C, x ≠ m
  · obtain ⟨x, hx, hxm⟩ := h1
    obtain ⟨-, F, hF, hmF, hxF⟩ := hj m hm x hx hxm.symm
    refine ⟨F, hF, fun y hy => ?_⟩
    rcases hlow y hy with e | hb
    · exact e ▸ hmF
    · exact hb F hF (two_le hmF hxF hxm.symm) hmF
  · obtain ⟨F, hF, hmF⟩ := hin m hm
    refine ⟨F, hF, fun y hy => ?_⟩
    by_contra hc
    exact h1 ⟨y, hy, fun e => hc (e ▸ hmF)⟩

/-- The remaining graph is the one the factors give. -/
structure Plain (factors : List (List ℤ)) (A : AGraph) : Prop where
  adj : ∀ x ∈ A.active, ∀ y ∈ A.active, (A.adj x y ↔ Joined factors x y)
  item : ∀ x ∈ A.active, ∃ F ∈ factors, x ∈ F

theorem plain_depA (hF : ∀ F ∈ factors, F.Nodup) : Plain factors (depA factors) where
  adj _ _ _ _ := Iff.rfl
  item x hx := (mem_depA_items hF).1 (by simpa [depA] using hx)

/-- The neighbours of an item with the fewest neighbours are joined. -/
theorem neighbours_joined (hn : Nested factors) {A : AGraph} (hp : Plain factors A) {v : ℤ}
    (hv : v ∈ A.active) (hmin : ∀ x ∈ A.active, degA A v ≤ degA A x) {a b : ℤ}
    (ha : a ∈ A.active) (hb : b ∈ A.active) (hva : Joined factors v a) (hvb : Joined factors v b)
    (hab : a ≠ b) : Joined factors a b := by
  classical
  by_contra hc
  -- both are below `v`
  have hav : Below factors a v := by
    rcases hva.below hn with h | h
    · exact absurd ((hvb.symm.up h hab.symm).symm) hc
    · exact h
  have hsub : insert b (insert a ((A.active.filter fun j => A.adj a j).erase v)) ⊆
      A.active.filter fun j => A.adj v j := by
    intro x hx
    rw [Finset.mem_filter]
    rcases Finset.mem_insert.1 hx with rfl | hx
    · exact ⟨hb, (hp.adj v hv x hb).2 hvb⟩
    rcases Finset.mem_insert.1 hx with rfl | hx
    · exact ⟨ha, (hp.adj v hv x ha).2 hva⟩
    obtain ⟨hxv, hx⟩ := Finset.mem_erase.1 hx
    obtain ⟨hxA, hax⟩ := Finset.mem_filter.1 hx
    exact ⟨hxA, (hp.adj v hv x hxA).2 (((hp.adj a ha x hxA).1 hax).symm.up hav hxv).symm⟩
  have hcard := Finset.card_le_card hsub
  have hvm : v ∈ A.active.filter fun j => A.adj a j :=
    Finset.mem_filter.2 ⟨hv, (hp.adj a ha v hv).2 hva.symm⟩
  rw [Finset.card_insert_of_notMem, Finset.card_insert_of_notMem, Finset.card_erase_add_one hvm] at hcard
  · have := hmin a ha
    unfold degA at this
    omega
  · intro h
    have := (Finset.mem_filter.1 (Finset.mem_of_mem_erase h)).2
    exact ((hp.adj a ha a ha).1 this).1 rfl
  · intro h
    rcases Finset.mem_insert.1 h with h | h
    · exact hab h.symm
    · have := (Finset.mem_filter.1 (Finset.mem_of_mem_erase h)).2
      exact hc ((hp.adj a ha b hb).1 this)

/-- Every cluster is empty or contained in a factor. -/
def InFactor (ops : Ops β) (factors : List (List ℤ)) (c : CG β) : Prop :=
  ∀ b ∈ c.clusters, ops.items b = [] ∨ ∃ F ∈ factors, ∀ x ∈ ops.items b, x ∈ F

theorem internal_within {ops : Ops β} (hops : ItemsLaw ops) (hn : Nested factors) {ar : Arith} {B : ℤ}
    (hf : Fits ar B) (hB1 : 1 ≤ B) : ∀ (fuel : ℕ) {g : Graph} {A : AGraph} {c c' : CG β}
    {hanging : List ℕ}, Rep g A → Plain factors A → InFactor ops factors c →
    (A.active.card : ℤ) * (A.active.card - 1) ≤ B → (A.active.card : ℤ) ≤ B →
    initializeInternal ar ops fuel g c hanging = Except.ok c' → InFactor ops factors c'
  | 0, g, A, c, c', hanging, _, _, _, _, _, h => by cases h
  | fuel + 1, g, A, c, c', hanging, hr, hp, hw, hb1, hb2, h => by
    obtain ⟨b, hb, hbc⟩ := isComplete_ok hr hf hB1 hb1 hb2
    rw [initializeInternal, hb] at h
    simp only [res_ok_bind] at h
    have push : ∀ {C : List ℤ} {es : List (Edge β)}, (C = [] ∨ ∃ F ∈ factors, ∀ x ∈ C, x ∈ F) →
        InFactor ops factors ⟨c.clusters ++ [ops.ofItems C], es⟩ := by
      intro C es hC b' hb'
      rcases List.mem_append.1 hb' with hb' | hb'
      · exact hw b' hb'
      · rw [List.mem_singleton.1 hb', hops]
        exact hC
    split at h
    · rename_i hcomp
      rw [finish] at h
      rcases hq : hanging.foldlM (fun es id => setSecond es id (c.clusters.length : ℤ)) c.edges
        with err | es
      · rw [hq] at h; cases h
      rw [hq] at h
      cases h
      refine push ?_
      by_cases he : getItems g = []
      · exact .inl he
      · refine .inr (clique_factor hn he (fun x hx => hp.item x ((mem_getItems hr).1 hx))
          fun x hx y hy hxy => ?_)
        have hx' := (mem_getItems hr).1 hx
        have hy' := (mem_getItems hr).1 hy
        exact (hp.adj x hx' y hy').1 (hbc.1 hcomp x hx' y hy' hxy)
    · rename_i hcomp
      have hne : A.active.Nonempty := by
        rw [Finset.nonempty_iff_ne_empty]
        intro he
        apply hcomp
        rw [hbc]
        intro x hx
        rw [he] at hx
        simp at hx
      obtain ⟨v, hv, hva, hmin⟩ := chooseItem_ok hr hne
      obtain ⟨sep, hsep, -, hsnd, hsm⟩ := neighbours_ok hr (hr.sub v hva)
      obtain ⟨g1, e1, r1, -⟩ := rep_connect sep hr hsnd fun x hx => ((hsm x).mp hx).1
      obtain ⟨g2, e2, r2, -⟩ := rep_removeNode r1 (i := v) (hr.sub v hva)
      have hvs : ∀ x ∈ sep, x ∈ A.active ∧ Joined factors v x := fun x hx => by
        obtain ⟨hxa, hadj⟩ := (hsm x).1 hx
        exact ⟨hxa, (hp.adj v hva x hxa).1 hadj⟩
      have hss : ∀ x ∈ sep, ∀ y ∈ sep, x ≠ y → Joined factors x y := fun x hx y hy hxy =>
        neighbours_joined hn hp hva hmin (hvs x hx).1 (hvs y hy).1 (hvs x hx).2 (hvs y hy).2 hxy
      rw [eliminate, hv] at h
      simp only [res_ok_bind] at h
      rw [hsep] at h
      simp only [res_ok_bind] at h
      rcases h3 : hanging.foldlM (attachStep ops (findItemsUnion [v] sep) (c.clusters.length : ℤ))
        (c.edges ++ [⟨(c.clusters.length : ℤ), -1, ops.ofItems sep⟩], []) with err | s1
      · rw [h3] at h; cases h
      rw [h3] at h
      simp only [res_ok_bind, e1, e2, res_pure] at h
      have hcm : ∀ x, x ∈ findItemsUnion [v] sep ↔ x = v ∨ x ∈ sep := by
        intro x; rw [mem_union]; simp
      have hcard : ((A.connect sep).remove v).active.card + 1 = A.active.card :=
        Finset.card_erase_add_one hva
      have hc1 : (((A.connect sep).remove v).active.card : ℤ) + 1 = A.active.card := by
        exact_mod_cast hcard
      have hc0 : (0 : ℤ) ≤ ((A.connect sep).remove v).active.card := by positivity
      refine internal_within hops hn hf hB1 fuel r2 ⟨?_, ?_⟩ (push (.inr ?_)) ?_ (by omega) h
      · intro x hx y hy
        have hxA := Finset.mem_of_mem_erase hx
        have hyA := Finset.mem_of_mem_erase hy
        constructor
        · rintro (h | ⟨hxy, hxs, hys⟩)
          · exact (hp.adj x hxA y hyA).1 h
          · exact hss x hxs y hys hxy
        · exact fun h => .inl ((hp.adj x hxA y hyA).2 h)
      · exact fun x hx => hp.item x (Finset.mem_of_mem_erase hx)
      · refine clique_factor hn ?_ (fun x hx => ?_) fun x hx y hy hxy => ?_
        · intro he
          have := (hcm v).2 (.inl rfl)
          rw [he] at this
          simp at this
        · rcases (hcm x).1 hx with rfl | hx
          · exact hp.item x hva
          · exact hp.item x (hvs x hx).1
        · rcases (hcm x).1 hx with ex | hx' <;> rcases (hcm y).1 hy with ey | hy'
          · exact absurd (ex.trans ey.symm) hxy
          · exact ex ▸ (hvs y hy').2
          · exact ey ▸ (hvs x hx').2.symm
          · exact hss x hx' y hy' hxy
      · rw [← hc1] at hb1
        nlinarith

end Verif.ClusterGraph
