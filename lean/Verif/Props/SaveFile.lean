import Verif.Spec.SaveFile
import Mathlib.Tactic.Linarith
import Mathlib.Tactic.NormNum
import Mathlib.Tactic.FinCases
import Mathlib.LinearAlgebra.Matrix.Notation
import Mathlib.Algebra.Order.Floor.Semiring

/-!
# C102: the saved factorization is the one that sequential reduction uses
-/
namespace Verif.SaveFile

open Verif.GLMM Verif.Split Verif.SaveFile.Spec

variable {q n n' p : ℕ}

theorem flatMap_get {α β : Type} {f : α → List β} {m : ℕ} (hf : ∀ a, (f a).length = m) :
    ∀ (l : List α) (k : ℕ) {i : ℕ}, i < m →
      (l.flatMap f)[i + m * k]? = (l[k]?).bind fun a => (f a)[i]?
  | [], _, _, _ => rfl
  | a :: l, 0, i, hi => by
    rw [List.flatMap_cons, List.getElem?_append_left (by rw [hf]; omega)]
    simp
  | a :: l, k + 1, i, hi => by
    rw [List.flatMap_cons, List.getElem?_append_right (by rw [hf]; nlinarith), hf,
      show i + m * (k + 1) - m = i + m * k by rw [mul_add, mul_one]; omega, flatMap_get hf l k hi]
    rfl

theorem flatMap_len {α β : Type} {f : α → List β} {m : ℕ} (hf : ∀ a, (f a).length = m) :
    ∀ l : List α, (l.flatMap f).length = m * l.length
  | [] => rfl
  | a :: l => by
    rw [List.flatMap_cons, List.length_append, hf, flatMap_len hf l, List.length_cons]
    ring

theorem byColumns_get {m r : ℕ} (A : Matrix (Fin m) (Fin r) ℝ) (i : Fin m) (k : Fin r) :
    (byColumns A)[(i : ℕ) + m * k]? = some (A i k) := by
  rw [byColumns, flatMap_get (fun a => List.length_ofFn) _ _ i.isLt]
  simp

theorem byColumns_len {m r : ℕ} (A : Matrix (Fin m) (Fin r) ℝ) : (byColumns A).length = m * r := by
  rw [byColumns, flatMap_len fun a => List.length_ofFn, List.length_finRange]

theorem triplets_len {m r : ℕ} (l : List ((Fin m × Fin r) × ℝ)) :
    (triplets l).length = 3 * l.length := flatMap_len (m := 3) (fun _ => rfl) l

theorem triplets_get {m r : ℕ} (l : List ((Fin m × Fin r) × ℝ)) (k : Fin l.length) :
    (triplets l)[3 * (k : ℕ)]? = some (((l.get k).1.1 : ℕ) : ℝ) ∧
      (triplets l)[3 * (k : ℕ) + 1]? = some (((l.get k).1.2 : ℕ) : ℝ) ∧
      (triplets l)[3 * (k : ℕ) + 2]? = some (l.get k).2 := by
  have h : ∀ i < 3, (triplets l)[i + 3 * (k : ℕ)]? = _ := fun i hi =>
    flatMap_get (m := 3) (fun _ => rfl) l k hi
  rw [show 3 * (k : ℕ) = 0 + 3 * k by omega, show 0 + 3 * (k : ℕ) + 1 = 1 + 3 * k by omega,
    show 0 + 3 * (k : ℕ) + 2 = 2 + 3 * k by omega, h 0 (by omega), h 1 (by omega), h 2 (by omega)]
  simp

/-! ## Reading a line -/

theorem mapM_nums : ∀ l : List ℝ, (l.map Word.num).mapM value = some l
  | [] => rfl
  | x :: l => by
    rw [List.map_cons, List.mapM_cons, mapM_nums l]
    rfl

theorem mapM_app : ∀ {l l' : List Word} {r r' : List ℝ}, l.mapM value = some r →
    l'.mapM value = some r' → (l ++ l').mapM value = some (r ++ r') := by
  intro l l' r r' h h'
  rw [List.mapM_append, h, h']
  rfl

theorem mapM_resp {logical : Bool} : ∀ {l : List ℝ},
    (logical = true → ∀ y ∈ l, y = 0 ∨ y = 1) → (l.map (respWord logical)).mapM value = some l
  | [], _ => rfl
  | y :: l, h => by
    have hy : value (respWord logical y) = some y := by
      cases logical with
      | false => rfl
      | true =>
        rcases h rfl y (by simp) with rfl | rfl
        · simp [respWord, value]
        · simp [respWord, value]
    rw [List.map_cons, List.mapM_cons, hy, mapM_resp (l := l) fun h0 z hz => h h0 z (by simp [hz])]
    rfl

/-- The numbers of a line have the sizes the reader expects. -/
theorem readG_numbers (C : List (Fin q)) {m : ℕ} (d : Data C.length m p) {x : List ℝ}
    (hx : x.length = d.entries.length) (hL : d.Lind.length = d.entries.length) :
    readG (numbers C d x ++ List.ofFn d.response ++ List.ofFn d.weights) =
      some (.glmm (C.map fun i : Fin q => ((i : ℕ) : ℝ)) m p (byColumns d.X) (byColumns d.Zt)
        (triplets (d.entries.zip x)) (d.Lind.map fun l : ℤ => (l : ℝ)) (List.ofFn d.response)
        (List.ofFn d.weights)) := by
  have hz : (d.entries.zip x).length = d.entries.length := by simp [hx]
  simp only [numbers, List.append_assoc, List.cons_append, List.nil_append, readG, Nat.floor_natCast]
  have t : ∀ (a b : List ℝ) (k : ℕ), a.length = k → (a ++ b).take k = a :=
    fun a b k h => by rw [← h, List.take_left']; rfl
  have e : ∀ (a b : List ℝ) (k : ℕ), a.length = k → (a ++ b).drop k = b :=
    fun a b k h => by rw [← h, List.drop_left']; rfl
  rw [e _ _ _ (by simp), t _ _ _ (by simp)]
  simp only [Nat.floor_natCast]
  rw [e _ _ _ (byColumns_len d.X), t _ _ _ (byColumns_len d.X), e _ _ _ (byColumns_len d.Zt),
    t _ _ _ (byColumns_len d.Zt)]
  simp only [Nat.floor_natCast]
  rw [e _ _ _ (by rw [triplets_len, hz]), t _ _ _ (by rw [triplets_len, hz]),
    e _ _ _ (by simp [hL]), t _ _ _ (by simp [hL]), e _ _ _ (by simp), t _ _ _ (by simp)]

theorem readLine_one {logical : Bool} (C : List (Fin q)) {m : ℕ} (d : Data C.length m p) {x : List ℝ}
    (hx : x.length = d.entries.length) (hL : d.Lind.length = d.entries.length)
    (hr : logical = true → ∀ i, d.response i = 0 ∨ d.response i = 1) :
    readLine (oneLine logical C d x) =
      some (.glmm (C.map fun i : Fin q => ((i : ℕ) : ℝ)) m p (byColumns d.X) (byColumns d.Zt)
        (triplets (d.entries.zip x)) (d.Lind.map fun l : ℤ => (l : ℝ)) (List.ofFn d.response)
        (List.ofFn d.weights)) := by
  have h1 : ((numbers C d x).map Word.num ++ (List.ofFn d.response).map (respWord logical) ++
      (List.ofFn d.weights).map Word.num).mapM value =
      some (numbers C d x ++ List.ofFn d.response ++ List.ofFn d.weights) := by
    refine mapM_app (mapM_app (mapM_nums _) (mapM_resp fun h y hy => ?_)) (mapM_nums _)
    obtain ⟨i, rfl⟩ := List.mem_ofFn.mp hy
    exact hr h i
  show (List.mapM value _).bind readG = _
  rw [h1]
  exact readG_numbers C d hx hL

theorem readLine_normal (i : Fin q) :
    readLine (normalLine i) = some (.normal [((i : ℕ) : ℝ)] [0] [1]) := by
  show (List.mapM value ([(1 : ℝ), ((i : ℕ) : ℝ), 0, 1].map Word.num)).bind readN = _
  rw [mapM_nums]
  simp [readN]

/-! ## C102 -/

theorem sub_lengths (M : ModFr q n p) (L : Fin q → Fin q → ℝ) (C : List (Fin q))
    (obs : List (Fin n)) :
    (subValues L M C).length = (findLocalTerm C obs M).entries.length ∧
      (findLocalTerm C obs M).Lind.length = (findLocalTerm C obs M).entries.length := by
  simp [subValues, findLocalTerm]

theorem describes_glmm (C : List (Fin q)) {m : ℕ} (d : Data C.length m p) {x : List ℝ}
    (hx : x.length = d.entries.length) :
    Describes (.glmm (C.map fun i : Fin q => ((i : ℕ) : ℝ)) m p (byColumns d.X) (byColumns d.Zt)
        (triplets (d.entries.zip x)) (d.Lind.map fun l : ℤ => (l : ℝ)) (List.ofFn d.response)
        (List.ofFn d.weights)) (Term.glmm C m d) := by
  have hz : (d.entries.zip x).length = d.entries.length := by simp [hx]
  refine ⟨by simp, fun k => by simp, rfl, rfl, byColumns_len _, byColumns_get _, byColumns_len _,
    byColumns_get _, by rw [triplets_len, hz], fun k => ?_, rfl, by simp, fun i => by simp, by simp,
    fun i => by simp⟩
  have h := triplets_get (d.entries.zip x) ⟨k, by rw [hz]; exact k.isLt⟩
  simp only [List.get_eq_getElem, List.getElem_zip] at h
  exact ⟨h.1, h.2.1⟩

theorem values_glmm (L : Fin q → Fin q → ℝ) (M : ModFr q n p) (C : List (Fin q))
    (obs : List (Fin n)) :
    DescribesValues L (.glmm (C.map fun i : Fin q => ((i : ℕ) : ℝ)) obs.length p
        (byColumns (findLocalTerm C obs M).X) (byColumns (findLocalTerm C obs M).Zt)
        (triplets ((findLocalTerm C obs M).entries.zip (subValues L M C)))
        ((findLocalTerm C obs M).Lind.map fun l : ℤ => (l : ℝ))
        (List.ofFn (findLocalTerm C obs M).response) (List.ofFn (findLocalTerm C obs M).weights))
      (Term.glmm C obs.length (findLocalTerm C obs M)) := by
  intro k
  have hx := (sub_lengths M L C obs).1
  have hz : ((findLocalTerm C obs M).entries.zip (subValues L M C)).length =
      (findLocalTerm C obs M).entries.length := by simp [hx]
  have h := (triplets_get _ (⟨k, by rw [hz]; exact k.isLt⟩ :
    Fin ((findLocalTerm C obs M).entries.zip (subValues L M C)).length)).2.2
  simp only [List.get_eq_getElem, List.getElem_zip] at h
  have hk : (k : ℕ) < (subLambdat M C).length := by
    have := k.isLt
    simpa [findLocalTerm] using this
  have e : (findLocalTerm C obs M).entries.get k = ((subLambdat M C)[(k : ℕ)]'hk).1 :=
    List.getElem_map _
  rw [h, e]
  simp [subValues]

theorem foldl_lines {α : Type} (f : α → List Word) : ∀ (l : List α) (file : File),
    l.foldl (fun file e => file ++ [f e]) file = file ++ l.map f
  | [], file => by simp
  | a :: l, file => by
    rw [List.foldl_cons, foldl_lines f l]
    simp

theorem forall₂_of_map {α β δ : Type} {P : β → δ → Prop} {f : α → β} {g : α → δ} :
    ∀ {l : List α}, (∀ a ∈ l, P (f a) (g a)) → List.Forall₂ P (l.map f) (l.map g)
  | [], _ => .nil
  | a :: l, h => .cons (h a (by simp)) (forall₂_of_map fun b hb => h b (by simp [hb]))

/-- C102. Saving a factorization raises the error that making it for sequential reduction raises, and
then leaves no lines in the file; or the file has one line for each factor and nothing else, and every
line describes its factor completely. -/
theorem c102 (logical : Bool) (L : Fin q → Fin q → ℝ) (M : ModFr q n p) (old : File)
    (hr : logical = true → ∀ j, M.resp j = 0 ∨ M.resp j = 1) :
    (∀ e, findFactorizationTerms M = Except.error e →
      saveFactorization logical L M old = (Except.error e, [])) ∧
    ∀ ts, findFactorizationTerms M = Except.ok ts →
      ∃ file, saveFactorization logical L M old = (Except.ok (), file) ∧
        List.Forall₂ (fun line t => ∃ r, readLine line = some r ∧ Describes r t ∧
          DescribesValues L r t) file ts := by
  unfold findFactorizationTerms saveFactorization
  dsimp only
  generalize addObs (findActive M).eraseDups (findActive M) (List.finRange n) = ao
  rcases ao with e | ext
  · exact ⟨fun e' h => (by cases h; rfl), fun ts h => (by cases h)⟩
  · refine ⟨fun e' h => (by cases h), fun ts h => ⟨_, rfl, ?_⟩⟩
    cases h
    rw [foldl_lines, foldl_lines, List.nil_append]
    refine List.rel_append ?_ ?_
    · refine forall₂_of_map fun e _ => ?_
      obtain ⟨h1, h2⟩ := sub_lengths M L e.1 e.2
      exact ⟨_, readLine_one _ _ h1 h2 fun h i => hr h _, describes_glmm _ _ h1,
        values_glmm L M e.1 e.2⟩
    · exact forall₂_of_map fun i _ => ⟨_, readLine_normal i, ⟨rfl, rfl, rfl⟩, trivial⟩

/-- A record describes one term only. -/
theorem describes_unique {r : Record} {t t' : Term q p} (h : Describes r t) (h' : Describes r t') :
    t = t' := by
  rcases r with ⟨items, nobs, nfixed, X, Zt, entries, Lind, resp, weights⟩ | ⟨items, mean, prec⟩
  · rcases t with ⟨C, m, d⟩ | _
    swap
    · exact h.elim
    rcases t' with ⟨C', m', d'⟩ | _
    swap
    · exact h'.elim
    obtain ⟨a1, a2, a3, -, -, a6, -, a8, a9, a10, a11, -, a13, -, a15⟩ := h
    obtain ⟨b1, b2, b3, -, -, b6, -, b8, b9, b10, b11, -, b13, -, b15⟩ := h'
    have hm : m = m' := a3.symm.trans b3
    subst hm
    have hC : C = C' := by
      refine List.ext_getElem (a1.symm.trans b1) fun k hk hk' => ?_
      have h1 := (a2 ⟨k, hk⟩).symm.trans (b2 ⟨k, hk'⟩)
      have h2 := Option.some.inj h1
      exact Fin.ext (by exact_mod_cast h2)
    subst hC
    have hE : d.entries = d'.entries := by
      refine List.ext_getElem (by omega) fun k hk hk' => ?_
      obtain ⟨g1, g2⟩ := a10 ⟨k, hk⟩
      obtain ⟨g1', g2'⟩ := b10 ⟨k, hk'⟩
      have h1 := Option.some.inj (g1.symm.trans g1')
      have h2 := Option.some.inj (g2.symm.trans g2')
      exact Prod.ext (Fin.ext (by exact_mod_cast h1)) (Fin.ext (by exact_mod_cast h2))
    have hX : d.X = d'.X := by
      ext i k
      exact Option.some.inj ((a6 i k).symm.trans (b6 i k))
    have hZ : d.Zt = d'.Zt := by
      ext i k
      exact Option.some.inj ((a8 i k).symm.trans (b8 i k))
    have hL : d.Lind = d'.Lind :=
      List.map_injective_iff.mpr Int.cast_injective (a11.symm.trans b11)
    have hR : d.response = d'.response := by
      funext i
      exact Option.some.inj ((a13 i).symm.trans (b13 i))
    have hW : d.weights = d'.weights := by
      funext i
      exact Option.some.inj ((a15 i).symm.trans (b15 i))
    cases d
    cases d'
    simp only at hE hX hZ hL hR hW
    subst hE hX hZ hL hR hW
    rfl
  · rcases t with _ | ⟨i, μ, τ⟩
    · exact h.elim
    rcases t' with _ | ⟨i', μ', τ'⟩
    · exact h'.elim
    obtain ⟨rfl, rfl, rfl⟩ := h
    obtain ⟨h1, h2, h3⟩ := h'
    have h1 := (List.cons.inj h1).1
    cases (List.cons.inj h2).1
    cases (List.cons.inj h3).1
    have : i = i' := Fin.ext (by exact_mod_cast h1)
    rw [this]

/-- C102: the file determines the factorization. -/
theorem c102_determines {logical logical' : Bool} {L L' : Fin q → Fin q → ℝ} {M : ModFr q n p}
    {M' : ModFr q n' p} {old old' file : File} {ts ts' : List (Term q p)}
    (hr : logical = true → ∀ j, M.resp j = 0 ∨ M.resp j = 1)
    (hr' : logical' = true → ∀ j, M'.resp j = 0 ∨ M'.resp j = 1)
    (ht : findFactorizationTerms M = Except.ok ts) (ht' : findFactorizationTerms M' = Except.ok ts')
    (h : (saveFactorization logical L M old).2 = file)
    (h' : (saveFactorization logical' L' M' old').2 = file) : ts = ts' := by
  obtain ⟨f, e, hf⟩ := (c102 logical L M old hr).2 ts ht
  obtain ⟨f', e', hf'⟩ := (c102 logical' L' M' old' hr').2 ts' ht'
  rw [e] at h
  rw [e'] at h'
  cases h
  cases h'
  clear e e' ht ht'
  induction hf generalizing ts' with
  | nil => cases hf'; rfl
  | cons h _ ih =>
    cases hf' with
    | cons h' t' =>
      obtain ⟨r, e, d, -⟩ := h
      obtain ⟨r', e', d', -⟩ := h'
      rw [e] at e'
      cases e'
      rw [describes_unique d d', ih t']

/-- C102, a response that is a factor or logical: it is not written in numbers. -/
theorem c102_logical (C : List (Fin q)) {m : ℕ} (d : Data C.length m p) (x : List ℝ) (i : Fin m)
    (hi : d.response i = 0 ∨ d.response i = 1) :
    (if d.response i = 1 then Word.tag "TRUE" else Word.tag "FALSE") ∈ oneLine true C d x := by
  have h : respWord true (d.response i) ∈ (List.ofFn d.response).map (respWord true) :=
    List.mem_map_of_mem (List.mem_ofFn.mpr ⟨i, rfl⟩)
  have e : respWord true (d.response i) =
      if d.response i = 1 then Word.tag "TRUE" else Word.tag "FALSE" := by
    rcases hi with hi | hi <;> simp [respWord, hi]
  rw [← e]
  simp only [oneLine, List.mem_cons, List.mem_append]
  exact Or.inr (Or.inl (Or.inr h))

/-- C102 for `save_normal`: two lines, the mean, and the number of stored entries of the precision matrix
with row, column and value of each. -/
theorem c102_normal {N : ℕ} (mean : Fin N → ℝ) (precision : List ((Fin N × Fin N) × ℝ))
    (old : File) : ∃ l1 l2 xs ys, saveNormal mean precision old = [l1, l2] ∧
      l1.mapM value = some xs ∧ l2.mapM value = some ((precision.length : ℝ) :: ys) ∧
      xs.length = N ∧ (∀ i : Fin N, xs[i]? = some (mean i)) ∧ ys.length = 3 * precision.length ∧
      ∀ k : Fin precision.length, ys[3 * (k : ℕ)]? = some (((precision.get k).1.1 : ℕ) : ℝ) ∧
        ys[3 * (k : ℕ) + 1]? = some (((precision.get k).1.2 : ℕ) : ℝ) ∧
        ys[3 * (k : ℕ) + 2]? = some (precision.get k).2 :=
  ⟨_, _, _, _, rfl, mapM_nums _, mapM_nums _, List.length_ofFn, fun i => by simp, triplets_len _,
    triplets_get _⟩

/-! ## A case meeting the hypotheses -/

/-- Two observations of one random effect. -/
def pair : ModFr 1 2 1 where
  X := !![3; 5]
  Zt := !![1, 1]
  ztStored _ _ := true
  lambdat := [(0, 0)]
  Lind := [1]
  resp := ![0, 1]
  weights := none
  offset := 0

/-- The file for numeric and for logical responses; whatever was in it before is lost. -/
example (logical : Bool) (old : File) :
    saveFactorization logical (fun _ _ => 7) pair old = (Except.ok (),
      [Word.tag "G" :: (([1, 0, 2, 1, 3, 5, 1, 1, 1, 0, 0, 7, 0] : List ℝ).map Word.num ++
        (if logical then [Word.tag "FALSE", Word.tag "TRUE"] else [Word.num 0, Word.num 1]) ++
        [Word.num 1, Word.num 1]),
      [Word.tag "N", Word.num 1, Word.num 0, Word.num 0, Word.num 1]]) := by
  have h : addObs (findActive pair).eraseDups (findActive pair) (List.finRange 2) =
      Except.ok [([0], [0, 1])] := by decide
  have hs : subLambdat pair [0] = [(((0 : Fin 1), (0 : Fin 1)), 0)] := by decide
  unfold saveFactorization
  dsimp only
  rw [h]
  simp only [List.foldl_cons, List.foldl_nil, List.nil_append, oneLine, numbers, byColumns, subValues,
    findLocalTerm, hs, triplets]
  cases logical <;> simp [normalLine, respWord, pair, List.finRange_succ]

/-- The response of this model is 0 or 1. -/
example : ∀ j, pair.resp j = 0 ∨ pair.resp j = 1 := by
  intro j
  fin_cases j
  · exact Or.inl rfl
  · exact Or.inr rfl

end Verif.SaveFile
