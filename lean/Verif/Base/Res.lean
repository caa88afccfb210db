/-!
# Outcomes of modelled code

`Res α` is the result of running a piece of C++ or R code: a value, an exception
(`throw` in C++, `stop` in R) or undefined behaviour. Nothing in the model turns
`ub` back into a value.
-/
namespace Verif

/-- Abnormal outcomes: `ub` is undefined behaviour (out-of-range `operator[]`, signed
overflow, invalid float-to-int conversion); `throw` is a raised C++ exception or R `stop`. -/
inductive Err where
  | ub : Err
  | throw : String → Err
  deriving DecidableEq, Repr

/-- Result of modelled code. -/
abbrev Res (α : Type _) := Except Err α

/-- The undefined-behaviour outcome. -/
def Res.ub {α : Type _} : Res α := Except.error Err.ub

/-- The exception outcome. -/
def Res.raise {α : Type _} (msg : String) : Res α := Except.error (Err.throw msg)

/-- `v[i]` of a `std::vector` / Eigen object without bounds check: undefined behaviour
when out of range (C++ standard, [sequence.reqmts]; Eigen with `NDEBUG`). -/
def nth {α : Type _} (l : List α) (i : Nat) : Res α :=
  match l[i]? with
  | some a => Except.ok a
  | none => Res.ub

/-- `v.at(i)` of a `std::vector`: throws `std::out_of_range` when out of range. -/
def atE {α : Type _} (l : List α) (i : Nat) : Res α :=
  match l[i]? with
  | some a => Except.ok a
  | none => Res.raise "out_of_range"

/-- `v.back()`: undefined behaviour on an empty vector. -/
def backE {α : Type _} (l : List α) : Res α :=
  match l.getLast? with
  | some a => Except.ok a
  | none => Res.ub

/-- Result of a 32-bit signed operation whose mathematical value is `z`: undefined
behaviour when `z` is not representable. -/
def i32 (z : Int) : Res Int :=
  if -2147483648 ≤ z ∧ z ≤ 2147483647 then Except.ok z else Res.ub

/-- How `int` arithmetic is carried out: maps the mathematical value of an operation to its
outcome. The model functions take this as a parameter; the two instances used are `i32`
(the real 32-bit semantics, overflow is `ub`) and `Except.ok` (unbounded integers). -/
abbrev Arith := Int → Res Int

/-- Unbounded integer arithmetic. -/
def exactZ : Arith := Except.ok

/-- `ar` computes exactly on `[-B, B]`. -/
def Fits (ar : Arith) (B : Int) : Prop := ∀ z, -B ≤ z → z ≤ B → ar z = Except.ok z

/-- C++ integer division: truncates toward zero, undefined for a zero divisor and when the
quotient is not representable. -/
def divA (ar : Arith) (a b : Int) : Res Int :=
  if b = 0 then Res.ub else ar (Int.tdiv a b)

/-- `1 << s` for an `int` (C++11 rules): undefined for a negative shift count or a result
that does not fit. -/
def shl1 (ar : Arith) (s : Int) : Res Int :=
  if s < 0 then Res.ub else ar ((2 : Int) ^ s.toNat)

/-- Write `v[i] = a` of a `std::vector` without bounds check. -/
def setN {α : Type _} (l : List α) (i : Nat) (a : α) : Res (List α) :=
  if i < l.length then Except.ok (l.set i a) else Res.ub

/-- Write `v.at(i) = a`: throws `std::out_of_range` when out of range. -/
def setE {α : Type _} (l : List α) (i : Nat) (a : α) : Res (List α) :=
  if i < l.length then Except.ok (l.set i a) else Res.raise "out_of_range"

theorem nth_ok {α : Type _} {l : List α} {i : Nat} (h : i < l.length) :
    nth l i = Except.ok l[i] := by
  simp [nth, h]

theorem atE_ok {α : Type _} {l : List α} {i : Nat} (h : i < l.length) :
    atE l i = Except.ok l[i] := by
  simp [atE, h]

theorem setN_ok {α : Type _} {l : List α} {i : Nat} {a : α} (h : i < l.length) :
    setN l i a = Except.ok (l.set i a) := by
  simp [setN, h]

theorem setE_ok {α : Type _} {l : List α} {i : Nat} {a : α} (h : i < l.length) :
    setE l i a = Except.ok (l.set i a) := by
  simp [setE, h]

theorem fits_exactZ (B : Int) : Fits exactZ B := fun _ _ _ => rfl

theorem i32_ok {z : Int} (h1 : -2147483648 ≤ z) (h2 : z ≤ 2147483647) :
    i32 z = Except.ok z := by
  simp [i32, h1, h2]

theorem i32_ok' {z : Int} (h1 : 0 ≤ z) (h2 : z ≤ 2147483647) :
    i32 z = Except.ok z :=
  i32_ok (Int.le_trans (by decide) h1) h2

theorem i32_eq_ok_iff {z w : Int} : i32 z = Except.ok w ↔
    w = z ∧ -2147483648 ≤ z ∧ z ≤ 2147483647 := by
  unfold i32
  split
  · rename_i h
    constructor
    · intro h'
      cases h'
      exact ⟨rfl, h⟩
    · rintro ⟨rfl, -⟩
      rfl
  · rename_i h
    constructor
    · intro h'
      cases h'
    · rintro ⟨-, h'⟩
      exact absurd h' h

theorem fits_i32 : Fits i32 2147483647 := fun _ h1 h2 =>
  i32_ok (Int.le_trans (by decide) h1) h2

@[simp] theorem res_ok_bind {α β : Type _} (a : α) (f : α → Res β) :
    ((Except.ok a : Res α) >>= f) = f a := Eq.trans rfl rfl

@[simp] theorem res_pure {α : Type _} (a : α) : (pure a : Res α) = Except.ok a := rfl

@[simp] theorem res_ub_bind {α β : Type _} (f : α → Res β) :
    ((Res.ub : Res α) >>= f) = Res.ub := Eq.trans rfl rfl

@[simp] theorem res_error_bind {α β : Type _} (e : Err) (f : α → Res β) :
    ((Except.error e : Res α) >>= f) = Except.error e := Eq.trans rfl rfl

end Verif
