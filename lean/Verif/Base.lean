/-!
# Basic types shared by the whole model

Byte strings, byte string literals and the outcome type.
-/

namespace Argos

/-- `std::string` and `std::string_view`: a sequence of bytes. -/
abbrev Str := List UInt8

/-- `b!"text"` is the byte string with the UTF-8 encoding of the literal, expanded
at elaboration time to a list of numerals (so that the kernel can compute with it). -/
macro:max "b!" s:str : term => do
  let bytes := s.getString.toUTF8.toList
  let elems : Array (Lean.TSyntax `term) :=
    (bytes.map fun b => Lean.Syntax.mkNumLit (toString b.toNat)).toArray
  `(([ $elems,* ] : List UInt8))

/-- `c!"x"` is the byte of a one-character ASCII literal. -/
macro:max "c!" s:str : term => do
  let [b] := s.getString.toUTF8.toList | Lean.Macro.throwError "one character expected"
  let n := b.toNat
  `(($(Lean.Syntax.mkNumLit (toString n)) : UInt8))

/-- The ways a C++ call can end. Undefined behaviour is a distinct outcome. -/
inductive Outcome (α : Type) where
  /-- Normal return. -/
  | ok (a : α)
  /-- An `ArgosException` was thrown. -/
  | throw (msg : Str)
  /-- A `std::out_of_range` was thrown by the standard library. -/
  | outOfRange
  /-- The process was ended with `exit(code)`. -/
  | exit (code : Int)
  /-- Undefined behaviour. -/
  | ub
  /-- The call does not return (the model ran out of fuel). -/
  | diverges
  deriving Repr, DecidableEq

namespace Outcome

/-- Sequencing: anything but a normal return ends the computation. -/
@[inline] def bind {α β : Type} (x : Outcome α) (f : α → Outcome β) : Outcome β :=
  match x with
  | .ok a => f a
  | .throw m => .throw m
  | .outOfRange => .outOfRange
  | .exit c => .exit c
  | .ub => .ub
  | .diverges => .diverges

instance : Monad Outcome where
  pure := .ok
  bind := Outcome.bind

@[simp] theorem pure_eq {α : Type} (a : α) : (pure a : Outcome α) = .ok a := rfl
@[simp] theorem bind_ok {α β : Type} (a : α) (f : α → Outcome β) : (Outcome.ok a >>= f) = f a := rfl
@[simp] theorem bind_throw {α β : Type} (m : Str) (f : α → Outcome β) :
    ((Outcome.throw m : Outcome α) >>= f) = .throw m := rfl
@[simp] theorem bind_outOfRange {α β : Type} (f : α → Outcome β) :
    ((Outcome.outOfRange : Outcome α) >>= f) = .outOfRange := rfl
@[simp] theorem bind_exit {α β : Type} (c : Int) (f : α → Outcome β) :
    ((Outcome.exit c : Outcome α) >>= f) = .exit c := rfl
@[simp] theorem bind_ub {α β : Type} (f : α → Outcome β) :
    ((Outcome.ub : Outcome α) >>= f) = .ub := rfl

@[simp] theorem bind_diverges {α β : Type} (f : α → Outcome β) :
    ((Outcome.diverges : Outcome α) >>= f) = .diverges := rfl

theorem bind_eq_ok {α β : Type} {x : Outcome α} {f : α → Outcome β} {b : β} :
    (x >>= f) = .ok b ↔ ∃ a, x = .ok a ∧ f a = .ok b := by
  cases x <;> simp

instance : LawfulMonad Outcome := LawfulMonad.mk'
  (id_map := by intro α x; cases x <;> rfl)
  (pure_bind := by intros; rfl)
  (bind_assoc := by intro α β γ x f g; cases x <;> rfl)

end Outcome

end Argos
