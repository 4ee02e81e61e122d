import Verif.Model.StringUtilities
import Verif.Model.Data

/-!
# Model of the command line iterators

`src/Argos/StandardOptionIterator.cpp`, `src/Argos/OptionIterator.cpp`,
`src/Argos/OptionIteratorWrapper.hpp`.

`m_all_args` is kept only from the current argument on (`m_args`): the arguments before it
are never read again. `m_pos` is `pos n` or `npos`.
-/

namespace Argos

/-- `m_pos`: a position or `std::string::npos`. -/
inductive Pos where
  | at (n : Nat)
  | npos
  deriving Repr, DecidableEq

/-- `StandardOptionIterator`: `m_args` and `m_pos` (StandardOptionIterator.hpp). -/
structure StdIt where
  args : List Str
  pos : Pos
  deriving Repr, DecidableEq

/-- The second half of `StandardOptionIterator::next`, StandardOptionIterator.cpp:48-69,
executed with `m_pos == 0`. -/
def StdIt.nextFresh (args : List Str) : Option Str × StdIt :=
  match args with
  | [] => (none, ⟨[], .at 0⟩)
  | a :: rest =>
    match a with
    | a0 :: a1 :: _ :: _ =>
      if a0 ≠ c!"-" then (some a, ⟨a :: rest, .npos⟩)
      else if a1 ≠ c!"-" then (some (a.take 2), ⟨a :: rest, .at 2⟩)
      else
        match findChar c!"=" a with
        | none => (some a, ⟨a :: rest, .npos⟩)
        | some e => (some (a.take (e + 1)), ⟨a :: rest, .at (e + 1)⟩)
    | _ => (some a, ⟨a :: rest, .npos⟩)

/-- `StandardOptionIterator::next`, StandardOptionIterator.cpp:32-70. Reading `m_args[0]` of an
empty span, or `m_args[0][1]` of an argument without a second character, is `ub`. -/
def StdIt.next (it : StdIt) : Outcome (Option Str × StdIt) :=
  match it.pos with
  | .at 0 => .ok (StdIt.nextFresh it.args)
  | .at (p + 1) =>
    match it.args with
    | [] => .ub
    | a :: rest =>
      match a[p + 1]? with
      | some c =>
        match a[1]? with
        | none => .ub
        | some a1 =>
          if a1 ≠ c!"-" then
            .ok (some [c!"-", c], ⟨a :: rest, if p + 2 = a.length then .npos else .at (p + 2)⟩)
          else .ok (StdIt.nextFresh rest)
      | none => .ok (StdIt.nextFresh rest)
  | .npos =>
    match it.args with
    | [] => .ub
    | _ :: rest => .ok (StdIt.nextFresh rest)

/-- `StandardOptionIterator::next_value`, StandardOptionIterator.cpp:72-92. `substr` with a
position beyond the end throws `std::out_of_range`. -/
def StdIt.nextValue (it : StdIt) : Outcome (Option Str × StdIt) :=
  match it.args with
  | [] => .ok (none, it)
  | a :: rest =>
    match it.pos with
    | .at p => if p ≤ a.length then .ok (some (a.drop p), ⟨a :: rest, .npos⟩) else .outOfRange
    | .npos =>
      match rest with
      | [] => .ok (none, ⟨[], .at 0⟩)
      | b :: rest' => .ok (some b, ⟨b :: rest', .npos⟩)

/-- `StandardOptionIterator::current`, StandardOptionIterator.cpp:94-99. -/
def StdIt.current (it : StdIt) : Outcome Str :=
  match it.args with
  | [] => .throw b!"There is no current argument."
  | a :: _ => .ok a

/-- `StandardOptionIterator::split_concatenated_flags`, StandardOptionIterator.cpp:119-129. -/
def StdIt.splitConcatenatedFlags (it : StdIt) : Outcome StdIt :=
  match it.pos with
  | .at 0 => .ok it
  | .npos =>
    match it.args with
    | [] => .ub
    | _ :: _ => .ok it
  | .at (p + 1) =>
    match it.args with
    | [] => .ub
    | a :: rest =>
      if p + 1 ≥ a.length then .ok it
      else match a[1]? with
        | none => .ub
        | some a1 =>
          if a1 = c!"-" then .ok it
          else .ok ⟨a.take (p + 1) :: (c!"-" :: a.drop (p + 1)) :: rest, it.pos⟩

/-- `StandardOptionIterator::remaining_arguments`, StandardOptionIterator.cpp:101-105.
`subspan(1)` of an empty span is `ub`. -/
def StdIt.remainingArguments (it : StdIt) : Outcome (List Str × StdIt) := do
  let it' ← it.splitConcatenatedFlags
  if it'.pos = .at 0 then .ok (it'.args, it')
  else match it'.args with
    | [] => .ub
    | _ :: rest => .ok (rest, it')

/-- `StandardOptionIterator::insert`, StandardOptionIterator.cpp:107-117. Inserting behind the
end of the vector is `ub`. -/
def StdIt.insert (it : StdIt) (new : List Str) : Outcome StdIt := do
  let it' ← it.splitConcatenatedFlags
  if it'.pos = .at 0 then .ok ⟨new ++ it'.args, it'.pos⟩
  else match it'.args with
    | [] => .ub
    | a :: rest => .ok ⟨a :: (new ++ rest), it'.pos⟩

/-- `OptionIterator` (OptionIterator.hpp): `m_args`, `m_pos` and `m_prefix`. -/
structure OptIt where
  args : List Str
  pos : Pos
  pfx : UInt8
  deriving Repr, DecidableEq

/-- `OptionIterator::next` from line 42 on, OptionIterator.cpp:42-59, executed with `m_pos == 0`. -/
def OptIt.nextFresh (args : List Str) (pfx : UInt8) : Option Str × OptIt :=
  match args with
  | [] => (none, ⟨[], .at 0, pfx⟩)
  | a :: rest =>
    match a with
    | a0 :: _ :: _ :: _ =>
      if a0 ≠ pfx then (some a, ⟨a :: rest, .npos, pfx⟩)
      else match findChar c!"=" a with
        | none => (some a, ⟨a :: rest, .npos, pfx⟩)
        | some e => (some (a.take (e + 1)), ⟨a :: rest, .at (e + 1), pfx⟩)
    | _ => (some a, ⟨a :: rest, .npos, pfx⟩)

/-- `OptionIterator::next`, OptionIterator.cpp:34-60. `pop_front` of an empty span is `ub`. -/
def OptIt.next (it : OptIt) : Outcome (Option Str × OptIt) :=
  if it.pos = .at 0 then .ok (OptIt.nextFresh it.args it.pfx)
  else match it.args with
    | [] => .ub
    | _ :: rest => .ok (OptIt.nextFresh rest it.pfx)

/-- `OptionIterator::next_value`, OptionIterator.cpp:62-83. Note that after moving to the next
argument `m_pos` becomes the size of that argument (line 81), not `npos`. -/
def OptIt.nextValue (it : OptIt) : Outcome (Option Str × OptIt) :=
  match it.args with
  | [] => .ok (none, it)
  | a :: rest =>
    match it.pos with
    | .at p =>
      if p ≤ a.length then .ok (some (a.drop p), ⟨a :: rest, .npos, it.pfx⟩) else .outOfRange
    | .npos =>
      match rest with
      | [] => .ok (none, ⟨[], .at 0, it.pfx⟩)
      | b :: rest' => .ok (some b, ⟨b :: rest', .at b.length, it.pfx⟩)

/-- `OptionIterator::current`, OptionIterator.cpp:85-90. -/
def OptIt.current (it : OptIt) : Outcome Str :=
  match it.args with
  | [] => .throw b!"There is no current argument."
  | a :: _ => .ok a

/-- `OptionIterator::remaining_arguments`, OptionIterator.cpp:92-95. -/
def OptIt.remainingArguments (it : OptIt) : Outcome (List Str × OptIt) :=
  if it.pos = .at 0 then .ok (it.args, it)
  else match it.args with
    | [] => .ub
    | _ :: rest => .ok (rest, it)

/-- `OptionIterator::insert`, OptionIterator.cpp:97-106. -/
def OptIt.insert (it : OptIt) (new : List Str) : Outcome OptIt :=
  if it.pos = .at 0 then .ok ⟨new ++ it.args, it.pos, it.pfx⟩
  else match it.args with
    | [] => .ub
    | a :: rest => .ok ⟨a :: (new ++ rest), it.pos, it.pfx⟩

/-- `OptionIteratorWrapper` (OptionIteratorWrapper.hpp): a `std::variant` of the two iterators. -/
inductive Iter where
  | std (it : StdIt)
  | opt (it : OptIt)
  deriving Repr, DecidableEq

namespace Iter

/-- `make_option_iterator`, ArgumentIteratorImpl.cpp:28-41. -/
def make (style : OptionStyle) (args : List Str) : Iter :=
  match style with
  | .slash => .opt ⟨args, .at 0, c!"/"⟩
  | .dash => .opt ⟨args, .at 0, c!"-"⟩
  | .standard => .std ⟨args, .at 0⟩

/-- `OptionIteratorWrapper::next`. -/
def next : Iter → Outcome (Option Str × Iter)
  | .std it => do let (a, it') ← it.next; pure (a, .std it')
  | .opt it => do let (a, it') ← it.next; pure (a, .opt it')

/-- `OptionIteratorWrapper::next_value`. -/
def nextValue : Iter → Outcome (Option Str × Iter)
  | .std it => do let (a, it') ← it.nextValue; pure (a, .std it')
  | .opt it => do let (a, it') ← it.nextValue; pure (a, .opt it')

/-- `OptionIteratorWrapper::current`. -/
def current : Iter → Outcome Str
  | .std it => it.current
  | .opt it => it.current

/-- `OptionIteratorWrapper::remaining_arguments`. -/
def remainingArguments : Iter → Outcome (List Str × Iter)
  | .std it => do let (a, it') ← it.remainingArguments; pure (a, .std it')
  | .opt it => do let (a, it') ← it.remainingArguments; pure (a, .opt it')

/-- `OptionIteratorWrapper::insert`. -/
def insert (it : Iter) (new : List Str) : Outcome Iter :=
  match it with
  | .std it => do pure (.std (← it.insert new))
  | .opt it => do pure (.opt (← it.insert new))

end Iter

end Argos
