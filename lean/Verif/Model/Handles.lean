import Verif.Model.Data

/-!
# Model of the client objects `Argument` and `Option`

`src/Argos/Argument.cpp`, `src/Argos/Option.cpp`. An object holds a `std::unique_ptr` to its data, which
is null after the object was moved from, added to a parser or released. The copy operations copy
the data (Argument.cpp:25-29 and 37-47, Option.cpp:39-43 and 51-61), the move operations leave null behind
(Argument.cpp:31-33 and 49-53, Option.cpp:45-47 and 63-67).
-/

namespace Argos

/-- `Argument`: the data it owns, or null. -/
abbrev ArgHandle := Option ArgData

/-- `Option`: the data it owns, or null. -/
abbrev OptHandle := Option OptData

/-- The setters of `Argument`, Argument.cpp:55-145. -/
inductive ArgCall where
  | help (t : TextSource)
  | section_ (s : Str)
  | alias_ (s : Str)
  | callback (c : Option Nat)
  | visibility (v : Visibility)
  | id (n : Int)
  | name (s : Str)
  | optional (b : Bool)
  | mandatory (b : Bool)
  | count (n : Nat)
  | countRange (min max : Nat)
  deriving Repr, DecidableEq

/-- The message of `Argument::check_argument`, Argument.cpp:153-157. -/
def argMoved : Str := b!"Argument has been moved."

/-- `Argument::optional`, Argument.cpp:111-119 (on the data). -/
def ArgData.setOptional (a : ArgData) (b : Bool) : ArgData :=
  if b then { a with minCount := 0 }
  else if a.minCount = 0 then { a with minCount := 1 }
  else a

/-- A call of a setter: what it returns and the object after the call. The parameter checks of `count`
come before the check of the object (Argument.cpp:128-130, 137-141). -/
def ArgHandle.call (h : ArgHandle) : ArgCall → Outcome Unit × ArgHandle
  | .count n =>
    if n = 0 then (.throw b!"Argument's count must be greater than 0.", h)
    else match h with
      | none => (.throw argMoved, h)
      | some a => (.ok (), some { a with minCount := n, maxCount := n })
  | .countRange min max =>
    if max = 0 then (.throw b!"Argument's max count must be greater than 0.", h)
    else if max < min then
      (.throw b!"Argument's max count cannot be less than its min count.", h)
    else match h with
      | none => (.throw argMoved, h)
      | some a => (.ok (), some { a with minCount := min, maxCount := max })
  | .help t => match h with
    | none => (.throw argMoved, h)
    | some a => (.ok (), some { a with help := t })
  | .section_ s => match h with
    | none => (.throw argMoved, h)
    | some a => (.ok (), some { a with section_ := s })
  | .alias_ s => match h with
    | none => (.throw argMoved, h)
    | some a => (.ok (), some { a with alias_ := s })
  | .callback c => match h with
    | none => (.throw argMoved, h)
    | some a => (.ok (), some { a with callback := c })
  | .visibility v => match h with
    | none => (.throw argMoved, h)
    | some a => (.ok (), some { a with visibility := v })
  | .id n => match h with
    | none => (.throw argMoved, h)
    | some a => (.ok (), some { a with id := n })
  | .name s => match h with
    | none => (.throw argMoved, h)
    | some a => (.ok (), some { a with name := s })
  | .optional b => match h with
    | none => (.throw argMoved, h)
    | some a => (.ok (), some (a.setOptional b))
  | .mandatory b => match h with
    | none => (.throw argMoved, h)
    | some a => (.ok (), some (a.setOptional (!b)))

/-- `Argument::release`, Argument.cpp:147-151. -/
def ArgHandle.release (h : ArgHandle) : Outcome ArgData × ArgHandle :=
  match h with
  | none => (.throw argMoved, h)
  | some a => (.ok a, none)

/-- A sequence of setter calls; a call that throws does not end the sequence (the client catches the
exception). -/
def ArgHandle.calls (h : ArgHandle) : List ArgCall → ArgHandle
  | [] => h
  | c :: cs => ArgHandle.calls (h.call c).2 cs

/-- The setters of `Option`, Option.cpp:69-195. `constant(bool)` and `constant(int)` forward to
`constant(long long)`, which stores the decimal text; the model takes the text. -/
inductive OptCall where
  | help (t : TextSource)
  | section_ (s : Str)
  | alias_ (s : Str)
  | operation (o : OptionOperation)
  | visibility (v : Visibility)
  | id (n : Int)
  | flag (f : Str)
  | flags (fs : List Str)
  | argument (s : Str)
  | initialValue (s : Str)
  | constant (s : Str)
  | callback (c : Option Nat)
  | type (t : OptionType)
  | optional (b : Bool)
  | mandatory (b : Bool)
  deriving Repr, DecidableEq

/-- The message of `Option::check_option`, Option.cpp:213-218. -/
def optMoved : Str := b!"Cannot use Option instance after release() has been called."

/-- The setters of `Option` on the data, Option.cpp:69-195. -/
def OptData.set (o : OptData) : OptCall → OptData
  | .help t => { o with help := t }
  | .section_ s => { o with section_ := s }
  | .alias_ s => { o with alias_ := s }
  | .operation p => { o with operation := p }
  | .visibility v => { o with visibility := v }
  | .id n => { o with id := n }
  | .flag f => { o with flags := [f] }
  | .flags fs => { o with flags := fs }
  | .argument s => { o with argument := s }
  | .initialValue s => { o with initialValue := s }
  | .constant s => { o with constant := s }
  | .callback c => { o with callback := c }
  | .type t => { o with type := t }
  | .optional b => { o with optional := b }
  | .mandatory b => { o with optional := !b }

/-- A call of a setter of `Option`: each begins with `check_option`. -/
def OptHandle.call (h : OptHandle) (c : OptCall) : Outcome Unit × OptHandle :=
  match h with
  | none => (.throw optMoved, h)
  | some o => (.ok (), some (o.set c))

/-- `Option::release`, Option.cpp:206-210. -/
def OptHandle.release (h : OptHandle) : Outcome OptData × OptHandle :=
  match h with
  | none => (.throw optMoved, h)
  | some o => (.ok o, none)

end Argos
