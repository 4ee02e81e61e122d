import Verif.Model.Data

/-!
# Model of `src/Argos/ArgumentCounter.cpp`

The counters use `ArgumentData` only through its counts (and return the pointer), so the
model takes the list of arguments of the command.
-/

namespace Argos

/-- `SIZE_MAX` on a 64-bit platform. -/
def sizeMax : Nat := 2 ^ 64 - 1

/-- `ArgumentCounter`, ArgumentCounter.hpp:37-43. -/
structure Counter where
  counters : List (Nat × ArgData) := []
  index : Nat := 0
  firstOptional : Nat := 0
  counter : Nat := 0
  deriving Repr, DecidableEq

namespace Counter

/-- The loop of `find_first_optional`, ArgumentCounter.cpp:14-24. -/
def findFirstOptionalLoop : List ArgData → (i result : Nat) → Nat
  | [], _, result => result
  | a :: as, i, result => findFirstOptionalLoop as (i + 1) (if a.minCount > 0 then i + 1 else result)

/-- `find_first_optional`, ArgumentCounter.cpp:14-24. -/
def findFirstOptional (args : List ArgData) : Nat := findFirstOptionalLoop args 0 0

/-- The loop of `make_argument_counters(command, counters, first_optional)`,
ArgumentCounter.cpp:32-44. -/
def makeCountersLoop (firstOptional : Nat) : List ArgData → Nat → List (Nat × ArgData)
  | [], _ => []
  | a :: as, i =>
    if i + 1 = firstOptional ∧ a.minCount ≠ a.maxCount then
      (a.minCount, a) :: (a.maxCount - a.minCount, a) :: makeCountersLoop firstOptional as (i + 1)
    else (a.maxCount, a) :: makeCountersLoop firstOptional as (i + 1)

/-- The loop of `get_min_max_count`, ArgumentCounter.cpp:132-143. The sum of the minimum counts
cannot overflow (32-bit summands). -/
def minMaxLoop : List ArgData → (lo hi : Nat) → Nat × Nat
  | [], lo, hi => (lo, hi)
  | a :: as, lo, hi =>
    minMaxLoop as (lo + a.minCount)
      (if hi ≠ sizeMax then (if a.maxCount > sizeMax - hi then sizeMax else hi + a.maxCount)
       else hi)

/-- `ArgumentCounter::get_min_max_count`, ArgumentCounter.cpp:129-145. -/
def getMinMaxCount (args : List ArgData) : Nat × Nat := minMaxLoop args 0 0

/-- The loop of `make_argument_counters(command, n)`, ArgumentCounter.cpp:59-77. -/
def distribute : List ArgData → Nat → List (Nat × ArgData)
  | [], _ => []
  | a :: as, n =>
    if n = 0 ∨ a.minCount = a.maxCount then (a.minCount, a) :: distribute as n
    else if a.minCount + n ≤ a.maxCount then (a.minCount + n, a) :: distribute as 0
    else (a.maxCount, a) :: distribute as (n - (a.maxCount - a.minCount))

/-- `make_argument_counters(command, n)`, ArgumentCounter.cpp:47-78. -/
def makeCountersN (args : List ArgData) (n : Nat) : List (Nat × ArgData) :=
  let (lo, hi) := getMinMaxCount args
  distribute args (if n < lo then 0 else if n > hi then hi - lo else n - lo)

/-- `ArgumentCounter(const CommandData&)`, ArgumentCounter.cpp:86-89. -/
def ofArgs (args : List ArgData) : Counter :=
  { counters := makeCountersLoop (findFirstOptional args) args 0
    firstOptional := findFirstOptional args }

/-- The `while` loop of `next_argument`, ArgumentCounter.cpp:106-107: the number of zero
counters at the start of the list. -/
def leadingZeros : List (Nat × ArgData) → Nat
  | (0, _) :: cs => leadingZeros cs + 1
  | _ => 0

/-- `ArgumentCounter::next_argument`, ArgumentCounter.cpp:104-115. -/
def nextArgument (c : Counter) : Option ArgData × Counter :=
  let index := c.index + leadingZeros (c.counters.drop c.index)
  match c.counters[index]? with
  | none => (none, { c with index })
  | some (n, a) =>
    (some a, { c with index, counter := c.counter + 1, counters := c.counters.set index (n - 1, a) })

/-- The loop of the counting constructor, ArgumentCounter.cpp:97-101. -/
def skip : Counter → Nat → Counter
  | c, 0 => c
  | c, n + 1 =>
    match c.nextArgument with
    | (none, c') => c'
    | (some _, c') => skip c' n

/-- `ArgumentCounter(command, argument_count, initial_count)`, ArgumentCounter.cpp:91-102. -/
def ofArgsN (args : List ArgData) (n : Nat) (initial : Nat := 0) : Counter :=
  skip { counters := makeCountersN args n, firstOptional := (makeCountersN args n).length } initial

/-- `ArgumentCounter::is_complete`, ArgumentCounter.cpp:122-127. Reading a counter outside the
vector would be `ub`; it cannot happen for counters made by the constructors (`firstOptional` is
at most the number of counters), see `Verif.Proofs.Counter`. -/
def isComplete (c : Counter) : Bool :=
  decide (c.index ≥ c.firstOptional) ||
    (decide (c.index + 1 = c.firstOptional) && ((c.counters[c.index]?).map (·.1) == some 0))

/-- `ArgumentCounter::requires_argument_count`, ArgumentCounter.cpp:147-158. -/
def requiresArgumentCountLoop : List ArgData → Bool → Bool
  | [], _ => false
  | a :: as, deterministic =>
    if !deterministic then true
    else requiresArgumentCountLoop as (decide (a.minCount = a.maxCount))

/-- `ArgumentCounter::requires_argument_count`, ArgumentCounter.cpp:147-158. -/
def requiresArgumentCount (args : List ArgData) : Bool := requiresArgumentCountLoop args true

/-- The counter made for a command that is entered with `n` arguments ahead,
ArgumentIteratorImpl.cpp:65-73 and 324-332. -/
def forCount (args : List ArgData) (n : Nat) : Counter :=
  if !requiresArgumentCount args then ofArgs args else ofArgsN args n

end Counter

end Argos
