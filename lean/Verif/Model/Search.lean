import Verif.Base

/-!
# The standard library algorithms used by Argos

`std::sort`, `std::lower_bound`, `std::adjacent_find`, `std::unique`.
-/

namespace Argos

variable {α β : Type}

/-- Insertion of an element into a sorted list, before the elements equivalent to it. -/
def insertSorted (less : α → α → Bool) (x : α) : List α → List α
  | [] => [x]
  | y :: ys => if less y x then y :: insertSorted less x ys else x :: y :: ys

/-- `std::sort` for a comparison that is a strict weak order on the elements. (All algorithms
give the same result up to the order of equivalent elements. This one keeps equivalent elements in
their order, like the insertion sort the library implementations use for up to 16 elements.) -/
def sortList (less : α → α → Bool) : List α → List α
  | [] => []
  | x :: xs => insertSorted less x (sortList less xs)

/-- The precondition of `std::sort`: `less` is a strict weak order on the elements of `l`:
irreflexive, transitive, with transitive incomparability. -/
def isStrictWeakOrder (less : α → α → Bool) (l : List α) : Bool :=
  l.all fun a => !less a a &&
    l.all fun b => l.all fun c =>
      (!(less a b && less b c) || less a c) &&
      (!((!less a b && !less b a) && (!less b c && !less c b)) || (!less a c && !less c a))

/-- The halving loop of `std::lower_bound` (libstdc++ `__lower_bound`, libc++, MSVC; also
ParsedArgumentsImpl.cpp:21-34) on the half-open range `[first, first + len)`. The fuel is the
length of the list. -/
def lowerBoundLoop (less : α → β → Bool) (l : List α) (v : β) : (fuel first len : Nat) → Nat
  | 0, first, _ => first
  | fuel + 1, first, len =>
    if len = 0 then first
    else
      match l[first + len / 2]? with
      | none => first
      | some x =>
        if less x v then lowerBoundLoop less l v fuel (first + len / 2 + 1) (len - len / 2 - 1)
        else lowerBoundLoop less l v fuel first (len / 2)

/-- `std::lower_bound(l.begin(), l.end(), v, less)` as an index. -/
def lowerBound (less : α → β → Bool) (l : List α) (v : β) : Nat :=
  lowerBoundLoop less l v l.length 0 l.length

/-- `std::adjacent_find`: the first pair of neighbours that satisfies the predicate. -/
def adjacentFind (p : α → α → Bool) : List α → Option (α × α)
  | a :: b :: rest => if p a b then some (a, b) else adjacentFind p (b :: rest)
  | _ => none

/-- `l.erase(std::unique(l.begin(), l.end()), l.end())`: removes all but the first of every run
of equal neighbours. -/
def uniqueList [DecidableEq α] : List α → List α
  | a :: b :: rest => if a = b then uniqueList (b :: rest) else a :: uniqueList (b :: rest)
  | l => l

end Argos
