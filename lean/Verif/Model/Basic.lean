import Mathlib.Algebra.Order.Field.Rat
import Mathlib.Data.List.Sort
import Mathlib.Data.Finset.Sort
import Mathlib.Data.Finset.Powerset
import Mathlib.Data.Finset.Card
import Mathlib.Algebra.BigOperators.Group.Finset.Basic
import Mathlib.Algebra.Order.BigOperators.Group.Finset
import Mathlib.Tactic.Ring
import Mathlib.Tactic.Linarith
import Mathlib.Tactic.NormNum
import Mathlib.Tactic.FieldSimp
import Mathlib.Tactic.Positivity
import Mathlib.Tactic.Push
import Mathlib.Tactic.IntervalCases

/-!
# Basic vocabulary of the model

Python exceptions as values and the handful of Python built-ins used by the code.
-/

namespace Abc

/-- The exceptions raised by abcvoting (and by the Python built-ins it uses).
`outOfFuel` is not a Python exception: it marks a `while` loop of the model that ran out of fuel; theorems show it never occurs. -/
inductive Err
  | valueError | typeError | indexError | keyError | zeroDivisionError | runtimeError
  | unknownRuleID      -- abcrules.py:457 (a ValueError)
  | unknownAlgorithm   -- abcrules.py:472 (a ValueError)
  | noAvailableAlgorithm -- abcrules.py:490 (a ValueError)
  | unknownScoreFunction -- scores.py:12 (a ValueError)
  | notImplemented
  | importError
  | malformattedFile   -- fileio.py:27
  | fileNotFound       -- fileio.py:57
  | outOfFuel
deriving DecidableEq, Repr

/-- Python `max(l)` on a list of numbers; `max([])` raises ValueError. -/
def pyMax : List ℚ → Except Err ℚ
  | [] => .error .valueError
  | x :: xs => .ok (xs.foldl max x)

/-- Python `min(l)` on a list of numbers; `min([])` raises ValueError. -/
def pyMin : List ℚ → Except Err ℚ
  | [] => .error .valueError
  | x :: xs => .ok (xs.foldl min x)

/-- Python `l[i]` for `i ≥ 0`; raises IndexError when out of range. -/
def pyGet {α : Type} (l : List α) (i : ℕ) : Except Err α :=
  match l[i]? with
  | some x => .ok x
  | none => .error .indexError

/-- Python `l[-i]` for `i ≥ 1` (and `l[0]` for `i = 0`); raises IndexError when out of range. -/
def pyGetFromEnd {α : Type} (l : List α) (i : ℕ) : Except Err α :=
  if i = 0 then pyGet l 0
  else if i ≤ l.length then pyGet l (l.length - i) else .error .indexError

/-- `itertools.combinations(l, r)`: all length-`r` subsequences in lexicographic order of positions. -/
def combinations {α : Type} : List α → ℕ → List (List α)
  | _, 0 => [[]]
  | [], _ + 1 => []
  | x :: xs, r + 1 => (combinations xs r).map (x :: ·) ++ combinations xs (r + 1)

/-- Python `a & b` / `a.intersection(b)` for sets: the elements of `a` that are in `b`. -/
def inter (a b : List ℕ) : List ℕ := a.filter (fun x => decide (x ∈ b))

/-- `set.add` on a set represented by a duplicate-free list. -/
def setAdd {α : Type} [DecidableEq α] (s : List α) (x : α) : List α := if x ∈ s then s else s ++ [x]

/-- `sorted(l)` for a list of integers (ascending).  (Python's `sorted` is a stable sort; so is `insertionSort`.) -/
def sortNat (l : List ℕ) : List ℕ := l.insertionSort (· ≤ ·)

/-- `sorted(l)` for a list of numbers (ascending). -/
def sortRat (l : List ℚ) : List ℚ := l.insertionSort (· ≤ ·)

/-- `l[i] += x`.  (Out of range would raise IndexError in Python; callers are in range, see the lemmas.) -/
def addAt (l : List ℚ) (i : ℕ) (x : ℚ) : List ℚ := l.modify i (· + x)

/-- Truncation `l[:max_num_of_committees]` guarded by `if max_num_of_committees is not None`. -/
def truncate {α : Type} (max : Option ℕ) (l : List α) : List α :=
  match max with
  | none => l
  | some n => l.take n

end Abc
