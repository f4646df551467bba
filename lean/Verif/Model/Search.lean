import Verif.Model.Scores

/-!
# Model of the depth-first search loop shared by the irresolute sequential rules

The same `while` loop occurs in `_seq_thiele_irresolute` (abcrules.py:1314-1342), `_seqphragmen_irresolute` (2910-2960),
`_maximin_support_irresolute` (3868-3895), `_phragmen_enestroem_algorithm` (4015-4062) and `_consensus_rule_algorithm`
(4173-4221).  They differ only in how the extensions of a partial committee are computed: the parameter `succs`, a function
that returns the extended nodes (committee plus loads/budgets) of all tied candidates in the order of the `for` loop.
-/

namespace Abc

/-- Python `max(l)` for a list that is non-empty because `num_cand > 0`; (`max([])` would raise, here 0). -/
def listMax (l : List ℚ) : ℚ :=
  match l with
  | [] => 0
  | x :: xs => xs.foldl max x

/-- Python `min(l)` for a list that is non-empty because `num_cand > 0`; (`min([])` would raise, here 0). -/
def listMin (l : List ℚ) : ℚ :=
  match l with
  | [] => 0
  | x :: xs => xs.foldl min x

/-- The inner `for` loop (e.g. abcrules.py:1321-1337): extended nodes that are full committees are added to the set of winning
committees (as sorted tuples, `out`), with an early return (`Sum.inl`) as soon as `max_num_of_committees` are found; others are
appended to the list of new partial committees. -/
def expandLoop {N : Type} (full : N → Bool) (out : N → List ℕ) (max : Option ℕ) :
    List N → List N → List (List ℕ) → Sum (List (List ℕ)) (List N × List (List ℕ))
  | [], newPartial, winning => .inr (newPartial, winning)
  | n :: ns, newPartial, winning =>
    if full n then
      let winning' := setAdd winning (out n)
      if max = some winning'.length then .inl winning'
      else expandLoop full out max ns newPartial winning'
    else expandLoop full out max ns (newPartial ++ [n]) winning

/-- The `while` loop (e.g. abcrules.py:1314-1339).  The head of the list is the top of the Python stack, hence
`partial_committees += reversed(new_partial_committees)` is `newPartial ++ rest`. -/
def universes {N : Type} (full : N → Bool) (out : N → List ℕ) (succs : N → Except Err (List N)) (max : Option ℕ) :
    ℕ → List N → List (List ℕ) → Except Err (List (List ℕ))
  | _, [], winning => .ok winning
  | 0, _ :: _, _ => .error .outOfFuel
  | fuel + 1, n :: rest, winning => do
    let ns ← succs n
    match expandLoop full out max ns [] winning with
    | .inl winning' => .ok winning'
    | .inr (newPartial, winning') => universes full out succs max fuel (newPartial ++ rest) winning'

end Abc
