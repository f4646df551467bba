import Verif.Model.Basic

/-!
# Model of `abcvoting/misc.py`
-/

namespace Abc

/-- `CandidateSet.__init__` (misc.py:41-65) on a sequence of integers.
A Python set is represented by the ascending list of its elements.  The TypeError branch (non-integers, misc.py:48-53) is
excluded by the type `List ℤ`. -/
def candidateSet (candidates : List ℤ) (numCand : Option ℤ) : Except Err (List ℕ) :=
  -- `if len(candidates) != len(self)`
  if ¬ candidates.Nodup then .error .valueError
  -- `if not all(cand >= 0 for cand in candidates)`
  else if ¬ candidates.all (fun c => decide (0 ≤ c)) then .error .valueError
  else
    let result := sortNat (candidates.map Int.toNat)
    match numCand with
    | none => .ok result
    -- `if num_cand is not None and any(cand >= num_cand for cand in candidates)`
    | some n => if candidates.any (fun c => decide (c ≥ n)) then .error .valueError else .ok result

/-- `CandidateSet(committee)` for an iterable of candidates (naturals) without `num_cand` (misc.py:41-65). -/
def mkSet (candidates : List ℕ) : Except Err (List ℕ) :=
  if ¬ candidates.Nodup then .error .valueError else .ok (sortNat candidates)

/-- `str(n)` for a natural number, as a list of characters. -/
def strNat (n : ℕ) : List Char := Nat.toDigits 10 n

/-- Python comparison of strings is lexicographic by code point. -/
def strLe (a b : List Char) : Prop := a ≤ b

instance : DecidableRel strLe := fun a b => inferInstanceAs (Decidable (a ≤ b))

/-- `str_set_of_candidates(candset, cand_names)` (misc.py:103-130); `none` = `cand_names is None`.
`cand_names[cand]` out of range raises IndexError. -/
def strSetOfCandidates (candset : List ℕ) (candNames : Option (List (List Char)) := none) :
    Except Err (List Char) := do
  let named ← match candNames with
    | none => pure (candset.map strNat)
    | some names => candset.mapM (fun c => pyGet names c)
  let sorted := named.insertionSort strLe
  pure ("{".toList ++ (sorted.intersperse ", ".toList).flatten ++ "}".toList)

/-- `str(CandidateSet)` (misc.py:67-68, 70-83, 102-129): sorted decimal strings joined by ", " within braces. -/
def strKey (candset : List ℕ) : List Char :=
  let named := (candset.map strNat).insertionSort strLe
  "{".toList ++ (named.intersperse ", ".toList).flatten ++ "}".toList

/-- `sorted_committees` (misc.py:86-100). -/
def sortedCommittees (committees : List (List ℕ)) : Except Err (List (List ℕ)) := do
  let sets ← committees.mapM mkSet
  pure (sets.insertionSort (fun a b => strLe (strKey a) (strKey b)))

/-- `hamming` (misc.py:217-235). -/
def hamming (set1 set2 : List ℕ) : ℕ :=
  let diffs := set1.filter (fun x => ¬ decide (x ∈ set2)) ++ set2.filter (fun x => ¬ decide (x ∈ set1))
  diffs.length

/-- `powerset` (misc.py:258-280). -/
def powerset {α : Type} (iterable : List α) (maxSize : Option ℕ) : List (List α) :=
  let m := maxSize.getD iterable.length
  (List.range (m + 1)).flatMap (fun r => combinations iterable r)

/-- `compare_list_of_committees` (misc.py:283-316); committees are sets represented canonically
(so `==` on sets is `=` on lists).  The `isinstance(committee, set)` check is a typing matter. -/
def compareListOfCommittees (committees1 committees2 : List (List ℕ)) : Bool :=
  committees2.all (fun c => decide (c ∈ committees1)) && committees1.all (fun c => decide (c ∈ committees2))

/-- `verify_expected_committees_equals_actual_committees` (misc.py:319-360). -/
def verifyExpected (actual expected : List (List ℕ)) (resolute : Bool) : Except Err Unit :=
  if resolute then
    if actual.length ≠ 1 then .error .runtimeError
    else match actual with
      | a :: _ => if a ∉ expected then .error .valueError else .ok ()
      | [] => .error .indexError
  else
    if ¬ compareListOfCommittees actual expected then .error .valueError else .ok ()

/-- `binom` (misc.py:406-423): `math.factorial` raises ValueError on negative arguments, which gives 0. -/
def binom (n k : ℤ) : ℤ :=
  if n < 0 ∨ k < 0 ∨ n - k < 0 then 0
  else ((n.toNat.factorial / k.toNat.factorial / (n - k).toNat.factorial : ℕ) : ℤ)

end Abc
