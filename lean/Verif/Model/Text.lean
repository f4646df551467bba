import Verif.Model.Preferences

/-!
# Model of the text functions of `misc.py` and of the textual forms of profiles (`preferences.py`)

Numbers (weights) are formatted by a parameter `num`, Python's `str` (or f-string formatting) of a number.
-/

namespace Abc

/-- `sep.join(l)`. -/
def joinText (sep : Name) (l : List Name) : Name := (l.intersperse sep).flatten

/-- `s[:-2]`. -/
def dropLast2 (s : Name) : Name := s.take (s.length - 2)

/-- `CandidateSet.str_with_names` (misc.py:70-83), and `Voter.str_with_names` (preferences.py:359-372), which calls it. -/
def Voter.strWithNames (v : Voter) (candNames : Option (List Name)) : Except Err Name := strSetOfCandidates v.approved candNames

/-- `Voter.__str__` (preferences.py:356-357), `CandidateSet.__str__` (misc.py:67-68). -/
def Voter.str (v : Voter) : Except Err Name := v.strWithNames none

/-- `str_sets_of_candidates` (misc.py:133-163). -/
def strSetsOfCandidates (sets : List (List ℕ)) (candNames : Option (List Name)) : Except Err Name := do
  let strs ← sets.mapM (fun s => strSetOfCandidates s candNames)
  .ok (" ".toList ++ joinText "\n ".toList strs ++ "\n".toList)

/-- `str_committees_with_header` (misc.py:166-214); an empty list stands for `None` as well. -/
def strCommitteesWithHeader (committees : List (List ℕ)) (candNames : Option (List Name)) (winning : Bool) : Except Err Name :=
  if committees.length < 1 then .ok (if winning then "No winning committees".toList else "No committees".toList)
  else do
    let commstring := if winning then "winning committee".toList else "committee".toList
    let first :=
      if committees.length = 1 then "1 ".toList ++ commstring ++ ":\n".toList
      else strNat committees.length ++ " ".toList ++ commstring ++ "s:\n".toList
    let sets ← strSetsOfCandidates committees candNames
    .ok (first ++ sets)

/-- `header` (misc.py:238-255); `symbol[0]` raises IndexError for the empty string. -/
def header (text : Name) (symbol : Name := ['-']) : Except Err Name := do
  let s ← pyGet symbol 0
  let border := List.replicate text.length s ++ "\n".toList
  .ok (border ++ text ++ "\n".toList ++ border)

/-- `f"{s:4s}"`: padded with spaces to width 4. -/
def pad4 (s : Name) : Name := s ++ List.replicate (4 - s.length) ' '

/-- The text for one voter (preferences.py:254-258). -/
def voterText (num : ℚ → Name) (p : Profile) (vi : ℕ) (v : Voter) : Except Err Name := do
  let weight := if ¬ p.hasUnitWeights then num v.weight ++ " * ".toList else []
  let set ← strSetOfCandidates v.approved (some p.candNames)
  .ok (" voter ".toList ++ pad4 (strNat vi ++ ":".toList) ++ " ".toList ++ weight ++ set ++ ",\n".toList)

/-- The loop preferences.py:254-258, beginning with voter number `vi`. -/
def votersText (num : ℚ → Name) (p : Profile) : ℕ → List Voter → Except Err Name
  | _, [] => .ok []
  | vi, v :: vs => do
    let t ← voterText num p vi v
    let rest ← votersText num p (vi + 1) vs
    .ok (t ++ rest)

/-- `Profile.__str__` (preferences.py:246-259). -/
def Profile.str (num : ℚ → Name) (p : Profile) : Except Err Name := do
  let head :=
    (if p.hasUnitWeights then "profile with ".toList else "weighted profile with ".toList)
      ++ strNat p.voters.length ++ " voters and ".toList ++ strNat p.numCand ++ " candidates:\n".toList
  let body ← votersText num p 0 p.voters
  .ok (dropLast2 (head ++ body))

/-- `compact[key] += w` if the key is present, `compact[key] = w` (at the end) otherwise (preferences.py:303-307). -/
def tableAdd (key : List ℕ) (w : ℚ) : List (List ℕ × ℚ) → List (List ℕ × ℚ)
  | [] => [(key, w)]
  | (k, x) :: rest => if k = key then (k, x + w) :: rest else (k, x) :: tableAdd key w rest

/-- The `OrderedDict` `compact` (preferences.py:302-307).  The key `tuple(voter.approved)` lists the set in its iteration order,
which is the order of the list `approved` in the model. -/
def Profile.compactTable (p : Profile) : List (List ℕ × ℚ) :=
  p.voters.foldl (fun t v => tableAdd v.approved v.weight t) []

/-- One line (preferences.py:314-317); `CandidateSet(approval_set)` raises for duplicates. -/
def compactLine (num : ℚ → Name) (p : Profile) (e : List ℕ × ℚ) : Except Err Name := do
  let s ← mkSet e.1
  let set ← strSetOfCandidates s (some p.candNames)
  .ok (" ".toList ++ num e.2 ++ " x ".toList ++ set ++ ",\n".toList)

/-- `Profile.str_compact` (preferences.py:294-323). -/
def Profile.strCompact (num : ℚ → Name) (p : Profile) : Except Err Name := do
  let head :=
    (if p.hasUnitWeights then [] else "weighted ".toList)
      ++ "profile with ".toList ++ strNat p.voters.length ++ " voters and ".toList ++ strNat p.numCand ++ " candidates:\n".toList
  let lines ← p.compactTable.mapM (compactLine num p)
  let text := dropLast2 (head ++ lines.flatten)
  let text := if ¬ p.hasUnitWeights then text ++ "\ntotal weight: ".toList ++ num p.totalWeight else text
  .ok (text ++ "\n".toList)

end Abc
