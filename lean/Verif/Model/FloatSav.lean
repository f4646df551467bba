import Verif.Model.Optimal
import Verif.Model.Float

/-!
# Model of AV and SAV with Python's numbers

`_separable_rule_algorithm` (abcrules.py:1908-1964) computes with the weights as they are stored: `voter.weight / len(voter.approved)` is
a float for int weights (the default), and scores are compared with `>` and `==`, without tolerance.  There is no "float-fractions"
variant of this code: this is the algorithm "standard".
-/

namespace Abc

section
variable {F : Type} (A : Arith F)

/-- What a voter contributes to the score of an approved candidate (abcrules.py:1917-1922). -/
def fSepAmount : SepRule → Voter → F
  | .sav, v => A.div (A.weight v.weight) (A.int v.approved.length)
  | .av, v => A.weight v.weight

/-- `score` after the loop (abcrules.py:1914-1924): running totals that start with the int 0. -/
def fSeparableScores (r : SepRule) (p : Profile) : List F :=
  p.voters.foldl (fun s v => v.approved.foldl (fun s c => s.modify c (fun x => A.add x (fSepAmount A r v))) s)
    (List.replicate p.numCand (A.int 0))

/-- `_separable_rule_algorithm` (abcrules.py:1908-1964); sorting and comparing numbers compares their values. -/
def fSeparableAlgorithm (r : SepRule) (p : Profile) (k : ℕ) (resolute : Bool) (max : Option ℕ) : Except Err (List (List ℕ)) :=
  separableCommittees ((fSeparableScores A r p).map A.val) p k resolute max

/-- `compute_separable_rule` (abcrules.py:1789-1905), `compute_av`, `compute_sav` (1967-2090). -/
def fComputeSeparable (env : Env) (r : SepRule) (p : Profile) (a : Args) : Except Err (List (List ℕ)) := do
  let algorithm ← prologue env r.id p a
  if algorithm = "standard" then fSeparableAlgorithm A r p a.k a.resolute a.maxNum
  else .error .unknownAlgorithm

end

end Abc
