import Verif.Model.Optimal

/-!
# Model of seq-Phragmén (abcrules.py:2662-2960)

The model covers exact arithmetic, i.e. the algorithms "standard-fractions" and "gmpy2-fractions".  The algorithm
"float-fractions" (the same code with floating-point division and `isclose` comparisons) is a parameter `float` here, instantiated in `Model/Float`.
-/

namespace Abc

/-- The choice of the arithmetic at the beginning of all fraction-based algorithms (e.g. abcrules.py:2803-2814, 2881-2892):
"gmpy2-fractions" needs the module gmpy2. -/
def withFractions {α : Type} (env : Env) (algorithm : String) (float exact : Except Err α) : Except Err α :=
  if algorithm = "float-fractions" then float
  else if algorithm = "standard-fractions" then exact
  else if algorithm = "gmpy2-fractions" then
    if "gmpy2-fractions" ∉ env.available then .error .importError else exact
  else .error .unknownAlgorithm

/-- `approvers_weight[cand]` (abcrules.py:2816-2818, 2894-2896). -/
def approversWeight (p : Profile) (cand : ℕ) : ℚ :=
  ((p.voters.filter (fun v => decide (cand ∈ v.approved))).map Voter.weight).sum

/-- `approvers_load[cand]` (abcrules.py:2834-2838, 2912-2916). `load[v]` is in range: `load` has one entry per voter. -/
def approversLoad (p : Profile) (load : List ℚ) (cand : ℕ) : ℚ :=
  (((p.voters.zip load).filter (fun vl => decide (cand ∈ vl.1.approved))).map (fun vl => vl.1.weight * vl.2)).sum

/-- `new_maxload` (abcrules.py:2839-2848, 2917-2926), including the overwriting of the entries of committee members. -/
def newMaxload (p : Profile) (k : ℕ) (committee : List ℕ) (load : List ℚ) : List ℚ :=
  p.candidates.map (fun cand =>
    if cand ∈ committee then (k : ℚ) + 2
    else if approversWeight p cand > 0 then (approversLoad p load cand + 1) / approversWeight p cand
    else (k : ℚ) + 1)

/-- The new loads (abcrules.py:2858-2860, 2936-2941). -/
def updateLoad (p : Profile) (load : List ℚ) (cand : ℕ) (newLoad : ℚ) : List ℚ :=
  List.zipWith (fun v x => if cand ∈ v.approved then newLoad else x) p.voters load

/-- What `_seqphragmen_resolute` records per round (abcrules.py:2863-2866). -/
structure PhragInfo where
  nextCand : ℕ
  tiedCands : List ℕ
  load : List ℚ
  maxLoad : ℚ
deriving DecidableEq, Repr

/-- The loop of `_seqphragmen_resolute` (abcrules.py:2833-2866). -/
def seqphragmenLoop (p : Profile) (k : ℕ) : ℕ → List ℕ → List ℚ → List PhragInfo →
    Except Err (List ℕ × List ℚ × List PhragInfo)
  | 0, committee, load, info => .ok (committee, load, info)
  | n + 1, committee, load, info => do
    let new := newMaxload p k committee load
    let tied := tiedMin new
    let next ← pyGet tied 0
    let load' := updateLoad p load next (new.getD next 0)
    seqphragmenLoop p k n (sortNat (committee ++ [next])) load' (info ++ [⟨next, tied, load', listMin new⟩])

/-- `_seqphragmen_resolute` (abcrules.py:2797-2869). -/
def seqphragmenResolute (p : Profile) (k : ℕ) (startLoad : List ℚ) (partialCommittee : List ℕ) :
    Except Err (List (List ℕ) × List PhragInfo) := do
  let r ← seqphragmenLoop p k (k - partialCommittee.length) partialCommittee startLoad []
  .ok ([r.1], r.2.2)

/-- The extensions computed in one iteration of `_seqphragmen_irresolute` (abcrules.py:2912-2942). -/
def seqphragmenSuccs (p : Profile) (k : ℕ) (n : List ℕ × List ℚ) : List (List ℕ × List ℚ) :=
  let new := newMaxload p k n.1 n.2
  (p.candidates.filter (fun c => decide (new.getD c 0 ≤ listMin new))).map
    (fun c => (n.1 ++ [c], updateLoad p n.2 c (new.getD c 0)))

/-- `_seqphragmen_irresolute` (abcrules.py:2872-2960). -/
def seqphragmenIrresolute (p : Profile) (k : ℕ) (max : Option ℕ) (startLoad : List ℚ) (partialCommittee : List ℕ) :
    Except Err (List (List ℕ)) := do
  let winning ← universes (fun n => decide (n.1.length = k)) (fun n => sortNat n.1)
    (fun n => .ok (seqphragmenSuccs p k n)) max (dfsFuel p k) [(partialCommittee, startLoad)] []
  sortedCommittees winning

/-- `[0 for _ in range(len(profile))]` (abcrules.py:2819-2821, 2898-2900). -/
def zeroLoad (p : Profile) : List ℚ := List.replicate p.voters.length 0

/-- `compute_seqphragmen` (abcrules.py:2662-2794).  In the resolute case `profile.cand_names[...]`, `load[v]` etc. in the output
block do not raise (see C65 for output). -/
def computeSeqphragmen (env : Env) (float : Except Err (List (List ℕ))) (p : Profile) (a : Args) :
    Except Err (List (List ℕ)) := do
  let algorithm ← prologue env "seqphragmen" p a
  let committees ← withFractions env algorithm float
    (if a.resolute then (do let r ← seqphragmenResolute p a.k (zeroLoad p) []; .ok r.1)
      else seqphragmenIrresolute p a.k a.maxNum (zeroLoad p) [])
  sortedCommittees committees

end Abc
