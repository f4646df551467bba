import Verif.Model.Misc

/-!
# Model of `abcvoting/preferences.py`
-/

namespace Abc

/-- Names of candidates are strings, i.e. lists of code points. -/
abbrev Name := List Char

/-- `Voter` (preferences.py:326-380).  `approved` is a Python set, represented by a list of its elements in *some* iteration
order (the model's constructors produce the ascending order; theorems allow any order). -/
structure Voter where
  approved : List ℕ
  weight : ℚ
deriving DecidableEq, Repr

/-- `Profile` (preferences.py:15-67): `num_cand` is stored as `candidates = list(range(num_cand))`. -/
structure Profile where
  numCand : ℕ
  voters : List Voter
  candNames : List Name := []
deriving DecidableEq, Repr

/-- `Profile.candidates` (preferences.py:55). -/
def Profile.candidates (p : Profile) : List ℕ := List.range p.numCand

/-- What a user passes as a voter (preferences.py:90-99, 348-354): an iterable of integers with a weight
(`weight = 1` when a plain iterable is passed). -/
structure RawVoter where
  approved : List ℤ
  weight : ℚ := 1

/-- `Voter.__init__` (preferences.py:348-354). -/
def mkVoter (approved : List ℤ) (weight : ℚ) (numCand : Option ℤ) : Except Err Voter := do
  let a ← candidateSet approved numCand
  if weight ≤ 0 then .error .valueError else .ok ⟨a, weight⟩

/-- `Profile.__init__` (preferences.py:52-67).  `if cand_names:` treats `None` and `[]` alike. -/
def mkProfile (numCand : ℤ) (candNames : Option (List Name) := none) : Except Err Profile :=
  if numCand ≤ 0 then .error .valueError
  else
    let n := numCand.toNat
    match candNames.getD [] with
    | [] => .ok ⟨n, [], (List.range n).map strNat⟩
    | names => if names.length < n then .error .valueError else .ok ⟨n, [], names.take n⟩

/-- `Profile._unique_voter` (preferences.py:90-99). -/
def Profile.uniqueVoter (p : Profile) (v : RawVoter) : Except Err Voter :=
  mkVoter v.approved v.weight (some p.numCand)

/-- `Profile.add_voter` (preferences.py:101-116): new state and the raised error, if any. -/
def Profile.addVoter (p : Profile) (v : RawVoter) : Profile × Option Err :=
  match p.uniqueVoter v with
  | .ok voter => ({ p with voters := p.voters ++ [voter] }, none)
  | .error e => (p, some e)

/-- `Profile.add_voters` (preferences.py:118-135): voters added before the failing one stay. -/
def Profile.addVoters (p : Profile) : List RawVoter → Profile × Option Err
  | [] => (p, none)
  | v :: vs =>
    match p.addVoter v with
    | (p', none) => p'.addVoters vs
    | (p', some e) => (p', some e)

/-- `Profile.approved_candidates` (preferences.py:74-85). -/
def Profile.approvedCandidates (p : Profile) : List ℕ :=
  p.voters.foldl (fun s v => v.approved.foldl setAdd s) []

/-- `Profile.total_weight` (preferences.py:137-146). -/
def Profile.totalWeight (p : Profile) : ℚ := (p.voters.map Voter.weight).sum

/-- `Profile.has_unit_weights` (preferences.py:148-156). -/
def Profile.hasUnitWeights (p : Profile) : Bool := p.voters.all (fun v => decide (v.weight = 1))

/-- The loop of `Profile.convert_to_unit_weights` (preferences.py:186-194) building `new_voters`.
`range(voter.weight)` raises TypeError unless the weight is a Python int; integral values of other number types
(`Fraction(2, 1)`) are identified with ints here.  `Voter(voter.approved)` has weight 1. -/
def unitVoters : List Voter → Except Err (List Voter)
  | [] => .ok []
  | v :: vs => do
    if v.weight.den ≠ 1 then .error .typeError
    else
      let rest ← unitVoters vs
      .ok (List.replicate v.weight.num.toNat ⟨v.approved, 1⟩ ++ rest)

/-- `Profile.convert_to_unit_weights` (preferences.py:158-195): new state and raised error. -/
def Profile.convertToUnitWeights (p : Profile) : Profile × Option Err :=
  match unitVoters p.voters with
  | .ok vs => ({ p with voters := vs }, none)
  | .error e => (p, some e)

/-- `weights[tuple(sorted(voter.approved))]` after the loop preferences.py:224-225. -/
def weightOfApprovalSet (voters : List Voter) (a : List ℕ) : ℚ :=
  voters.foldl (fun acc v => if sortNat v.approved = a then acc + v.weight else acc) 0

/-- `Profile.convert_to_weighted` (preferences.py:197-226).  `approval_sets` is a Python set of tuples, so the order of the
new voters is the set's iteration order: `iter` is that (unknown) order. -/
def Profile.convertToWeighted (iter : List (List ℕ) → List (List ℕ)) (p : Profile) : Profile :=
  let approvalSets := iter ((p.voters.map (fun v => sortNat v.approved)).foldl setAdd [])
  { p with voters := approvalSets.map (fun a => ⟨a, weightOfApprovalSet p.voters a⟩) }

/-- `Profile.__setitem__` (preferences.py:234-244): the voter is validated first, then the list item is assigned
(negative indices count from the end; IndexError when out of range). -/
def Profile.setItem (p : Profile) (i : ℤ) (v : RawVoter) : Profile × Option Err :=
  match p.uniqueVoter v with
  | .error e => (p, some e)
  | .ok voter =>
    let j := if i < 0 then i + p.voters.length else i
    if j < 0 ∨ j ≥ p.voters.length then (p, some .indexError)
    else ({ p with voters := p.voters.set j.toNat voter }, none)

/-- A `Voter` object passed to `add_voter` (preferences.py:94-95). -/
def Voter.toRaw (v : Voter) : RawVoter := ⟨v.approved.map Int.ofNat, v.weight⟩

/-- `Profile.copy` (preferences.py:261-273). -/
def Profile.copy (p : Profile) : Except Err Profile := do
  let q ← mkProfile p.numCand none
  match q.addVoters (p.voters.map Voter.toRaw) with
  | (q', none) => .ok q'
  | (_, some e) => .error e

/-- `Profile.is_party_list` (preferences.py:278-292). -/
def Profile.isPartyList (p : Profile) : Bool :=
  p.voters.all (fun v1 => p.voters.all (fun v2 =>
    decide ((inter v1.approved v2.approved).length = 0 ∨
      (inter v1.approved v2.approved).length = v1.approved.length)))

/-- `dominate` (misc.py:363-403).  `CandidateSet(committee)` may raise. -/
def dominate (p : Profile) (committee1 committee2 : List ℕ) : Except Err Bool := do
  let c1 ← mkSet committee1
  let c2 ← mkSet committee2
  if p.voters.any (fun v => decide ((inter v.approved c1).length < (inter v.approved c2).length)) then .ok false
  else .ok (p.voters.any (fun v => decide ((inter v.approved c1).length > (inter v.approved c2).length)))

/-- The operations a user can perform on an existing profile. -/
inductive ProfileOp
  | addVoter (v : RawVoter)
  | addVoters (vs : List RawVoter)
  | setItem (i : ℤ) (v : RawVoter)
  | convertToUnitWeights
  | convertToWeighted (iter : List (List ℕ) → List (List ℕ))
  | copy

/-- One operation: the new state and the raised error. -/
def Profile.step (p : Profile) : ProfileOp → Profile × Option Err
  | .addVoter v => p.addVoter v
  | .addVoters vs => p.addVoters vs
  | .setItem i v => p.setItem i v
  | .convertToUnitWeights => p.convertToUnitWeights
  | .convertToWeighted iter => (p.convertToWeighted iter, none)
  | .copy => match p.copy with
    | .ok q => (q, none)
    | .error e => (p, some e)

/-- A whole history; execution continues after caught exceptions. -/
def Profile.run (p : Profile) (ops : List ProfileOp) : Profile :=
  ops.foldl (fun q op => (q.step op).1) p

end Abc
