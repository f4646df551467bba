import Verif.Model.Preferences

/-!
# Model of `abcvoting/preferences.py` with object identity

Voters, their approval sets and profiles are mutable Python objects: `profile[i]` returns the stored `Voter` object itself, and
`voter.weight = 2`, `voter.approved.add(3)` change it in place.  Here they live on a heap and are referred to by their number (order of
creation); a set object is represented by the ascending list of its elements.  Not modelled: garbage (objects that became unreachable stay on the heap), and set elements that are not natural
numbers (`voter.approved.add("x")`).
-/

namespace Abc

/-- A `Voter` object (preferences.py:326-354): a reference to a set object, and a weight. -/
structure VoterObj where
  approved : ℕ
  weight : ℚ
deriving DecidableEq, Repr

/-- A `Profile` object (preferences.py:52-67): `_voters` is a list of references to `Voter` objects. -/
structure ProfileObj where
  numCand : ℕ
  candNames : List Name
  refs : List ℕ
deriving DecidableEq, Repr

/-- All objects created so far: `CandidateSet`, `Voter` and `Profile` objects. -/
structure Heap where
  sets : List (List ℕ) := []
  voters : List VoterObj := []
  profiles : List ProfileObj := []
deriving DecidableEq, Repr

/-- The elements of a set object. -/
def Heap.setAt (h : Heap) (s : ℕ) : List ℕ := h.sets.getD s []

/-- What one sees of a `Voter` object: `voter.approved` and `voter.weight`. -/
def Heap.voterAt (h : Heap) (r : ℕ) : Voter :=
  ⟨h.setAt (h.voters.getD r ⟨0, 0⟩).approved, (h.voters.getD r ⟨0, 0⟩).weight⟩

/-- What one sees of a `Profile` object. -/
def Heap.view (h : Heap) (P : ℕ) : Option Profile :=
  h.profiles[P]?.map (fun o => ⟨o.numCand, o.refs.map h.voterAt, o.candNames⟩)

/-- `Voter(approved, weight, num_cand)` (preferences.py:348-354): `CandidateSet(approved, num_cand)` is always a new set object
(misc.py:39-44). -/
def Heap.newVoter (h : Heap) (approved : List ℤ) (weight : ℚ) (numCand : Option ℤ) : Heap × Except Err ℕ :=
  match mkVoter approved weight numCand with
  | .error e => (h, .error e)
  | .ok v =>
    ({ h with sets := h.sets ++ [v.approved], voters := h.voters ++ [⟨h.sets.length, v.weight⟩] }, .ok h.voters.length)

/-- What a user passes as a voter: a `Voter` object, an iterable of ints, or a set object (such as `voter.approved`). -/
inductive VoterArg
  | voter (r : ℕ)
  | list (l : List ℤ)
  | set (s : ℕ)
deriving DecidableEq, Repr

/-- The arguments of the call of `Voter` in `_unique_voter` (preferences.py:94-97). -/
def Heap.rawOf (h : Heap) : VoterArg → RawVoter
  | .voter r => (h.voterAt r).toRaw
  | .list l => ⟨l, 1⟩
  | .set s => ⟨(h.setAt s).map Int.ofNat, 1⟩

/-- `Profile._unique_voter` (preferences.py:90-99). -/
def Heap.uniqueVoter (h : Heap) (numCand : ℕ) (a : VoterArg) : Heap × Except Err ℕ :=
  h.newVoter (h.rawOf a).approved (h.rawOf a).weight (some numCand)

/-- `self._voters = …`. -/
def Heap.setRefs (h : Heap) (P : ℕ) (refs : List ℕ) : Heap :=
  { h with profiles := h.profiles.modify P (fun o => { o with refs := refs }) }

/-- `Profile.add_voter` (preferences.py:101-116). -/
def Heap.addVoter (h : Heap) (P : ℕ) (a : VoterArg) : Heap × Option Err :=
  match h.profiles[P]? with
  | none => (h, none)
  | some o =>
    match h.uniqueVoter o.numCand a with
    | (h', .ok r) => (h'.setRefs P (o.refs ++ [r]), none)
    | (h', .error e) => (h', some e)

/-- `Profile.add_voters` (preferences.py:118-135) for a list (or another iterable that does not change). -/
def Heap.addVoters (h : Heap) (P : ℕ) : List VoterArg → Heap × Option Err
  | [] => (h, none)
  | a :: as =>
    match h.addVoter P a with
    | (h', none) => h'.addVoters P as
    | (h', some e) => (h', some e)

/-- The loop of `P.add_voters(Q)` for a profile `Q` (preferences.py:134-135, 228-229): Python's list iterator looks at the *current* list
of `Q` in each step.  `Err.outOfFuel`: still running after `fuel` voters (and interrupted). -/
def Heap.addFrom (P Q : ℕ) : ℕ → ℕ → Heap → Heap × Option Err
  | 0, _, h => (h, some .outOfFuel)
  | fuel + 1, i, h =>
    match (h.profiles[Q]?.map ProfileObj.refs).getD [] |>.drop i with
    | [] => (h, none)
    | r :: _ =>
      match h.addVoter P (.voter r) with
      | (h', none) => Heap.addFrom P Q fuel (i + 1) h'
      | (h', some e) => (h', some e)

/-- Create several voters, e.g. a list comprehension; the first exception stops it. -/
def Heap.newVoters (h : Heap) : List (List ℕ × ℚ) → Heap × Except Err (List ℕ)
  | [] => (h, .ok [])
  | v :: vs =>
    match h.newVoter (v.1.map Int.ofNat) v.2 none with
    | (h', .error e) => (h', .error e)
    | (h', .ok r) =>
      match h'.newVoters vs with
      | (h'', .error e) => (h'', .error e)
      | (h'', .ok rs) => (h'', .ok (r :: rs))

/-- The loop of `convert_to_unit_weights` (preferences.py:186-194). -/
def Heap.unitRefs (h : Heap) : List ℕ → Heap × Except Err (List ℕ)
  | [] => (h, .ok [])
  | r :: rs =>
    let v := h.voterAt r
    if v.weight.den ≠ 1 then (h, .error .typeError)
    else
      match h.newVoters (List.replicate v.weight.num.toNat (v.approved, 1)) with
      | (h', .error e) => (h', .error e)
      | (h', .ok new) =>
        match h'.unitRefs rs with
        | (h'', .error e) => (h'', .error e)
        | (h'', .ok rest) => (h'', .ok (new ++ rest))

/-- `self._voters = new_voters` unless creating them raised an exception (preferences.py:195, 226). -/
def Heap.replace (P : ℕ) : Heap × Except Err (List ℕ) → Heap × Option Err
  | (h, .ok rs) => (h.setRefs P rs, none)
  | (h, .error e) => (h, some e)

/-- `Profile.convert_to_unit_weights` (preferences.py:158-195). -/
def Heap.convertToUnitWeights (h : Heap) (P : ℕ) : Heap × Option Err :=
  match h.profiles[P]? with
  | none => (h, none)
  | some o => Heap.replace P (h.unitRefs o.refs)

/-- `Profile.convert_to_weighted` (preferences.py:197-226). -/
def Heap.convertToWeighted (h : Heap) (P : ℕ) (iter : List (List ℕ) → List (List ℕ)) : Heap × Option Err :=
  match h.profiles[P]? with
  | none => (h, none)
  | some o =>
    let voters := o.refs.map h.voterAt
    let approvalSets := iter ((voters.map (fun v => sortNat v.approved)).foldl setAdd [])
    Heap.replace P (h.newVoters (approvalSets.map (fun a => (a, weightOfApprovalSet voters a))))

/-- `Profile.__setitem__` (preferences.py:234-244). -/
def Heap.setItem (h : Heap) (P : ℕ) (i : ℤ) (a : VoterArg) : Heap × Option Err :=
  match h.profiles[P]? with
  | none => (h, none)
  | some o =>
    match h.uniqueVoter o.numCand a with
    | (h', .error e) => (h', some e)
    | (h', .ok r) =>
      let j := if i < 0 then i + o.refs.length else i
      if j < 0 ∨ j ≥ o.refs.length then (h', some .indexError)
      else (h'.setRefs P (o.refs.set j.toNat r), none)

/-- `Profile(num_cand, cand_names)` (preferences.py:52-67); the names are copied into a new list. -/
def Heap.newProfile (h : Heap) (numCand : ℤ) (candNames : Option (List Name)) : Heap × Option Err :=
  match mkProfile numCand candNames with
  | .error e => (h, some e)
  | .ok p => ({ h with profiles := h.profiles ++ [⟨p.numCand, p.candNames, []⟩] }, none)

/-- `Profile.copy` (preferences.py:261-276): the new profile is the last one.  (If an exception is raised nobody has a reference to
it.) -/
def Heap.copy (h : Heap) (P : ℕ) : Heap × Option Err :=
  match h.profiles[P]? with
  | none => (h, none)
  | some o =>
    match h.newProfile o.numCand none with
    | (h', some e) => (h', some e)
    | (h', none) => h'.addVoters h.profiles.length (o.refs.map VoterArg.voter)

/-- What a user can do with these objects. -/
inductive HeapOp
  /-- `Voter(approved, weight, num_cand)` -/
  | newVoter (approved : List ℤ) (weight : ℚ) (numCand : Option ℤ)
  /-- `Profile(num_cand, cand_names)` -/
  | newProfile (numCand : ℤ) (candNames : Option (List Name))
  /-- `P.add_voter(a)` -/
  | addVoter (P : ℕ) (a : VoterArg)
  /-- `P.add_voters([…])` -/
  | addVoters (P : ℕ) (as : List VoterArg)
  /-- `P.add_voters(Q)`, interrupted after `fuel` voters -/
  | addFrom (P Q fuel : ℕ)
  /-- `P[i] = a` -/
  | setItem (P : ℕ) (i : ℤ) (a : VoterArg)
  /-- `P.convert_to_unit_weights()` -/
  | convertToUnitWeights (P : ℕ)
  /-- `P.convert_to_weighted()` -/
  | convertToWeighted (P : ℕ) (iter : List (List ℕ) → List (List ℕ))
  /-- `P.copy()` -/
  | copy (P : ℕ)
  /-- `v.weight = q` -/
  | setWeight (r : ℕ) (q : ℚ)
  /-- `v.approved = CandidateSet(l)` -/
  | setApproved (r : ℕ) (l : List ℤ)
  /-- `s.add(c)` for a set object, e.g. `v.approved` -/
  | add (s c : ℕ)
  /-- `s.discard(c)` -/
  | discard (s c : ℕ)

/-- One operation: the new heap and the raised exception. -/
def Heap.step (h : Heap) : HeapOp → Heap × Option Err
  | .newVoter approved weight numCand =>
    match h.newVoter approved weight numCand with
    | (h', .ok _) => (h', none)
    | (h', .error e) => (h', some e)
  | .newProfile numCand candNames => h.newProfile numCand candNames
  | .addVoter P a => h.addVoter P a
  | .addVoters P as => h.addVoters P as
  | .addFrom P Q fuel => Heap.addFrom P Q fuel 0 h
  | .setItem P i a => h.setItem P i a
  | .convertToUnitWeights P => h.convertToUnitWeights P
  | .convertToWeighted P iter => h.convertToWeighted P iter
  | .copy P => h.copy P
  | .setWeight r q => ({ h with voters := h.voters.modify r (fun o => { o with weight := q }) }, none)
  | .setApproved r l =>
    match candidateSet l none with
    | .error e => (h, some e)
    | .ok s => ({ h with sets := h.sets ++ [s], voters := h.voters.modify r (fun o => { o with approved := h.sets.length }) }, none)
  | .add s c => ({ h with sets := h.sets.modify s (fun l => sortNat (setAdd l c)) }, none)
  | .discard s c => ({ h with sets := h.sets.modify s (fun l => l.filter (fun x => decide (x ≠ c))) }, none)

/-- A whole history; execution continues after caught exceptions. -/
def Heap.run (h : Heap) (ops : List HeapOp) : Heap := ops.foldl (fun h op => (h.step op).1) h

end Abc
