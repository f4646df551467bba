import Verif.Model.Heap

/-!
# Specification: independence of profiles
-/

namespace Abc.Spec

/-- States that some program can reach. -/
def ReachableHeap (h : Heap) : Prop := ∃ ops : List HeapOp, h = Heap.run {} ops

/-- The `Voter` object `r` is stored in profile `P`. -/
def VoterOf (h : Heap) (P r : ℕ) : Prop := ∃ o, h.profiles[P]? = some o ∧ r ∈ o.refs

/-- `s` is the approval set object of a voter of profile `P`. -/
def SetOf (h : Heap) (P s : ℕ) : Prop := ∃ r v, VoterOf h P r ∧ h.voters[r]? = some v ∧ v.approved = s

/-- The operation is a call of a method that modifies profile `P`, or it modifies a voter of `P` or its approval set in place. -/
def Touches (h : Heap) (P : ℕ) : HeapOp → Prop
  | .newVoter _ _ _ | .newProfile _ _ | .copy _ => False
  | .addVoter Q _ | .addVoters Q _ | .addFrom Q _ _ | .setItem Q _ _ | .convertToUnitWeights Q | .convertToWeighted Q _ => Q = P
  | .setWeight r _ | .setApproved r _ => VoterOf h P r
  | .add s _ | .discard s _ => SetOf h P s

/-- No operation of the program touches `P`. -/
def Untouched (P : ℕ) : Heap → List HeapOp → Prop
  | _, [] => True
  | h, op :: ops => ¬ Touches h P op ∧ Untouched P (h.step op).1 ops

/-- The operation does not modify voters or sets in place. -/
def NotInPlace : HeapOp → Prop
  | .setWeight _ _ | .setApproved _ _ | .add _ _ | .discard _ _ => False
  | _ => True

/-- The argument is an existing object. -/
def Exists (h : Heap) : VoterArg → Prop
  | .voter r => r < h.voters.length
  | .list _ => True
  | .set s => s < h.sets.length

/-- What a method does to the visible content of a profile, in the model without object identity (`Model/Preferences`). -/
def pureOp (h : Heap) : HeapOp → Option (ℕ × ProfileOp)
  | .addVoter P a => some (P, .addVoter (h.rawOf a))
  | .addVoters P as => some (P, .addVoters (as.map h.rawOf))
  | .setItem P i a => some (P, .setItem i (h.rawOf a))
  | .convertToUnitWeights P => some (P, .convertToUnitWeights)
  | .convertToWeighted P iter => some (P, .convertToWeighted iter)
  | _ => none

/-- The objects passed to a method exist. -/
def ArgsExist (h : Heap) : HeapOp → Prop
  | .addVoters _ as => ∀ a ∈ as, Exists h a
  | _ => True

end Abc.Spec
