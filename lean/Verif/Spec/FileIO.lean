import Verif.Model.FileIO
import Verif.Spec.Basic

/-!
# Specification of the file formats
-/

namespace Abc
namespace Spec

/-! ## .abc.yaml files -/

/-- The document is about `n` candidates: so it says, or it does not say and `n - 1` is the largest approved candidate. -/
def DocNumCand {V : Type} (d : YamlDoc V) (sets : List (List ℤ)) (n : ℕ) : Prop :=
  match d.numCand with
  | some m => m = n
  | none => (∃ s ∈ sets, (n : ℤ) - 1 ∈ s) ∧ ∀ s ∈ sets, ∀ c ∈ s, c ≤ (n : ℤ) - 1

/-- A set of candidates as listed in a file: no duplicates, no negative numbers. -/
def LegalSet (s : List ℤ) : Prop := s.Nodup ∧ ∀ c ∈ s, 0 ≤ c

/-- The numbers of a document are legal: at least one candidate, approval sets of existing candidates, positive weights,
committees without duplicates. -/
structure DocValues {V : Type} (d : YamlDoc V) (sets : List (List ℤ)) (n : ℕ) : Prop where
  pos : 0 < n
  numCand : DocNumCand d sets n
  sets : ∀ s ∈ sets, LegalSet s ∧ ∀ c ∈ s, c < n
  weights : ∀ ws, d.voterWeights = some ws → ∀ w ∈ ws, 0 < w
  results : ∀ insts, d.compute = some insts → ∀ i ∈ insts, ∀ cs, i.result = some (some cs) → ∀ c ∈ cs, LegalSet c

/-- The structure of a document is legal: one weight for each voter, a rule id in each compute instance, no undefined keys. -/
structure DocShape {V : Type} (d : YamlDoc V) (sets : List (List ℤ)) : Prop where
  weights : ∀ ws, d.voterWeights = some ws → ws.length = sets.length
  rules : ∀ insts, d.compute = some insts → ∀ i ∈ insts, i.ruleId ≠ none
  keys : d.otherKeys = []

/-- The ballots of a document: the approval sets with their weights, all 1 if the document has no weights. -/
def docBallots {V : Type} (d : YamlDoc V) (sets : List (List ℤ)) : List RawVoter :=
  match d.voterWeights with
  | some ws => (sets.zip ws).map (fun x => ⟨x.1, x.2⟩)
  | none => sets.map (fun s => ⟨s, 1⟩)

/-- The same `result` entry, up to the order in which the members of the committees are listed (the second one is ascending). -/
def SameResult : Option (Option (List (List ℤ))) → Option (Option (List (List ℤ))) → Prop
  | none, none => True
  | some none, some none => True
  | some (some cs), some (some ds) =>
    List.Forall₂ (fun c d => d.Pairwise (· < ·) ∧ c.Nodup ∧ ∀ x : ℤ, x ∈ c ↔ x ∈ d) cs ds
  | _, _ => False

/-- `j` is the compute instance `i` read for the profile `q` and the committee size `k`. -/
structure ReadAs {V : Type} (q : Profile) (k : Option ℤ) (i j : Instance V) : Prop where
  ruleId : j.ruleId = i.ruleId
  profile : j.profile = some q
  committeesize : j.committeesize = some k
  result : SameResult i.result j.result
  others : j.others = i.others

/-! ## PrefLib files -/

/-- A categorical instance as preflibtools produces it: at least one alternative, all alternatives are named, once each, and
no ballot lists an alternative twice or an unknown one. -/
structure PrefInst.WF (i : PrefInst) : Prop where
  pos : 0 < i.numAlternatives
  named : i.alternativesName.length = i.numAlternatives
  nodup : (i.alternativesName.map Prod.fst).Nodup
  ballots : ∀ x ∈ i.multiplicity, x.1.flatten.Nodup ∧ ∀ c ∈ x.1.flatten, c ∈ i.alternativesName.map Prod.fst
  counts : ∀ x ∈ i.multiplicity, 0 < x.2

/-- The candidates of the profile are the positions of the alternatives in the instance: `A` is the approval set corresponding to
the alternatives in `l`. -/
def Corresponds (i : PrefInst) (l : List ℕ) (A : Finset ℕ) : Prop :=
  ∀ x, x ∈ A ↔ ∃ c ∈ l, (i.alternativesName.map Prod.fst)[x]? = some c

/-- `l` are the alternatives in the `t` topmost ranks (categories) of the ballot. -/
def TopRanks (t : ℕ) (ballot : List (List ℕ)) (l : List ℕ) : Prop := l = (ballot.take t).flatten

/-- `l` are the alternatives in the topmost ranks of the ballot, as few ranks as give at least `s` alternatives.  If there are fewer
than `s` alternatives on the ballot: all alternatives of the instance, but none for an empty ballot. -/
def TopSize (i : PrefInst) (s : ℕ) (ballot : List (List ℕ)) (l : List ℕ) : Prop :=
  (∃ j, l = (ballot.take j).flatten ∧ s ≤ l.length ∧ ∀ j' < j, (ballot.take j').flatten.length < s) ∨
  (ballot.flatten.length < s ∧ ((ballot.flatten = [] ∧ l = []) ∨ (ballot.flatten ≠ [] ∧ l = i.alternativesName.map Prod.fst)))

/-- The ballots of the profile with their weights: each ballot of the file once with its count as weight (`use_weights`), or as many
times as its count says with weight 1. -/
def prefBallots (useWeights : Bool) (m : List (List (List ℕ) × ℤ)) : List (List (List ℕ) × ℚ) :=
  if useWeights then m.map (fun x => (x.1, (x.2 : ℚ)))
  else m.flatMap (fun x => List.replicate x.2.toNat (x.1, (1 : ℚ)))

/-- preflibtools reads what it wrote: the same alternatives, the same ballots with the same multiplicities (in any order). -/
def PrefFaithful {F : Type} (lib : PrefLib F) (i : PrefInst) : Prop :=
  ∃ j, lib.parse (lib.write i) = .ok (.categorical j) ∧ j.numAlternatives = i.numAlternatives ∧
    j.alternativesName = i.alternativesName ∧ j.multiplicity.Perm i.multiplicity

end Spec
end Abc
