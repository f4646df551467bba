import Verif.Spec.Rules
import Verif.Spec.Dispatch

/-!
# Changes of the electorate: merging two profiles, additional approvals for a candidate
-/

namespace Abc.Spec

/-- What a voter says: the set of approved candidates and the weight. -/
def ballot (v : Voter) : Finset ℕ × ℚ := (v.A, v.weight)

/-- `r` is the union of the profiles `p` and `q` (e.g. made by adding the voters of both to an empty profile). -/
structure Merged (p q r : Profile) : Prop where
  left : p.numCand = r.numCand
  right : q.numCand = r.numCand
  voters : (r.voters.map ballot).Perm (p.voters.map ballot ++ q.voters.map ballot)

/-- `p'` is the profile `p` after some of the voters have additionally approved candidate `c`. -/
structure MoreApprovals (c : ℕ) (p p' : Profile) : Prop where
  cand : p'.numCand = p.numCand
  voters : List.Forall₂ (fun v v' : Voter => v'.weight = v.weight ∧ (v'.A = v.A ∨ v'.A = insert c v.A)) p.voters p'.voters

/-- All winning committees are asked for. -/
def AllCommittees (a : Args) : Prop := a.resolute = false ∧ a.max = none

/-- Consistency of the answers for two electorates and for their union. -/
def Consistent (r₁ r₂ r : Except Err (List (List ℕ))) : Prop :=
  ∃ cs₁ cs₂ cs, r₁ = .ok cs₁ ∧ r₂ = .ok cs₂ ∧ r = .ok cs ∧ ((∃ W ∈ cs₁, W ∈ cs₂) → ∀ W, W ∈ cs ↔ W ∈ cs₁ ∧ W ∈ cs₂)

/-- `c` does not lose by the change from the first to the second answer: if some (all) of the winning committees contain `c`, this
remains so. -/
def StillElected (c : ℕ) (r r' : Except Err (List (List ℕ))) : Prop :=
  ∃ cs cs', r = .ok cs ∧ r' = .ok cs' ∧ ((∃ W ∈ cs, c ∈ W) → ∃ W ∈ cs', c ∈ W) ∧ ((∀ W ∈ cs, c ∈ W) → ∀ W ∈ cs', c ∈ W)

end Abc.Spec
