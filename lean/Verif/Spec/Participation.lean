import Verif.Spec.Changes
import Verif.Spec.Dispatch

/-!
# Voters who join with the same ballot
-/

namespace Abc.Spec

/-- `r` is the profile `p` joined by (one or several) voters, all of whom approve exactly the candidates in `A`. -/
structure Joined (A : Finset ℕ) (p r : Profile) : Prop where
  cand : r.numCand = p.numCand
  voters : ∃ l : List (Finset ℕ × ℚ), l ≠ [] ∧ (∀ b ∈ l, b.1 = A) ∧ (r.voters.map ballot).Perm (p.voters.map ballot ++ l)

/-- Rules where a voter who joins never loses, with the conditions under which the code is proved to compute them (see `Elects`), for two
profiles, two environments and two algorithms. -/
inductive ParticipationRule (w w' : World) (p r : Profile) (alg alg' : String) : String → Prop
  | av : ParticipationRule w w' p r alg alg' "av"
  | sav : ParticipationRule w w' p r alg alg' "sav"
  /-- `pav`, `slav`, `geom<base>` -/
  | thiele {sid : String} {s : ScoreId} : w.env.scoreId sid = .ok s → w'.env.scoreId sid = .ok s →
      (s = .pav ∨ s = .slav ∨ ∃ b, s = .geom b ∧ 1 < b) →
      (alg = "ortools-cp" → IntegerWeights p) → (alg' = "ortools-cp" → IntegerWeights r) → ParticipationRule w w' p r alg alg' sid
  | lexcc : (alg = "gurobi" → Granular p) → (alg' = "gurobi" → Granular r) → ParticipationRule w w' p r alg alg' "lexcc"

end Abc.Spec
