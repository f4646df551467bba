import Verif.Spec.Dispatch

/-!
# Electorates that consist of separate parts
-/

namespace Abc.Spec

/-- Nobody approves both a candidate in `C` and a candidate not in `C`. -/
def Separate (p : Profile) (C : Finset ℕ) : Prop := ∀ v ∈ p.voters, v.A ⊆ C ∨ Disjoint v.A C

/-- The profile of the voters who approve only candidates in `C`. -/
def part (p : Profile) (C : Finset ℕ) : Profile := { p with voters := p.voters.filter fun v => decide (v.A ⊆ C) }

/-- Rules that treat separate parts separately, with the conditions under which the code is proved to compute them (see `Elects`). -/
inductive PartsRule (w w' : World) (p : Profile) (alg alg' : String) : String → Prop
  | av : PartsRule w w' p alg alg' "av"
  | sav : PartsRule w w' p alg alg' "sav"
  /-- `pav`, `slav`, `cc`, `geom<base>` -/
  | thiele {sid : String} {s : ScoreId} : w.env.scoreId sid = .ok s → w'.env.scoreId sid = .ok s →
      (s = .pav ∨ s = .slav ∨ s = .cc ∨ ∃ b, s = .geom b ∧ 1 < b) →
      (alg = "ortools-cp" ∨ alg' = "ortools-cp" → IntegerWeights p) → PartsRule w w' p alg alg' sid
  | lexcc : (alg = "gurobi" ∨ alg' = "gurobi" → Granular p) → PartsRule w w' p alg alg' "lexcc"
  | lexminimaxav : (∀ v ∈ p.voters, v.weight = 1) → PartsRule w w' p alg alg' "lexminimaxav"
  /-- `seqpav`, `seqslav`, `seqcc`, `seqav`, `seqgeom<base>` -/
  | seqThiele {sid : String} {s : ScoreId} : w.env.scoreId sid = .ok s → w'.env.scoreId sid = .ok s → (∀ i, 0 ≤ marginalFct s i) →
      PartsRule w w' p alg alg' ("seq" ++ sid)
  | seqphragmen : ApproversAtLeastOne p → ExactAlg w.env alg → ExactAlg w'.env alg' → PartsRule w w' p alg alg' "seqphragmen"

end Abc.Spec
