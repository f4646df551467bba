import Verif.Spec.Ballots
import Verif.Spec.Resolute

/-!
# Profiles that differ by indifferent voters
-/

namespace Abc.Spec

/-- The same candidates, and for every approval set other than the empty one and the set of all candidates the same total weight of voters
with that approval set.  In particular: additional voters who approve nobody or everybody. -/
def SameUpToIndifferent (p p' : Profile) : Prop :=
  p.numCand = p'.numCand ∧
    ∀ A, A ≠ ∅ → A ≠ Finset.range p.numCand → electorate p.voters A = electorate p'.voters A

/-- Rules for which voters who approve every candidate or nobody do not matter, with the conditions under which the code is proved to compute
them (see `Elects`), for two profiles, two environments and two algorithms. -/
inductive IndifferentRule (w w' : World) (p p' : Profile) (k : ℕ) (alg alg' : String) : String → Prop
  | av : IndifferentRule w w' p p' k alg alg' "av"
  | sav : IndifferentRule w w' p p' k alg alg' "sav"
  /-- `pav`, `slav`, `cc`, `geom<base>` -/
  | thiele {sid : String} {s : ScoreId} : w.env.scoreId sid = .ok s → w'.env.scoreId sid = .ok s →
      (s = .pav ∨ s = .slav ∨ s = .cc ∨ ∃ b, s = .geom b ∧ 1 < b) →
      (alg = "ortools-cp" → IntegerWeights p) → (alg' = "ortools-cp" → IntegerWeights p') → IndifferentRule w w' p p' k alg alg' sid
  | lexcc : (alg = "gurobi" → Granular p) → (alg' = "gurobi" → Granular p') → IndifferentRule w w' p p' k alg alg' "lexcc"
  /-- `seqpav`, `seqslav`, `seqcc`, `seqav`, `seqgeom<base>` -/
  | seqThiele {sid : String} {s : ScoreId} : w.env.scoreId sid = .ok s → w'.env.scoreId sid = .ok s → (∀ i, 0 ≤ marginalFct s i) →
      IndifferentRule w w' p p' k alg alg' ("seq" ++ sid)
  /-- `revseqpav`, `revseqslav`, `revseqcc`, `revseqav`, `revseqgeom<base>` -/
  | revseqThiele {sid : String} {s : ScoreId} : w.env.scoreId sid = .ok s → w'.env.scoreId sid = .ok s →
      IndifferentRule w w' p p' k alg alg' ("revseq" ++ sid)
  | lexminimaxav : (∀ v ∈ p.voters, v.weight = 1) → (∀ v ∈ p'.voters, v.weight = 1) → IndifferentRule w w' p p' k alg alg' "lexminimaxav"
  | trivial : IndifferentRule w w' p p' k alg alg' "trivial"
  | eph : 2 ≤ p.numCand → ExactAlg w.env alg → ExactAlg w'.env alg' → IndifferentRule w w' p p' k alg alg' "eph"

/-- Rules and algorithms for which the committee returned with `resolute=True` does not depend on voters who approve every candidate or
nobody. -/
inductive ResoluteIndifferentRule (w w' : World) (p p' : Profile) (k : ℕ) (alg alg' : String) : String → Prop
  | av : ResoluteIndifferentRule w w' p p' k alg alg' "av"
  | sav : ResoluteIndifferentRule w w' p p' k alg alg' "sav"
  /-- `pav`, `slav`, `cc`, `geom<base>` by brute force -/
  | thiele {sid : String} {s : ScoreId} : w.env.scoreId sid = .ok s → w'.env.scoreId sid = .ok s →
      (s = .pav ∨ s = .slav ∨ s = .cc ∨ ∃ b, s = .geom b ∧ 0 < b) → alg = "brute-force" → alg' = "brute-force" →
      ResoluteIndifferentRule w w' p p' k alg alg' sid
  /-- `pav`, `slav`, `cc`, `geom<base>` by branch and bound -/
  | thieleBranch {sid : String} {s : ScoreId} : w.env.scoreId sid = .ok s → w'.env.scoreId sid = .ok s →
      (s = .pav ∨ s = .slav ∨ s = .cc ∨ ∃ b, s = .geom b ∧ 1 ≤ b) → alg = "branch-and-bound" → alg' = "branch-and-bound" →
      ResoluteIndifferentRule w w' p p' k alg alg' sid
  | lexcc : alg = "brute-force" → alg' = "brute-force" → ResoluteIndifferentRule w w' p p' k alg alg' "lexcc"
  | lexminimaxav : (∀ v ∈ p.voters, v.weight = 1) → (∀ v ∈ p'.voters, v.weight = 1) → alg = "brute-force" → alg' = "brute-force" →
      ResoluteIndifferentRule w w' p p' k alg alg' "lexminimaxav"
  /-- `seqpav`, `seqslav`, `seqcc`, `seqav`, `seqgeom<base>` -/
  | seqThiele {sid : String} {s : ScoreId} : w.env.scoreId sid = .ok s → w'.env.scoreId sid = .ok s → (∀ i, 0 ≤ marginalFct s i) →
      ResoluteIndifferentRule w w' p p' k alg alg' ("seq" ++ sid)
  | trivial : ResoluteIndifferentRule w w' p p' k alg alg' "trivial"

end Abc.Spec
