import Verif.Spec.Axioms
import Mathlib.Logic.Equiv.Basic

/-!
# Renaming candidates, reordering voters, scaling weights
-/

namespace Abc.Spec

/-- The profile `p'` is the profile `p` with the voters reordered (`voter`), the candidates renamed (`cand`) and all weights
multiplied by `s`. -/
structure Renaming (s : ℚ) (p p' : Profile) where
  voter : Fin p.voters.length ≃ Fin p'.voters.length
  cand : Equiv.Perm ℕ
  pos : 0 < s
  numCand : p'.numCand = p.numCand
  lt : ∀ c, cand c < p.numCand ↔ c < p.numCand
  approves : ∀ i c, cand c ∈ appr p' (voter i) ↔ c ∈ appr p i
  weight : ∀ i, (p'.voters.get (voter i)).weight = s * (p.voters.get i).weight

/-- The set of the new names of the members of `A`. -/
def Renaming.set {s : ℚ} {p p' : Profile} (R : Renaming s p p') (A : Finset ℕ) : Finset ℕ := A.map R.cand.toEmbedding

end Abc.Spec
