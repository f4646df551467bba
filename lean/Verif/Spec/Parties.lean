import Verif.Spec.Droop

/-!
# A party within an arbitrary electorate
-/

namespace Abc.Spec

/-- Only voters in `G` approve candidates in `C`. -/
def OnlySupporters (p : Profile) (G : Group p) (C : Finset ℕ) : Prop := ∀ i, i ∉ G → Disjoint (appr p i) C

/-- The voters in `G` approve exactly the candidates in `C`, and nobody else approves any of these. -/
def Party (p : Profile) (G : Group p) (C : Finset ℕ) : Prop := (∀ i ∈ G, appr p i = C) ∧ OnlySupporters p G C

end Abc.Spec
