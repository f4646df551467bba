import Verif.Spec.Basic

/-!
# Specification: which of several winning committees are returned
-/

namespace Abc
namespace Spec

/-- `cs` is what `resolute` and `max_num_of_committees` leave of the complete list `full` of winning committees: its first
committee, its first `n` committees, or the complete list. -/
def Leading (a : Args) (full cs : List (List ℕ)) : Prop :=
  cs = match a.resolute, a.max with
    | true, _ => full.take 1
    | false, some n => full.take n.toNat
    | false, none => full

/-- The call returns committees with `S`, and each of them is lexicographically smaller (as ascending list of candidates) than
every committee with `S` that is not returned. -/
def ReturnsFirst (r : Except Err (List (List ℕ))) (S : Finset ℕ → Prop) : Prop :=
  ∃ cs, r = .ok cs ∧ (∀ W ∈ cs, W.Pairwise (· < ·) ∧ S W.toFinset) ∧
    ∀ W ∈ cs, ∀ V : List ℕ, V.Pairwise (· < ·) → S V.toFinset → V ∉ cs → W < V

end Spec
end Abc
