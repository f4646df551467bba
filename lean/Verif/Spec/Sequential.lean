import Verif.Spec.Rules

/-!
# Specification of the sequential Thiele methods
-/

namespace Abc.Spec

/-- Increase of the Thiele score when `c` is added to `W`. -/
def gain (f : ℕ → ℚ) (p : Profile) (W : Finset ℕ) (c : ℕ) : ℚ := score f p (insert c W) - score f p W

/-- The runs of the sequential Thiele method: repeatedly add some candidate of maximal gain. The list is in order of election. -/
inductive SeqRun (f : ℕ → ℚ) (p : Profile) : List ℕ → Prop
  | nil : SeqRun f p []
  | snoc {W : List ℕ} {c : ℕ} : SeqRun f p W → c < p.numCand → c ∉ W →
      (∀ d < p.numCand, d ∉ W → gain f p W.toFinset d ≤ gain f p W.toFinset c) → SeqRun f p (W ++ [c])

/-- The run that always takes the maximiser with the smallest index. -/
inductive SeqRunFirst (f : ℕ → ℚ) (p : Profile) : List ℕ → Prop
  | nil : SeqRunFirst f p []
  | snoc {W : List ℕ} {c : ℕ} : SeqRunFirst f p W → c < p.numCand → c ∉ W →
      (∀ d < p.numCand, d ∉ W → gain f p W.toFinset d ≤ gain f p W.toFinset c) →
      (∀ d < c, d ∉ W → gain f p W.toFinset d < gain f p W.toFinset c) → SeqRunFirst f p (W ++ [c])

/-- The committees of seq-Thiele: obtainable by some run of length `k`. -/
def SeqThieleWinner (f : ℕ → ℚ) (p : Profile) (k : ℕ) (A : Finset ℕ) : Prop :=
  ∃ W : List ℕ, SeqRun f p W ∧ W.length = k ∧ W.toFinset = A

/-- Decrease of the Thiele score when `c` is removed from `W`. -/
def loss (f : ℕ → ℚ) (p : Profile) (W : Finset ℕ) (c : ℕ) : ℚ := score f p W - score f p (W.erase c)

/-- Sets obtained from all candidates by repeatedly removing a member of minimal loss. -/
inductive RevRun (f : ℕ → ℚ) (p : Profile) : Finset ℕ → Prop
  | all : RevRun f p (Finset.range p.numCand)
  | remove {W : Finset ℕ} {c : ℕ} : RevRun f p W → c ∈ W →
      (∀ d ∈ W, loss f p W c ≤ loss f p W d) → RevRun f p (W.erase c)

/-- The run that always removes the minimiser with the largest index. -/
inductive RevRunLast (f : ℕ → ℚ) (p : Profile) : Finset ℕ → Prop
  | all : RevRunLast f p (Finset.range p.numCand)
  | remove {W : Finset ℕ} {c : ℕ} : RevRunLast f p W → c ∈ W →
      (∀ d ∈ W, loss f p W c ≤ loss f p W d) → (∀ d ∈ W, c < d → loss f p W c < loss f p W d) → RevRunLast f p (W.erase c)

end Abc.Spec
