import Verif.Spec.Axioms

/-!
# Specification vocabulary for sequential rules with a state (loads, budgets)

`Best W s c`: in state `s` with elected candidates `W` (in order of election) the rule may elect `c` next;
`upd W s c`: the state after electing `c`.
-/

namespace Abc.Spec

/-- The runs that start with elected candidates `W₀` and state `s₀` and break ties arbitrarily. -/
inductive Run {σ : Type} (Best : List ℕ → σ → ℕ → Prop) (upd : List ℕ → σ → ℕ → σ) (W₀ : List ℕ) (s₀ : σ) :
    List ℕ → σ → Prop
  | start : Run Best upd W₀ s₀ W₀ s₀
  | step {W : List ℕ} {s : σ} {c : ℕ} : Run Best upd W₀ s₀ W s → Best W s c → Run Best upd W₀ s₀ (W ++ [c]) (upd W s c)

/-- The run that always takes the possible candidate with the smallest index. -/
inductive RunFirst {σ : Type} (Best : List ℕ → σ → ℕ → Prop) (upd : List ℕ → σ → ℕ → σ) (W₀ : List ℕ) (s₀ : σ) :
    List ℕ → σ → Prop
  | start : RunFirst Best upd W₀ s₀ W₀ s₀
  | step {W : List ℕ} {s : σ} {c : ℕ} : RunFirst Best upd W₀ s₀ W s → Best W s c → (∀ d < c, ¬ Best W s d) →
      RunFirst Best upd W₀ s₀ (W ++ [c]) (upd W s c)

/-- The committees of size `k` elected by some run that starts with the empty committee. -/
def RunWinner {σ : Type} (Best : List ℕ → σ → ℕ → Prop) (upd : List ℕ → σ → ℕ → σ) (s₀ : σ) (k : ℕ) (A : Finset ℕ) : Prop :=
  ∃ W s, Run Best upd [] s₀ W s ∧ W.length = k ∧ W.toFinset = A

/-- The supporters of candidate `c`. -/
def backers (p : Profile) (c : ℕ) : Group p := Finset.univ.filter (fun i => c ∈ appr p i)

/-- A number (load, budget) for every voter. -/
abbrev VoterMap (p : Profile) := Fin p.voters.length → ℚ

/-! ## seq-Phragmén -/

/-- The common load of the supporters of `c` if `c` is elected and its load of 1 is distributed so that their loads become
equal. -/
def newLoad (p : Profile) (x : VoterMap p) (c : ℕ) : ℚ :=
  (1 + ∑ i ∈ backers p c, (p.voters.get i).weight * x i) / wt p (backers p c)

/-- seq-Phragmén elects a candidate whose election gives its supporters the smallest load; candidates without supporters only
when no other candidate is left. -/
def PhragBest (p : Profile) (W : List ℕ) (x : VoterMap p) (c : ℕ) : Prop :=
  c < p.numCand ∧ c ∉ W ∧
    (((backers p c).Nonempty ∧ ∀ d < p.numCand, d ∉ W → (backers p d).Nonempty → newLoad p x c ≤ newLoad p x d) ∨
      ∀ d < p.numCand, d ∉ W → backers p d = ∅)

/-- The loads after electing `c`. -/
def phragUpd (p : Profile) (_W : List ℕ) (x : VoterMap p) (c : ℕ) : VoterMap p :=
  fun i => if i ∈ backers p c then newLoad p x c else x i

end Abc.Spec
