import Verif.Spec.Dominance

/-!
# Unanimous profiles and perfect representation
-/

namespace Abc.Spec

/-- All voters approve exactly the candidates in `S`. -/
def Unanimous (p : Profile) (S : Finset ℕ) : Prop := ∀ v ∈ p.voters, v.A = S

/-- If all voters approve exactly `S`, the committee consists of candidates in `S`, or contains all of them. -/
def RespectsUnanimity (S : Finset ℕ) (W : List ℕ) : Prop := (∀ c ∈ W, c ∈ S) ∨ ∀ c ∈ S, c ∈ W

/-- Rules that respect unanimity, with the conditions under which the code is proved to compute them (see `Elects`).  The Monroe rules need
at least as many voters as seats. -/
inductive UnanimityRule (w : World) (p : Profile) (k : ℕ) (alg : String) : String → Prop
  | approvedFirst {ruleId : String} : ApprovedFirstRule w p k alg ruleId → UnanimityRule w p k alg ruleId
  | minimaxav : UnanimityRule w p k alg "minimaxav"
  | monroe : (∀ v ∈ p.voters, v.weight = 1) → k ≤ p.voters.length → UnanimityRule w p k alg "monroe"
  | greedyMonroe : (∀ v ∈ p.voters, v.weight = 1) → k ≤ p.voters.length → UnanimityRule w p k alg "greedy-monroe"
  | enestroem : ExactAlg w.env alg → UnanimityRule w p k alg "phragmen-enestroem"
  | consensus : ExactAlg w.env alg → UnanimityRule w p k alg "consensus-rule"

/-- Perfect representation: the voters can be divided among the members of `A` such that all members represent the same number of voters
and everybody approves the member by whom they are represented. -/
def PerfectRepresentation (p : Profile) (A : Finset ℕ) : Prop :=
  ∃ φ : Fin p.voters.length → ℕ, (∀ i, φ i ∈ A ∧ φ i ∈ appr p i) ∧
    ∀ c ∈ A, A.card * (Finset.univ.filter (fun i => φ i = c)).card = p.voters.length

/-- Rules that elect committees with perfect representation if there are any. -/
inductive PerfectRule (w : World) (p : Profile) (k : ℕ) (alg : String) : String → Prop
  | monroe : PerfectRule w p k alg "monroe"
  | minimaxphragmen : p.voters.length ≤ 3162 → PerfectRule w p k alg "minimaxphragmen"
  | leximaxphragmen : p.voters.length ≤ 3162 → PerfectRule w p k alg "leximaxphragmen"

end Abc.Spec
