import Verif.Spec.Run

/-!
# Specification of the load-balancing rules: minimax-Phragmén, leximax-Phragmén, maximin support

A voter of weight `w` stands for `w` voters, so loads and supports are per unit of weight.
-/

namespace Abc.Spec

/-- The load `x i c` that each unit of voter `i` bears for candidate `c`: only approved candidates in `A` cause load, and every candidate
in `A` has total load 1. -/
structure IsLoadDistribution (p : Profile) (A : Finset ℕ) (x : Fin p.voters.length → ℕ → ℚ) : Prop where
  nonneg : ∀ i c, 0 ≤ x i c
  approved : ∀ i c, x i c ≠ 0 → c ∈ appr p i ∧ c ∈ A
  one : ∀ c ∈ A, ∑ i, (p.voters.get i).weight * x i c = 1

/-- The loads caused by `A` can be distributed so that nobody has a load above `t`. -/
def LoadWithin (p : Profile) (A : Finset ℕ) (t : ℚ) : Prop :=
  ∃ x, IsLoadDistribution p A x ∧ ∀ i, ∑ c ∈ A, x i c ≤ t

/-- The candidates approved by somebody. -/
def approvedSet (p : Profile) : Finset ℕ := Finset.univ.biUnion (fun i => appr p i)

/-- The committees that minimax-Phragmén considers: of approved candidates only, or, if there are too few approved candidates, containing
all of them. -/
def LoadCommittee (p : Profile) (k : ℕ) (A : Finset ℕ) : Prop :=
  IsCommittee p k A ∧ (A ⊆ approvedSet p ∨ approvedSet p ⊆ A)

/-- minimax-Phragmén winners up to `ε`: the largest load is smallest possible.  (`ε = 0`: exactly.  If there are fewer than `k` approved
candidates then no committee of size `k` has a load distribution, and the winners are all committees containing the approved ones.) -/
def MinimaxPhragmenOpt (ε : ℚ) (p : Profile) (k : ℕ) (A : Finset ℕ) : Prop :=
  LoadCommittee p k A ∧ ∀ B t, IsCommittee p k B → LoadWithin p B t → LoadWithin p A (t + ε)

/-- The load of voter `i` in a distribution of the loads caused by `A`. -/
def loadOf (p : Profile) (A : Finset ℕ) (x : Fin p.voters.length → ℕ → ℚ) (i : Fin p.voters.length) : ℚ := ∑ c ∈ A, x i c

/-- `l` lists the loads of the voters in decreasing order. -/
def SortedLoads (p : Profile) (A : Finset ℕ) (x : Fin p.voters.length → ℕ → ℚ) (l : Fin p.voters.length → ℚ) : Prop :=
  Antitone l ∧ ∃ σ : Equiv.Perm (Fin p.voters.length), ∀ i, l i = loadOf p A x (σ i)

/-- `l` comes before `m` in the lexicographic order. -/
def LexBefore {n : ℕ} (l m : Fin n → ℚ) : Prop := ∃ i, (∀ j < i, l j = m j) ∧ l i < m i

/-- leximax-Phragmén winners: the loads can be distributed such that the vector of loads, in decreasing order, is lexicographically
smallest among all distributions for all committees of the same size. -/
def LeximaxPhragmen (p : Profile) (k : ℕ) (A : Finset ℕ) : Prop :=
  IsCommittee p k A ∧ ∃ x l, IsLoadDistribution p A x ∧ SortedLoads p A x l ∧
    ∀ B y m, IsCommittee p k B → IsLoadDistribution p B y → SortedLoads p B y m → ¬ LexBefore m l

/-! leximax-Phragmén computed level by level, with tolerances `ε` (on the bounds of earlier levels), `δ` (loads considered to be zero)
and `τ` (in the last level).  By `C70_levels_exact` this is `LeximaxPhragmen` if there is no tolerance. -/

/-- The loads caused by `A` can be distributed, and the voters can be ordered, such that the loads of the first voters are at most
`bounds` (up to `ε`) and the loads of all other voters are at most `v`. -/
def LoadsWithin (p : Profile) (ε : ℚ) (bounds : List ℚ) (A : Finset ℕ) (v : ℚ) : Prop :=
  ∃ x, IsLoadDistribution p A x ∧ ∃ σ : Equiv.Perm (Fin p.voters.length), ∀ i : Fin p.voters.length,
    loadOf p A x (σ i) ≤ (bounds.map (· + ε)).getD i v

/-- `v` is the smallest possible bound for the voters after the first ones. -/
def IsNextBound (ε : ℚ) (p : Profile) (k : ℕ) (bounds : List ℚ) (v : ℚ) : Prop :=
  (∃ B, IsCommittee p k B ∧ LoadsWithin p ε bounds B v) ∧ ∀ B t, IsCommittee p k B → LoadsWithin p ε bounds B t → v ≤ t

/-- The bounds of the first levels: in each level the smallest possible bound, if it is greater than `δ`. -/
inductive LevelBounds (ε δ : ℚ) (p : Profile) (k : ℕ) : List ℚ → Prop
  | nil : LevelBounds ε δ p k []
  | level {bounds v} : LevelBounds ε δ p k bounds → IsNextBound ε p k bounds v → δ < v → LevelBounds ε δ p k (bounds ++ [v])

/-- The winners if the levels are considered one after the other: all voters but one have a bound, or the next bound is at most `δ`, and
`A` is within `τ` of the best next bound. -/
def LevelWinner (ε δ τ : ℚ) (p : Profile) (k : ℕ) (A : Finset ℕ) : Prop :=
  ∃ bounds v, LevelBounds ε δ p k bounds ∧ IsNextBound ε p k bounds v ∧ bounds.length < p.voters.length ∧
    (bounds.length + 1 = p.voters.length ∨ v ≤ δ) ∧ IsCommittee p k A ∧ LoadsWithin p ε bounds A (v + τ)

/-- The weight of the voters can be distributed among the approved members of `W` so that each of them is supported by at least `t`. -/
def SupportAtLeast (p : Profile) (W : Finset ℕ) (t : ℚ) : Prop :=
  ∃ f : Fin p.voters.length → ℕ → ℚ, (∀ i c, 0 ≤ f i c) ∧ (∀ i c, f i c ≠ 0 → c ∈ appr p i) ∧
    (∀ i, ∑ c ∈ W, f i c ≤ (p.voters.get i).weight) ∧ ∀ c ∈ W, t ≤ ∑ i, f i c

/-- Maximin support elects a candidate such that the smallest support in the new committee is largest possible, up to `ε`. -/
def MaximinBest (ε : ℚ) (p : Profile) (W : List ℕ) (c : ℕ) : Prop :=
  c < p.numCand ∧ c ∉ W ∧ ∀ d < p.numCand, d ∉ W → ∀ t, SupportAtLeast p (insert d W.toFinset) t →
    SupportAtLeast p (insert c W.toFinset) (t - ε)

/-- Maximin support winners: `k` times a best candidate is elected. -/
def MaximinWinner (ε : ℚ) (p : Profile) (k : ℕ) (A : Finset ℕ) : Prop :=
  RunWinner (fun W (_ : Unit) c => MaximinBest ε p W c) (fun _ _ _ => ()) () k A

end Abc.Spec
