import Verif.Spec.Run

/-!
# Specification of Random Serial Dictator and E Pluribus Hugo
-/

namespace Abc.Spec

/-! ## Random Serial Dictator -/

/-- The `r` smallest elements of `S`. -/
def smallest (S : Finset ℕ) (r : ℕ) : Finset ℕ := S.filter (fun c => (S.filter (fun d => d < c)).card < r)

/-- What a dictator with approval set `A` makes of the committee `C`: all approved candidates join if there is room for
them, otherwise the free seats go to the approved candidates with the smallest indices. -/
def dictate (k : ℕ) (C A : Finset ℕ) : Finset ℕ :=
  if (C ∪ A).card ≤ k then C ∪ A else C ∪ smallest (A \ C) (k - C.card)

/-- All dictators one after the other. -/
def dictateAll (k : ℕ) (As : List (Finset ℕ)) : Finset ℕ := As.foldl (dictate k) ∅

/-! ## E Pluribus Hugo -/

/-- Single divisible vote score: every voter divides her weight evenly among her remaining approved candidates. -/
def sdv (p : Profile) (R : Finset ℕ) (c : ℕ) : ℚ :=
  ∑ i ∈ backers p c, (p.voters.get i).weight / ((appr p i ∩ R).card : ℚ)

/-- At most one remaining candidate has a smaller single divisible vote score (i.e. `c` is at or below the second smallest
score). -/
def SdvLow (p : Profile) (R : Finset ℕ) (c : ℕ) : Prop := (R.filter (fun d => sdv p R d < sdv p R c)).card ≤ 1

/-- The candidates up for elimination: among those with low single divisible vote score those with fewest approvals. -/
def EPHElim (p : Profile) (R : Finset ℕ) (c : ℕ) : Prop :=
  c ∈ R ∧ SdvLow p R c ∧ ∀ d ∈ R, SdvLow p R d → wt p (backers p c) ≤ wt p (backers p d)

/-- The committees E Pluribus Hugo can elect from the remaining candidates `R`; `E` are the candidates up for elimination: if
at most `k` candidates remain without them, some of them are kept to fill the `k` seats, otherwise all of them leave. -/
inductive EPHWinner (p : Profile) (k : ℕ) : Finset ℕ → Finset ℕ → Prop
  | stop {R E W : Finset ℕ} : (∀ c, c ∈ E ↔ EPHElim p R c) → (R \ E).card ≤ k → R \ E ⊆ W → W ⊆ R → W.card = k →
      EPHWinner p k R W
  | next {R E W : Finset ℕ} : (∀ c, c ∈ E ↔ EPHElim p R c) → k < (R \ E).card → EPHWinner p k (R \ E) W → EPHWinner p k R W

end Abc.Spec
