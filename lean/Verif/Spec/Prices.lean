import Verif.Spec.ILP
import Verif.Spec.Axioms
import Verif.Spec.Loads
import Verif.Model.CheckILP

/-!
# Specification: programs with maxima, and what `check_priceability` decides
-/

namespace Abc.Spec

/-- A feasible solution of a program with constraints `y = max(ys)`. -/
def MaxFeasible (P : MaxProgram) (x : IVar → ℚ) : Prop :=
  Feasible P.base x ∧ ∀ m ∈ P.maxes, (∃ z ∈ m.2, x m.1 = x z) ∧ ∀ z ∈ m.2, x z ≤ x m.1

/-- The solver for programs with maxima is exact. -/
def ExactMaxSolver (solve : MaxProgram → SolveResult) : Prop :=
  ∀ P, ((∃ x, MaxFeasible P x ∧ ∀ y, MaxFeasible P y → P.base.obj.eval y ≤ P.base.obj.eval x) →
      ∃ x, solve P = .optimal x ∧ MaxFeasible P x ∧ ∀ y, MaxFeasible P y → P.base.obj.eval y ≤ P.base.obj.eval x) ∧
    ((¬ ∃ x, MaxFeasible P x) → solve P = .infeasible)

/-- A price system that supports the committee: the supporters of no unelected candidate have more than 1 left in total (or, for stable
priceability, could raise more than 1 even by giving up the payment for one elected candidate each). -/
def SupportedBy (stable : Bool) (p : Profile) (W : Finset ℕ) (b : ℚ) (pay : Fin p.voters.length → ℕ → ℚ) : Prop :=
  PriceSystem p W b pay ∧ ∀ c, c < p.numCand → c ∉ W →
    if stable then ∑ i with c ∈ appr p i, (insert (leftAfter p W b pay i) (W.image (pay i))).max' (Finset.insert_nonempty _ _) ≤ 1
    else ∑ i with c ∈ appr p i, leftAfter p W b pay i ≤ 1

/-- What the checks of (stable) priceability decide: if fewer candidates are approved than elected, no price system exists and the
committee has to contain all approved candidates; otherwise (stable) priceability. -/
def PriceableOrFull (stable : Bool) (p : Profile) (W : Finset ℕ) : Prop :=
  if (approvedSet p).card < W.card then approvedSet p ⊆ W
  else if stable then StablePriceable p W else Priceable p W

/-- The property called `name`, for committee `W` and quota `q`. -/
def Satisfies (name : String) (p : Profile) (W : Finset ℕ) (q : ℚ) : Prop :=
  if name = "pareto" then ParetoOptimal p W
  else if name = "jr" then JR p W q
  else if name = "pjr" then PJR p W q
  else if name = "ejr" then EJR p W q
  else if name = "ejr+" then EJRplus p W q
  else if name = "fjr" then FJR p W q
  else if name = "priceability" then PriceableOrFull false p W
  else if name = "stable-priceability" then PriceableOrFull true p W
  else Core p W q

end Abc.Spec
