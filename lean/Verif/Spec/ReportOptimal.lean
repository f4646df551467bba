import Verif.Model.ReportOptimal
import Verif.Spec.ReportMonroe
import Verif.Spec.Rules

/-!
# Specification of the output of the optimisation rules
-/

namespace Abc.Spec

/-- The algorithms and the names under which they are printed. -/
def algorithmTitles : List (String × String) :=
  [("gurobi", "Gurobi ILP solver"), ("branch-and-bound", "branch-and-bound"), ("brute-force", "brute-force"),
   ("mip-cbc", "CBC ILP solver via Python MIP library"), ("mip-gurobi", "Gurobi ILP solver via Python MIP library"),
   ("standard", "Standard algorithm"), ("standard-fractions", "Standard algorithm (using standard Python fractions)"),
   ("gmpy2-fractions", "Standard algorithm (using gmpy2 fractions)"),
   ("float-fractions", "Standard algorithm (using floats instead of fractions)"), ("ortools-cp", "OR-Tools CP-SAT solver")]

/-- The line that names the algorithm. -/
def algorithmLine (algorithm : String) : Msg :=
  detailsMsg ("Algorithm: ".toList ++ ((algorithmTitles.lookup algorithm).getD "").toList ++ "\n".toList)

/-- The algorithms that hand the scores of a Thiele method to an ILP solver, and the name of the solver in the warning. -/
def solverTitle (algorithm : String) : Option String :=
  if algorithm = "gurobi" then some "Gurobi" else if algorithm = "mip-cbc" ∨ algorithm = "mip-gurobi" then some "mip" else none

/-- The smallest positive one of the marginal scores `f 1, …, f k`. -/
def LeastScore (f : ℕ → ℚ) (k : ℕ) (x : ℚ) : Prop := IsLeast {y | 0 < y ∧ ∃ i, 1 ≤ i ∧ i ≤ k ∧ y = f i} x

/-- The warning that the marginal scores are too small for the solver. -/
def accuracyWarning (num : ℚ → Name) (ruleId solver : String) (x : ℚ) : Msg :=
  { level := .warning
    text := "Thiele scoring function ".toList ++ ruleId.toList ++ " can take smaller values (min=".toList ++ num x ++ ") than ".toList ++
      solver.toList ++ " accuracy (1e-08).".toList }

/-- `ws` is the warning if an ILP solver is used and a positive marginal score is smaller than 10⁻⁸, and no message otherwise. -/
def Warned (num : ℚ → Name) (ruleId algorithm : String) (f : ℕ → ℚ) (k : ℕ) (ws : List Msg) : Prop :=
  (∃ solver x, solverTitle algorithm = some solver ∧ LeastScore f k x ∧ x < 1 / 10 ^ 8 ∧ ws = [accuracyWarning num ruleId solver x]) ∨
  ((solverTitle algorithm = none ∨ ∀ i, 1 ≤ i → i ≤ k → 0 < f i → 1 / 10 ^ 8 ≤ f i) ∧ ws = [])

/-- The distances of the voters to `W`, in the order of the voters. -/
def distancesLine (p : Profile) (W : Finset ℕ) : Name :=
  "[".toList ++ ", ".toList.intercalate (p.voters.map (fun v => strNat (dist v W))) ++ "]".toList

/-- The line for the `ell`-th entry of the vector maximised by lex-CC. -/
def atLeastLine (num : ℚ → Name) (ell : ℕ) (s : ℚ) : Msg :=
  detailsMsg ("at-least-".toList ++ strNat ell ++ ": ".toList ++ num s) " ".toList

end Abc.Spec
