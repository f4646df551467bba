import Verif.Model.ILP
import Verif.Spec.Rules

/-!
# Specification: feasibility and optimality of programs, exact solvers
-/

namespace Abc.Spec

/-- The comparison expressed by a constraint. -/
def RelHolds : Rel → ℚ → ℚ → Prop
  | .le, a, b => a ≤ b
  | .ge, a, b => b ≤ a
  | .eq, a, b => a = b

/-- The values `x` satisfy the constraint (a guarded constraint matters only if the guard has value 1). -/
def Holds (x : IVar → ℚ) (c : Constr) : Prop := (∀ b, c.guard = some b → x b = 1) → RelHolds c.rel (c.lhs.eval x) (c.rhs.eval x)

/-- The value of a variable respects its declaration. -/
def InBounds (x : IVar → ℚ) (d : VarDecl) : Prop :=
  d.lb ≤ x d.v ∧ (∀ u, d.ub = some u → x d.v ≤ u) ∧ (d.integer = true → ∃ z : ℤ, x d.v = z)

/-- `x` is a feasible solution. -/
def Feasible (P : Program) (x : IVar → ℚ) : Prop := (∀ d ∈ P.vars, InBounds x d) ∧ ∀ c ∈ P.constrs, Holds x c

/-- `x` is an optimal solution. -/
def OptimalSol (P : Program) (x : IVar → ℚ) : Prop := Feasible P x ∧ ∀ y, Feasible P y → P.obj.eval y ≤ P.obj.eval x

/-- The solver is exact: it returns an optimal solution if there is one, and reports infeasibility if there is no feasible
solution.  (Nothing is assumed about unbounded programs.) -/
def ExactSolver (solve : Program → SolveResult) : Prop :=
  ∀ P, ((∃ x, OptimalSol P x) → ∃ x, solve P = .optimal x ∧ OptimalSol P x) ∧
    ((¬ ∃ x, Feasible P x) → solve P = .infeasible)

/-- The committee described by a solution. -/
noncomputable def solCommittee (p : Profile) (x : IVar → ℚ) : Finset ℕ := (Finset.range p.numCand).filter (fun c => x (.cand c) = 1)

/-- The program `P` encodes the committees satisfying `F` with value `v`: every feasible solution describes a committee satisfying
`F` and its objective is at most the value of that committee, and this value is attained. -/
structure Encodes (P : Program) (p : Profile) (F : Finset ℕ → Prop) (v : Finset ℕ → ℚ) : Prop where
  binary : ∀ x, Feasible P x → ∀ c < p.numCand, x (.cand c) = 0 ∨ x (.cand c) = 1
  sound : ∀ x, Feasible P x → F (solCommittee p x) ∧ P.obj.eval x ≤ v (solCommittee p x)
  complete : ∀ A, F A → ∃ x, Feasible P x ∧ solCommittee p x = A ∧ P.obj.eval x = v A

end Abc.Spec
