import Verif.Spec.Failures

/-!
# Specification: solvers with tolerances

Real solvers compute with floating-point numbers: they accept values that are integral up to a tolerance and stop at a solution whose
objective value is optimal up to a gap (the code sets `FeasibilityTol`, `OptimalityTol`, `IntFeasTol` and `MIPGap` to `10⁻⁸`,
abcrules_gurobi.py:17-25, abcrules_mip.py:86-87).
-/

namespace Abc

open Spec

namespace Spec

/-- A solver with tolerances that may give up: what it reports as optimal is, up to `η` in every variable, a feasible solution whose
objective value is optimal up to `ε`; what it reports as infeasible is infeasible. -/
def TolerantSolver (η ε : ℚ) (solve : Program → SolveResult) : Prop :=
  ∀ P, (∀ x, solve P = .optimal x →
      ∃ y, Feasible P y ∧ (∀ z, Feasible P z → P.obj.eval z ≤ P.obj.eval y + ε) ∧ ∀ u, |x u - y u| ≤ η) ∧
    (solve P = .infeasible → ¬ ∃ x, Feasible P x)

/-- The solver does not give up. -/
def Decides (solve : Program → SolveResult) : Prop :=
  ∀ P, ((∃ x, OptimalSol P x) → ∃ x, solve P = .optimal x) ∧ ((¬ ∃ x, Feasible P x) → solve P = .infeasible)

/-- Only the status reported by the solver is right (the values may be anything): OPTIMAL is reported only for feasible programs, INFEASIBLE
only for infeasible ones. -/
def StatusSolver (solve : Program → SolveResult) : Prop :=
  ∀ P, (∀ x, solve P = .optimal x → ∃ y, Feasible P y) ∧ (solve P = .infeasible → ¬ ∃ x, Feasible P x)

/-- The same for programs with maxima. -/
def StatusMaxSolver (solve : MaxProgram → SolveResult) : Prop :=
  ∀ P, (∀ x, solve P = .optimal x → ∃ y, MaxFeasible P y) ∧ (solve P = .infeasible → ¬ ∃ x, MaxFeasible P x)

/-- Two different values differ by more than `ε`. -/
def Apart (ε : ℚ) (p : Profile) (k : ℕ) (v : Finset ℕ → ℚ) : Prop :=
  ∀ A B, IsCommittee p k A → IsCommittee p k B → v A < v B → v A + ε < v B

end Spec

/-- How far the values reported by a solver may be off.  OR-Tools (CP-SAT) computes with integers; for the other solvers `1 / 10` is more
than enough (they are told to use `10⁻⁸`). -/
def slack (algorithm : String) : ℚ := if algorithm = "ortools-cp" then 0 else 1 / 10

/-- The outside world keeps its promises, except that solvers have tolerances and may give up. -/
structure World.Tolerant (w : World) (ε : ℚ) : Prop where
  solve : ∀ alg, TolerantSolver (slack alg) ε (w.solve alg)
  rest : ∀ s, (∀ alg, ExactSolver (s alg)) → World.Exact { w with solve := s }

namespace Spec

/-- With objective values known up to `ε`, the solvers can tell better from worse committees.  (The load-based rules and Maximin Support
are not covered: there the objective value reported by the solver is part of the outcome.) -/
inductive Resolves (w : World) (p : Profile) (k : ℕ) (ε : ℚ) : String → Prop
  | thiele {sid : String} {s : ScoreId} : w.env.scoreId sid = .ok s → Apart ε p k (score (marginalFct s) p) → Resolves w p k ε sid
  | lexcc : Granular p → (∀ l < k, Apart ε p k (coverage p (l + 1))) → Resolves w p k ε "lexcc"
  | monroe : ε < 1 → Resolves w p k ε "monroe"
  | minimaxav : ε < 1 → Resolves w p k ε "minimaxav"
  | lexminimaxav : ε < 1 → Resolves w p k ε "lexminimaxav"
  | other {ruleId : String} : ruleId ∉ ["pav", "slav", "cc", "lexcc", "monroe", "minimaxav", "lexminimaxav",
      "minimaxphragmen", "leximaxphragmen", "maximin-support"] → ruleId.toList.take 4 ≠ "geom".toList → Resolves w p k ε ruleId

end Spec

end Abc
