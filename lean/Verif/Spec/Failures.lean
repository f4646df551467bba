import Verif.Spec.Dispatch
import Verif.Spec.Prices

/-!
# Specification: solvers that may give up

Solvers stop for many reasons (time limit, memory, numerical trouble, interruption).  A *sound* solver may give up on any program at any
time, but what it reports as optimal is optimal and what it reports as infeasible is infeasible.
-/

namespace Abc

open Spec

namespace Spec

/-- Every answer of the solver is right; it may also give no answer (`SolveResult.other`). -/
def SoundSolver (solve : Program → SolveResult) : Prop :=
  ∀ P, (∀ x, solve P = .optimal x → OptimalSol P x) ∧ (solve P = .infeasible → ¬ ∃ x, Feasible P x)

/-- The same for programs with maxima. -/
def SoundMaxSolver (solve : MaxProgram → SolveResult) : Prop :=
  ∀ P, (∀ x, solve P = .optimal x → MaxFeasible P x ∧ ∀ y, MaxFeasible P y → P.base.obj.eval y ≤ P.base.obj.eval x) ∧
    (solve P = .infeasible → ¬ ∃ x, MaxFeasible P x)

end Spec

/-- The outside world keeps its promises, except that solvers may give up. -/
structure World.Sound (w : World) : Prop where
  solve : ∀ alg, SoundSolver (w.solve alg)
  rest : ∀ s, (∀ alg, ExactSolver (s alg)) → World.Exact { w with solve := s }

end Abc
