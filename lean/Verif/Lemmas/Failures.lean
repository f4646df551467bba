import Verif.Spec.Failures
import Verif.Props.Dispatch
import Verif.Props.Check

/-!
# Replacing a solver that may give up by one that does not
-/

namespace Abc

open Spec

/-- `y` returns whatever `x` returns. -/
def Below {α : Type} (x y : Except Err α) : Prop := ∀ r, x = .ok r → y = .ok r

theorem Below.refl {α : Type} (x : Except Err α) : Below x x := fun _ h => h

theorem Below.bind {α β : Type} {x y : Except Err α} {f g : α → Except Err β} (h : Below x y) (h' : ∀ a, Below (f a) (g a)) :
    Below (x >>= f) (y >>= g) := by
  intro r hr
  cases x with
  | error e => cases hr
  | ok a =>
    rw [h a rfl]
    exact h' a r hr

theorem Below.ite {α : Type} {c : Prop} [Decidable c] {x y x' y' : Except Err α} (h : Below x y) (h' : Below x' y') :
    Below (if c then x else x') (if c then y else y') := by
  split
  · exact h
  · exact h'

theorem Below.error {α : Type} (e : Err) (y : Except Err α) : Below (.error e) y := fun _ h => by cases h

/-- `s'` answers whatever `s` answers. -/
def Answering (s s' : Program → SolveResult) : Prop := ∀ P, s P ≠ .other → s' P = s P

theorem optLoop_mono {s s' : Program → SolveResult} (h : Answering s s') (thr : ℚ) (score : Option (List ℕ → Except Err ℚ)) (p : Profile)
    (k : ℕ) (resolute : Bool) (max : Option ℕ) : ∀ fuel P cs m,
    Below (optLoop s thr score p k resolute max fuel P cs m) (optLoop s' thr score p k resolute max fuel P cs m) := by
  intro fuel
  induction fuel with
  | zero => intro P cs m; exact Below.refl _
  | succ n ih =>
    intro P cs m
    unfold optLoop
    by_cases ho : s P = .other
    · rw [ho]; exact Below.error _ _
    · rw [h P ho]
      cases hP : s P with
      | other => exact absurd hP ho
      | infeasible => exact Below.refl _
      | optimal x =>
        refine Below.ite (Below.refl _) (Below.bind (Below.refl _) fun v => ?_)
        exact Below.ite (Below.refl _) (Below.ite (Below.refl _) (Below.ite (Below.refl _) (Below.ite (Below.refl _) (ih _ _ _))))

theorem optimizeRule_mono {s s' : Program → SolveResult} (h : Answering s s') (thr : ℚ) (score : Option (List ℕ → Except Err ℚ))
    (p : Profile) (k : ℕ) (resolute : Bool) (max : Option ℕ) (P : Program) :
    Below (optimizeRule s thr score p k resolute max P) (optimizeRule s' thr score p k resolute max P) :=
  optLoop_mono h _ _ _ _ _ _ _ _ _ _

theorem thieleSolver_mono {s s' : String → Program → SolveResult} (h : ∀ alg, Answering (s alg) (s' alg)) (sid : String) (f : ℕ → ℚ)
    (p : Profile) (a : Args) (alg : String) : Below (thieleSolver s sid f p a alg) (thieleSolver s' sid f p a alg) := by
  unfold thieleSolver ilpThiele ortoolsCC
  exact Below.ite (Below.ite (Below.refl _) (Below.bind (Below.refl _) fun _ => Below.bind (optimizeRule_mono (h alg) _ _ _ _ _ _ _)
    fun _ => Below.refl _)) (Below.ite (Below.ite (Below.refl _) (Below.bind (optimizeRule_mono (h alg) _ _ _ _ _ _ _)
    fun _ => Below.refl _)) (Below.refl _))

theorem lexccLoop_mono {s s' : Program → SolveResult} (h : Answering s s') (p : Profile) (k : ℕ) : ∀ n sats,
    Below (lexccLoop s p k n sats) (lexccLoop s' p k n sats) := by
  intro n
  induction n with
  | zero => intro sats; exact Below.refl _
  | succ n ih =>
    intro sats
    unfold lexccLoop
    exact Below.bind (optimizeRule_mono h _ _ _ _ _ _ _) fun _ => Below.bind (Below.refl _) fun _ => ih _

theorem lexccSolver_mono {s s' : String → Program → SolveResult} (h : ∀ alg, Answering (s alg) (s' alg)) (p : Profile) (a : Args)
    (alg : String) : Below (lexccSolver s p a alg) (lexccSolver s' p a alg) := by
  unfold lexccSolver gurobiLexcc
  exact Below.ite (Below.bind (Below.bind (lexccLoop_mono (h alg) _ _ _ _) fun _ => Below.bind (optimizeRule_mono (h alg) _ _ _ _ _ _ _)
    fun _ => Below.refl _) fun _ => Below.refl _) (Below.refl _)

theorem monroeSolver_mono {s s' : String → Program → SolveResult} (h : ∀ alg, Answering (s alg) (s' alg))
    (matching : List MEdge → List MEdge) (minCost : FlowNet → Except Err ℕ) (p : Profile) (a : Args) (alg : String) :
    Below (monroeSolver s matching minCost p a alg) (monroeSolver s' matching minCost p a alg) := by
  unfold monroeSolver
  have := fun thr score P => Below.bind (optimizeRule_mono (h alg) thr score p a.k a.resolute a.maxNum P)
    fun (r : List (List ℕ) × ℚ) => Below.refl (sortedCommittees r.1)
  exact Below.ite (this _ _ _) (Below.ite (this _ _ _) (Below.ite (this _ _ _) (Below.refl _)))

theorem ilpMinimaxav_mono {s s' : Program → SolveResult} (h : Answering s s') (thr : ℚ) (p : Profile) (k : ℕ) (resolute : Bool)
    (max : Option ℕ) : Below (ilpMinimaxav s thr p k resolute max) (ilpMinimaxav s' thr p k resolute max) :=
  Below.bind (optimizeRule_mono h _ _ _ _ _ _ _) fun _ => Below.refl _

theorem minimaxavSolver_mono {s s' : String → Program → SolveResult} (h : ∀ alg, Answering (s alg) (s' alg)) (p : Profile) (a : Args)
    (alg : String) : Below (minimaxavSolver s p a alg) (minimaxavSolver s' p a alg) := by
  unfold minimaxavSolver
  exact Below.ite (ilpMinimaxav_mono (h alg) _ _ _ _ _) (Below.ite (ilpMinimaxav_mono (h alg) _ _ _ _ _)
    (Below.ite (ilpMinimaxav_mono (h alg) _ _ _ _ _) (Below.refl _)))

theorem lexminimaxavLoop_mono {s s' : Program → SolveResult} (h : Answering s s') (p : Profile) (k : ℕ) (resolute : Bool)
    (max : Option ℕ) : ∀ n cs hdc,
    Below (lexminimaxavLoop s p k resolute max n cs hdc) (lexminimaxavLoop s' p k resolute max n cs hdc) := by
  intro n
  induction n with
  | zero => intro cs hdc; exact Below.refl _
  | succ n ih =>
    intro cs hdc
    unfold lexminimaxavLoop
    exact Below.bind (optimizeRule_mono h _ _ _ _ _ _ _) fun _ => Below.bind (Below.refl _) fun _ => ih _ _

theorem lexminimaxavSolver_mono {s s' : String → Program → SolveResult} (h : ∀ alg, Answering (s alg) (s' alg)) (p : Profile) (a : Args)
    (alg : String) : Below (lexminimaxavSolver s p a alg) (lexminimaxavSolver s' p a alg) := by
  unfold lexminimaxavSolver gurobiLexminimaxav
  exact Below.ite (Below.bind (ilpMinimaxav_mono (h alg) _ _ _ _ _) fun _ => Below.bind (Below.refl _) fun _ =>
    Below.bind (lexminimaxavLoop_mono (h alg) _ _ _ _ _ _ _) fun _ => Below.refl _) (Below.refl _)

theorem minimaxphragmen_mono {s s' : String → Program → SolveResult} (h : ∀ alg, Answering (s alg) (s' alg)) (env : Env) (p : Profile)
    (a : Args) : Below (computeMinimaxphragmen env s p a) (computeMinimaxphragmen env s' p a) := by
  unfold computeMinimaxphragmen ilpMinimaxphragmen
  refine Below.bind (Below.refl _) fun alg => ?_
  have := Below.ite (c := p.approvedCandidates.length < a.k) (Below.refl (.ok (tooFewApproved p a.k a.resolute)))
    (Below.bind (optimizeRule_mono (h alg) thrMip none p a.k a.resolute a.maxNum (minimaxphragmenProgram p a.k))
    fun (r : List (List ℕ) × ℚ) => Below.refl (sortedCommittees r.1))
  exact Below.ite this (Below.ite this (Below.refl _))

theorem leximaxphragmenLoop_mono {s s' : Program → SolveResult} (h : Answering s s') (p : Profile) (k : ℕ) : ∀ n bs,
    Below (leximaxphragmenLoop s p k n bs) (leximaxphragmenLoop s' p k n bs) := by
  intro n
  induction n with
  | zero => intro bs; exact Below.refl _
  | succ n ih =>
    intro bs
    unfold leximaxphragmenLoop
    exact Below.bind (optimizeRule_mono h _ _ _ _ _ _ _) fun _ => Below.ite (Below.refl _) (ih _)

theorem leximaxphragmen_mono {s s' : String → Program → SolveResult} (h : ∀ alg, Answering (s alg) (s' alg)) (env : Env) (p : Profile)
    (a : Args) (lex : Bool) : Below (computeLeximaxphragmen env s p a lex) (computeLeximaxphragmen env s' p a lex) := by
  unfold computeLeximaxphragmen gurobiLeximaxphragmen
  refine Below.bind (Below.refl _) fun alg => Below.ite (Below.refl _) (Below.ite ?_ (Below.refl _))
  exact Below.bind (Below.ite (Below.refl _) (Below.bind (leximaxphragmenLoop_mono (h alg) _ _ _ _) fun _ =>
    Below.bind (optimizeRule_mono (h alg) _ _ _ _ _ _ _) fun _ => Below.refl _)) fun _ => Below.refl _

theorem mapM_mono {α β : Type} {f g : α → Except Err β} (h : ∀ a, Below (f a) (g a)) : ∀ l : List α, Below (l.mapM f) (l.mapM g) := by
  intro l
  induction l with
  | nil => exact Below.refl _
  | cons a l ih =>
    simp only [List.mapM_cons]
    exact Below.bind (h a) fun _ => Below.bind ih fun _ => Below.refl _

theorem maximinTied_mono {s s' : Program → SolveResult} (h : Answering s s') (iter : List ℕ → List ℕ) (p : Profile) (W : List ℕ) :
    Below (maximinTied s iter p W) (maximinTied s' iter p W) := by
  unfold maximinTied maximinScores
  refine Below.bind (mapM_mono (fun c => Below.ite (Below.refl _) ?_) _) fun _ => Below.refl _
  by_cases ho : s (maximinProgram p (W ++ [c])) = .other
  · rw [ho]; exact Below.error _ _
  · rw [h _ ho]; exact Below.refl _

theorem maximinLoop_mono {s s' : Program → SolveResult} (h : Answering s s') (iter : List ℕ → List ℕ) (p : Profile) : ∀ n W,
    Below (maximinLoop s iter p n W) (maximinLoop s' iter p n W) := by
  intro n
  induction n with
  | zero => intro W; exact Below.refl _
  | succ n ih =>
    intro W
    unfold maximinLoop
    exact Below.bind (maximinTied_mono h _ _ _) fun _ => Below.bind (Below.refl _) fun _ => ih _

theorem universes_mono {N : Type} (full : N → Bool) (out : N → List ℕ) {f g : N → Except Err (List N)} (h : ∀ n, Below (f n) (g n))
    (max : Option ℕ) : ∀ fuel ns winning, Below (universes full out f max fuel ns winning) (universes full out g max fuel ns winning) := by
  intro fuel
  induction fuel with
  | zero =>
    intro ns winning
    cases ns <;> exact Below.refl _
  | succ fuel ih =>
    intro ns winning
    cases ns with
    | nil => exact Below.refl _
    | cons n rest =>
      unfold universes
      refine Below.bind (h n) fun ns => ?_
      split
      · exact Below.refl _
      · exact ih _ _

theorem maximinSupport_mono {s s' : String → Program → SolveResult} (h : ∀ alg, Answering (s alg) (s' alg)) (env : Env)
    (iter : List ℕ → List ℕ) (p : Profile) (a : Args) :
    Below (computeMaximinSupport env s iter p a) (computeMaximinSupport env s' iter p a) := by
  unfold computeMaximinSupport maximinResolute maximinIrresolute
  refine Below.bind (Below.refl _) fun alg => Below.ite
    (Below.ite (Below.bind ?_ fun _ => Below.refl _) (Below.bind ?_ fun _ => Below.refl _)) (Below.refl _)
  · exact Below.bind (maximinLoop_mono (h alg) _ _ _ _) fun _ => Below.refl _
  · exact Below.bind (universes_mono _ _ (fun n => Below.bind (maximinTied_mono (h alg) _ _ _) fun _ => Below.refl _) _ _ _ _)
      fun _ => Below.refl _

theorem thiele_mono (w : World) {s' : String → Program → SolveResult} (h : ∀ alg, Answering (w.solve alg) (s' alg)) (sid : String)
    (p : Profile) (a : Args) : Below (w.thiele sid p a) (World.thiele { w with solve := s' } sid p a) := by
  unfold World.thiele computeThieleMethod
  cases w.env.scoreId sid with
  | error e => exact Below.refl _
  | ok s =>
    exact Below.bind (Below.refl _) fun alg => Below.bind (Below.refl _) fun _ =>
      Below.ite (Below.refl _) (Below.ite (Below.refl _) (Below.bind (thieleSolver_mono h _ _ _ _ _) fun _ => Below.refl _))

theorem lexcc_mono (env : Env) {x y : Solver} (h : ∀ alg, Below (x alg) (y alg)) (p : Profile) (a : Args) :
    Below (computeLexcc env x p a) (computeLexcc env y p a) :=
  Below.bind (Below.refl _) fun _ => Below.ite (Below.refl _) (h _)

theorem minimaxav_mono (env : Env) {x y : Solver} (h : ∀ alg, Below (x alg) (y alg)) (p : Profile) (a : Args) :
    Below (computeMinimaxav env x p a) (computeMinimaxav env y p a) :=
  Below.bind (Below.refl _) fun _ => Below.ite (Below.refl _) (Below.bind (h _) fun _ => Below.refl _)

theorem lexminimaxav_mono (env : Env) {x y : Solver} (h : ∀ alg, Below (x alg) (y alg)) (p : Profile) (a : Args) :
    Below (computeLexminimaxav env x p a) (computeLexminimaxav env y p a) :=
  Below.bind (Below.refl _) fun _ => Below.ite (Below.refl _) (Below.ite (Below.refl _) (h _))

theorem monroe_mono (env : Env) (matching : List MEdge → List MEdge) (minCost : FlowNet → Except Err ℕ) {x y : Solver}
    (h : ∀ alg, Below (x alg) (y alg)) (p : Profile) (a : Args) :
    Below (computeMonroe env matching minCost x p a) (computeMonroe env matching minCost y p a) :=
  Below.bind (Below.refl _) fun _ => Below.ite (Below.refl _) (Below.ite (Below.refl _) (Below.bind (h _) fun _ => Below.refl _))

/-- What a rule returns with a solver that may give up, it also returns with a solver that does not. -/
theorem run_mono (w : World) {s' : String → Program → SolveResult} (h : ∀ alg, Answering (w.solve alg) (s' alg)) (ruleId : String)
    (p : Profile) (a : Args) : Below (w.run ruleId p a) (World.run { w with solve := s' } ruleId p a) := by
  unfold World.run
  have R := fun {α : Type} (x : Except Err α) => Below.refl x
  refine Below.ite (R _) <| Below.ite (R _) <| Below.ite (thiele_mono w h _ _ _) <| Below.ite (thiele_mono w h _ _ _) <|
    Below.ite (thiele_mono w h _ _ _) <| Below.ite (lexcc_mono _ (lexccSolver_mono h p a) _ _) <| Below.ite (R _) <|
    Below.ite (R _) <| Below.ite (R _) <| Below.ite (R _) <| Below.ite (R _) <| Below.ite (minimaxphragmen_mono h _ _ _) <|
    Below.ite (leximaxphragmen_mono h _ _ _ _) <| Below.ite (maximinSupport_mono h _ _ _ _) <|
    Below.ite (monroe_mono _ _ _ (monroeSolver_mono h _ _ p a) _ _) <| Below.ite (R _) <|
    Below.ite (minimaxav_mono _ (minimaxavSolver_mono h p a) _ _) <| Below.ite (lexminimaxav_mono _ (lexminimaxavSolver_mono h p a) _ _) <|
    Below.ite (R _) <| Below.ite (R _) <| Below.ite (R _) <| Below.ite (R _) <| Below.ite (R _) <| Below.ite (R _) <|
    Below.ite (R _) <| Below.ite (R _) <| Below.ite (R _) <| Below.ite (thiele_mono w h _ _ _) <| Below.ite (R _) (R _)

theorem compute_mono (w : World) {s' : String → Program → SolveResult} (h : ∀ alg, Answering (w.solve alg) (s' alg)) (ruleId : String)
    (p : Profile) (k : ℤ) (result : Option (List (List ℕ))) (kw : Kwargs) :
    Below (compute w ruleId p k result kw) (compute { w with solve := s' } ruleId p k result kw) := by
  unfold compute World.computeFct
  exact Below.bind (Below.refl _) fun _ => Below.bind (run_mono w h _ _ _) fun _ => Below.refl _

/-- A solver that may give up can be completed to one that does not. -/
theorem exists_answering {s : Program → SolveResult} (h : SoundSolver s) : ∃ s', Answering s s' ∧ ExactSolver s' := by
  classical
  obtain ⟨e, he⟩ := exists_exactSolver
  refine ⟨fun P => match s P with | .other => e P | r => r, fun P hP => ?_, fun P => ?_⟩
  · cases hs : s P <;> simp_all
  · cases hs : s P with
    | other => simpa [hs] using he P
    | optimal x =>
      have := (h P).1 x hs
      exact ⟨fun _ => ⟨x, by simp [hs], this⟩, fun hno => absurd ⟨x, this.1⟩ hno⟩
    | infeasible =>
      exact ⟨fun ⟨x, hx⟩ => absurd ⟨x, hx.1⟩ ((h P).2 hs), fun _ => by simp [hs]⟩

/-- `s'` answers whatever `s` answers. -/
def AnsweringMax (s s' : MaxProgram → SolveResult) : Prop := ∀ P, s P ≠ .other → s' P = s P

theorem exists_answeringMax {s : MaxProgram → SolveResult} (h : SoundMaxSolver s) : ∃ s', AnsweringMax s s' ∧ ExactMaxSolver s' := by
  classical
  obtain ⟨e, he⟩ := exists_exactMaxSolver
  refine ⟨fun P => match s P with | .other => e P | r => r, fun P hP => ?_, fun P => ?_⟩
  · cases hs : s P <;> simp_all
  · cases hs : s P with
    | other => simpa [hs] using he P
    | optimal x =>
      have := (h P).1 x hs
      exact ⟨fun _ => ⟨x, by simp [hs], this⟩, fun hno => absurd ⟨x, this.1⟩ hno⟩
    | infeasible =>
      exact ⟨fun ⟨x, hx⟩ => absurd ⟨x, hx.1⟩ ((h P).2 hs), fun _ => by simp [hs]⟩

theorem solveCheck_mono {ω : Type} {s s' : Program → SolveResult} (h : Answering s s') (P : Program) (info : (IVar → ℚ) → ω) :
    Below (solveCheck s P info) (solveCheck s' P info) := by
  unfold solveCheck
  by_cases ho : s P = .other
  · rw [ho]; exact Below.error _ _
  · rw [h _ ho]; exact Below.refl _

theorem byAlgorithm_mono {α : Type} (algorithm : String) {x y : Except Err α} (b : Except Err α) (h : Below x y) :
    Below (byAlgorithm algorithm b x) (byAlgorithm algorithm b y) :=
  Below.ite (Below.refl _) (Below.ite h (Below.refl _))

theorem checkWith_mono {ω : Type} {f g : List ℕ → ℚ → Except Err (Option ω)} (h : ∀ W q, Below (f W q) (g W q)) (p : Profile)
    (committee : List ℤ) (quota : Option ℚ) : Below (checkWith f p committee quota) (checkWith g p committee quota) :=
  Below.bind (Below.refl _) fun _ => Below.bind (Below.refl _) fun _ => Below.bind (h _ _) fun _ => Below.refl _

theorem checkPriceability_mono {s s' : Program → SolveResult} (h : Answering s s') {m m' : MaxProgram → SolveResult}
    (hm : AnsweringMax m m') (p : Profile) (committee : List ℤ) (algorithm : String) (stable : Bool) :
    Below (checkPriceability s m p committee algorithm stable) (checkPriceability s' m' p committee algorithm stable) := by
  refine Below.bind (Below.refl _) fun W => Below.ite ?_ (Below.refl _)
  unfold checkPriceabilityGurobi
  refine Below.ite (Below.refl _) ?_
  cases stable with
  | true =>
    by_cases ho : m (stableProgram p W) = .other
    · simp only [if_true, ho]; exact Below.error _ _
    · simp only [if_true, hm _ ho]; exact Below.refl _
  | false =>
    by_cases ho : s (priceProgram p W) = .other
    · simp only [Bool.false_eq_true, if_false, ho]; exact Below.error _ _
    · simp only [Bool.false_eq_true, if_false, h _ ho]; exact Below.refl _

/-- What `check` returns with solvers that may give up, it also returns with solvers that do not. -/
theorem check_mono {s s' : Program → SolveResult} (h : Answering s s') {m m' : MaxProgram → SolveResult} (hm : AnsweringMax m m')
    (ap : List ℕ) (name : String) (p : Profile) (committee : List ℤ) (quota : Option ℚ) (algorithm : String) :
    Below (check s m ap name p committee quota algorithm) (check s' m' ap name p committee quota algorithm) := by
  unfold check
  have R := fun {α : Type} (x : Except Err α) => Below.refl x
  refine Below.ite (Below.ite (R _) ?_) <| Below.ite (R _) <| Below.ite ?_ <| Below.ite ?_ <| Below.ite (R _) <| Below.ite ?_ <|
    Below.ite (Below.ite (R _) (checkPriceability_mono h hm _ _ _ _)) <|
    Below.ite (Below.ite (R _) (checkPriceability_mono h hm _ _ _ _)) <| Below.ite ?_ (R _)
  · exact Below.bind (R _) fun _ => Below.bind (byAlgorithm_mono _ _ (solveCheck_mono h _ _)) fun _ => R _
  · exact checkWith_mono (fun W q => byAlgorithm_mono _ _ (Below.bind (R _) fun _ => solveCheck_mono h _ _)) _ _ _
  · exact checkWith_mono (fun W q => byAlgorithm_mono _ _ (Below.bind (R _) fun _ => solveCheck_mono h _ _)) _ _ _
  · exact checkWith_mono (fun W q => byAlgorithm_mono _ _ (Below.bind (R _) fun _ => solveCheck_mono h _ _)) _ _ _
  · exact checkWith_mono (fun W q => byAlgorithm_mono _ _ (solveCheck_mono h _ _)) _ _ _

end Abc
