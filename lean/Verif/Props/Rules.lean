import Verif.Lemmas.Optimal

/-!
# C19: parameter validation
-/

namespace Abc
open Spec

/-- C19: `verify_compute_parameters` raises exactly when one of the listed conditions is violated. -/
theorem C19_verify_ok_iff (ri : RuleInfo) (p : Profile) (k : ℤ) (alg : String) (resolute : Bool) (max : Option ℤ) :
    verifyComputeParameters ri p k alg resolute max = .ok () ↔
      1 ≤ k ∧ k ≤ p.numCand ∧ p.voters ≠ [] ∧ alg ∈ ri.algorithms ∧ resolute ∈ ri.resoluteValues ∧
      (∀ n, max = some n → 1 ≤ n) ∧ ¬ (max ≠ none ∧ resolute = true) := by
  unfold verifyComputeParameters
  split
  · simp; omega
  split
  · simp; omega
  split
  · rename_i h; simp [List.length_eq_zero_iff.1 h]
  split
  · rename_i h; simp [h]
  split
  · rename_i h; simp [h]
  split
  · rename_i h
    simp only [reduceCtorEq, false_iff, not_and]
    intro _ _ _ _ _ h'
    cases max with
    | none => simp at h
    | some n =>
      have := h' n rfl
      simp at h
      omega
  split
  · rename_i h
    simp only [reduceCtorEq, false_iff, not_and]
    intro _ _ _ _ _ _ h'
    obtain ⟨h1, h2⟩ := h
    exact h' (by rintro rfl; simp at h1) h2
  · rename_i h1 h2 h3 h4 h5 h6 h7
    simp only [true_iff]
    refine ⟨by omega, by omega, by simpa using h3, by simpa using h4, by simpa using h5, ?_, ?_⟩
    · rintro n rfl
      simp at h6
      omega
    · rintro ⟨h8, h9⟩
      apply h7
      exact ⟨by cases max <;> simp_all, h9⟩

/-- C19: the error raised is ValueError, UnknownAlgorithm or NotImplementedError, in the documented cases. -/
theorem C19_verify_error (ri : RuleInfo) (p : Profile) (k : ℤ) (alg : String) (resolute : Bool) (max : Option ℤ) (e : Err)
    (h : verifyComputeParameters ri p k alg resolute max = .error e) :
    (e = .valueError ∧ (k < 1 ∨ k > p.numCand ∨ p.voters = [] ∨ (∃ n, max = some n ∧ (n < 1 ∨ resolute = true)))) ∨
    (e = .unknownAlgorithm ∧ alg ∉ ri.algorithms) ∨ (e = .notImplemented ∧ resolute ∉ ri.resoluteValues) := by
  unfold verifyComputeParameters at h
  split at h
  · obtain rfl := (Except.error.inj h).symm
    exact Or.inl ⟨rfl, Or.inl (by assumption)⟩
  split at h
  · obtain rfl := (Except.error.inj h).symm
    exact Or.inl ⟨rfl, Or.inr (Or.inl (by assumption))⟩
  split at h
  · rename_i h3
    obtain rfl := (Except.error.inj h).symm
    exact Or.inl ⟨rfl, Or.inr (Or.inr (Or.inl (List.length_eq_zero_iff.1 h3)))⟩
  split at h
  · obtain rfl := (Except.error.inj h).symm
    exact Or.inr (Or.inl ⟨rfl, by assumption⟩)
  split at h
  · obtain rfl := (Except.error.inj h).symm
    exact Or.inr (Or.inr ⟨rfl, by assumption⟩)
  split at h
  · rename_i h6
    obtain rfl := (Except.error.inj h).symm
    refine Or.inl ⟨rfl, Or.inr (Or.inr (Or.inr ?_))⟩
    cases max with
    | none => simp at h6
    | some n => exact ⟨n, rfl, Or.inl (by simpa using h6)⟩
  split at h
  · rename_i h7
    obtain rfl := (Except.error.inj h).symm
    refine Or.inl ⟨rfl, Or.inr (Or.inr (Or.inr ?_))⟩
    cases max with
    | none => simp at h7
    | some n => exact ⟨n, rfl, Or.inr h7.2⟩
  · simp at h

/-- The facts guaranteed by a successful validation. -/
structure ValidCall (p : Profile) (a : Args) : Prop where
  pos : 1 ≤ a.k
  le : a.k ≤ p.numCand
  voters : p.voters ≠ []
  max : ∀ n, a.max = some n → 1 ≤ n
  excl : a.resolute = true → a.max = none

/-- C19: the call gets past the validation with algorithm `alg` iff the rule exists, `"fastest"` can be resolved (if it was
requested) and all parameters are valid. -/
theorem C19_prologue_ok_iff (env : Env) (ruleId : String) (p : Profile) (a : Args) (alg : String) :
    prologue env ruleId p a = .ok alg ↔
      ∃ ri, ruleInfo env ruleId = .ok ri ∧
        (if a.algorithm = "fastest" then ri.fastest env = .ok alg else a.algorithm = alg) ∧
        1 ≤ a.committeesize ∧ a.committeesize ≤ p.numCand ∧ p.voters ≠ [] ∧ alg ∈ ri.algorithms ∧
        a.resolute ∈ ri.resoluteValues ∧ (∀ n, a.max = some n → 1 ≤ n) ∧ ¬ (a.max ≠ none ∧ a.resolute = true) := by
  unfold prologue
  cases hri : ruleInfo env ruleId with
  | error e => simp [bind, Except.bind]
  | ok ri =>
    simp only [bind, Except.bind, Except.ok.injEq, exists_eq_left']
    by_cases hf : a.algorithm = "fastest"
    · simp only [hf, if_true]
      cases hfa : ri.fastest env with
      | error e => simp
      | ok al =>
        simp only [Except.ok.injEq]
        have hv := C19_verify_ok_iff ri p a.committeesize al a.resolute a.max
        cases hver : verifyComputeParameters ri p a.committeesize al a.resolute a.max with
        | error e =>
          rw [hver] at hv
          simp only [reduceCtorEq, false_iff] at hv ⊢
          rintro ⟨rfl, h⟩
          exact hv h
        | ok u =>
          rw [hver] at hv
          have := hv.1 rfl
          simp only [Except.ok.injEq]
          constructor
          · rintro rfl; exact ⟨rfl, this⟩
          · exact fun h => h.1
    · simp only [hf, if_false]
      have hv := C19_verify_ok_iff ri p a.committeesize a.algorithm a.resolute a.max
      cases hver : verifyComputeParameters ri p a.committeesize a.algorithm a.resolute a.max with
      | error e =>
        rw [hver] at hv
        simp only [reduceCtorEq, false_iff] at hv ⊢
        rintro ⟨rfl, h⟩
        exact hv h
      | ok u =>
        rw [hver] at hv
        have := hv.1 rfl
        simp only [Except.ok.injEq]
        constructor
        · rintro rfl; exact ⟨rfl, this⟩
        · exact fun h => h.1

theorem validCall_of_prologue {env : Env} {ruleId : String} {p : Profile} {a : Args} {alg : String}
    (h : prologue env ruleId p a = .ok alg) : ValidCall p a := by
  obtain ⟨ri, -, -, h1, h2, h3, -, -, h4, h5⟩ := (C19_prologue_ok_iff env ruleId p a alg).1 h
  refine ⟨?_, ?_, h3, h4, ?_⟩
  · unfold Args.k; omega
  · unfold Args.k; omega
  · intro h
    by_contra hne
    exact h5 ⟨hne, h⟩

/-- C19: every `compute_…` function of the model fails with the validation error whenever the validation fails
(no computation happens: the result does not depend on anything else).  Stated for the functions modelled so far;
each of them starts with `prologue`. -/
theorem C19_compute_fails (env : Env) (p : Profile) (a : Args) (e : Err) (solver : Solver) (sid : String)
    (h : prologue env sid p a = .error e) : computeThieleMethod env sid solver p a = .error e := by
  unfold computeThieleMethod
  rw [h]
  rfl

/-- C19: a call past validation always uses an algorithm the rule lists, and `"fastest"` is the first listed algorithm that is
available. -/
theorem C19_fastest (env : Env) (ri : RuleInfo) (alg : String) (h : ri.fastest env = .ok alg) :
    ∃ l₁ l₂, ri.algorithms = l₁ ++ alg :: l₂ ∧ alg ∈ env.available ∧ ∀ b ∈ l₁, b ∉ env.available := by
  unfold RuleInfo.fastest at h
  split at h
  · rename_i al rest hf
    obtain rfl := Except.ok.inj h
    obtain ⟨l₁, l₂, h1, h2, h3⟩ := List.filter_eq_cons_iff.1 hf
    refine ⟨l₁, l₂, h1, by simpa using h3.1, ?_⟩
    intro b hb
    simpa using h2 b hb
  · simp at h

/-- A non-trivial case: PAV by brute force on a profile with two voters is a valid call, `"fastest"` resolves to the installed
algorithm, and an oversized committee is rejected. -/
def exampleEnv : Env := ⟨["branch-and-bound", "brute-force", "standard", "standard-fractions"], fun _ => none, fun _ => none⟩
def exampleProfile : Profile := ⟨3, [⟨[0, 1], 1⟩, ⟨[1, 2], 2⟩], []⟩

example : prologue exampleEnv "pav" exampleProfile { committeesize := 2, algorithm := "brute-force", resolute := false }
    = .ok "brute-force" := by decide +kernel
example : prologue exampleEnv "pav" exampleProfile { committeesize := 2, resolute := false }
    = .ok "branch-and-bound" := by decide +kernel
example : prologue exampleEnv "pav" exampleProfile { committeesize := 4, resolute := false }
    = .error .valueError := by decide +kernel
example : prologue exampleEnv "greedy-monroe" exampleProfile { committeesize := 2, resolute := false }
    = .error .notImplemented := by decide +kernel
example : prologue exampleEnv "seqpav" exampleProfile { committeesize := 2, resolute := true, max := some 3 }
    = .error .valueError := by decide +kernel
example : prologue exampleEnv "seqphragmn" exampleProfile { committeesize := 2, resolute := true }
    = .error .unknownRuleID := by decide +kernel

end Abc
