import Verif.Model.Keywords
import Verif.Props.Leximax
import Verif.Props.Dispatch

/-!
# C82: the keyword arguments `completion`, `lexicographic_tiebreaking`, `skip_phragmen_phase`, and unknown keywords
-/

namespace Abc

open Spec

/-- **C82** Without any of these keywords the call is the one of C31. -/
theorem C82_default (w : World) (ruleId : String) (p : Profile) (k : ℤ) (result : Option (List (List ℕ))) (kw : Kwargs) :
    computeWith w ruleId p k result kw {} = compute w ruleId p k result kw := by
  have h : w.computeFctWith ruleId p k kw {} = w.computeFct ruleId p k kw := by
    unfold World.computeFctWith
    simp
  unfold computeWith compute
  rw [h]
  rfl

/-- The rule id a value of `completion` stands for. -/
def completionIds : List (Completion × String) :=
  [(.none, "equal-shares-without-completion"), (.seqphragmen, "equal-shares"), (.av, "equal-shares-with-av-completion"),
   (.increment, "equal-shares-with-increment-completion")]

theorem ruleInfo_equalShares (env : Env) {ruleId : String} (h : ruleId ∈ equalSharesIds) :
    ∃ rv, ruleInfo env ruleId = .ok ⟨fractionAlgorithms, true :: rv⟩ := by
  simp only [equalSharesIds, List.mem_cons, List.not_mem_nil, or_false] at h
  rcases h with rfl | rfl | rfl | rfl | rfl | rfl | rfl | rfl
  all_goals first | exact ⟨[false], rfl⟩ | exact ⟨[], rfl⟩

theorem signatureDefaults_equalShares {ruleId : String} (h : ruleId ∈ equalSharesIds) : signatureDefaults ruleId = ("fastest", true) := by
  simp only [equalSharesIds, List.mem_cons, List.not_mem_nil, or_false] at h
  rcases h with rfl | rfl | rfl | rfl | rfl | rfl | rfl | rfl <;> decide +kernel

/-- **C82** For all ids of the Method of Equal Shares, a keyword `completion` replaces the completion of the id: the call is the same
as the call with the id of that completion, for all values of the other parameters (including `result`). -/
theorem C82_completion (w : World) (ruleId : String) (hr : ruleId ∈ equalSharesIds) (c : Completion) (id : String)
    (hc : (c, id) ∈ completionIds) (p : Profile) (k : ℤ) (result : Option (List (List ℕ))) (kw : Kwargs) :
    computeWith w ruleId p k result kw { completion := some c } = compute w id p k result kw := by
  have hid : id ∈ equalSharesIds := by
    revert hc
    simp only [completionIds, List.mem_cons, List.not_mem_nil, or_false, Prod.mk.injEq]
    rintro (⟨-, rfl⟩ | ⟨-, rfl⟩ | ⟨-, rfl⟩ | ⟨-, rfl⟩) <;> decide
  obtain ⟨rv, h1⟩ := ruleInfo_equalShares w.env hr
  obtain ⟨rv', h2⟩ := ruleInfo_equalShares w.env hid
  have h3 : w.computeFctWith ruleId p k kw { completion := some c } = w.computeFct id p k kw := by
    unfold World.computeFctWith World.computeFct
    simp only [ne_eq, not_true_eq_false, Option.isSome_none, Bool.false_eq_true, or_self, if_false, hr, and_false, false_and]
    rw [signatureDefaults_equalShares hr, signatureDefaults_equalShares hid]
    revert hc
    simp only [completionIds, List.mem_cons, List.not_mem_nil, or_false, Prod.mk.injEq]
    rintro (⟨rfl, rfl⟩ | ⟨rfl, rfl⟩ | ⟨rfl, rfl⟩ | ⟨rfl, rfl⟩) <;> rfl
  unfold computeWith compute
  rw [h1, h2, h3]
  rfl

/-- **C82** An unknown completion is a `ValueError`. -/
theorem C82_completion_unknown (w : World) (ruleId : String) (hr : ruleId ∈ equalSharesIds) (s : String) (p : Profile) (k : ℤ)
    (result : Option (List (List ℕ))) (kw : Kwargs) :
    computeWith w ruleId p k result kw { completion := some (.other s) } = .error .valueError := by
  obtain ⟨rv, h1⟩ := ruleInfo_equalShares w.env hr
  unfold computeWith World.computeFctWith
  rw [h1]
  simp only [bind, Except.bind, ne_eq, not_true_eq_false, Option.isSome_none, Bool.false_eq_true, or_self, if_false, hr, and_false, false_and]
  rfl

/-- **C82** What a call with `completion` elects (exact arithmetic). -/
theorem C82_completion_elects (w : World) (hw : w.Exact) (p : Profile) (hp : p.WF) (a : Args) (ruleId alg : String)
    (hr : ruleId ∈ equalSharesIds) (c : Completion) (id : String) (hc : (c, id) ∈ completionIds)
    (hal : prologue w.env id p a = .ok alg) {S : Finset ℕ → Prop} (hS : Elects w p a.k alg id S) :
    Answers a (computeWith w ruleId p a.committeesize none a.kw { completion := some c }) S := by
  rw [C82_completion w ruleId hr c id hc]
  exact C31_compute w hw p hp a id alg hal hS

/-- **C82** `compute_rule_x` is Equal Shares without completion if `skip_phragmen_phase=True`, and Equal Shares (completed with
seq-Phragmén) otherwise. -/
theorem C82_rule_x (w : World) (p : Profile) (a : Args) (skip : Bool) :
    computeRuleX w.env (w.floatFor (if skip = true then .none else .seqphragmen) p a) skip p a
      = w.run (if skip = true then "equal-shares-without-completion" else "equal-shares") p a := by
  cases skip <;> rfl

/-- **C82** What `compute_rule_x` elects (exact arithmetic). -/
theorem C82_rule_x_elects (w : World) (hw : w.Exact) (p : Profile) (hp : p.WF) (a : Args) (alg : String) (skip : Bool)
    (hal : prologue w.env (if skip = true then "equal-shares-without-completion" else "equal-shares") p a = .ok alg)
    (hweights : skip = false → ApproversAtLeastOne p) (hex : ExactAlg w.env alg) :
    Answers a (computeRuleX w.env (w.floatFor (if skip = true then .none else .seqphragmen) p a) skip p a)
      (MESWinner p a.k (if skip = true then .none else .seqphragmen) (a.k / total p)) := by
  rw [C82_rule_x, ← compute_none hal]
  cases skip with
  | true => exact C31_compute w hw p hp a _ alg hal (.equalSharesNone (by simp) hex)
  | false => exact C31_compute w hw p hp a _ alg hal (.equalShares (by simp) (hweights rfl) hex)

/-- **C82** `TypeError`: unknown keywords, `completion` for rules other than Equal Shares, `lexicographic_tiebreaking` for rules other
than leximax-Phragmén, and `skip_phragmen_phase` for all rule ids (also `"rule-x"`). -/
theorem C82_type_error (w : World) (ruleId : String) {ri : RuleInfo} (hri : ruleInfo w.env ruleId = .ok ri) (p : Profile) (k : ℤ)
    (result : Option (List (List ℕ))) (kw : Kwargs) (e : Extra)
    (he : e.others ≠ [] ∨ e.skipPhragmen ≠ none ∨ (e.completion ≠ none ∧ ruleId ∉ equalSharesIds) ∨
      (e.lexTie ≠ none ∧ ruleId ≠ "leximaxphragmen")) :
    computeWith w ruleId p k result kw e = .error .typeError := by
  have h : w.computeFctWith ruleId p k kw e = .error .typeError := by
    unfold World.computeFctWith
    split
    · rfl
    · split
      · rfl
      · split
        · rfl
        · rename_i h1 h2 h3
          simp only [not_or, not_and, not_not, Option.isSome_iff_ne_none] at h1 h2 h3
          rcases he with h | h | ⟨h, h'⟩ | ⟨h, h'⟩
          · exact absurd h1.1 h
          · exact absurd h1.2 (by simpa using h)
          · exact absurd (h2 h) h'
          · exact absurd (h3 h) h'
  unfold computeWith
  rw [hri]
  simp only [bind, Except.bind, h]

/-- **C82** An unknown rule id is reported before anything else. -/
theorem C82_unknown_rule (w : World) (ruleId : String) {err : Err} (hri : ruleInfo w.env ruleId = .error err) (p : Profile) (k : ℤ)
    (result : Option (List (List ℕ))) (kw : Kwargs) (e : Extra) : computeWith w ruleId p k result kw e = .error err := by
  unfold computeWith
  rw [hri]
  rfl

theorem computeWith_lexTie (w : World) (p : Profile) (a : Args) (b : Bool) :
    computeWith w "leximaxphragmen" p a.committeesize none a.kw { lexTie := some b } = computeLeximaxphragmen w.env w.solve p a b := by
  unfold computeWith
  have h : w.computeFctWith "leximaxphragmen" p a.committeesize a.kw { lexTie := some b } = computeLeximaxphragmen w.env w.solve p a b := by
    unfold World.computeFctWith
    simp only [ne_eq, not_true_eq_false, Option.isSome_none, Bool.false_eq_true, or_self, if_false, false_and, and_false]
    rfl
  rw [h]
  change (do let committees ← computeLeximaxphragmen w.env w.solve p a b; Except.ok committees) = _
  cases computeLeximaxphragmen w.env w.solve p a b <;> rfl

/-- **C82** `lexicographic_tiebreaking=False` changes nothing. -/
theorem C82_lexicographic_false (w : World) (p : Profile) (a : Args) {alg : String} (hal : prologue w.env "leximaxphragmen" p a = .ok alg) :
    computeWith w "leximaxphragmen" p a.committeesize none a.kw { lexTie := some false }
      = compute w "leximaxphragmen" p a.committeesize none a.kw := by
  rw [computeWith_lexTie, compute_none hal]
  rfl

/-- **C82** `lexicographic_tiebreaking=True` needs `resolute=True`; then the committee returned is the first one, in the order of the
printed committees, of all winning committees. -/
theorem C82_lexicographic (w : World) (hw : w.Exact) (p : Profile) (hp : p.WF) (hweights : ∀ v ∈ p.voters, 1 ≤ v.weight) (a : Args)
    (alg : String) (hal : prologue w.env "leximaxphragmen" p a = .ok alg) (hen : a.k ≤ (approvedSet p).card) :
    (a.resolute = false →
      computeWith w "leximaxphragmen" p a.committeesize none a.kw { lexTie := some true } = .error .valueError) ∧
    (a.resolute = true → ∃ W,
      computeWith w "leximaxphragmen" p a.committeesize none a.kw { lexTie := some true } = .ok [W] ∧ W.Pairwise (· < ·) ∧
      LevelWinner (1 / 10 ^ 8) (1 / 10 ^ 7) (1 / 10 ^ 7) p a.k W.toFinset ∧
      ∀ V : List ℕ, V.Pairwise (· < ·) → LevelWinner (1 / 10 ^ 8) (1 / 10 ^ 7) (1 / 10 ^ 7) p a.k V.toFinset → strKey W ≤ strKey V) := by
  rw [computeWith_lexTie]
  exact ⟨C70_lexicographic_rejects w.env w.solve p a alg hal, C70_lexicographic w.env w.solve p hp hweights a alg hal (hw.solve alg) hen⟩

/-! ### Arithmetic that is not installed -/

theorem withFractions_gmpy2 {env : Env} (h : "gmpy2-fractions" ∉ env.available) (x y : Except Err (List (List ℕ))) :
    withFractions env "gmpy2-fractions" x y = .error .importError := by
  unfold withFractions
  rw [if_neg (by decide), if_neg (by decide), if_pos rfl, if_pos h]

/-- **C19** A rule with fractions called with `algorithm="gmpy2-fractions"` raises `ImportError` if gmpy2 is not installed (Equal Shares
with increment completion only if enough candidates are approved). -/
theorem C19_gmpy2_missing (w : World) (hg : "gmpy2-fractions" ∉ w.env.available) (p : Profile) (a : Args) (ruleId : String)
    (hr : ruleId ∈ "seqphragmen" :: "phragmen-enestroem" :: "consensus-rule" :: "eph" :: equalSharesIds)
    (hal : prologue w.env ruleId p a = .ok "gmpy2-fractions")
    (hinc : ruleId = "equal-shares-with-increment-completion" → a.k ≤ p.approvedCandidates.length) :
    compute w ruleId p a.committeesize none a.kw = .error .importError := by
  rw [compute_none hal]
  have hes : ∀ c id float, (c, id) ∈ completionIds → prologue w.env id p a = .ok "gmpy2-fractions" → c ≠ .increment →
      computeEqualShares w.env float c p a = .error .importError := by
    intro c id float hc h hne
    have : c.ruleId = .ok id := by
      revert hc
      simp only [completionIds, List.mem_cons, List.not_mem_nil, or_false, Prod.mk.injEq]
      rintro (⟨rfl, rfl⟩ | ⟨rfl, rfl⟩ | ⟨rfl, rfl⟩ | ⟨rfl, rfl⟩) <;> rfl
    unfold computeEqualShares
    rw [this]
    simp only [bind, Except.bind, h, if_neg hne, withFractions_gmpy2 hg]
  simp only [equalSharesIds, List.mem_cons, List.not_mem_nil, or_false] at hr
  rcases hr with rfl | rfl | rfl | rfl | rfl | rfl | rfl | rfl | rfl | rfl | rfl | rfl
  · change computeSeqphragmen w.env _ p a = _
    unfold computeSeqphragmen
    rw [hal]
    simp only [bind, Except.bind, withFractions_gmpy2 hg]
  · change computeEnestroem w.env _ p a = _
    unfold computeEnestroem
    rw [hal]
    simp only [bind, Except.bind, withFractions_gmpy2 hg]
  · change computeConsensus w.env _ p a = _
    unfold computeConsensus
    rw [hal]
    simp only [bind, Except.bind, withFractions_gmpy2 hg]
  · change computeEph w.env _ _ p a = _
    unfold computeEph
    rw [hal]
    simp only [bind, Except.bind, withFractions_gmpy2 hg]
  · exact hes .seqphragmen "equal-shares" _ (by decide) hal (by decide)
  · exact hes .seqphragmen "equal-shares" _ (by decide) hal (by decide)
  · exact hes .seqphragmen "equal-shares" _ (by decide) hal (by decide)
  · exact hes .av _ _ (by decide) hal (by decide)
  · change computeEqualShares w.env _ .increment p a = _
    unfold computeEqualShares
    change (do let algorithm ← prologue w.env "equal-shares-with-increment-completion" p a; _) = _
    rw [hal]
    simp only [bind, Except.bind, if_true, equalSharesIncrement, if_neg (not_lt.2 (hinc rfl)), withFractions_gmpy2 hg]
  · exact hes .none "equal-shares-without-completion" _ (by decide) hal (by decide)
  · exact hes .none "equal-shares-without-completion" _ (by decide) hal (by decide)
  · exact hes .none "equal-shares-without-completion" _ (by decide) hal (by decide)

example (w : World) (hw : w.env = exampleEnv) :
    compute w "seqphragmen" exampleProfile 2 none (Args.kw { committeesize := 2, algorithm := "gmpy2-fractions", resolute := true })
      = .error .importError :=
  C19_gmpy2_missing w (by rw [hw]; decide) exampleProfile { committeesize := 2, algorithm := "gmpy2-fractions", resolute := true }
    "seqphragmen" (by simp) (by rw [hw]; decide +kernel) (by decide)

/-! ### Examples -/

/-- `compute("equal-shares-with-av-completion", …, completion="increment")` is Equal Shares with increment completion. -/
example (w : World) (p : Profile) (k : ℤ) (kw : Kwargs) :
    computeWith w "equal-shares-with-av-completion" p k none kw { completion := some .increment }
      = compute w "equal-shares-with-increment-completion" p k none kw :=
  C82_completion w _ (by decide) .increment _ (by decide) p k none kw

/-- `compute("rule-x", …, skip_phragmen_phase=True)` raises `TypeError`. -/
example (w : World) (p : Profile) (k : ℤ) (kw : Kwargs) :
    computeWith w "rule-x" p k none kw { skipPhragmen := some true } = .error .typeError :=
  C82_type_error w "rule-x" (ri := ⟨fractionAlgorithms, resSeq⟩) rfl p k none kw _ (by simp)

example (w : World) (hw : w.env = exampleEnv) (hwe : w.Exact) :
    Answers { committeesize := 2, algorithm := "standard-fractions", resolute := true }
      (computeWith w "rule-x" exampleProfile 2 none
        (Args.kw { committeesize := 2, algorithm := "standard-fractions", resolute := true }) { completion := some .none })
      (MESWinner exampleProfile 2 .none (2 / total exampleProfile)) :=
  C82_completion_elects w hwe exampleProfile exampleProfile_wf _ "rule-x" "standard-fractions" (by decide) .none
    "equal-shares-without-completion" (by decide) (by rw [hw]; decide +kernel) (.equalSharesNone (by simp) (Or.inl rfl))

end Abc
