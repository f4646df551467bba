import Verif.Props.FloatAccuracyPhase

/-!
# C94: the Method of Equal Shares with "float-fractions" returns the result of exact arithmetic
-/

namespace Abc
open Spec

/-- Integer weights whose total is so small, and so few voters and seats, that rounding errors do not matter. -/
structure Spec.SmallShares (p : Profile) (k : ℕ) (completion : Completion) : Prop where
  integer : IntegerWeights p
  shares : 2 * k * total p ^ (k + 2) ≤ 10 ^ 12
  roundings : (k + 1) * (p.voters.length + k + 5) ≤ 360
  phase : completion = .seqphragmen → k * k * (p.voters.length + 8) ≤ 360
  increments : completion = .increment → (k + 1) * (p.voters.length + k * total p + 5) ≤ 360

section
variable {p : Profile}

theorem Spec.SmallShares.moderate {k : ℕ} (hk : 1 ≤ k) {completion : Completion} (h : SmallShares p k completion) : Moderate p k := by
  obtain ⟨T, hT⟩ : ∃ T : ℕ, total p = T := wt_integer h.integer Finset.univ
  have hl : 2 * k * total p ^ (k + 1) ≤ 10 ^ 12 := by
    refine le_trans ?_ h.shares
    rw [hT]
    have : T ^ (k + 1) ≤ T ^ (k + 2) := by
      rcases Nat.eq_zero_or_pos T with rfl | hT0
      · simp
      · exact Nat.pow_le_pow_right hT0 (by omega)
    have : (T : ℚ) ^ (k + 1) ≤ (T : ℚ) ^ (k + 2) := by exact_mod_cast this
    gcongr
  have hr : k * (2 * p.voters.length + 8) ≤ 2000 := by
    have := h.roundings
    nlinarith
  exact SmallElection.moderate hk ⟨h.integer, hl, hr⟩

theorem Spec.SmallShares.separated (hp : p.WF) {k : ℕ} (hk : 1 ≤ k) {completion : Completion} (h : SmallShares p k completion) (B : ℕ) :
    SharesSeparated p k B := by
  refine sharesSeparated_of_small hp h.integer k B (le_trans ?_ h.shares)
  have ht0 : 0 ≤ total p := Finset.sum_nonneg (fun i _ => (weight_pos hp i).le)
  have hk' : (1 : ℚ) ≤ k := by exact_mod_cast hk
  have : 0 ≤ total p ^ (k + 2) := by positivity
  nlinarith

end

section
variable {F : Type} {A : Arith F}

/-- The completions that do not depend on the budgets: floats and fractions agree if different shares are well separated. -/
theorem C94_separated (hA : Sound A) (hS : SignedAccurate A) (hAc : Accurate A) {ord : List (Voter × F) → List (Voter × F)}
    (hord : Rearranges ord) (p : Profile) (hp : p.WF) (k : ℕ) (hm : Moderate p k)
    (hfew : (k + 1) * (p.voters.length + k + 5) ≤ 360) (hsep : SharesSeparated p k k) (completion : Completion)
    (hc : completion = .none ∨ completion = .av) (rid : String) (hid : completion.ruleId = .ok rid) (env : Env)
    (float : Except Err (List (List ℕ))) (a a' : Args) (hak : a.k = k) (hak' : a'.k = k) (alg : String) (hex : ExactAlg env alg)
    (hal : prologue env rid p a = .ok "float-fractions") (hal' : prologue env rid p a' = .ok alg)
    (hr : a'.resolute = a.resolute) (hmax : a'.max = a.max) :
    computeEqualShares env (floatEqualShares A ord completion p a) completion p a = computeEqualShares env float completion p a' := by
  have hv := validCall_of_prologue hal
  have hk1 : 1 ≤ k := hak ▸ hv.pos
  have hmn : a'.maxNum = a.maxNum := by unfold Args.maxNum; rw [hmax]
  rcases hc with rfl | rfl
  all_goals
    unfold computeEqualShares floatEqualShares
    rw [hid]
    simp only [bind, Except.bind, hal, hal', reduceCtorEq, if_false]
    rw [withFractions_exact hex, withFractions_float, hak, hak', hr, hmn,
      fEqualShares_eq hA hS hAc hord hp hm hk1 hfew hsep a.resolute _ _ (fStart_none hA hS hp hv.voters hm) (startBudget_none p k)
        (fun _ _ _ _ _ _ => rfl)]

/-- C94: with integer weights and small numbers, Equal Shares with floats returns the same list as with fractions, for all
completions. -/
theorem C94_equal_shares (hA : Sound A) (hS : SignedAccurate A) (hAc : Accurate A) (hF : FractionExact A)
    {ord : List (Voter × F) → List (Voter × F)} (hord : Rearranges ord) (p : Profile) (hp : p.WF) (k : ℕ) (completion : Completion)
    (hs : SmallShares p k completion) (rid : String) (hid : completion.ruleId = .ok rid) (env : Env)
    (float : Except Err (List (List ℕ))) (a a' : Args) (hak : a.k = k) (hak' : a'.k = k) (alg : String) (hex : ExactAlg env alg)
    (hal : prologue env rid p a = .ok "float-fractions") (hal' : prologue env rid p a' = .ok alg)
    (hr : a'.resolute = a.resolute) (hmax : a'.max = a.max) :
    computeEqualShares env (floatEqualShares A ord completion p a) completion p a = computeEqualShares env float completion p a' := by
  have hv := validCall_of_prologue hal
  have hk1 : 1 ≤ k := hak ▸ hv.pos
  have hk : k ≤ p.numCand := hak ▸ hv.le
  have hm := hs.moderate hk1
  have hsep := hs.separated hp hk1
  have hmn : a'.maxNum = a.maxNum := by unfold Args.maxNum; rw [hmax]
  cases completion with
  | none =>
    exact C94_separated hA hS hAc hord p hp k hm hs.roundings (hsep k) .none (Or.inl rfl) rid hid env float a a' hak hak' alg hex hal hal'
      hr hmax
  | av =>
    exact C94_separated hA hS hAc hord p hp k hm hs.roundings (hsep k) .av (Or.inr rfl) rid hid env float a a' hak hak' alg hex hal hal'
      hr hmax
  | seqphragmen =>
    unfold computeEqualShares floatEqualShares
    rw [hid]
    simp only [bind, Except.bind, hal, hal', reduceCtorEq, if_false]
    rw [withFractions_exact hex, withFractions_float, hak, hak', hr, hmn,
      fEqualShares_eq hA hS hAc hord hp hm hk1 hs.roundings (hsep k) a.resolute _ _ (fStart_none hA hS hp hv.voters hm)
        (startBudget_none p k) ?_]
    intro W y x hR hW hdone
    have hx := hR.exact0 hp
    have hsum : ∑ i, x i ≤ (k : ℚ) - W.length := by
      have ht0 : 0 ≤ total p := Finset.sum_nonneg (fun i _ => (weight_pos hp i).le)
      rw [(C36_budgets p hp (k / total p) (div_nonneg (by positivity) ht0) W x hR.run).2.1]
      have h3 : (k : ℚ) / total p * total p ≤ k := by
        rcases ht0.lt_or_eq with ht | ht
        · rw [div_mul_cancel₀ _ ht.ne']
        · rw [← ht]; simp
      linarith
    have hsmall : budgetError p k W.length ≤ 4 / 10 ^ 13 := by
      have h1 := budgetError_small (p := p) (k := k) (B := k) hs.roundings hW.le
      have h2 := priceError_nonneg (p := p)
      linarith
    exact fPhragmenPhase_eq hA hS hAc hp hm hk
      ⟨hx, hdone, hsum, hW, hs.phase rfl, loadsApart_of_small hp hs.integer hs.shares hR.run hx hdone⟩ hR hsmall a.resolute
  | increment =>
    unfold computeEqualShares floatEqualShares equalSharesIncrement
    rw [hid]
    simp only [bind, Except.bind, hal, hal', if_true]
    rw [withFractions_exact hex, withFractions_float, hak, hak', fIncrementRange_eq hA hm]
    have hmem : ∀ B ∈ incrementRange p k, 0 < B ∧ (B : ℚ) ≤ k * total p := by
      intro B hB
      unfold incrementRange at hB
      rw [List.mem_filter, List.mem_range, decide_eq_true_eq, totalWeight_eq] at hB
      obtain ⟨h1, h2⟩ := hB
      refine ⟨by omega, ?_⟩
      obtain ⟨T, hT⟩ : ∃ T : ℕ, total p = T := wt_integer hs.integer Finset.univ
      rw [hT] at h1 ⊢
      have e : ((k : ℚ) * (T : ℚ) + 1) = ((k * T + 1 : ℕ) : ℚ) := by push_cast; ring
      rw [e] at h1
      have h3 : B < k * T + 1 := by
        rwa [Int.ceil_natCast, Int.toNat_natCast] at h1
      have : B ≤ k * T := by omega
      exact_mod_cast this
    rw [fIncrementLoop_eq hA hS hAc hF hord hp hv.voters hm hk1 (incrementRange p k) ?_ (fun B _ => hsep B) (fun B hB => (hmem B hB).1)]
    intro B hB
    have h1 := (hmem B hB).2
    have h2 := hs.increments rfl
    unfold FewRoundingsShares
    have h3 : ((k : ℚ) + 1) * (p.voters.length + B + 5) ≤ 360 := le_trans (by gcongr) h2
    exact_mod_cast h3
  | other s => exact absurd hid (by simp [Completion.ruleId])

end

/-- The ids of Equal Shares by completion (abcrules.py, `Rule.__init__`). -/
def idsOfCompletion : Completion → List String
  | .seqphragmen => ["rule-x", "equal-shares", "equal-shares-with-seqphragmen-completion"]
  | .av => ["equal-shares-with-av-completion"]
  | .increment => ["equal-shares-with-increment-completion"]
  | .none => ["rule-x-without-phragmen-phase", "equal-shares-without-phragmen-phase", "equal-shares-without-completion"]
  | .other _ => []

/-- C94 for calls of `compute`. -/
theorem C94_compute {F : Type} {A : Arith F} (hA : Sound A) (hS : SignedAccurate A) (hAc : Accurate A) (hF : FractionExact A)
    (ord : List (Voter × F) → List (Voter × F)) (hord : Rearranges ord) (w : World) (hfl : w.float = floatFractions A ord w.iter)
    (p : Profile) (hp : p.WF) (k : ℕ) (completion : Completion) (hs : SmallShares p k completion) (ruleId : String)
    (hid : ruleId ∈ idsOfCompletion completion)
    (a a' : Args) (hak : a.k = k) (hak' : a'.k = k) (hr : a'.resolute = a.resolute) (hmax : a'.max = a.max)
    (hal : prologue w.env ruleId p a = .ok "float-fractions") (alg : String) (hal' : prologue w.env ruleId p a' = .ok alg)
    (hex : ExactAlg w.env alg) :
    compute w ruleId p a.committeesize none a.kw = compute w ruleId p a'.committeesize none a'.kw := by
  rw [compute_none hal, compute_none hal']
  have main : ∀ rid, completion.ruleId = .ok rid → ruleInfo w.env rid = ruleInfo w.env ruleId →
      (∀ a, w.run ruleId p a = computeEqualShares w.env (floatEqualShares A ord completion p a) completion p a) →
      w.run ruleId p a = w.run ruleId p a' := by
    intro rid hrid he hrun
    rw [hrun, hrun]
    exact C94_equal_shares hA hS hAc hF hord p hp k completion hs rid hrid w.env _ a a' hak hak' alg hex
      (by rw [prologue_alias he]; exact hal) (by rw [prologue_alias he]; exact hal') hr hmax
  cases completion with
  | seqphragmen =>
    simp only [idsOfCompletion, List.mem_cons, List.not_mem_nil, or_false] at hid
    refine main "equal-shares" rfl (by rcases hid with rfl | rfl | rfl <;> rfl) (fun a => ?_)
    rcases hid with rfl | rfl | rfl
    · change computeEqualShares w.env (w.float "rule-x" p a) .seqphragmen p a = _
      rw [hfl]; rfl
    · change computeEqualShares w.env (w.float "equal-shares" p a) .seqphragmen p a = _
      rw [hfl]; rfl
    · change computeEqualShares w.env (w.float "equal-shares-with-seqphragmen-completion" p a) .seqphragmen p a = _
      rw [hfl]; rfl
  | av =>
    simp only [idsOfCompletion, List.mem_singleton] at hid
    subst hid
    refine main "equal-shares-with-av-completion" rfl rfl (fun a => ?_)
    change computeEqualShares w.env (w.float "equal-shares-with-av-completion" p a) .av p a = _
    rw [hfl]; rfl
  | increment =>
    simp only [idsOfCompletion, List.mem_singleton] at hid
    subst hid
    refine main "equal-shares-with-increment-completion" rfl rfl (fun a => ?_)
    change computeEqualShares w.env (w.float "equal-shares-with-increment-completion" p a) .increment p a = _
    rw [hfl]; rfl
  | none =>
    simp only [idsOfCompletion, List.mem_cons, List.not_mem_nil, or_false] at hid
    refine main "equal-shares-without-completion" rfl (by rcases hid with rfl | rfl | rfl <;> rfl) (fun a => ?_)
    rcases hid with rfl | rfl | rfl
    · change computeEqualShares w.env (w.float "rule-x-without-phragmen-phase" p a) .none p a = _
      rw [hfl]; rfl
    · change computeEqualShares w.env (w.float "equal-shares-without-phragmen-phase" p a) .none p a = _
      rw [hfl]; rfl
    · change computeEqualShares w.env (w.float "equal-shares-without-completion" p a) .none p a = _
      rw [hfl]; rfl
  | other s => simp [idsOfCompletion] at hid

/-- C94 for Python's arithmetic. -/
theorem C94_python (weight : ℚ → PyNum) (hw : ∀ q, (weight q).val = q) (hwi : ∀ z : ℤ, weight z = .int z) (sum : List PyNum → PyNum)
    (hs : SumSound PyNum.val sum) (hsi : ∀ l : List ℤ, sum (l.map PyNum.int) = .int l.sum) (hsa : SumAccurate PyNum.val sum)
    (hss : SumSigned PyNum.val sum) (ord : List (Voter × PyNum) → List (Voter × PyNum)) (hord : Rearranges ord)
    (w : World) (hfl : w.float = floatFractions (pyArith weight sum) ord w.iter) (p : Profile) (hp : p.WF) (k : ℕ)
    (completion : Completion) (hsm : SmallShares p k completion) (ruleId : String) (hid : ruleId ∈ idsOfCompletion completion)
    (a a' : Args) (hak : a.k = k) (hak' : a'.k = k) (hr : a'.resolute = a.resolute) (hmax : a'.max = a.max)
    (hal : prologue w.env ruleId p a = .ok "float-fractions") (alg : String) (hal' : prologue w.env ruleId p a' = .ok alg)
    (hex : ExactAlg w.env alg) :
    compute w ruleId p a.committeesize none a.kw = compute w ruleId p a'.committeesize none a'.kw :=
  C94_compute (pyArith_sound weight hw sum hs) (pyArith_signed weight sum hss) (pyArith_accurate weight sum hsa)
    (fractionExact_py weight hwi sum hsi) ord hord w hfl p hp k completion hsm ruleId hid a a' hak hak' hr hmax hal alg hal' hex

/-! ## The bounds matter -/

/-- Three voters with very large weights. -/
def bigShares : Profile := ⟨3, [⟨[0], 10 ^ 12⟩, ⟨[0, 1], 10 ^ 12⟩, ⟨[1], 3 * 10 ^ 12⟩], []⟩

/-- C94 (finding): without a bound on the weights the two algorithms disagree: the prices are closer than the absolute tolerance of
`isclose`, so that candidate 0 is bought first although candidate 1 costs its supporters half as much; the committees have different
sizes. -/
theorem C94_large_weights : bigShares.WF ∧ Moderate bigShares 3 ∧
    compute bothWorld "equal-shares-without-completion" bigShares 3 none { algorithm := some "float-fractions", resolute := some true } =
      .ok [[0, 1]] ∧
    compute bothWorld "equal-shares-without-completion" bigShares 3 none { algorithm := some "standard-fractions", resolute := some true } =
      .ok [[1]] := by
  refine ⟨⟨by decide, by decide, by decide, ?_⟩, ⟨?_, ?_, by norm_num⟩, by decide +kernel, by decide +kernel⟩
  · intro v hv; simp [bigShares] at hv; rcases hv with rfl | rfl | rfl <;> norm_num
  · intro v hv
    simp only [bigShares, List.mem_cons, List.not_mem_nil, or_false] at hv
    rcases hv with rfl | rfl | rfl
    · exact ⟨10 ^ 12, by norm_num⟩
    · exact ⟨10 ^ 12, by norm_num⟩
    · exact ⟨3 * 10 ^ 12, by norm_num⟩
  · rw [← totalWeight_eq]; norm_num [bigShares, Profile.totalWeight]

/-! ## The hypotheses of C94 are satisfiable -/

theorem smallShares_example (completion : Completion) : SmallShares exampleProfile 2 completion := by
  have ht : total exampleProfile = 3 := by rw [← totalWeight_eq]; norm_num [exampleProfile, Profile.totalWeight]
  refine ⟨smallElection_example.integer, by rw [ht]; norm_num, by decide, fun _ => by decide, fun _ => ?_⟩
  rw [ht]
  norm_num [exampleProfile]

example (completion : Completion) (ruleId : String) (hid : ruleId ∈ idsOfCompletion completion) :
    compute bothWorld ruleId exampleProfile 2 none { algorithm := some "float-fractions", resolute := some true } =
      compute bothWorld ruleId exampleProfile 2 none { algorithm := some "standard-fractions", resolute := some true } := by
  have h := C94_python exactWeight exactWeight_val exactWeight_int PyNum.runningSum runningSum_sound runningSum_ints
    PyNum.runningSum_accurate PyNum.runningSum_signed id (fun l => List.Perm.refl l) bothWorld rfl exampleProfile
    ⟨by decide, by decide, by decide, by intro v hv; simp [exampleProfile] at hv; rcases hv with rfl | rfl <;> norm_num⟩
    2 completion (smallShares_example completion) ruleId hid
    { committeesize := 2, algorithm := "float-fractions", resolute := true }
    { committeesize := 2, algorithm := "standard-fractions", resolute := true } (by decide) (by decide) rfl rfl
  cases completion <;> simp only [idsOfCompletion, List.mem_cons, List.not_mem_nil, or_false] at hid
  · rcases hid with rfl | rfl | rfl <;> exact h (by decide +kernel) "standard-fractions" (by decide +kernel) (Or.inl rfl)
  · rcases hid with rfl | rfl | rfl <;> exact h (by decide +kernel) "standard-fractions" (by decide +kernel) (Or.inl rfl)
  · subst hid; exact h (by decide +kernel) "standard-fractions" (by decide +kernel) (Or.inl rfl)
  · subst hid; exact h (by decide +kernel) "standard-fractions" (by decide +kernel) (Or.inl rfl)

end Abc
