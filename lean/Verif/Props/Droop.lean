import Verif.Spec.Droop
import Verif.Props.Welfare
import Verif.Props.CheckElectorate
import Verif.Props.FloatAccuracyEph

/-!
# C128: guarantees for the Droop quota
-/

namespace Abc

open Spec

section
variable {p : Profile} {W : Finset ℕ} {q : ℚ} {k : ℕ}

/-- No other candidate would add more than `1/(k+1)` of the voters to the best score. -/
theorem thiele_gain {f : ℕ → ℚ} (hf : ∀ n : ℕ, (n : ℚ) * f n ≤ 1) (hp : p.WF) (h : ThieleOpt f p k W) {c : ℕ} (hc : c < p.numCand)
    (hcW : c ∉ W) : ((k : ℚ) + 1) * gain f p W c ≤ total p := by
  set V := insert c W with hV
  have hcard : V.card = k + 1 := by rw [hV, Finset.card_insert_of_notMem hcW, h.1.2]
  have hsum : ∑ x ∈ V, loss f p V x ≤ total p := by
    rw [sum_loss]
    refine Finset.sum_le_sum (fun i _ => ?_)
    have := mul_le_mul_of_nonneg_left (hf (sat p V i)) (weight_pos hp i).le
    linarith
  have hle : ∀ x ∈ V, gain f p W c ≤ loss f p V x := by
    intro x hx
    have hcom : IsCommittee p k (V.erase x) := by
      refine ⟨?_, by rw [Finset.card_erase_of_mem hx, hcard]; omega⟩
      intro y hy
      rcases Finset.mem_insert.1 (Finset.mem_of_mem_erase hy) with rfl | hy
      · exact Finset.mem_range.2 hc
      · exact h.1.1 hy
    have := h.2 _ hcom
    have e1 : loss f p V x = score f p V - score f p (V.erase x) := rfl
    have e2 : gain f p W c = score f p V - score f p W := rfl
    linarith
  have := Finset.card_nsmul_le_sum V (fun x => loss f p V x) _ hle
  rw [hcard, nsmul_eq_mul] at this
  push_cast at this
  linarith

theorem marginal_cc_le (n : ℕ) : (n : ℚ) * marginalFct .cc n ≤ 1 := by
  simp only [marginalFct]
  split
  · rename_i h; simp [h]
  · simp

/-- The quota is positive. -/
theorem droop_pos (ht : 0 < total p) (hq : total p < ((k : ℚ) + 1) * q) : 0 < q := by
  have h1 : (0 : ℚ) < (k : ℚ) + 1 := by positivity
  by_contra h
  nlinarith

/-- PAV satisfies EJR+ with the Droop quota. -/
theorem pav_EJRplus_droop (hp : p.WF) (ht : 0 < total p) (h : ThieleOpt (marginalFct .pav) p k W) (hq : total p < ((k : ℚ) + 1) * q) :
    EJRplus p W q := by
  have hqp := droop_pos ht hq
  intro ℓ G c h1 h2 h3 h4
  by_contra hno
  push Not at hno
  have hℓ : (0 : ℚ) < ℓ := by exact_mod_cast h1
  obtain ⟨i0, hi0⟩ : G.Nonempty := nonempty_of_wt (mul_pos hℓ hqp) h2
  have hgain := pav_gain hp h (appr_lt hp (h4 i0 hi0)) h3
  have hge := gain_ge_group (marginalFct .pav) (marginalFct_nonneg .pav (by simp)) p hp W c h3 G h4 (1 / ℓ) (by
    intro i hi
    have := hno i hi
    simp only [marginalFct]
    rw [if_neg (by omega)]
    have h5 : ((sat p W i + 1 : ℕ) : ℚ) ≤ ℓ := by exact_mod_cast this
    exact one_div_le_one_div_of_le (by positivity) h5)
  have h6 : q ≤ wt p G * (1 / ℓ) := by
    rw [mul_one_div, le_div_iff₀ hℓ]
    linarith
  have hk : (0 : ℚ) < (k : ℚ) + 1 := by positivity
  have := mul_le_mul_of_nonneg_left (h6.trans hge) hk.le
  linarith

/-- CC satisfies JR with the Droop quota. -/
theorem cc_JR_droop (hp : p.WF) (ht : 0 < total p) (h : ThieleOpt (marginalFct .cc) p k W) (hq : total p < ((k : ℚ) + 1) * q) :
    JR p W q := by
  have hqp := droop_pos ht hq
  by_contra hno
  obtain ⟨G, c, h1, h2, h3⟩ := not_JR hno
  obtain ⟨hc, hcW, hgain⟩ := cc_gain p hp W G c q hqp h1 h2 h3
  have := thiele_gain marginal_cc_le hp h hc hcW
  have hk : (0 : ℚ) < (k : ℚ) + 1 := by positivity
  have := mul_le_mul_of_nonneg_left hgain hk.le
  linarith

/-- Sequential CC satisfies JR with the Droop quota. -/
theorem seqcc_JR_droop (hp : p.WF) (ht : 0 < total p) {W : List ℕ} (h : SeqRun (marginalFct .cc) p W) (hlen : W.length = k)
    (hq : total p < ((k : ℚ) + 1) * q) : JR p W.toFinset q := by
  have hqp := droop_pos ht hq
  by_contra hno
  obtain ⟨G, c, h1, h2, h3⟩ := not_JR hno
  obtain ⟨hc, hcW, hgain⟩ := cc_gain p hp W.toFinset G c q hqp h1 h2 h3
  set f := marginalFct .cc with hfd
  have key : ∀ V : List ℕ, SeqRun f p V → V.toFinset ⊆ W.toFinset → (V.length : ℚ) * q ≤ score f p V.toFinset := by
    intro V hV
    induction hV with
    | nil =>
      intro _
      simpa using score_nonneg f (marginalFct_nonneg .cc (by simp)) p hp ∅
    | @snoc V d hV hd hdV hmax ih =>
      intro hsub
      have hsub' : V.toFinset ⊆ W.toFinset := by
        intro x hx
        refine hsub ?_
        simp only [List.mem_toFinset] at hx
        simp [hx]
      have hcV : c ∉ V := fun hm => hcW (hsub' (by simpa using hm))
      have g1 := hmax c hc hcV
      have g2 := gain_antitone f (C16_nonneg_nonincreasing .cc trivial).2 p hp hsub' c hcW
      have g3 := ih hsub'
      have e : (V ++ [d]).toFinset = insert d V.toFinset := by
        ext x; simp
      have e2 : gain f p V.toFinset d = score f p (insert d V.toFinset) - score f p V.toFinset := rfl
      rw [e, List.length_append]
      push_cast
      simp only [List.length_singleton, Nat.cast_one]
      linarith
  have h4 := key W h le_rfl
  have h5 := cc_score_le p hp W.toFinset G h3
  rw [hlen] at h4
  linarith

/-- Priceability implies PJR+ with the Droop quota. -/
theorem Spec.Priceable.pjrplus_droop (hp : p.WF) (hW : W ⊆ Finset.range p.numCand) (ht : 0 < total p) (h : Priceable p W)
    (hq : total p < ((W.card : ℚ) + 1) * q) : PJRplus p W q := by
  have hqp := droop_pos ht hq
  obtain ⟨b, pay, hps, hc⟩ := h
  intro ℓ G c h1 h2 hcW h4
  by_contra hlt
  rw [not_le] at hlt
  have hℓ : (0 : ℚ) < ℓ := by exact_mod_cast h1
  obtain ⟨i0, hi0⟩ : G.Nonempty := nonempty_of_wt (mul_pos hℓ hqp) h2
  have hleft : ∑ i ∈ G, leftAfter p W b pay i ≤ 1 := by
    refine le_trans (Finset.sum_le_sum_of_subset_of_nonneg (fun i hi => ?_) (fun i _ _ => leftAfter_nonneg hW hps i))
      (hc c (appr_lt hp (h4 i0 hi0)) hcW)
    simp only [Finset.mem_filter, Finset.mem_univ, true_and]
    exact h4 i hi
  have hpaid := hps.group_payment G
  have hlt' : ((G.biUnion (appr p) ∩ W).card : ℚ) ≤ ℓ - 1 := by
    have : (G.biUnion (appr p) ∩ W).card + 1 ≤ ℓ := hlt
    have : (((G.biUnion (appr p) ∩ W).card + 1 : ℕ) : ℚ) ≤ ℓ := by exact_mod_cast this
    push_cast at this
    linarith
  have hsum : ∑ i ∈ G, leftAfter p W b pay i = wt p G * b - ∑ i ∈ G, ∑ c ∈ W, pay i c := by
    unfold leftAfter wt
    rw [Finset.sum_sub_distrib, Finset.sum_mul]
  have hb : wt p G * b ≤ ℓ := by linarith
  have hall : ∑ i ∈ G, leftAfter p W b pay i ≤ ∑ i, leftAfter p W b pay i :=
    Finset.sum_le_sum_of_subset_of_nonneg (Finset.subset_univ G) (fun i _ _ => leftAfter_nonneg hW hps i)
  have hsumall : ∑ i, leftAfter p W b pay i = total p * b - W.card := by
    unfold leftAfter total
    rw [Finset.sum_sub_distrib, hps.sum_payments, Finset.sum_mul]
  have hrest : (W.card : ℚ) - (ℓ - 1) ≤ (total p - wt p G) * b := by linarith
  have hm : 0 ≤ wt p G := wt_nonneg hp G
  have hm' : 0 ≤ total p - wt p G := by have := wt_le_total hp G; linarith
  have h5 := mul_le_mul_of_nonneg_left hrest hm
  have h6 := mul_le_mul_of_nonneg_left hb hm'
  have h7 : wt p G * ((W.card : ℚ) + 1) ≤ ℓ * total p := by linarith
  have hk : (0 : ℚ) < (W.card : ℚ) + 1 := by positivity
  have h8 := mul_le_mul_of_nonneg_right h2 hk.le
  have h9 := mul_lt_mul_of_pos_left hq hℓ
  linarith

/-- What the checks of priceability decide implies PJR+ with the Droop quota. -/
theorem Spec.PriceableOrFull.pjrplus_droop (hp : p.WF) (hW : W ⊆ Finset.range p.numCand) (ht : 0 < total p)
    (h : PriceableOrFull false p W) (hq : total p < ((W.card : ℚ) + 1) * q) : PJRplus p W q := by
  unfold PriceableOrFull at h
  split at h
  · intro ℓ G c h1 h2 hcW h4
    obtain ⟨i0, hi0⟩ : G.Nonempty := nonempty_of_wt (mul_pos (by exact_mod_cast h1) (droop_pos ht hq)) h2
    exact absurd (h (Finset.mem_biUnion.2 ⟨i0, Finset.mem_univ _, h4 i0 hi0⟩)) hcW
  · exact Spec.Priceable.pjrplus_droop hp hW ht (by simpa using h) hq

end

/-! ## the rules -/

/-- The rules are computed, and their committees have the properties for every quota above `1/(k+1)` of the voters. -/
theorem droop_elects {w : World} {p : Profile} (hp : p.WF) (hv : p.voters ≠ []) {k : ℕ} (hk : 1 ≤ k) {alg ruleId : String}
    {names : List String} (h : DroopRule w p k alg ruleId names) :
    ∃ T, Elects w p k alg ruleId T ∧ ∀ A, T A → ∀ q, total p < ((k : ℚ) + 1) * q → ∀ name ∈ names, Satisfies name p A q := by
  have ht := total_pos hp hv
  have hJR : ∀ {A : Finset ℕ} {q : ℚ}, 0 < q → PJRplus p A q → ∀ name ∈ ["jr", "pjr"], Satisfies name p A q := by
    intro A q hq hA name hn
    have hP := hA.pjr hq
    simp only [List.mem_cons, List.not_mem_nil, or_false] at hn
    rcases hn with rfl | rfl
    · exact hP.jr
    · exact hP
  have hfull : ∀ A : Finset ℕ, A ⊆ Finset.range p.numCand → A.card = k → PriceableOrFull false p A →
      ∀ q, total p < ((k : ℚ) + 1) * q → ∀ name ∈ ["jr", "pjr"], Satisfies name p A q := by
    intro A hA hc hP q hq
    exact hJR (droop_pos ht hq) (hP.pjrplus_droop hp hA ht (by rw [hc]; exact hq))
  cases h with
  | pav h =>
    refine ⟨_, .thiele (s := .pav) rfl (Or.inl rfl) h, fun A hA q hq name hn => ?_⟩
    have hE := pav_EJRplus_droop hp ht hA hq
    have hq0 := droop_pos ht hq
    simp only [List.mem_cons, List.not_mem_nil, or_false] at hn
    rcases hn with rfl | rfl | rfl | rfl
    · exact (hE.ejr hq0).pjr.jr
    · exact (hE.ejr hq0).pjr
    · exact hE.ejr hq0
    · exact hE
  | cc h =>
    refine ⟨_, .thiele (s := .cc) rfl (Or.inr (Or.inr (Or.inl rfl))) h, fun A hA q hq name hn => ?_⟩
    obtain rfl := List.mem_singleton.1 hn
    exact cc_JR_droop hp ht hA hq
  | seqcc =>
    refine ⟨_, .seqThiele (sid := "cc") (s := .cc) rfl (marginalFct_nonneg .cc (by simp)), fun A hA q hq name hn => ?_⟩
    obtain rfl := List.mem_singleton.1 hn
    obtain ⟨V, h1, h2, rfl⟩ := hA
    exact seqcc_JR_droop hp ht h1 h2 hq
  | seqphragmen h1 h2 =>
    refine ⟨_, .seqphragmen h1 h2, fun A hA => ?_⟩
    have hcom := isCommittee_of_run (p := p) (fun W s c h => ⟨h.1, h.2.1⟩) hA
    exact hfull A hcom.1 hcom.2 (seqphragmen_priceable hp hA)
  | maximinSupport h1 h2 =>
    refine ⟨_, .maximinSupport h1 h2, fun A hA => ?_⟩
    have hval := elects_valid (w := w) (alg := alg) (.maximinSupport h1 h2) hA
    exact hfull A hval.1 (hval.2.2 (by decide)) (maximin_priceable hp hk hA)
  | equalShares h h1 h2 =>
    refine ⟨_, .equalShares h h1 h2, fun A hA => ?_⟩
    have hval := mesWinner_valid hA
    exact hfull A hval.1 (hval.2.2 (by simp)) (mesWinner_priceable hp hv _ (Or.inr rfl) hA)

/-- **C128** Every group with more than `ℓ/(k+1)` of the voters is represented: the committees returned by `pav`, `cc`, `seqcc`,
`seqphragmen`, `maximin-support` and Equal Shares (completed by seq-Phragmén) have their properties for every quota above `1/(k+1)` of the
voters, and not only for the Hare quota. -/
theorem C128_droop (w : World) (hw : w.Exact) (p : Profile) (hp : p.WF) (a : Args) {ruleId alg : String}
    (hal : prologue w.env ruleId p a = .ok alg) {names : List String} (h : DroopRule w p a.k alg ruleId names) :
    ∃ cs, compute w ruleId p a.committeesize none a.kw = .ok cs ∧ cs ≠ [] ∧ ∀ W ∈ cs, ∀ q : ℚ, total p < (a.k + 1) * q →
      ∀ name ∈ names, Satisfies name p W.toFinset q := by
  have hv := validCall_of_prologue hal
  obtain ⟨T, hT, hE⟩ := droop_elects hp hv.voters hv.pos h
  obtain ⟨cs, h1, h2, -⟩ := C31_valid w hw p hp a ruleId alg hal hT
  exact ⟨cs, h1, h2, fun W hW => hE _ (answers_mem (C31_compute w hw p hp a ruleId alg hal hT) h1 hW)⟩

/-- **C128** So `check` confirms these properties for every such quota (for EJR+ the quota has to be in the range in which the code is right,
see C55). -/
theorem C128_check (w : World) (hw : w.Exact) {solve : Program → SolveResult} {solveMax : MaxProgram → SolveResult}
    (hs : ExactSolver solve) (ap : List ℕ) (p : Profile) (hp : p.WF) (a : Args) {ruleId alg : String}
    (hal : prologue w.env ruleId p a = .ok alg) {names : List String} (h : DroopRule w p a.k alg ruleId names) {algorithm : String}
    (ha : algorithm = "fastest" ∨ algorithm = "gurobi") :
    ∃ cs, compute w ruleId p a.committeesize none a.kw = .ok cs ∧ cs ≠ [] ∧ ∀ W ∈ cs, ∀ q : ℚ, total p < (a.k + 1) * q →
      ∀ name ∈ names, (name = "ejr+" → ∀ i, (sat p W.toFinset i : ℚ) * q ≤ total p) →
        check solve solveMax ap name p (W.map Int.ofNat) (some q) algorithm = .ok true := by
  have hv := validCall_of_prologue hal
  obtain ⟨T, hT, hE⟩ := droop_elects hp hv.voters hv.pos h
  obtain ⟨cs, h1, h2, -, h4, -, -⟩ := C31_valid w hw p hp a ruleId alg hal hT
  refine ⟨cs, h1, h2, fun W hW q hq name hn hsat => ?_⟩
  obtain ⟨g1, g2, -, -⟩ := h4 W hW
  have hname : name ∈ ["jr", "pjr", "ejr", "ejr+", "fjr", "core"] := by
    clear hsat
    cases h <;> revert name <;> decide
  obtain ⟨b, e1, e2⟩ := check_quota_all (solveMax := solveMax) hs ap hp g2 g1 ha (some q) (droop_pos (total_pos hp hv.voters) hq) hname hsat
  rw [e1, e2.2 (hE _ (answers_mem (C31_compute w hw p hp a ruleId alg hal hT) h1 hW) q hq name hn)]

/-- Non-vacuity: the hypotheses of C128 hold for concrete calls; a quota between 1/3 and 1/2 of the voters. -/
example : greedyTrap.WF ∧
    prologue exampleEnv "pav" greedyTrap { committeesize := 2, resolute := false } = .ok "branch-and-bound" ∧
    prologue exampleEnv "cc" greedyTrap { committeesize := 2, resolute := false } = .ok "branch-and-bound" ∧
    prologue exampleEnv "seqcc" greedyTrap { committeesize := 2, resolute := false } = .ok "standard" ∧
    prologue exampleEnv "equal-shares" greedyTrap { committeesize := 2, resolute := false, algorithm := "standard-fractions" } =
      .ok "standard-fractions" ∧
    ApproversAtLeastOne greedyTrap ∧ total greedyTrap < (2 + 1) * (2 / 5 * total greedyTrap) :=
  ⟨⟨by decide, by decide, by decide, by decide⟩, by decide +kernel, by decide +kernel, by decide +kernel, by decide +kernel,
    approversAtLeastOne_of_weights (by decide +kernel), by decide +kernel⟩

/-- Two voters approve candidate 0, three voters candidate 1. -/
def twoAndThree : Profile := ⟨2, [⟨[0], 1⟩, ⟨[0], 1⟩, ⟨[1], 1⟩, ⟨[1], 1⟩, ⟨[1], 1⟩], []⟩

/-- **C128** Contrast: Equal Shares without completion satisfies EJR+ with the Hare quota, but not even JR with the Droop quota: it elects
one candidate only, although more than a third of the voters approve the other one. -/
theorem C128_contrast : compute bothWorld "equal-shares-without-completion" twoAndThree 2 none
      { algorithm := some "standard-fractions", resolute := some false } = .ok [[1]] ∧
    total twoAndThree < ((2 : ℚ) + 1) * (17 / 10) ∧ ¬ JR twoAndThree {1} (17 / 10) := by
  refine ⟨by decide +kernel, by decide +kernel, fun h => ?_⟩
  obtain ⟨i, hi, x, hx⟩ := h ({(0 : Fin 5), (1 : Fin 5)} : Finset (Fin 5)) 0 (by decide +kernel)
    (fun i hi => by rcases Finset.mem_insert.1 hi with rfl | hi
                    · decide +kernel
                    · obtain rfl := Finset.mem_singleton.1 hi
                      decide +kernel)
  rcases Finset.mem_insert.1 hi with rfl | hi
  · have : appr twoAndThree (0 : Fin 5) ∩ {1} = ∅ := by decide +kernel
    rw [this] at hx
    simp at hx
  · obtain rfl := Finset.mem_singleton.1 hi
    have : appr twoAndThree (1 : Fin 5) ∩ {1} = ∅ := by decide +kernel
    rw [this] at hx
    simp at hx

end Abc
