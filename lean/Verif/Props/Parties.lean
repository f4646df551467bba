import Verif.Spec.Parties
import Verif.Props.Droop
import Verif.Props.Parts

/-!
# C134: the number of seats of a party within an arbitrary electorate
-/

namespace Abc

open Spec

variable {p : Profile} {C : Finset ℕ} {G : Group p}

/-- What a group has left after a run of Equal Shares. -/
theorem mesRun_group (hp : p.WF) {r : ℚ} (hr : 0 ≤ r) (hG : OnlySupporters p G C) {W : List ℕ} {b : VoterMap p} (h : MRun p r W b) :
    ∑ i ∈ G, b i ≤ r * wt p G - (inC C W).length ∧
      ((∀ i ∈ G, appr p i ⊆ C) → ∑ i ∈ G, b i = r * wt p G - (inC C W).length) := by
  induction h with
  | start =>
    have : ∑ i ∈ G, budgetOf p r i = r * wt p G := by
      unfold budgetOf wt
      rw [Finset.mul_sum]
      exact Finset.sum_congr rfl fun i _ => mul_comm _ _
    rw [this]
    simp [inC]
  | @step W b c h hb ih =>
    obtain ⟨e1, e2, e3⟩ := C36_budgets p hp r hr W b h
    obtain ⟨f1, f2, f3⟩ := e3 c hb
    by_cases hc : c ∈ C
    · have hsub : ∀ i, i ∉ G → mesUpd p W b c i = b i := fun i hi =>
        f1 i fun g => Finset.disjoint_left.1 (hG i hi) (mem_backers_appr.1 g) hc
      have : ∑ i ∈ G, b i - ∑ i ∈ G, mesUpd p W b c i = 1 := by
        rw [← f3, ← Finset.sum_sub_distrib, ← Finset.sum_sub_distrib]
        refine Finset.sum_subset (Finset.subset_univ G) fun i _ hi => ?_
        rw [hsub i hi, sub_self]
      rw [inC_in hc, List.length_append, List.length_singleton]
      push_cast
      exact ⟨by linarith [ih.1], fun g => by linarith [ih.2 g]⟩
    · rw [inC_out hc]
      refine ⟨le_trans (Finset.sum_le_sum fun i _ => ?_) ih.1, fun g => ?_⟩
      · obtain ⟨-, -, q, hq, -⟩ := hb
        have hq0 : 0 ≤ price p b c := by
          rw [price_eq hq]
          by_contra hneg
          have : payments p b c q ≤ 0 := Finset.sum_nonpos fun i _ => (min_le_right _ _).trans
            (mul_nonpos_of_nonpos_of_nonneg (not_le.1 hneg).le (weight_pos hp i).le)
          linarith [hq.1]
        unfold mesUpd
        split
        · linarith [le_min (e1 i) (mul_nonneg hq0 (weight_pos hp i).le)]
        · exact le_rfl
      · rw [← ih.2 g]
        exact Finset.sum_congr rfl fun i hi => f1 i fun g' => hc (g i hi (mem_backers_appr.1 g'))

section
variable {w : World} (hw : w.Exact) (hp : p.WF) (a : Args) {ruleId alg : String}
  (hal : prologue w.env ruleId p a = .ok alg)
include hw hp hal

theorem mes_outcome (hid : ruleId ∈ ["rule-x-without-phragmen-phase", "equal-shares-without-phragmen-phase",
      "equal-shares-without-completion"]) (he : ExactAlg w.env alg) :
    ∃ cs, compute w ruleId p a.committeesize none a.kw = .ok cs ∧ cs ≠ [] ∧ ∀ W ∈ cs, ∃ V b, MRun p (a.k / total p) V b ∧
      V.toFinset = W.toFinset ∧ (V.length = a.k ∨ MESDone p V b) := by
  have hT : Elects w p a.k alg ruleId _ := .equalSharesNone hid he
  obtain ⟨cs, h1, h2, -⟩ := C31_valid w hw p hp a ruleId alg hal hT
  refine ⟨cs, h1, h2, fun W hW => ?_⟩
  obtain ⟨V, b, g1, g2⟩ := answers_mem (C31_compute w hw p hp a ruleId alg hal hT) h1 hW
  rcases g2 with ⟨l1, l2⟩ | ⟨-, l2, l3⟩
  · exact ⟨V, b, g1, l2, Or.inl l1⟩
  · exact ⟨V, b, g1, Eq.symm l3, Or.inr l2⟩

/-- **C134** Upper quota: under Equal Shares without completion, no candidates are elected at the expense of others: the share of the seats
that candidates in `C` get is at most the share of the voters who approve some of them. -/
theorem C134_upper_quota (hid : ruleId ∈ ["rule-x-without-phragmen-phase", "equal-shares-without-phragmen-phase",
      "equal-shares-without-completion"]) (he : ExactAlg w.env alg) :
    ∃ cs, compute w ruleId p a.committeesize none a.kw = .ok cs ∧ cs ≠ [] ∧ ∀ W ∈ cs, ∀ (G : Group p) (C : Finset ℕ),
      OnlySupporters p G C → ((W.toFinset ∩ C).card : ℚ) * total p ≤ a.k * wt p G := by
  have ht := total_pos hp (validCall_of_prologue hal).voters
  obtain ⟨cs, h1, h2, h3⟩ := mes_outcome hw hp a hal hid he
  refine ⟨cs, h1, h2, fun W hW G C hG => ?_⟩
  obtain ⟨V, b, g1, g2, -⟩ := h3 W hW
  have hr : (0 : ℚ) ≤ a.k / total p := div_nonneg (Nat.cast_nonneg _) ht.le
  have e := (mesRun_group hp hr hG g1).1
  rw [inC_length (mrun_nodup g1).1, g2] at e
  have h0 : 0 ≤ ∑ i ∈ G, b i := Finset.sum_nonneg fun i _ => (C36_budgets p hp _ hr _ _ g1).1 i
  have : ((W.toFinset ∩ C).card : ℚ) ≤ a.k / total p * wt p G := by linarith
  calc ((W.toFinset ∩ C).card : ℚ) * total p ≤ a.k / total p * wt p G * total p := mul_le_mul_of_nonneg_right this ht.le
    _ = a.k * wt p G := by field_simp

/-- **C134** Under Equal Shares without completion a party gets its share of the seats, rounded down (as long as it has enough candidates),
whatever the other voters do. -/
theorem C134_party (hid : ruleId ∈ ["rule-x-without-phragmen-phase", "equal-shares-without-phragmen-phase",
      "equal-shares-without-completion"]) (he : ExactAlg w.env alg) :
    ∃ cs, compute w ruleId p a.committeesize none a.kw = .ok cs ∧ cs ≠ [] ∧ ∀ W ∈ cs, ∀ (G : Group p) (C : Finset ℕ),
      Party p G C → (W.toFinset ∩ C).card = min C.card ⌊a.k * wt p G / total p⌋₊ := by
  have ht := total_pos hp (validCall_of_prologue hal).voters
  obtain ⟨cs, h1, h2, h3⟩ := mes_outcome hw hp a hal hid he
  refine ⟨cs, h1, h2, fun W hW G C hG => ?_⟩
  obtain ⟨V, b, g1, g2, g3⟩ := h3 W hW
  have hr : (0 : ℚ) ≤ a.k / total p := div_nonneg (Nat.cast_nonneg _) ht.le
  have e := (mesRun_group hp hr hG.2 g1).2 fun i hi => (hG.1 i hi).le
  rw [inC_length (mrun_nodup g1).1, g2, ← mul_div_right_comm] at e
  obtain ⟨b1, b2, -⟩ := C36_budgets p hp _ hr _ _ g1
  have h0 : 0 ≤ ∑ i ∈ G, b i := Finset.sum_nonneg fun i _ => b1 i
  have hnn : 0 ≤ (a.k : ℚ) * wt p G / total p := div_nonneg (mul_nonneg (Nat.cast_nonneg _) (wt_nonneg' hp G)) ht.le
  refine le_antisymm (le_min (Finset.card_le_card Finset.inter_subset_right) ((Nat.le_floor_iff hnn).2 (by linarith))) ?_
  by_contra hlt
  obtain ⟨l1, l2⟩ := lt_min_iff.1 (not_le.1 hlt)
  have l3 : (((W.toFinset ∩ C).card + 1 : ℕ) : ℚ) ≤ a.k * wt p G / total p := (Nat.le_floor_iff hnn).1 l2
  push_cast at l3
  have hrich : 1 ≤ ∑ i ∈ G, b i := by linarith
  rcases g3 with g3 | g3
  · rw [g3, div_mul_cancel₀ _ ht.ne', sub_self] at b2
    have := Finset.sum_le_sum_of_subset_of_nonneg (Finset.subset_univ G) fun i _ _ => b1 i
    linarith
  · obtain ⟨c, hc, hcW⟩ : ∃ c ∈ C, c ∉ W.toFinset := by
      by_contra hall
      push Not at hall
      rw [Finset.inter_eq_right.2 hall] at l1
      exact lt_irrefl _ l1
    have hne : G.Nonempty := by
      by_contra hn
      rw [Finset.not_nonempty_iff_eq_empty.1 hn, Finset.sum_empty] at hrich
      linarith
    obtain ⟨i, hi⟩ := hne
    refine g3 c (appr_lt hp (i := i) (by rw [hG.1 i hi]; exact hc)) (fun g => hcW (g2 ▸ List.mem_toFinset.2 g)) ?_
    have hb : backers p c = G := by
      ext j
      rw [mem_backers_appr]
      constructor
      · intro g
        by_contra hj
        exact Finset.disjoint_left.1 (hG.2 j hj) g hc
      · intro hj
        rw [hG.1 j hj]
        exact hc
    unfold Affordable
    rwa [hb]

/-- **C134** Lower quota: a party that has more than `ℓ/(k+1)` of the voters and at least `ℓ` candidates gets at least `ℓ` seats under PAV,
sequential Phragmén, maximin support and Equal Shares (completed by sequential Phragmén), whatever the other voters do. -/
theorem C134_lower_quota {names : List String} (h : DroopRule w p a.k alg ruleId names) (hn : "pjr" ∈ names) :
    ∃ cs, compute w ruleId p a.committeesize none a.kw = .ok cs ∧ cs ≠ [] ∧ ∀ W ∈ cs, ∀ (G : Group p) (C : Finset ℕ) (ℓ : ℕ),
      (∀ i ∈ G, appr p i = C) → ℓ ≤ C.card → ℓ * total p < (a.k + 1) * wt p G → ℓ ≤ (W.toFinset ∩ C).card := by
  obtain ⟨cs, h1, h2, h3⟩ := C128_droop w hw p hp a hal h
  refine ⟨cs, h1, h2, fun W hW G C ℓ hG hl hq => ?_⟩
  rcases Nat.eq_zero_or_pos ℓ with rfl | hpos
  · exact Nat.zero_le _
  have hlq : (0 : ℚ) < ℓ := by exact_mod_cast hpos
  have hs := h3 W hW (wt p G / ℓ) (by rw [← mul_div_assoc, lt_div_iff₀ hlq]; linarith) "pjr" hn
  have hs : PJR p W.toFinset (wt p G / ℓ) := hs
  refine (hs ℓ G C ⟨hpos, by rw [mul_div_cancel₀ _ hlq.ne'], hl, fun i hi => (hG i hi).ge⟩).trans (Finset.card_le_card ?_)
  intro x hx
  obtain ⟨g1, g2⟩ := Finset.mem_inter.1 hx
  obtain ⟨i, hi, g3⟩ := Finset.mem_biUnion.1 g1
  rw [hG i hi] at g3
  exact Finset.mem_inter.2 ⟨g2, g3⟩

end

/-- A party with six of nine voters. -/
def bigParty : Profile := ⟨6, [⟨[0, 1, 2], 6⟩, ⟨[3], 1⟩, ⟨[4], 1⟩, ⟨[5], 1⟩], []⟩

/-- **C134** Contrast: with `k = 3` the party is entitled to two seats, but gets all three of them under PAV. -/
theorem C134_contrast : compute bothWorld "pav" bigParty 3 none { algorithm := some "brute-force", resolute := some false } =
    .ok [[0, 1, 2]] := by
  decide +kernel

/-- Non-vacuity: the party of candidates 0, 1, 2 gets two of three seats under Equal Shares. -/
example (w : World) (hw : w.env = exampleEnv) :
    bigParty.WF ∧ Party bigParty {(⟨0, by decide⟩ : Fin bigParty.voters.length)} {0, 1, 2} ∧
    prologue w.env "equal-shares-without-completion" bigParty { committeesize := 3, resolute := false, algorithm := "standard-fractions" } =
      .ok "standard-fractions" ∧
    compute { bothWorld with env := exampleEnv } "equal-shares-without-completion" bigParty 3 none
      { algorithm := some "standard-fractions", resolute := some false } = .ok [[0, 1], [0, 2], [1, 2]] ∧
    DroopRule w bigParty 3 "standard-fractions" "seqphragmen" ["jr", "pjr"] ∧
    ((2 : ℕ) : ℚ) * total bigParty < (((3 : ℕ) : ℚ) + 1) * wt bigParty {(⟨0, by decide⟩ : Fin bigParty.voters.length)} := by
  refine ⟨⟨by decide, by decide, by decide, by decide⟩, ?_, ?_, ?_, ?_, ?_⟩
  · unfold Party OnlySupporters appr Voter.A
    decide
  · rw [hw]; decide +kernel
  · decide +kernel
  · exact .seqphragmen (approversAtLeastOne_of_weights (by decide +kernel)) (Or.inl rfl)
  · decide +kernel

end Abc
