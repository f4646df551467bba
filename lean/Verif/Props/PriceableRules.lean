import Verif.Props.Hierarchy
import Verif.Props.EqualSharesAxioms

/-!
# C77: seq-Phragmén and Equal Shares are priceable
-/

namespace Abc

open Spec

section
variable {p : Profile}

/-- The elected candidates are paid for (1 each, by supporters), and voter `i` has spent `s i` in total. -/
structure PaidFor (p : Profile) (W : List ℕ) (s : VoterMap p) (pay : Fin p.voters.length → ℕ → ℚ) : Prop where
  nonneg : ∀ i c, 0 ≤ pay i c
  approved : ∀ i c, pay i c ≠ 0 → c ∈ appr p i ∧ c ∈ W
  elected : ∀ c ∈ W, ∑ i, pay i c = 1
  spent : ∀ i, ∑ c ∈ W.toFinset, pay i c = s i

theorem PaidFor.step {W : List ℕ} {s : VoterMap p} {pay : Fin p.voters.length → ℕ → ℚ} (h : PaidFor p W s pay) {c : ℕ} (hc : c ∉ W)
    (d : VoterMap p) (hd0 : ∀ i, 0 ≤ d i) (hda : ∀ i, i ∉ backers p c → d i = 0) (hd1 : ∑ i, d i = 1) :
    PaidFor p (W ++ [c]) (fun i => s i + d i) (fun i e => if e = c then d i else pay i e) := by
  have hz : ∀ i, pay i c = 0 := by
    intro i
    by_contra hne
    exact hc (h.approved i c hne).2
  refine ⟨?_, ?_, ?_, ?_⟩
  · intro i e
    split
    · exact hd0 i
    · exact h.nonneg i e
  · intro i e he
    split at he
    · rename_i hec
      subst hec
      refine ⟨?_, by simp⟩
      by_contra hna
      exact he (hda i (fun hb => hna (mem_appr.2 (mem_backers.1 hb))))
    · obtain ⟨h1, h2⟩ := h.approved i e he
      exact ⟨h1, by simp [h2]⟩
  · intro e he
    by_cases hec : e = c
    · simp only [hec, if_true]; exact hd1
    · simp only [hec, if_false]
      exact h.elected e (by simpa [hec] using he)
  · intro i
    have e1 : (W ++ [c]).toFinset = insert c W.toFinset := by ext x; simp [or_comm]
    rw [e1, Finset.sum_insert (by simpa using hc), if_pos rfl, add_comm]
    congr 1
    rw [← h.spent i]
    refine Finset.sum_congr rfl fun e he => ?_
    rw [if_neg]
    rintro rfl
    exact hc (by simpa using he)

theorem PaidFor.start (p : Profile) : PaidFor p [] (fun _ => 0) (fun _ _ => 0) :=
  ⟨by simp, by simp, by simp, by simp⟩

/-- If a committee is paid for, nobody has spent more than `b` per unit of weight, and the rest is not enough for another candidate,
then the committee is priceable. -/
theorem PaidFor.priceable {W : List ℕ} {s : VoterMap p} {pay : Fin p.voters.length → ℕ → ℚ} (h : PaidFor p W s pay)
    (hlt : ∀ c ∈ W, c < p.numCand) {b : ℚ} (hb : 0 ≤ b) (hs : ∀ i, s i ≤ (p.voters.get i).weight * b)
    (hleft : ∀ c < p.numCand, c ∉ W → ∑ i ∈ backers p c, ((p.voters.get i).weight * b - s i) ≤ 1) : Priceable p W.toFinset := by
  refine ⟨b, pay, ⟨hb, h.nonneg, fun i c hc => (h.approved i c hc).1, ?_, fun c hc => h.elected c (List.mem_toFinset.1 hc), ?_⟩, ?_⟩
  · intro i
    refine le_trans (le_of_eq ?_) (hs i)
    rw [← h.spent i]
    symm
    refine Finset.sum_subset (fun c hc => Finset.mem_range.2 (hlt c (List.mem_toFinset.1 hc))) fun c _ hn => ?_
    by_contra hne
    exact hn (List.mem_toFinset.2 (h.approved i c hne).2)
  · intro c _ hn
    refine Finset.sum_eq_zero fun i _ => ?_
    by_contra hne
    exact hn (List.mem_toFinset.2 (h.approved i c hne).2)
  · intro c hc hn
    refine le_trans (le_of_eq ?_) (hleft c hc (fun h => hn (List.mem_toFinset.2 h)))
    unfold leftAfter backers
    refine Finset.sum_congr rfl fun i _ => ?_
    rw [h.spent i]

/-! ## seq-Phragmén -/

/-- Time `t` of a run: no load is larger, and no candidate can be elected with a smaller load. -/
def AtTime (p : Profile) (W : List ℕ) (x : VoterMap p) (t : ℚ) : Prop :=
  (∀ i, x i ≤ t) ∧ ∀ c < p.numCand, c ∉ W → (backers p c).Nonempty → t ≤ newLoad p x c

theorem prun_paid (hp : p.WF) {W₀ : List ℕ} {x₀ : VoterMap p} (r : ℚ) {pay₀ : Fin p.voters.length → ℕ → ℚ}
    (h₀ : PaidFor p W₀ (fun i => (p.voters.get i).weight * (r + x₀ i)) pay₀) (ht₀ : AtTime p W₀ x₀ 0) {W : List ℕ} {x : VoterMap p}
    (h : PRun p W₀ x₀ W x) (hb : ∀ c ∈ W, (backers p c).Nonempty) :
    ∃ pay t, PaidFor p W (fun i => (p.voters.get i).weight * (r + x i)) pay ∧ AtTime p W x t ∧ 0 ≤ t := by
  induction h with
  | start => exact ⟨pay₀, 0, h₀, ht₀, le_rfl⟩
  | @step W x c hrun hc ih =>
    obtain ⟨pay, t, h1, ⟨h2, h3⟩, h4⟩ := ih (fun d hd => hb d (by simp [hd]))
    obtain ⟨hcn, hcW, hbest⟩ := hc
    have hcb : (backers p c).Nonempty := hb c (by simp)
    have hmin : ∀ d < p.numCand, d ∉ W → (backers p d).Nonempty → newLoad p x c ≤ newLoad p x d := by
      rcases hbest with ⟨-, h⟩ | h
      · exact h
      · intro d hd hdW hdb
        rw [h d hd hdW] at hdb
        simp at hdb
    have htc := h3 c hcn hcW hcb
    have hup : ∀ i, x i ≤ phragUpd p W x c i := by
      intro i
      unfold phragUpd
      split
      · exact (h2 i).trans htc
      · exact le_rfl
    have hstep := h1.step hcW (fun i => if i ∈ backers p c then (p.voters.get i).weight * (newLoad p x c - x i) else 0) (by
        intro i
        split
        · exact mul_nonneg (weight_pos hp i).le (sub_nonneg.2 ((h2 i).trans htc))
        · exact le_rfl) (by
        intro i hi
        exact if_neg hi) (by
        rw [Finset.sum_ite_mem, Finset.univ_inter]
        exact newLoad_mul hp x c hcb)
    refine ⟨_, newLoad p x c, by
      refine (congrArg (fun s => PaidFor p (W ++ [c]) s _) (funext fun i => ?_)).mp hstep
      unfold phragUpd
      split <;> ring, ⟨?_, ?_⟩, h4.trans htc⟩
    · intro i
      unfold phragUpd
      split
      · exact le_rfl
      · exact (h2 i).trans htc
    · intro d hd hdW hdb
      have hdW' : d ∉ W := fun h => hdW (by simp [h])
      exact (hmin d hd hdW' hdb).trans (newLoad_mono hp hup d)

theorem prun_backers {W₀ : List ℕ} {x₀ : VoterMap p} (h0 : ∀ c ∈ W₀, (backers p c).Nonempty) {W : List ℕ} {x : VoterMap p}
    (h : PRun p W₀ x₀ W x) : (∀ c ∈ W, (backers p c).Nonempty) ∨ ∀ c < p.numCand, c ∉ W → backers p c = ∅ := by
  induction h with
  | start => exact Or.inl h0
  | @step W x c hrun hc ih =>
    rcases hc.2.2 with ⟨h1, -⟩ | h1
    · rcases ih with ih | ih
      · left
        intro d hd
        rcases List.mem_append.1 hd with hd | hd
        · exact ih d hd
        · obtain rfl : d = c := by simpa using hd
          exact h1
      · right
        intro d hd hdW
        exact ih d hd (fun h => hdW (by simp [h]))
    · right
      intro d hd hdW
      exact h1 d hd (fun h => hdW (by simp [h]))

/-- The outcome of a run of seq-Phragmén that starts with candidates that are paid for. -/
theorem prun_priceable (hp : p.WF) {W₀ : List ℕ} {x₀ : VoterMap p} (hW₀ : W₀.Nodup) (hlt₀ : ∀ c ∈ W₀, c < p.numCand) (r : ℚ) (hr : 0 ≤ r)
    {pay₀ : Fin p.voters.length → ℕ → ℚ} (h₀ : PaidFor p W₀ (fun i => (p.voters.get i).weight * (r + x₀ i)) pay₀)
    (ht₀ : AtTime p W₀ x₀ 0) {W : List ℕ} {x : VoterMap p} (h : PRun p W₀ x₀ W x) : PriceableOrFull false p W.toFinset := by
  obtain ⟨hWn, hlt⟩ := h.nodup (m := p.numCand) (fun _ _ _ _ h => ⟨h.1, h.2.1⟩) hW₀ hlt₀
  have hb₀ : ∀ c ∈ W₀, (backers p c).Nonempty := by
    intro c hc
    have := h₀.elected c hc
    by_contra hne
    rw [Finset.not_nonempty_iff_eq_empty] at hne
    rw [Finset.sum_eq_zero] at this
    · exact zero_ne_one this
    · intro i _
      by_contra hne'
      have := mem_backers.2 (mem_appr.1 (h₀.approved i c hne').1)
      rw [hne] at this
      simp at this
  have happ : ∀ c, c ∈ approvedSet p ↔ (backers p c).Nonempty := by
    intro c
    unfold approvedSet backers
    simp [Finset.Nonempty]
  unfold PriceableOrFull
  by_cases hall : ∀ c ∈ W, (backers p c).Nonempty
  · have hsub : W.toFinset ⊆ approvedSet p := fun c hc => (happ c).2 (hall c (List.mem_toFinset.1 hc))
    rw [if_neg (by have := Finset.card_le_card hsub; omega), if_neg (by simp)]
    obtain ⟨pay, t, h1, ⟨h2, h3⟩, h4⟩ := prun_paid hp r h₀ ht₀ h hall
    refine h1.priceable hlt (b := r + t) (by linarith) ?_ ?_
    · intro i
      exact mul_le_mul_of_nonneg_left (by have := h2 i; linarith) (weight_pos hp i).le
    · intro c hc hcW
      rcases (backers p c).eq_empty_or_nonempty with he | hne
      · rw [he]; simp
      · rw [← newLoad_mul hp x c hne]
        refine Finset.sum_le_sum fun i _ => ?_
        rw [← mul_sub]
        refine mul_le_mul_of_nonneg_left ?_ (weight_pos hp i).le
        have := h3 c hc hcW hne
        linarith
  · have hfull : approvedSet p ⊆ W.toFinset := by
      rcases prun_backers hb₀ h with h1 | h1
      · exact absurd h1 hall
      · intro c hc
        by_contra hcW
        obtain ⟨i, hi⟩ := (happ c).1 hc
        have hcn : c < p.numCand := appr_lt hp (mem_appr.2 (mem_backers.1 hi))
        have := h1 c hcn (fun h => hcW (List.mem_toFinset.2 h))
        rw [this] at hi
        simp at hi
    have hlt' : (approvedSet p).card < W.toFinset.card := by
      push Not at hall
      obtain ⟨c, hcW, hcb⟩ := hall
      refine Finset.card_lt_card ⟨hfull, fun hsub => ?_⟩
      have := (happ c).1 (hsub (List.mem_toFinset.2 hcW))
      rw [hcb] at this
      simp at this
    rw [if_pos hlt']
    exact hfull

theorem seqphragmen_priceable (hp : p.WF) {k : ℕ} {A : Finset ℕ} (h : RunWinner (PhragBest p) (phragUpd p) (fun _ => 0) k A) :
    PriceableOrFull false p A := by
  obtain ⟨W, x, h1, -, rfl⟩ := h
  refine prun_priceable hp (W₀ := []) (x₀ := fun _ => 0) (by simp) (by simp) 0 le_rfl (pay₀ := fun _ _ => 0) ?_ ⟨fun _ => le_rfl, ?_⟩ h1
  · simpa using PaidFor.start p
  · intro c _ _ hb
    have := (wt_backers_pos hp c).2 hb
    unfold newLoad
    simp only [mul_zero, Finset.sum_const_zero, add_zero]
    positivity

/-! ## Equal Shares -/

theorem mrun_paid (hp : p.WF) {r : ℚ} (hr : 0 ≤ r) {W : List ℕ} {b : VoterMap p} (h : MRun p r W b) :
    ∃ pay, PaidFor p W (fun i => (p.voters.get i).weight * r - b i) pay := by
  induction h with
  | start =>
    refine ⟨fun _ _ => 0, ?_⟩
    simpa [budgetOf] using PaidFor.start p
  | @step W b c hrun hc ih =>
    obtain ⟨pay, h1⟩ := ih
    obtain ⟨h2, h3, h4⟩ := C36_budgets p hp r hr W b hrun
    obtain ⟨g1, g2, g3⟩ := h4 c hc
    have hb' := (C36_budgets p hp r hr (W ++ [c]) _ (.step hrun hc)).1
    obtain ⟨hcn, hcW, q, hq, -⟩ := hc
    have hq0 : 0 ≤ q := by
      by_contra hneg
      have : payments p b c q ≤ 0 := by
        refine Finset.sum_nonpos (fun i _ => (min_le_right _ _).trans ?_)
        exact mul_nonpos_of_nonpos_of_nonneg (not_le.1 hneg).le (weight_pos hp i).le
      have := hq.1
      linarith
    have hstep := h1.step hcW (fun i => b i - mesUpd p W b c i) (by
      intro i
      rw [sub_nonneg]
      unfold mesUpd
      split
      · rw [price_eq hq]
        have : 0 ≤ min (b i) (q * (p.voters.get i).weight) := le_min (h2 i) (mul_nonneg hq0 (weight_pos hp i).le)
        linarith
      · exact le_rfl) (by
      intro i hi
      rw [g1 i hi, sub_self]) (by
      rw [Finset.sum_sub_distrib]
      exact g3)
    exact ⟨_, (congrArg (fun s => PaidFor p (W ++ [c]) s _) (funext fun i => by ring)).mp hstep⟩

/-- Equal Shares without completion or completed by seq-Phragmén is priceable. -/
theorem mesWinner_priceable (hp : p.WF) (hne : p.voters ≠ []) {k : ℕ} (completion : Completion)
    (hc : completion = .none ∨ completion = .seqphragmen) {A : Finset ℕ} (h : MESWinner p k completion (k / total p) A) :
    PriceableOrFull false p A := by
  obtain ⟨W, b, hrun, hfin⟩ := h
  have ht := total_pos hp hne
  have hr : 0 ≤ (k : ℚ) / total p := by positivity
  obtain ⟨hWn, hlt⟩ := mrun_nodup hrun
  obtain ⟨pay, hpaid⟩ := mrun_paid hp hr hrun
  obtain ⟨hb0, hsum, -⟩ := C36_budgets p hp _ hr W b hrun
  -- without further candidates
  have plain : (∀ c < p.numCand, c ∉ W → ∑ i ∈ backers p c, b i ≤ 1) → PriceableOrFull false p W.toFinset := by
    intro hleft
    have hsub : W.toFinset ⊆ approvedSet p := by
      intro c hcW
      have := hpaid.elected c (List.mem_toFinset.1 hcW)
      by_contra hna
      rw [Finset.sum_eq_zero] at this
      · exact zero_ne_one this
      · intro i _
        by_contra hne'
        exact hna (Finset.mem_biUnion.2 ⟨i, Finset.mem_univ i, (hpaid.approved i c hne').1⟩)
    unfold PriceableOrFull
    rw [if_neg (by have := Finset.card_le_card hsub; omega), if_neg (by simp)]
    refine hpaid.priceable hlt hr (fun i => by have := hb0 i; linarith) ?_
    intro c hcn hcW
    simpa using hleft c hcn hcW
  rcases hfin with ⟨hlen, rfl⟩ | ⟨-, hdone, hcomp⟩
  · refine plain fun c _ _ => ?_
    rw [div_mul_cancel₀ _ ht.ne', hlen, sub_self] at hsum
    refine le_trans (Finset.sum_le_univ_sum_of_nonneg hb0) ?_
    rw [hsum]
    exact zero_le_one
  · have hle : ∀ c < p.numCand, c ∉ W → ∑ i ∈ backers p c, b i ≤ 1 := fun c h1 h2 => (not_le.1 (hdone c h1 h2)).le
    rcases hc with rfl | rfl
    · change A = W.toFinset at hcomp
      rw [hcomp]
      exact plain hle
    · obtain ⟨V, x, hV, -, rfl⟩ := hcomp
      have hwx : ∀ i, (p.voters.get i).weight * (- b i / (p.voters.get i).weight) = - b i := by
        intro i
        have := (weight_pos hp i).ne'
        field_simp
      refine prun_priceable hp hWn hlt (k / total p) hr (pay₀ := pay) ?_ ⟨fun i => ?_, fun c h1 h2 h3 => ?_⟩ hV
      · convert hpaid using 2
        rw [mul_add, hwx]
        ring
      · exact div_nonpos_of_nonpos_of_nonneg (by have := hb0 i; linarith) (weight_pos hp i).le
      · have hpos := (wt_backers_pos hp c).2 h3
        unfold newLoad
        refine div_nonneg ?_ hpos.le
        rw [Finset.sum_congr rfl fun i _ => hwx i, Finset.sum_neg_distrib]
        have := hle c h1 h2
        linarith

end

end Abc
