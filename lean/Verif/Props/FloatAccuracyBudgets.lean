import Verif.Props.FloatAccuracyEph
import Verif.Lemmas.Signed

/-!
# C104: Phragmén-Eneström and the consensus rule with "float-fractions" and with fractions
-/

namespace Abc
open Spec

section
variable {F : Type} {A : Arith F}

/-! ## Candidates of maximal support -/

/-- If the supports are accurate and well separated, `isclose` recognizes exactly the candidates of maximal support. -/
theorem isclose_max_iff (hAc : Accurate A) {l : List ℕ} (f : ℕ → F) (s : ℕ → ℚ) (B : ℚ) (hB : 1 ≤ B) (hf0 : ∀ c ∈ l, 0 ≤ A.val (f c))
    (hs : ∀ c ∈ l, s c ≤ B) (he : ∀ c ∈ l, |A.val (f c) - s c| ≤ 4 / 10 ^ 13)
    (hsep : ∀ c ∈ l, ∀ d ∈ l, s c < s d → s c + 2 * B / 10 ^ 12 ≤ s d) {M : F} (hM : M ∈ l.map f)
    (hmax : ∀ x ∈ l.map f, A.val x ≤ A.val M) (c : ℕ) (hc : c ∈ l) : A.isclose (f c) M = true ↔ ∀ d ∈ l, s d ≤ s c := by
  obtain ⟨m, hm, rfl⟩ := List.mem_map.1 hM
  have hle : ∀ d ∈ l, A.val (f d) ≤ A.val (f m) := fun d hd => hmax _ (List.mem_map_of_mem hd)
  have hmbest : ∀ d ∈ l, s d ≤ s m := by
    intro d hd
    by_contra hlt
    rw [not_le] at hlt
    have h1 := hsep m hm d hd hlt
    have h2 := abs_le.1 (he m hm)
    have h3 := abs_le.1 (he d hd)
    have h4 := hle d hd
    norm_num at h1 h2 h3
    linarith
  have e1 := abs_le.1 (he c hc)
  have e2 := abs_le.1 (he m hm)
  have h1 := hle c hc
  constructor
  · intro hcl
    by_contra hno
    push Not at hno
    obtain ⟨d, hd, hcd⟩ := hno
    have hlt : s c < s m := lt_of_lt_of_le hcd (hmbest d hd)
    have h2 := hsep c hc m hm hlt
    rw [hAc.isclose_false _ _ (hf0 c hc) (hf0 m hm) ?_] at hcl
    · exact absurd hcl (by simp)
    · rw [max_eq_right h1, abs_sub_comm, abs_of_nonneg (by linarith)]
      have h3 : max 1 (A.val (f m)) ≤ B + 4 / 10 ^ 13 := by
        refine max_le ?_ ?_
        · norm_num; linarith
        · have := hs m hm; linarith [e2.2]
      refine lt_of_le_of_lt (mul_le_mul_of_nonneg_left h3 (by norm_num)) ?_
      norm_num at h2 e1 e2 ⊢
      linarith
  · intro hbest
    have heq : s c = s m := le_antisymm (hmbest c hc) (hbest m hm)
    refine hAc.isclose_true _ _ (hf0 c hc) (hf0 m hm) ?_
    have h3 : (1 : ℚ) ≤ max 1 (max (A.val (f c)) (A.val (f m))) := le_max_left _ _
    refine le_trans ?_ (mul_le_mul_of_nonneg_left h3 (by norm_num))
    rw [abs_le]
    rw [heq] at e1
    norm_num at e1 e2 ⊢
    constructor <;> linarith

/-- The computed support is the sum of the budgets that are not skipped, up to small relative errors. -/
theorem near_fSupport (hA : Sound A) (hAc : Accurate A) (skip : F → Bool) (p : Profile) (y : Fin p.voters.length → F)
    (h0 : ∀ i, skip (y i) = false → 0 ≤ A.val (y i)) (c : ℕ) :
    Near (2 * p.voters.length) (A.val (fSupport A skip p (List.ofFn y) c))
      (∑ i ∈ backers p c with skip (y i) = false, A.val (y i)) := by
  set l := ((p.voters.zip (List.ofFn y)).filter (fun vb => ! skip vb.2 && decide (c ∈ vb.1.approved))) with hl
  have hsum : (l.map (fun vb => A.val vb.2)).sum = ∑ i ∈ backers p c with skip (y i) = false, A.val (y i) := by
    unfold backers
    rw [hl, sum_filter_map, zip_ofFn, List.map_ofFn, List.sum_ofFn, Finset.filter_filter, Finset.sum_filter]
    refine Finset.sum_congr rfl (fun i _ => ?_)
    simp only [Bool.and_eq_true, Bool.not_eq_true', decide_eq_true_eq, Function.comp, mem_appr]
    simp only [and_comm]
  have hnn : ∀ vb ∈ l, 0 ≤ A.val vb.2 := by
    intro vb hvb
    obtain ⟨h1, h2⟩ := List.mem_filter.1 hvb
    obtain ⟨i, hi⟩ := (List.mem_ofFn' _ _).1 (List.of_mem_zip h1).2
    simp only [Bool.and_eq_true, Bool.not_eq_true'] at h2
    have := h0 i (by rw [hi]; exact h2.1)
    rwa [hi] at this
  have := foldl_add_near hAc 0 (l.map (fun vb => (vb.2, A.val vb.2))) 0 (A.int 0) 0 le_rfl le_rfl
    (by rw [hA.val_int, Int.cast_zero]; exact near_refl 0 le_rfl) (by
      intro e he
      obtain ⟨vb, hvb, rfl⟩ := List.mem_map.1 he
      exact ⟨hnn vb hvb, near_refl 0 (hnn vb hvb)⟩)
  rw [List.map_map, List.map_map, zero_add, zero_add, List.length_map] at this
  have e1 : l.map (Prod.fst ∘ fun vb : Voter × F => (vb.2, A.val vb.2)) = l.map Prod.snd := rfl
  have e2 : l.map (Prod.snd ∘ fun vb : Voter × F => (vb.2, A.val vb.2)) = l.map (fun vb => A.val vb.2) := rfl
  rw [e1, e2, hsum] at this
  have hlen : l.length ≤ p.voters.length := by
    refine (List.length_filter_le _ _).trans ?_
    rw [List.length_zip]
    exact min_le_left _ _
  refine Near.mono this (by omega) ?_
  exact Finset.sum_nonneg (fun i hi => h0 i (Finset.mem_filter.1 hi).2)

/-- The float computation of the candidates of maximal support agrees with the exact one. -/
theorem fMaxSupport_exact (hA : Sound A) (hAc : Accurate A) (skip : F → Bool) {p : Profile} (W : List ℕ) (hW : W.length < p.numCand)
    (y : Fin p.voters.length → F) (x : VoterMap p) (B : ℚ) (hB : 1 ≤ B)
    (hf0 : ∀ c, 0 ≤ A.val (fSupport A skip p (List.ofFn y) c)) (hs : ∀ c, support p x c ≤ B)
    (he : ∀ c, |A.val (fSupport A skip p (List.ofFn y) c) - support p x c| ≤ 4 / 10 ^ 13)
    (hsep : ∀ c < p.numCand, ∀ d < p.numCand, c ∉ W → d ∉ W → support p x c < support p x d →
      support p x c + 2 * B / 10 ^ 12 ≤ support p x d) :
    ∃ tied M m, fMaxSupport A skip p W (List.ofFn y) = .ok (tied, M) ∧ tied.Pairwise (· < ·) ∧ (∀ c, c ∈ tied ↔ SupportBest p W x c) ∧
      m < p.numCand ∧ M = fSupport A skip p (List.ofFn y) m ∧ ∀ c ∈ tied, support p x c = support p x m := by
  obtain ⟨d0, hd0, hd0W⟩ := exists_not_mem hW
  have hne : available p W ≠ [] := List.ne_nil_of_mem (mem_available.2 ⟨hd0, hd0W⟩)
  obtain ⟨M, h1, h2, h3⟩ := maxOf_spec (A := A) (l := (available p W).map (fSupport A skip p (List.ofFn y))) (by simpa using hne)
  have hiff := isclose_max_iff hAc (l := available p W) (fSupport A skip p (List.ofFn y)) (support p x) B hB (fun c _ => hf0 c)
    (fun c _ => hs c) (fun c _ => he c) (fun c hc d hd => hsep c (mem_available.1 hc).1 d (mem_available.1 hd).1 (mem_available.1 hc).2
      (mem_available.1 hd).2) h2 h3
  have hTne : (available p W).filter (fun c => A.isclose (fSupport A skip p (List.ofFn y) c) M) ≠ [] := by
    obtain ⟨d, hd, rfl⟩ := List.mem_map.1 h2
    exact List.ne_nil_of_mem (a := d) (List.mem_filter.2 ⟨hd, hA.isclose_refl _⟩)
  obtain ⟨m, hm, rfl⟩ := List.mem_map.1 h2
  have hmem : ∀ c, c ∈ (available p W).filter (fun c => A.isclose (fSupport A skip p (List.ofFn y) c)
      (fSupport A skip p (List.ofFn y) m)) ↔ SupportBest p W x c := by
    intro c
    rw [List.mem_filter, mem_available]
    unfold SupportBest
    rw [and_assoc]
    refine and_congr_right fun hc => and_congr_right fun hcW => ?_
    rw [hiff c (mem_available.2 ⟨hc, hcW⟩)]
    simp only [mem_available, and_imp]
  have hmb := (hmem m).1 (List.mem_filter.2 ⟨hm, hA.isclose_refl _⟩)
  refine ⟨_, _, m, ?_, (available_lt p W).filter _, hmem, hmb.1, rfl, ?_⟩
  · unfold fMaxSupport
    simp only [h1, bind, Except.bind]
    rw [if_neg hTne]
  · intro c hc
    have hcb := (hmem c).1 hc
    exact le_antisymm (hmb.2.2 c hcb.1 hcb.2.1) (hcb.2.2 m hmb.1 hmb.2.1)

/-! ## The consensus rule -/

/-- In every round of the consensus rule, budgets are zero or not too close to zero, and different supports are not too close to each
other. -/
def Spec.ConsensusSeparated (p : Profile) (k : ℕ) : Prop :=
  ∀ W b, Run (ConsensusBest p) (consensusUpd p) [] (fun _ => 0) W b → W.length < k →
    (∀ i, income p b i ≠ 0 → 2 / 10 ^ 12 ≤ |income p b i|) ∧
    ∀ c < p.numCand, ∀ d < p.numCand, c ∉ W → d ∉ W → support p (income p b) c < support p (income p b) d →
      support p (income p b) c + 2 * (k * total p) / 10 ^ 12 ≤ support p (income p b) d

/-- What a solvent supporter of `c` pays. -/
def consensusPay (p : Profile) (b : VoterMap p) (c : ℕ) (i : Fin p.voters.length) : ℚ :=
  if i ∈ backers p c ∧ 0 < income p b i then
    total p * ((p.voters.get i).weight / ∑ j ∈ backers p c with 0 < income p b j, (p.voters.get j).weight) else 0

theorem consensusUpd_eq (p : Profile) (W : List ℕ) (b : VoterMap p) (c : ℕ) (i : Fin p.voters.length) :
    consensusUpd p W b c i = income p b i - consensusPay p b c i := by
  unfold consensusUpd consensusPay
  split <;> ring

theorem consensusPay_nonneg {p : Profile} (hp : p.WF) (b : VoterMap p) (c : ℕ) (i : Fin p.voters.length) : 0 ≤ consensusPay p b c i := by
  unfold consensusPay
  split
  · exact mul_nonneg (Finset.sum_nonneg (fun i _ => (weight_pos hp i).le)) (div_nonneg (weight_pos hp i).le
      (Finset.sum_nonneg (fun i _ => (weight_pos hp i).le)))
  · exact le_rfl

theorem sum_consensusPay_le {p : Profile} (hp : p.WF) (b : VoterMap p) (c : ℕ) : ∑ i, consensusPay p b c i ≤ total p := by
  set S := (backers p c).filter (fun i => 0 < income p b i) with hS
  have hT : 0 ≤ total p := Finset.sum_nonneg (fun i _ => (weight_pos hp i).le)
  have e : ∑ i, consensusPay p b c i = ∑ i ∈ S, total p * ((p.voters.get i).weight / ∑ j ∈ S, (p.voters.get j).weight) := by
    rw [hS, Finset.sum_filter, ← Finset.sum_filter_add_sum_filter_not Finset.univ (fun i => i ∈ backers p c),
      Finset.sum_eq_zero (s := Finset.univ.filter (fun i => i ∉ backers p c)), add_zero]
    · rw [Finset.filter_mem_eq_inter, Finset.univ_inter]
      refine Finset.sum_congr rfl (fun i hi => ?_)
      unfold consensusPay
      simp only [hi, true_and]
    · intro i hi
      unfold consensusPay
      rw [if_neg (fun h => (Finset.mem_filter.1 hi).2 h.1)]
  rw [e, ← Finset.mul_sum]
  simp only [div_eq_mul_inv]
  rw [← Finset.sum_mul]
  by_cases h : ∑ j ∈ S, (p.voters.get j).weight = 0
  · rw [h]; simpa using hT
  · rw [mul_inv_cancel₀ h, mul_one]

/-- Bounds of the budgets. -/
theorem consensus_run_bounds {p : Profile} (hp : p.WF) {W : List ℕ} {b : VoterMap p}
    (h : Run (ConsensusBest p) (consensusUpd p) [] (fun _ => 0) W b) :
    (∀ i, b i ≤ W.length * (p.voters.get i).weight) ∧ ∑ i, |b i| ≤ 2 * W.length * total p := by
  induction h with
  | start => simp
  | @step W b c _ hc ih =>
    obtain ⟨h1, h2⟩ := ih
    have hw : ∀ i, 0 < (p.voters.get i).weight := weight_pos hp
    refine ⟨fun i => ?_, ?_⟩
    · rw [consensusUpd_eq]
      have := consensusPay_nonneg hp b c i
      have := h1 i
      unfold income
      push_cast [List.length_append, List.length_singleton]
      linarith
    · have : ∀ i ∈ Finset.univ, |consensusUpd p W b c i| ≤ |b i| + (p.voters.get i).weight + consensusPay p b c i := by
        intro i _
        rw [consensusUpd_eq]
        unfold income
        refine (abs_sub _ _).trans ?_
        rw [abs_of_nonneg (consensusPay_nonneg hp b c i)]
        have := abs_add_le (b i) (p.voters.get i).weight
        rw [abs_of_pos (hw i)] at this
        linarith
      refine (Finset.sum_le_sum this).trans ?_
      rw [Finset.sum_add_distrib, Finset.sum_add_distrib]
      have h3 := sum_consensusPay_le hp b c
      have h4 : ∑ i, (p.voters.get i).weight = total p := rfl
      push_cast [List.length_append, List.length_singleton]
      linarith

/-- The budgets computed after the income was paid. -/
def fIncome (A : Arith F) (p : Profile) (y : Fin p.voters.length → F) (i : Fin p.voters.length) : F :=
  A.add (y i) (A.weight (p.voters.get i).weight)

theorem fIncome_error (hA : Sound A) (hS : SignedAccurate A) {p : Profile} (hp : p.WF) (y : Fin p.voters.length → F) (x : VoterMap p) :
    ∑ i, |A.val (fIncome A p y i) - income p x i| ≤ ∑ i, |A.val (y i) - x i| +
      4 / 2 ^ 53 * (∑ i, |x i| + ∑ i, |A.val (y i) - x i| + total p) := by
  have : ∀ i ∈ Finset.univ, |A.val (fIncome A p y i) - income p x i| ≤ |A.val (y i) - x i| +
      4 / 2 ^ 53 * (|x i| + |A.val (y i) - x i| + (p.voters.get i).weight) := by
    intro i _
    have h1 := hS.add (y i) (A.weight (p.voters.get i).weight)
    rw [hA.val_weight, abs_of_pos (weight_pos hp i)] at h1
    have h2 : |A.val (y i)| ≤ |x i| + |A.val (y i) - x i| := by
      have := abs_add_le (x i) (A.val (y i) - x i)
      rwa [add_sub_cancel] at this
    have h3 : |A.val (fIncome A p y i) - income p x i| ≤ |A.val (fIncome A p y i) - (A.val (y i) + (p.voters.get i).weight)| +
        |A.val (y i) - x i| := by
      have := abs_add_le (A.val (fIncome A p y i) - (A.val (y i) + (p.voters.get i).weight)) (A.val (y i) - x i)
      have e : A.val (fIncome A p y i) - income p x i =
          A.val (fIncome A p y i) - (A.val (y i) + (p.voters.get i).weight) + (A.val (y i) - x i) := by unfold income; ring
      rwa [e]
    refine h3.trans ?_
    have h4 : 4 / 2 ^ 53 * (|A.val (y i)| + (p.voters.get i).weight) ≤
      (4 / 2 ^ 53 * (|x i| + |A.val (y i) - x i| + (p.voters.get i).weight) : ℚ) := by gcongr
    unfold fIncome
    linarith
  refine (Finset.sum_le_sum this).trans (le_of_eq ?_)
  rw [Finset.sum_add_distrib, ← Finset.mul_sum, Finset.sum_add_distrib, Finset.sum_add_distrib]
  rfl

/-- The budgets computed after `c` was elected. -/
def fConsensusUpd (A : Arith F) (p : Profile) (y : Fin p.voters.length → F) (c : ℕ) (i : Fin p.voters.length) : F :=
  if ! fNearlyBroke A (fIncome A p y i) && decide (c ∈ (p.voters.get i).approved) then
    A.sub (fIncome A p y i) (A.mul (A.weight (p.voters.get i).weight) (A.div (fTotalWeight A p)
      (A.sum (((p.voters.zip (List.ofFn (fIncome A p y))).filter
        (fun vb => ! fNearlyBroke A vb.2 && decide (c ∈ vb.1.approved))).map (fun vb => A.weight vb.1.weight)))))
  else fIncome A p y i

theorem fConsensusSuccs_ok (hA : Sound A) {p : Profile} (hp : p.WF) (W : List ℕ) (y : Fin p.voters.length → F) {tied : List ℕ} {M : F}
    (h : fMaxSupport A (fNearlyBroke A) p W (List.ofFn (fIncome A p y)) = .ok (tied, M)) :
    fConsensusSuccs A p (W, List.ofFn y) = .ok (tied.map (fun c => (W ++ [c], List.ofFn (fConsensusUpd A p y c)))) := by
  have hinc : List.zipWith (fun (v : Voter) b => A.add b (A.weight v.weight)) p.voters (List.ofFn y) = List.ofFn (fIncome A p y) := by
    rw [zipWith_ofFn]
    rfl
  unfold fConsensusSuccs
  simp only [hinc, h, bind, Except.bind]
  refine mapM_okF _ _ _ ?_
  intro c _
  set budget := List.ofFn (fIncome A p y) with hb
  have : fConsensusPay A p budget c = .ok (List.ofFn (fConsensusUpd A p y c)) := by
    have e : List.ofFn (fConsensusUpd A p y c) = (p.voters.zip budget).map (fun vb =>
        if ! fNearlyBroke A vb.2 && decide (c ∈ vb.1.approved) then
          A.sub vb.2 (A.mul (A.weight vb.1.weight) (A.div (fTotalWeight A p) (A.sum (((p.voters.zip budget).filter
            (fun vb => ! fNearlyBroke A vb.2 && decide (c ∈ vb.1.approved))).map (fun vb => A.weight vb.1.weight)))))
        else vb.2) := by
      rw [hb, zip_ofFn, List.map_ofFn, ← zip_ofFn]
      rfl
    rw [e]
    unfold fConsensusPay
    refine mapM_okF _ _ _ ?_
    intro vb hvb
    split
    · rename_i hcond
      unfold Arith.pyDiv
      have hpos : 0 < A.val (A.sum (((p.voters.zip budget).filter
          (fun vb => ! fNearlyBroke A vb.2 && decide (c ∈ vb.1.approved))).map (fun vb => A.weight vb.1.weight))) := by
        refine hA.sum.pos _ ?_ ?_
        · simp only [ne_eq, List.map_eq_nil_iff]
          exact List.ne_nil_of_mem (a := vb) (List.mem_filter.2 ⟨hvb, hcond⟩)
        · intro x hx
          obtain ⟨e, he, rfl⟩ := List.mem_map.1 hx
          rw [hA.val_weight]
          exact hp.weight _ (List.of_mem_zip (List.mem_filter.1 he).1).1
      rw [if_neg hpos.ne']
      rfl
    · rfl
  rw [this]

/-- A computed payment is accurate. -/
theorem payment_error (hS : SignedAccurate A) (w t s : F) (hs : A.val s ≠ 0) :
    |A.val (A.mul w (A.div t s)) - A.val w * (A.val t / A.val s)| ≤ 9 / 2 ^ 53 * |A.val w * (A.val t / A.val s)| := by
  have h1 := hS.div t s hs
  have h2 := hS.mul w (A.div t s)
  set q := A.val t / A.val s with hq
  set q' := A.val (A.div t s) with hq'
  set m := A.val (A.mul w (A.div t s)) with hm
  have h3 : |A.val w * q' - A.val w * q| ≤ 4 / 2 ^ 53 * |A.val w * q| := by
    rw [← mul_sub, abs_mul, abs_mul]
    have := mul_le_mul_of_nonneg_left h1 (abs_nonneg (A.val w))
    linarith
  have h4 : |A.val w * q'| ≤ |A.val w * q| + 4 / 2 ^ 53 * |A.val w * q| := by
    have := abs_add_le (A.val w * q) (A.val w * q' - A.val w * q)
    rw [add_sub_cancel] at this
    linarith
  have h5 : |m - A.val w * q| ≤ |m - A.val w * q'| + |A.val w * q' - A.val w * q| := abs_sub_le _ _ _
  have h0 := abs_nonneg (A.val w * q)
  rw [abs_mul] at h0
  norm_num at h2 h3 h4 ⊢
  linarith

/-- The computed budgets after a round are accurate if the same voters are considered solvent. -/
theorem fConsensusUpd_error (hA : Sound A) (hS : SignedAccurate A) {p : Profile} (hp : p.WF) {k : ℕ} (hm : Moderate p k)
    (W : List ℕ) (y : Fin p.voters.length → F) (x : VoterMap p) (c : ℕ)
    (hb : ∀ i, fNearlyBroke A (fIncome A p y i) = decide (income p x i ≤ 0)) :
    ∑ i, |A.val (fConsensusUpd A p y c i) - consensusUpd p W x c i| ≤ ∑ i, |A.val (fIncome A p y i) - income p x i| +
      9 / 2 ^ 53 * total p + 4 / 2 ^ 53 * (∑ i, |x i| + 3 * total p + ∑ i, |A.val (fIncome A p y i) - income p x i|) := by
  set l := (p.voters.zip (List.ofFn (fIncome A p y))).filter (fun vb => ! fNearlyBroke A vb.2 && decide (c ∈ vb.1.approved)) with hl
  have hT : A.val (fTotalWeight A p) = total p := by
    unfold fTotalWeight
    rw [(sum_weights_exact hA hm p.voters (List.Sublist.refl _)).1, (num_sum hm p.voters (List.Sublist.refl _)).1, ← totalWeight_eq]
    rfl
  have hs : A.val (A.sum (l.map (fun vb => A.weight vb.1.weight))) =
      ∑ j ∈ backers p c with 0 < income p x j, (p.voters.get j).weight := by
    have hsub : (l.map Prod.fst).Sublist p.voters := by
      have h1 : (l.map Prod.fst).Sublist ((p.voters.zip (List.ofFn (fIncome A p y))).map Prod.fst) := List.filter_sublist.map _
      rwa [List.map_fst_zip (by simp)] at h1
    have h1 := (sum_weights_exact hA hm (l.map Prod.fst) hsub).1
    rw [(num_sum hm (l.map Prod.fst) hsub).1, List.map_map, List.map_map] at h1
    have e1 : l.map ((fun v : Voter => A.weight v.weight) ∘ Prod.fst) = l.map (fun vb => A.weight vb.1.weight) := rfl
    have e2 : l.map (Voter.weight ∘ Prod.fst) = l.map (fun vb => vb.1.weight) := rfl
    rw [e1, e2] at h1
    rw [h1, hl, sum_filter_map, zip_ofFn, List.map_ofFn, List.sum_ofFn]
    unfold backers
    rw [Finset.filter_filter, Finset.sum_filter]
    refine Finset.sum_congr rfl (fun i _ => ?_)
    simp only [Bool.and_eq_true, Bool.not_eq_true', decide_eq_true_eq, Function.comp, mem_appr, hb, decide_eq_false_iff_not, not_le]
    simp only [and_comm]
  have key : ∀ i ∈ Finset.univ, |A.val (fConsensusUpd A p y c i) - consensusUpd p W x c i| ≤
      |A.val (fIncome A p y i) - income p x i| + 9 / 2 ^ 53 * consensusPay p x c i +
      4 / 2 ^ 53 * (|x i| + (p.voters.get i).weight + 2 * consensusPay p x c i + |A.val (fIncome A p y i) - income p x i|) := by
    intro i _
    have hpay0 := consensusPay_nonneg hp x c i
    have hw := weight_pos hp i
    have ha1 := abs_nonneg (x i)
    have ha2 := abs_nonneg (A.val (fIncome A p y i) - income p x i)
    rw [consensusUpd_eq]
    by_cases hi : i ∈ backers p c ∧ 0 < income p x i
    · have hcond : (! fNearlyBroke A (fIncome A p y i) && decide (c ∈ (p.voters.get i).approved)) = true := by
        rw [hb, Bool.and_eq_true, Bool.not_eq_true', decide_eq_false_iff_not, decide_eq_true_eq, not_le]
        exact ⟨hi.2, mem_backers.1 hi.1⟩
      have hs0 : 0 < ∑ j ∈ backers p c with 0 < income p x j, (p.voters.get j).weight :=
        Finset.sum_pos (fun j _ => weight_pos hp j) ⟨i, Finset.mem_filter.2 hi⟩
      have hpayd : consensusPay p x c i = (p.voters.get i).weight * (total p /
          ∑ j ∈ backers p c with 0 < income p x j, (p.voters.get j).weight) := by
        unfold consensusPay
        rw [if_pos hi]
        ring
      have h1 := payment_error hS (A.weight (p.voters.get i).weight) (fTotalWeight A p)
        (A.sum (l.map (fun vb => A.weight vb.1.weight))) (by rw [hs]; exact hs0.ne')
      unfold fConsensusUpd
      rw [if_pos hcond, ← hl]
      set m := A.mul (A.weight (p.voters.get i).weight) (A.div (fTotalWeight A p) (A.sum (l.map (fun vb => A.weight vb.1.weight)))) with hmd
      rw [hA.val_weight, hT, hs, ← hpayd, abs_of_nonneg hpay0] at h1
      have h2 := hS.sub (fIncome A p y i) m
      have h3 : |A.val (fIncome A p y i)| ≤ |x i| + (p.voters.get i).weight + |A.val (fIncome A p y i) - income p x i| := by
        have g1 := abs_add_le (income p x i) (A.val (fIncome A p y i) - income p x i)
        rw [add_sub_cancel] at g1
        have g2 := abs_add_le (x i) (p.voters.get i).weight
        rw [abs_of_pos hw] at g2
        have g3 : |income p x i| = |x i + (p.voters.get i).weight| := rfl
        linarith
      have h4 : |A.val m| ≤ 2 * consensusPay p x c i := by
        have g1 := abs_add_le (consensusPay p x c i) (A.val m - consensusPay p x c i)
        rw [add_sub_cancel, abs_of_nonneg hpay0] at g1
        norm_num at h1
        linarith
      have h5 : |A.val (A.sub (fIncome A p y i) m) - (income p x i - consensusPay p x c i)| ≤
          |A.val (A.sub (fIncome A p y i) m) - (A.val (fIncome A p y i) - A.val m)| + (|A.val (fIncome A p y i) - income p x i| +
            |A.val m - consensusPay p x c i|) := by
        have e : A.val (A.sub (fIncome A p y i) m) - (income p x i - consensusPay p x c i) =
          (A.val (A.sub (fIncome A p y i) m) - (A.val (fIncome A p y i) - A.val m)) + ((A.val (fIncome A p y i) - income p x i) -
            (A.val m - consensusPay p x c i)) := by ring
        rw [e]
        exact (abs_add_le _ _).trans (add_le_add_right (abs_sub _ _) _)
      have h6 : 4 / 2 ^ 53 * (|A.val (fIncome A p y i)| + |A.val m|) ≤ (4 / 2 ^ 53 * (|x i| + (p.voters.get i).weight +
          2 * consensusPay p x c i + |A.val (fIncome A p y i) - income p x i|) : ℚ) :=
        mul_le_mul_of_nonneg_left (by linarith) (by norm_num)
      linarith
    · have hcond : ¬ (! fNearlyBroke A (fIncome A p y i) && decide (c ∈ (p.voters.get i).approved)) = true := by
        rw [hb, Bool.and_eq_true, Bool.not_eq_true', decide_eq_false_iff_not, decide_eq_true_eq, not_le]
        rintro ⟨g1, g2⟩
        exact hi ⟨mem_backers.2 g2, g1⟩
      unfold fConsensusUpd
      rw [if_neg hcond]
      have e : consensusPay p x c i = 0 := by unfold consensusPay; rw [if_neg hi]
      rw [e, sub_zero]
      have : (0 : ℚ) ≤ 4 / 2 ^ 53 * (|x i| + (p.voters.get i).weight + 2 * 0 + |A.val (fIncome A p y i) - income p x i|) :=
        mul_nonneg (by norm_num) (by linarith)
      linarith
  refine (Finset.sum_le_sum key).trans ?_
  rw [Finset.sum_add_distrib, Finset.sum_add_distrib, ← Finset.mul_sum, ← Finset.mul_sum, Finset.sum_add_distrib, Finset.sum_add_distrib,
    Finset.sum_add_distrib, ← Finset.mul_sum]
  have h3 := sum_consensusPay_le hp x c
  have h4 : ∑ i, (p.voters.get i).weight = total p := rfl
  rw [h4]
  norm_num
  linarith

/-- Bounds that keep the rounding errors of the consensus rule small. -/
def Spec.FewConsensusRoundings (p : Profile) (k : ℕ) : Prop := k * total p * (16 * k + 5 * p.voters.length + 20) ≤ 3600

/-- Computed and exact budgets after the same elections. -/
structure ConsensusRel (A : Arith F) (p : Profile) (k : ℕ) (W : List ℕ) (y : Fin p.voters.length → F) (x : VoterMap p) : Prop where
  run : Run (ConsensusBest p) (consensusUpd p) [] (fun _ => 0) W x
  err : ∑ i, |A.val (y i) - x i| ≤ W.length * (1 / 2 ^ 53 * total p * (16 * k + 20))

theorem one_le_total {p : Profile} (hp : p.WF) (hw : IntegerWeights p) (hne : p.voters ≠ []) : 1 ≤ total p := by
  have hpos := total_pos hp hne
  obtain ⟨n, hn⟩ := wt_integer hw (Finset.univ : Group p)
  have hn' : total p = n := hn
  rw [hn'] at hpos ⊢
  have : 0 < n := by exact_mod_cast hpos
  exact_mod_cast this

/-- The rounding errors in a round. -/
theorem ConsensusRel.income_err (hA : Sound A) (hS : SignedAccurate A) {p : Profile} (hp : p.WF) {k : ℕ} (hT1 : 1 ≤ total p)
    (hfew : FewConsensusRoundings p k) {W : List ℕ} {y : Fin p.voters.length → F} {x : VoterMap p} (h : ConsensusRel A p k W y x)
    (hW : W.length < k) : ∑ i, |A.val (y i) - x i| ≤ 1 ∧
      ∑ i, |A.val (fIncome A p y i) - income p x i| ≤ W.length * (1 / 2 ^ 53 * total p * (16 * k + 20)) +
        1 / 2 ^ 53 * total p * (8 * k) ∧
      ∑ i, |A.val (fIncome A p y i) - income p x i| ≤ k * (1 / 2 ^ 53 * total p * (16 * k + 20)) ∧
      ∑ i, |A.val (fIncome A p y i) - income p x i| ≤ 1 := by
  obtain ⟨hrun, herr⟩ := h
  obtain ⟨-, hX⟩ := consensus_run_bounds hp hrun
  have h1 := fIncome_error hA hS hp y x
  have hk : (W.length : ℚ) + 1 ≤ k := by exact_mod_cast hW
  have hr0 : (0 : ℚ) ≤ W.length := by positivity
  unfold FewConsensusRoundings at hfew
  set T := total p with hTd
  set r := (W.length : ℚ) with hr
  set K := (k : ℚ) with hK
  have hn0 : (0 : ℚ) ≤ p.voters.length := by positivity
  have hkT : K * T * (16 * K + 20) ≤ 3600 := by
    refine le_trans ?_ hfew
    refine mul_le_mul_of_nonneg_left (by linarith) (mul_nonneg (by linarith) (by linarith))
  have hbig : K * (1 / 2 ^ 53 * T * (16 * K + 20)) ≤ 3600 / 2 ^ 53 := by
    have e : K * (1 / 2 ^ 53 * T * (16 * K + 20)) = 1 / 2 ^ 53 * (K * T * (16 * K + 20)) := by ring
    rw [e]
    norm_num at hkT ⊢
    linarith
  have hunit : 0 ≤ 1 / 2 ^ 53 * T * (16 * K + 20) := mul_nonneg (mul_nonneg (by norm_num) (by linarith)) (by linarith)
  have hE1 : ∑ i, |A.val (y i) - x i| ≤ 1 := by
    refine herr.trans ?_
    have : r * (1 / 2 ^ 53 * T * (16 * K + 20)) ≤ K * (1 / 2 ^ 53 * T * (16 * K + 20)) := mul_le_mul_of_nonneg_right (by linarith) hunit
    refine this.trans (hbig.trans (by norm_num))
  have hinc : ∑ i, |A.val (fIncome A p y i) - income p x i| ≤ r * (1 / 2 ^ 53 * T * (16 * K + 20)) + 1 / 2 ^ 53 * T * (8 * K) := by
    have h2 : 4 / 2 ^ 53 * (∑ i, |x i| + ∑ i, |A.val (y i) - x i| + T) ≤ 1 / 2 ^ 53 * T * (8 * K) := by
      have h3 : ∑ i, |x i| + ∑ i, |A.val (y i) - x i| + T ≤ 2 * K * T := by
        have : r * T + T ≤ K * T := by nlinarith
        linarith
      have := mul_le_mul_of_nonneg_left h3 (show (0 : ℚ) ≤ 4 / 2 ^ 53 by norm_num)
      refine this.trans (le_of_eq (by ring))
    linarith
  have hinc2 : ∑ i, |A.val (fIncome A p y i) - income p x i| ≤ K * (1 / 2 ^ 53 * T * (16 * K + 20)) := by
    refine hinc.trans ?_
    have h2 : 1 / 2 ^ 53 * T * (8 * K) ≤ 1 / 2 ^ 53 * T * (16 * K + 20) :=
      mul_le_mul_of_nonneg_left (by linarith) (mul_nonneg (by norm_num) (by linarith))
    have h3 : (r + 1) * (1 / 2 ^ 53 * T * (16 * K + 20)) ≤ K * (1 / 2 ^ 53 * T * (16 * K + 20)) :=
      mul_le_mul_of_nonneg_right hk hunit
    linarith
  exact ⟨hE1, hinc, hinc2, hinc2.trans (hbig.trans (by norm_num))⟩

/-- The same voters are solvent, and the computed supports are accurate. -/
theorem ConsensusRel.support_err (hA : Sound A) (hS : SignedAccurate A) (hAc : Accurate A) {p : Profile} (hp : p.WF) {k : ℕ}
    (hT1 : 1 ≤ total p) (hfew : FewConsensusRoundings p k) (hsep : ConsensusSeparated p k) {W : List ℕ}
    {y : Fin p.voters.length → F} {x : VoterMap p} (h : ConsensusRel A p k W y x) (hW : W.length < k) :
    (∀ i, fNearlyBroke A (fIncome A p y i) = decide (income p x i ≤ 0)) ∧
    (∀ c, 0 ≤ A.val (fSupport A (fNearlyBroke A) p (List.ofFn (fIncome A p y)) c)) ∧
    (∀ c, support p (income p x) c ≤ k * total p) ∧
    ∀ c, |A.val (fSupport A (fNearlyBroke A) p (List.ofFn (fIncome A p y)) c) - support p (income p x) c| ≤ 4 / 10 ^ 13 := by
  obtain ⟨-, -, hE, -⟩ := h.income_err hA hS hp hT1 hfew hW
  obtain ⟨hub, -⟩ := consensus_run_bounds hp h.run
  obtain ⟨hsep1, -⟩ := hsep W x h.run hW
  have hk : (W.length : ℚ) + 1 ≤ k := by exact_mod_cast hW
  have hr0 : (0 : ℚ) ≤ W.length := by positivity
  have hn0 : (0 : ℚ) ≤ p.voters.length := by positivity
  have hfew' := hfew
  unfold FewConsensusRoundings at hfew
  set T := total p with hTd
  set K := (k : ℚ) with hK
  set n := (p.voters.length : ℚ) with hn
  set y' := fIncome A p y with hy'
  have hKT : 1 ≤ K * T := by nlinarith
  have hsmall : ∑ i, |A.val (y' i) - income p x i| + 5 * n / 2 ^ 53 * (K * T) ≤ 4 / 10 ^ 13 := by
    have e : K * (1 / 2 ^ 53 * T * (16 * K + 20)) + 5 * n / 2 ^ 53 * (K * T) = 1 / 2 ^ 53 * (K * T * (16 * K + 5 * n + 20)) := by ring
    have h1 : 1 / 2 ^ 53 * (K * T * (16 * K + 5 * n + 20)) ≤ (1 / 2 ^ 53 * 3600 : ℚ) := mul_le_mul_of_nonneg_left hfew (by norm_num)
    norm_num at h1 e hE ⊢
    linarith
  have hnn : 0 ≤ 5 * n / 2 ^ 53 * (K * T) := by positivity
  have hei : ∀ i, |A.val (y' i) - income p x i| ≤ 4 / 10 ^ 13 := by
    intro i
    have := Finset.single_le_sum (f := fun i => |A.val (y' i) - income p x i|) (fun i _ => abs_nonneg _) (Finset.mem_univ i)
    linarith
  have hbroke : ∀ i, fNearlyBroke A (y' i) = decide (income p x i ≤ 0) := by
    intro i
    have h1 := abs_le.1 (hei i)
    unfold fNearlyBroke
    rcases lt_trichotomy (income p x i) 0 with hlt | heq | hgt
    · have h2 := hsep1 i hlt.ne
      rw [abs_of_neg hlt] at h2
      have : A.val (y' i) ≤ 0 := by norm_num at h1 h2; linarith
      simp [this, hlt.le]
    · rw [heq] at h1 ⊢
      simp only [le_refl, decide_true, Bool.or_eq_true, decide_eq_true_eq]
      by_cases h3 : A.val (y' i) ≤ 0
      · exact Or.inl h3
      · rw [not_le] at h3
        refine Or.inr (hAc.isclose_true _ _ h3.le (by rw [hA.val_int]; simp) ?_)
        rw [hA.val_int, Int.cast_zero, sub_zero, abs_of_pos h3]
        have : (1 : ℚ) ≤ max 1 (max (A.val (y' i)) 0) := le_max_left _ _
        refine le_trans ?_ (mul_le_mul_of_nonneg_left this (by norm_num))
        norm_num at h1 ⊢
        linarith
    · have h2 := hsep1 i hgt.ne'
      rw [abs_of_pos hgt] at h2
      have h3 : 16 / 10 ^ 13 ≤ A.val (y' i) := by norm_num at h1 h2 ⊢; linarith
      have h4 : 0 < A.val (y' i) := by norm_num at h3; linarith
      have h5 : A.isclose (y' i) (A.int 0) = false := by
        refine hAc.isclose_false _ _ h4.le (by rw [hA.val_int]; simp) ?_
        rw [hA.val_int, Int.cast_zero, sub_zero, abs_of_pos h4, max_eq_left h4.le]
        rcases le_total 1 (A.val (y' i)) with g | g
        · rw [max_eq_right g]
          norm_num
          linarith
        · rw [max_eq_left g]
          norm_num at h3 ⊢
          linarith
      rw [h5]
      simp [not_le.2 h4, not_le.2 hgt]
  have hpos : ∀ i, fNearlyBroke A (y' i) = false → 0 ≤ A.val (y' i) := by
    intro i hi
    unfold fNearlyBroke at hi
    simp only [Bool.or_eq_false_iff, decide_eq_false_iff_not, not_le] at hi
    exact hi.1.le
  have hnear := near_fSupport hA hAc (fNearlyBroke A) p y' hpos
  have hsup : ∀ c, support p (income p x) c ≤ K * T := by
    intro c
    unfold support
    have h1 : ∀ i ∈ (backers p c).filter (fun i => 0 < income p x i), income p x i ≤ K * (p.voters.get i).weight := by
      intro i _
      have := hub i
      have hw := weight_pos hp i
      unfold income
      nlinarith
    refine (Finset.sum_le_sum h1).trans ?_
    rw [← Finset.mul_sum]
    refine mul_le_mul_of_nonneg_left ?_ (by linarith)
    exact Finset.sum_le_univ_sum_of_nonneg (fun i => (weight_pos hp i).le)
  refine ⟨hbroke, fun c => ?_, hsup, fun c => ?_⟩
  · exact (hnear c).nonneg (Finset.sum_nonneg (fun i hi => hpos i (Finset.mem_filter.1 hi).2))
  · set S := ∑ i ∈ backers p c with fNearlyBroke A (y' i) = false, A.val (y' i) with hSd
    have hS0 : 0 ≤ S := Finset.sum_nonneg (fun i hi => hpos i (Finset.mem_filter.1 hi).2)
    have hdiff : |S - support p (income p x) c| ≤ ∑ i, |A.val (y' i) - income p x i| := by
      have hset : (backers p c).filter (fun i => fNearlyBroke A (y' i) = false) = (backers p c).filter (fun i => 0 < income p x i) := by
        refine Finset.filter_congr (fun i _ => ?_)
        rw [hbroke, decide_eq_false_iff_not, not_le]
      rw [hSd, hset]
      unfold support
      rw [← Finset.sum_sub_distrib]
      refine (Finset.abs_sum_le_sum_abs _ _).trans ?_
      exact Finset.sum_le_univ_sum_of_nonneg (fun i => abs_nonneg _)
    have hfewn : 2 * (2 * p.voters.length) ≤ 2 ^ 53 := by
      have h1 : 5 * n ≤ 3600 := by
        refine le_trans ?_ hfew
        have : 1 * (5 * n) ≤ K * T * (16 * K + 5 * n + 20) := mul_le_mul hKT (by linarith) (by positivity) (by linarith)
        linarith
      have h2 : p.voters.length ≤ 720 := by
        have : (p.voters.length : ℚ) ≤ 720 := by linarith
        exact_mod_cast this
      omega
    have hb := (hnear c).bounds hS0 hfewn
    have hSle : S ≤ 5 / 4 * (K * T) := by
      have h1 := (abs_le.1 hdiff).2
      have h2 := hsup c
      norm_num at hsmall
      linarith
    have h3 : 2 * ((2 * p.voters.length : ℕ) : ℚ) / 2 ^ 53 * S ≤ 5 * n / 2 ^ 53 * (K * T) := by
      push_cast
      have := mul_le_mul_of_nonneg_left hSle (show 0 ≤ 2 * (2 * n) / 2 ^ 53 by positivity)
      refine this.trans (le_of_eq (by ring))
    have h4 : ((2 * p.voters.length : ℕ) : ℚ) / 2 ^ 53 * S ≤ 2 * ((2 * p.voters.length : ℕ) : ℚ) / 2 ^ 53 * S := by
      refine mul_le_mul_of_nonneg_right ?_ hS0
      have : (0 : ℚ) ≤ ((2 * p.voters.length : ℕ) : ℚ) := by positivity
      gcongr
      linarith
    have h5 := abs_le.1 hdiff
    rw [abs_le]
    constructor <;> linarith

theorem ConsensusRel.step (hA : Sound A) (hS : SignedAccurate A) (hAc : Accurate A) {p : Profile} (hp : p.WF) {k : ℕ} {k' : ℕ}
    (hm : Moderate p k') (hT1 : 1 ≤ total p) (hfew : FewConsensusRoundings p k) (hsep : ConsensusSeparated p k) {W : List ℕ}
    {y : Fin p.voters.length → F} {x : VoterMap p} (h : ConsensusRel A p k W y x) (hW : W.length < k) (c : ℕ)
    (hc : ConsensusBest p W x c) : ConsensusRel A p k (W ++ [c]) (fConsensusUpd A p y c) (consensusUpd p W x c) := by
  refine ⟨.step h.run hc, ?_⟩
  obtain ⟨hbroke, -, -, -⟩ := h.support_err hA hS hAc hp hT1 hfew hsep hW
  obtain ⟨-, h1, -, h2⟩ := h.income_err hA hS hp hT1 hfew hW
  obtain ⟨-, hX⟩ := consensus_run_bounds hp h.run
  have h3 := fConsensusUpd_error hA hS hp hm W y x c hbroke
  refine h3.trans ?_
  have hk : (W.length : ℚ) + 1 ≤ k := by exact_mod_cast hW
  push_cast [List.length_append, List.length_singleton]
  set T := total p with hTd
  set K := (k : ℚ) with hK
  set r := (W.length : ℚ) with hr
  have h4 : ∑ i, |x i| + 3 * T + ∑ i, |A.val (fIncome A p y i) - income p x i| ≤ 2 * K * T + 2 * T := by
    have : r * T + T ≤ K * T := by nlinarith
    linarith
  have h5 := mul_le_mul_of_nonneg_left h4 (show (0 : ℚ) ≤ 4 / 2 ^ 53 by norm_num)
  have e : (r + 1) * (1 / 2 ^ 53 * T * (16 * K + 20)) = r * (1 / 2 ^ 53 * T * (16 * K + 20)) + 1 / 2 ^ 53 * T * (8 * K) + 9 / 2 ^ 53 * T
      + 4 / 2 ^ 53 * (2 * K * T + 2 * T) + 3 / 2 ^ 53 * T := by ring
  rw [e]
  have : 0 ≤ 3 / 2 ^ 53 * T := mul_nonneg (by norm_num) (by linarith)
  linarith

/-- C104: the consensus rule with floats returns the same list as with fractions, whenever budgets are not too close to zero and
different supports not too close to each other. -/
theorem C104_consensus_separated (hA : Sound A) (hS : SignedAccurate A) (hAc : Accurate A) (p : Profile) (hp : p.WF) (k : ℕ)
    (hm : Moderate p k) (hfew : FewConsensusRoundings p k) (hsep : ConsensusSeparated p k) (env : Env)
    (float : Except Err (List (List ℕ))) (a a' : Args) (hak : a.k = k) (hak' : a'.k = k) (alg : String) (hex : ExactAlg env alg)
    (hal : prologue env "consensus-rule" p a = .ok "float-fractions") (hal' : prologue env "consensus-rule" p a' = .ok alg)
    (hr : a'.resolute = a.resolute) (hmax : a'.max = a.max) :
    computeConsensus env (floatConsensus A p a) p a = computeConsensus env float p a' := by
  have hv := validCall_of_prologue hal
  have hT1 := one_le_total hp hm.integer hv.voters
  have hkn : k ≤ p.numCand := hak ▸ hv.le
  have hk1 : 1 ≤ k := hak ▸ hv.pos
  unfold computeConsensus floatConsensus consensusAlgorithm
  rw [hal, hal']
  simp only [bind, Except.bind]
  rw [withFractions_exact hex, withFractions_float, hak, hak',
    show a'.effMax = a.effMax by unfold Args.effMax Args.maxNum; rw [hr, hmax]]
  have key : universes (fun n => decide (n.1.length = k)) (fun n => sortNat n.1) (fConsensusSuccs A p) a.effMax
      (dfsFuel p k) [([], fZero A p)] [] = universes (fun n => decide (n.1.length = k)) (fun n => sortNat n.1) (consensusSuccs p) a.effMax
      (dfsFuel p k) [([], zeroLoad p)] [] := by
    refine universes_simulation (fun (n : List ℕ × List F) (n' : List ℕ × List ℚ) => ∃ W y x, n = (W, List.ofFn y) ∧
      n' = (W, List.ofFn x) ∧ ConsensusRel A p k W y x ∧ W.length ≤ k) ?_ ?_ ?_ _ _ ?_ ?_ _
    · rintro n n' ⟨W, y, x, rfl, rfl, -⟩; rfl
    · rintro n n' ⟨W, y, x, rfl, rfl, -⟩; rfl
    · rintro n n' ⟨W, y, x, rfl, rfl, hR, hWk⟩ hf
      have hW : W.length < k := by
        simp only [decide_eq_false_iff_not] at hf
        omega
      obtain ⟨hbroke, hf0, hsup, herr⟩ := hR.support_err hA hS hAc hp hT1 hfew hsep hW
      have hkT : (1 : ℚ) ≤ k * total p := by
        have : (1 : ℚ) ≤ k := by exact_mod_cast hk1
        nlinarith
      obtain ⟨tied, M, m, g1, g2, g3, -, -, -⟩ := fMaxSupport_exact hA hAc (fNearlyBroke A) W (by omega) (fIncome A p y) (income p x)
        (k * total p) hkT hf0 hsup herr (hsep W x hR.run hW).2
      obtain ⟨tied', g1', g2', -, -, g5'⟩ := consensus_succSpec k hkn (fun _ => 0) W x hR.run hW
      have hcs : tied = tied' := by
        refine eq_of_lt_toFinset g2 g2' ?_
        ext c
        rw [List.mem_toFinset, List.mem_toFinset, g3, g5']
        rfl
      subst hcs
      refine ⟨_, _, fConsensusSuccs_ok hA hp W y g1, g1', ?_⟩
      rw [List.forall₂_map_left_iff, List.forall₂_map_right_iff, List.forall₂_same]
      intro c hc
      refine ⟨W ++ [c], _, _, rfl, rfl, hR.step hA hS hAc hp hm hT1 hfew hsep hW c ((g5' c).1 hc), ?_⟩
      rw [List.length_append, List.length_singleton]
      omega
    · refine List.Forall₂.cons ⟨[], fun _ => A.int 0, fun _ => 0, ?_, ?_, ⟨.start, ?_⟩, by simp⟩ .nil
      · unfold fZero; rw [List.ofFn_const]
      · rw [zeroLoad_eq]
      · simp [hA.val_int]
    · intro n hn
      simp only [List.mem_singleton] at hn
      rw [hn]
      simp only [List.length_nil, decide_eq_false_iff_not]
      omega
  rw [key]

/-! ### Small instances are separated -/

theorem income_fraction {p : Profile} (hw : IntegerWeights p) {D : ℕ} (hD : 0 < D) {b : VoterMap p} (hb : ∀ i, ∃ z : ℤ, b i = z / D)
    (i : Fin p.voters.length) : ∃ z : ℤ, income p b i = z / D := by
  obtain ⟨z, hz⟩ := hb i
  obtain ⟨n, hn⟩ := hw _ (List.get_mem p.voters i)
  refine ⟨z + n * D, ?_⟩
  have hD' : (D : ℚ) ≠ 0 := by positivity
  unfold income
  rw [hz, hn]
  push_cast
  field_simp

theorem support_fraction {p : Profile} {D : ℕ} {b : VoterMap p} (hb : ∀ i, ∃ z : ℤ, b i = z / D) (c : ℕ) :
    ∃ z : ℤ, support p b c = z / D := by
  classical
  unfold support
  induction (backers p c).filter (fun i => 0 < b i) using Finset.induction_on with
  | empty => exact ⟨0, by simp⟩
  | insert i G hi ih =>
    obtain ⟨z, hz⟩ := ih
    obtain ⟨y, hy⟩ := hb i
    refine ⟨y + z, ?_⟩
    rw [Finset.sum_insert hi, hz, hy]
    push_cast
    ring

theorem consensus_denominator {p : Profile} (hp : p.WF) (hw : IntegerWeights p) (T : ℕ) (hT : total p = T) (hT1 : 1 ≤ T) {W : List ℕ}
    {b : VoterMap p} (h : Run (ConsensusBest p) (consensusUpd p) [] (fun _ => 0) W b) :
    ∃ D : ℕ, 0 < D ∧ D ≤ T ^ W.length ∧ ∀ i, ∃ z : ℤ, b i = z / D := by
  induction h with
  | start => exact ⟨1, one_pos, by simp, fun i => ⟨0, by simp⟩⟩
  | @step W b c _ hc ih =>
    obtain ⟨D, h1, h2, h3⟩ := ih
    have hlen : T ^ (W ++ [c]).length = T ^ W.length * T := by rw [List.length_append, List.length_singleton, pow_succ]
    have h4 := income_fraction hw h1 h3
    set S := (backers p c).filter (fun i => 0 < income p b i) with hS
    obtain ⟨n, hn⟩ := wt_integer hw S
    have hnT : n ≤ T := by
      have : (n : ℚ) ≤ T := by
        rw [← hn, ← hT]
        exact Finset.sum_le_univ_sum_of_nonneg (fun i => (weight_pos hp i).le)
      exact_mod_cast this
    rcases Nat.eq_zero_or_pos n with hn0 | hn0
    · refine ⟨D, h1, by rw [hlen]; exact h2.trans (Nat.le_mul_of_pos_right _ hT1), ?_⟩
      intro i
      have : ¬ (i ∈ backers p c ∧ 0 < income p b i) := by
        intro hi
        have : 0 < wt p S := Finset.sum_pos (fun j _ => weight_pos hp j) ⟨i, Finset.mem_filter.2 hi⟩
        rw [hn, hn0] at this
        simp at this
      unfold consensusUpd
      rw [if_neg this]
      exact h4 i
    · refine ⟨D * n, Nat.mul_pos h1 hn0, by rw [hlen]; exact Nat.mul_le_mul h2 hnT, ?_⟩
      intro i
      obtain ⟨z, hz⟩ := h4 i
      obtain ⟨m, hm⟩ := hw _ (List.get_mem p.voters i)
      have hn' : (n : ℚ) ≠ 0 := by positivity
      have hD' : (D : ℚ) ≠ 0 := by positivity
      have hsum : ∑ j ∈ S, (p.voters.get j).weight = n := hn
      unfold consensusUpd
      split
      · refine ⟨z * n - T * m * D, ?_⟩
        rw [← hS, hsum, hz, hm, hT]
        push_cast
        field_simp
      · refine ⟨z * n, ?_⟩
        rw [hz]
        push_cast
        field_simp

/-- Integer weights whose total is so small that rounding errors do not matter for the consensus rule. -/
structure Spec.SmallConsensus (p : Profile) (k : ℕ) : Prop where
  integer : IntegerWeights p
  budgets : 2 * k * total p ^ k ≤ 10 ^ 12
  roundings : k * total p * (16 * k + 5 * p.voters.length + 20) ≤ 3600

theorem Spec.SmallConsensus.separated {p : Profile} (hp : p.WF) {k : ℕ} (hne : p.voters ≠ []) (h : SmallConsensus p k) :
    ConsensusSeparated p k := by
  intro W b hrun hW
  have hT1' := one_le_total hp h.integer hne
  obtain ⟨T, hT⟩ : ∃ T : ℕ, total p = T := wt_integer h.integer (Finset.univ : Group p)
  have hT1 : 1 ≤ T := by rw [hT] at hT1'; exact_mod_cast hT1'
  obtain ⟨D, h1, h2, h3⟩ := consensus_denominator hp h.integer T hT hT1 hrun
  have h4 := income_fraction h.integer h1 h3
  have hDq : (0 : ℚ) < D := by exact_mod_cast h1
  have hk1 : (1 : ℚ) ≤ k := by exact_mod_cast (by omega : 1 ≤ k)
  have hTq : (1 : ℚ) ≤ T := by exact_mod_cast hT1
  have hgap : 2 * (k * total p) / 10 ^ 12 ≤ 1 / D := by
    rw [div_le_div_iff₀ (by norm_num) hDq, one_mul]
    have h5 : D * T ≤ T ^ k := by
      calc D * T ≤ T ^ W.length * T := Nat.mul_le_mul_right _ h2
        _ = T ^ (W.length + 1) := by ring
        _ ≤ T ^ k := Nat.pow_le_pow_right hT1 (by omega)
    have h6 : (D : ℚ) * T ≤ (T : ℚ) ^ k := by exact_mod_cast h5
    have h7 := h.budgets
    rw [hT] at h7 ⊢
    have h8 := mul_le_mul_of_nonneg_left h6 (show (0 : ℚ) ≤ 2 * k by positivity)
    linarith
  refine ⟨fun i hi => ?_, fun c _ d _ _ _ hlt => ?_⟩
  · obtain ⟨z, hz⟩ := h4 i
    rw [hz] at hi ⊢
    have hz0 : z ≠ 0 := by rintro rfl; simp at hi
    have hz1 : (1 : ℚ) ≤ |(z : ℚ)| := by
      have := Int.one_le_abs hz0
      exact_mod_cast this
    rw [abs_div, abs_of_pos hDq]
    have h5 : (1 : ℚ) / D ≤ |(z : ℚ)| / D := by gcongr
    have h6 : (1 : ℚ) ≤ k * total p := by rw [hT]; nlinarith
    have h7 : (2 : ℚ) / 10 ^ 12 ≤ 2 * (k * total p) / 10 ^ 12 := by
      refine div_le_div_of_nonneg_right ?_ (by norm_num)
      linarith
    exact h7.trans (hgap.trans h5)
  · obtain ⟨z, hz⟩ := support_fraction h4 c
    obtain ⟨z', hz'⟩ := support_fraction h4 d
    rw [hz, hz'] at hlt ⊢
    have hlt' : z < z' := by
      have := (div_lt_div_iff_of_pos_right hDq).1 hlt
      exact_mod_cast this
    have h5 : (z : ℚ) + 1 ≤ z' := by exact_mod_cast hlt'
    have h6 : (z : ℚ) / D + 1 / D ≤ z' / D := by
      rw [← add_div, div_le_div_iff_of_pos_right hDq]
      exact h5
    linarith

theorem Spec.SmallConsensus.moderate {p : Profile} (hp : p.WF) {k : ℕ} (hk : 1 ≤ k) (hne : p.voters ≠ []) (h : SmallConsensus p k) :
    Moderate p k := by
  have hT := one_le_total hp h.integer hne
  have hr := h.roundings
  have hn0 : (0 : ℚ) ≤ p.voters.length := by positivity
  have hk0 : (0 : ℚ) ≤ k := by positivity
  have hkT : (k : ℚ) ≤ k * total p := by nlinarith
  have h1 : (k * total p) * 20 ≤ 3600 := by
    refine le_trans (mul_le_mul_of_nonneg_left ?_ (by linarith)) hr
    linarith
  refine ⟨h.integer, ?_, ?_⟩
  · have hk' : (1 : ℚ) ≤ k := by exact_mod_cast hk
    have : total p ≤ k * total p := by nlinarith
    norm_num
    linarith
  · have : (k : ℚ) ≤ 180 := by linarith
    have : k ≤ 180 := by exact_mod_cast this
    omega

/-- C104: for integer weights of small total, the consensus rule returns the same list with floats and with fractions. -/
theorem C104_consensus (hA : Sound A) (hS : SignedAccurate A) (hAc : Accurate A) (p : Profile) (hp : p.WF) (k : ℕ)
    (hs : SmallConsensus p k) (env : Env) (float : Except Err (List (List ℕ))) (a a' : Args) (hak : a.k = k) (hak' : a'.k = k)
    (alg : String) (hex : ExactAlg env alg)
    (hal : prologue env "consensus-rule" p a = .ok "float-fractions") (hal' : prologue env "consensus-rule" p a' = .ok alg)
    (hr : a'.resolute = a.resolute) (hmax : a'.max = a.max) :
    computeConsensus env (floatConsensus A p a) p a = computeConsensus env float p a' := by
  have hv := validCall_of_prologue hal
  have hk1 : 1 ≤ k := hak ▸ hv.pos
  exact C104_consensus_separated hA hS hAc p hp k (hs.moderate hp hk1 hv.voters) hs.roundings (hs.separated hp hv.voters) env float a a'
    hak hak' alg hex hal hal' hr hmax

/-! ## Phragmén-Eneström -/

/-- In every round of Phragmén-Eneström, different supports are not too close to each other. -/
def Spec.EnestroemSeparated (p : Profile) (k : ℕ) : Prop :=
  ∀ W b, Run (SupportBest p) (enestroemUpd p (total p / k)) [] (fun i => (p.voters.get i).weight) W b → W.length < k →
    ∀ c < p.numCand, ∀ d < p.numCand, c ∉ W → d ∉ W → support p b c < support p b d →
      support p b c + 2 * total p / 10 ^ 12 ≤ support p b d

/-- Bounds that keep the rounding errors of Phragmén-Eneström small. -/
def Spec.FewEnestroemRoundings (p : Profile) (k : ℕ) : Prop := 2 ^ k * total p * (5 * p.voters.length + 46) ≤ 7200

/-- The part of the budgets that is kept. -/
def keep (M q : ℚ) : ℚ := if q < M then (M - q) / M else 0

/-- The kept part depends continuously on support and price. -/
theorem keep_close {M M' q q' δ : ℚ} (hM : 0 ≤ M) (hq : 0 ≤ q) (hq' : 0 ≤ q') (h : |M' - M| ≤ δ) :
    M * |keep M' q' - keep M q| ≤ |q' - q| + δ := by
  obtain ⟨d1, d2⟩ := abs_le.1 h
  have a1 := le_abs_self (q' - q)
  have a2 := neg_abs_le (q' - q)
  have a0 := abs_nonneg (q' - q)
  have hδ : 0 ≤ δ := (abs_nonneg _).trans h
  unfold keep
  by_cases h1 : q' < M' <;> by_cases h2 : q < M
  · rw [if_pos h1, if_pos h2]
    have hM'0 : 0 < M' := lt_of_le_of_lt hq' h1
    have hM0 : 0 < M := lt_of_le_of_lt hq h2
    have e : M * |(M' - q') / M' - (M - q) / M| = |(q - q') + q' / M' * (M' - M)| := by
      rw [← abs_of_pos hM0, ← abs_mul, abs_of_pos hM0]
      congr 1
      field_simp
      ring
    rw [e]
    refine (abs_add_le _ _).trans ?_
    rw [abs_mul, abs_sub_comm q q']
    have h3 : |q' / M'| ≤ 1 := by
      rw [abs_of_nonneg (div_nonneg hq' hM'0.le), div_le_one hM'0]
      exact h1.le
    have := mul_le_mul h3 h (abs_nonneg _) zero_le_one
    linarith
  · rw [if_pos h1, if_neg h2, sub_zero]
    have hM'0 : 0 < M' := lt_of_le_of_lt hq' h1
    rw [not_lt] at h2
    have h3 : 0 ≤ (M' - q') / M' := div_nonneg (by linarith) hM'0.le
    have h4 : (M' - q') / M' ≤ 1 := by rw [div_le_one hM'0]; linarith
    rw [abs_of_nonneg h3]
    have h5 : M' * ((M' - q') / M') = M' - q' := by field_simp
    rcases le_total M M' with g | g
    · have := mul_le_mul_of_nonneg_right g h3
      linarith
    · have : (M - M') * ((M' - q') / M') ≤ (M - M') * 1 := mul_le_mul_of_nonneg_left h4 (by linarith)
      linarith
  · rw [if_neg h1, if_pos h2, zero_sub, abs_neg]
    have hM0 : 0 < M := lt_of_le_of_lt hq h2
    rw [not_lt] at h1
    rw [abs_of_nonneg (div_nonneg (by linarith) hM0.le)]
    have h5 : M * ((M - q) / M) = M - q := by field_simp
    linarith
  · rw [if_neg h1, if_neg h2, sub_zero, abs_zero, mul_zero]
    linarith

/-- The computed kept part. -/
def fKeep (A : Arith F) (M q : F) : F := if A.val M > A.val q then A.div (A.sub M q) M else A.int 0

theorem fKeep_error (hA : Sound A) (hS : SignedAccurate A) (M q : F) (hq : 0 ≤ A.val q) :
    0 ≤ A.val (fKeep A M q) ∧ |A.val (fKeep A M q) - keep (A.val M) (A.val q)| ≤ 13 / 2 ^ 53 := by
  unfold fKeep keep
  by_cases h : A.val q < A.val M
  · rw [if_pos h, if_pos h]
    have hM0 : 0 < A.val M := lt_of_le_of_lt hq h
    refine ⟨hA.div_nonneg _ _ (hA.sub_nonneg _ _ h.le) hM0, ?_⟩
    have h1 := hS.sub M q
    have h2 := hS.div (A.sub M q) M hM0.ne'
    rw [abs_of_pos hM0, abs_of_nonneg hq] at h1
    set s := A.val (A.sub M q) with hs
    have h3 : |s / A.val M - (A.val M - A.val q) / A.val M| ≤ 8 / 2 ^ 53 := by
      rw [← sub_div, abs_div, abs_of_pos hM0, div_le_iff₀ hM0]
      norm_num at h1 ⊢
      linarith
    have h4 : |(A.val M - A.val q) / A.val M| ≤ 1 := by
      rw [abs_of_nonneg (div_nonneg (by linarith) hM0.le), div_le_one hM0]
      linarith
    have h5 : |s / A.val M| ≤ 1 + 8 / 2 ^ 53 := by
      have := abs_add_le ((A.val M - A.val q) / A.val M) (s / A.val M - (A.val M - A.val q) / A.val M)
      rw [add_sub_cancel] at this
      linarith
    have h6 := abs_sub_le (A.val (A.div (A.sub M q) M)) (s / A.val M) ((A.val M - A.val q) / A.val M)
    have h7 := mul_le_mul_of_nonneg_left h5 (show (0 : ℚ) ≤ 4 / 2 ^ 53 by norm_num)
    have h8 := h2.trans h7
    norm_num at h3 h8 ⊢
    linarith
  · rw [if_neg h, if_neg h, hA.val_int]
    norm_num

theorem enestroemUpd_eq (p : Profile) (q : ℚ) (hq : 0 ≤ q) (W : List ℕ) (b : VoterMap p) (c : ℕ) (i : Fin p.voters.length) :
    enestroemUpd p q W b c i = if i ∈ backers p c then b i * keep (support p b c) q else b i := by
  unfold enestroemUpd keep
  split
  · split
    · rename_i h
      have : 0 < support p b c := lt_of_le_of_lt hq h
      field_simp
    · ring
  · rfl

/-- The budgets computed after `c` was elected. -/
def fEnestroemUpd (A : Arith F) (p : Profile) (y : Fin p.voters.length → F) (m : F) (c : ℕ) (i : Fin p.voters.length) : F :=
  if c ∈ (p.voters.get i).approved then A.mul (y i) m else y i

theorem fEnestroemSuccs_ok {p : Profile} (price : F) (hq : 0 ≤ A.val price) (W : List ℕ) (y : Fin p.voters.length → F)
    {tied : List ℕ} {M : F} (h : fMaxSupport A (fBroke A) p W (List.ofFn y) = .ok (tied, M)) :
    fEnestroemSuccs A p price (W, List.ofFn y) =
      .ok (tied.map (fun c => (W ++ [c], List.ofFn (fEnestroemUpd A p y (fKeep A M price) c)))) := by
  have e : ∀ c m, List.zipWith (fun (v : Voter) b => if c ∈ v.approved then A.mul b m else b) p.voters (List.ofFn y) =
      List.ofFn (fEnestroemUpd A p y m c) := by
    intro c m
    rw [zipWith_ofFn]
    rfl
  unfold fEnestroemSuccs fKeep
  simp only [h, bind, Except.bind]
  by_cases hM : A.val M > A.val price
  · have hM0 : A.val M ≠ 0 := by linarith
    simp only [hM, if_true, Arith.pyDiv, hM0, if_false, e]
  · simp only [hM, if_false, e]

/-- One round: the errors of the budgets. -/
theorem fEnestroemUpd_error (hS : SignedAccurate A) {p : Profile} (W : List ℕ) (q : ℚ) (hq : 0 ≤ q)
    (y : Fin p.voters.length → F) (x : VoterMap p) (hx : ∀ i, 0 ≤ x i) (m : F) (hm1 : |A.val m| ≤ 2) (c : ℕ) :
    ∑ i, |A.val (fEnestroemUpd A p y m c i) - enestroemUpd p q W x c i| ≤
      (|A.val m| + 8 / 2 ^ 53) * ∑ i ∈ backers p c, |A.val (y i) - x i| + ∑ i ∈ Finset.univ.filter (fun i => i ∉ backers p c), |A.val (y i) - x i| +
      support p x c * (|A.val m - keep (support p x c) q| + 8 / 2 ^ 53) := by
  rw [← Finset.sum_filter_add_sum_filter_not Finset.univ (fun i => i ∈ backers p c), Finset.filter_mem_eq_inter, Finset.univ_inter]
  have h2 : ∑ i ∈ Finset.univ.filter (fun i => i ∉ backers p c), |A.val (fEnestroemUpd A p y m c i) - enestroemUpd p q W x c i| =
      ∑ i ∈ Finset.univ.filter (fun i => i ∉ backers p c), |A.val (y i) - x i| := by
    refine Finset.sum_congr rfl (fun i hi => ?_)
    have hi' := (Finset.mem_filter.1 hi).2
    rw [enestroemUpd_eq p q hq, if_neg hi']
    unfold fEnestroemUpd
    rw [if_neg (fun h => hi' (mem_backers.2 h))]
  have h1 : ∑ i ∈ backers p c, |A.val (fEnestroemUpd A p y m c i) - enestroemUpd p q W x c i| ≤
      ∑ i ∈ backers p c, ((|A.val m| + 8 / 2 ^ 53) * |A.val (y i) - x i| + x i * (|A.val m - keep (support p x c) q| + 8 / 2 ^ 53)) := by
    refine Finset.sum_le_sum (fun i hi => ?_)
    rw [enestroemUpd_eq p q hq, if_pos hi]
    unfold fEnestroemUpd
    rw [if_pos (mem_backers.1 hi)]
    have g1 := hS.mul (y i) m
    set K := keep (support p x c) q with hK
    have g2 : A.val (A.mul (y i) m) - x i * K = (A.val (A.mul (y i) m) - A.val (y i) * A.val m) + (A.val (y i) - x i) * A.val m +
        x i * (A.val m - K) := by ring
    have g3 : |A.val (y i)| ≤ |A.val (y i) - x i| + x i := by
      have := abs_add_le (A.val (y i) - x i) (x i)
      rw [sub_add_cancel, abs_of_nonneg (hx i)] at this
      exact this
    rw [g2]
    refine (abs_add_le _ _).trans ((add_le_add_left (abs_add_le _ _) _).trans ?_)
    rw [abs_mul, abs_mul, abs_of_nonneg (hx i)]
    rw [abs_mul] at g1
    have g4 : |A.val (y i)| * |A.val m| ≤ (|A.val (y i) - x i| + x i) * 2 := mul_le_mul g3 hm1 (abs_nonneg _) (by linarith [hx i, abs_nonneg (A.val (y i) - x i)])
    have g5 := mul_le_mul_of_nonneg_left g4 (show (0 : ℚ) ≤ 4 / 2 ^ 53 by norm_num)
    have e : (|A.val m| + 8 / 2 ^ 53) * |A.val (y i) - x i| + x i * (|A.val m - K| + 8 / 2 ^ 53) =
      4 / 2 ^ 53 * ((|A.val (y i) - x i| + x i) * 2) + |A.val (y i) - x i| * |A.val m| + x i * |A.val m - K| := by ring
    rw [e]
    linarith
  rw [h2, support_eq_sum p x hx c] at *
  refine (add_le_add_left h1 _).trans (le_of_eq ?_)
  rw [Finset.sum_add_distrib, ← Finset.mul_sum, ← Finset.sum_mul]
  ring

theorem keep_range {M q : ℚ} (hq : 0 ≤ q) : 0 ≤ keep M q ∧ keep M q ≤ 1 := by
  unfold keep
  split
  · rename_i h
    have hM : 0 < M := lt_of_le_of_lt hq h
    exact ⟨div_nonneg (by linarith) hM.le, by rw [div_le_one hM]; linarith⟩
  · exact ⟨le_rfl, zero_le_one⟩

/-- Computed and exact budgets after the same elections. -/
structure EnestroemRel (A : Arith F) (p : Profile) (k : ℕ) (W : List ℕ) (y : Fin p.voters.length → F) (x : VoterMap p) : Prop where
  run : Run (SupportBest p) (enestroemUpd p (total p / k)) [] (fun i => (p.voters.get i).weight) W x
  nonneg : ∀ i, 0 ≤ A.val (y i)
  err : ∑ i, |A.val (y i) - x i| ≤ (2 ^ W.length - 1) * (1 / 2 ^ 53 * total p * (5 * p.voters.length + 46))

/-- The computed supports are accurate. -/
theorem EnestroemRel.support_err (hA : Sound A) (hAc : Accurate A) {p : Profile} (hp : p.WF) {k : ℕ} (hT1 : 1 ≤ total p)
    (hfew : FewEnestroemRoundings p k) {W : List ℕ} {y : Fin p.voters.length → F} {x : VoterMap p} (h : EnestroemRel A p k W y x)
    (hW : W.length < k) : ∑ i, |A.val (y i) - x i| ≤ 1 ∧
    (∀ i, 0 ≤ x i) ∧ (∀ c, 0 ≤ A.val (fSupport A (fBroke A) p (List.ofFn y) c)) ∧ (∀ c, support p x c ≤ total p) ∧
    (∀ c, |A.val (fSupport A (fBroke A) p (List.ofFn y) c) - support p x c| ≤
      ∑ i, |A.val (y i) - x i| + 5 * p.voters.length / 2 ^ 53 * total p) ∧
    ∀ c, |A.val (fSupport A (fBroke A) p (List.ofFn y) c) - support p x c| ≤ 4 / 10 ^ 13 := by
  obtain ⟨hrun, hy0, herr⟩ := h
  have hrange := C40_budget_range p hp (total p / k) (div_nonneg (by linarith) (by positivity)) W x hrun
  have hx0 : ∀ i, 0 ≤ x i := fun i => (hrange i).1
  have hn0 : (0 : ℚ) ≤ p.voters.length := by positivity
  have hpow : (2 : ℚ) ^ W.length * 2 ≤ 2 ^ k := by
    rw [← pow_succ]
    exact pow_le_pow_right₀ (by norm_num) hW
  have hpow1 : (1 : ℚ) ≤ 2 ^ W.length := one_le_pow₀ (by norm_num)
  unfold FewEnestroemRoundings at hfew
  set T := total p with hTd
  set n := (p.voters.length : ℚ) with hn
  set R := (2 : ℚ) ^ W.length with hR
  have hbig : R * (1 / 2 ^ 53 * T * (5 * n + 46)) ≤ 3600 / 2 ^ 53 := by
    have h1 : R * 2 * (T * (5 * n + 46)) ≤ 7200 := by
      refine le_trans (mul_le_mul_of_nonneg_right hpow (mul_nonneg (by linarith) (by linarith))) ?_
      linarith
    have e : R * (1 / 2 ^ 53 * T * (5 * n + 46)) = 1 / 2 ^ 54 * (R * 2 * (T * (5 * n + 46))) := by ring
    rw [e]
    norm_num at h1 ⊢
    linarith
  have hunit : 0 ≤ 1 / 2 ^ 53 * T * (5 * n + 46) := mul_nonneg (mul_nonneg (by norm_num) (by linarith)) (by linarith)
  have hsum : ∑ i, |A.val (y i) - x i| + 5 * n / 2 ^ 53 * T ≤ 4 / 10 ^ 13 := by
    have h1 : (R - 1) * (1 / 2 ^ 53 * T * (5 * n + 46)) + 5 * n / 2 ^ 53 * T + 46 / 2 ^ 53 * T = R * (1 / 2 ^ 53 * T * (5 * n + 46)) := by
      ring
    have h2 : 0 ≤ 46 / 2 ^ 53 * T := mul_nonneg (by norm_num) (by linarith)
    have h3 : (3600 / 2 ^ 53 : ℚ) ≤ 4 / 10 ^ 13 := by norm_num
    linarith
  have hE1 : ∑ i, |A.val (y i) - x i| ≤ 1 := by
    have : 0 ≤ 5 * n / 2 ^ 53 * T := by positivity
    norm_num at hsum
    linarith
  have hsup : ∀ c, support p x c ≤ T := by
    intro c
    rw [support_eq_sum p x hx0 c]
    refine (Finset.sum_le_sum (fun i _ => (hrange i).2)).trans ?_
    exact Finset.sum_le_univ_sum_of_nonneg (fun i => (weight_pos hp i).le)
  have hnear := near_fSupport hA hAc (fBroke A) p y (fun i _ => hy0 i)
  have hacc : ∀ c, |A.val (fSupport A (fBroke A) p (List.ofFn y) c) - support p x c| ≤
      ∑ i, |A.val (y i) - x i| + 5 * n / 2 ^ 53 * T := by
    intro c
    set S := ∑ i ∈ backers p c with fBroke A (y i) = false, A.val (y i) with hSd
    have hS0 : 0 ≤ S := Finset.sum_nonneg (fun i _ => hy0 i)
    have hSe : S = ∑ i ∈ backers p c, A.val (y i) := by
      rw [hSd, Finset.sum_filter]
      refine Finset.sum_congr rfl (fun i _ => ?_)
      split
      · rfl
      · rename_i hb
        unfold fBroke at hb
        simp only [Bool.not_eq_false, decide_eq_true_eq] at hb
        exact le_antisymm (hy0 i) hb
    have hdiff : |S - support p x c| ≤ ∑ i, |A.val (y i) - x i| := by
      rw [hSe, support_eq_sum p x hx0 c, ← Finset.sum_sub_distrib]
      refine (Finset.abs_sum_le_sum_abs _ _).trans ?_
      exact Finset.sum_le_univ_sum_of_nonneg (fun i => abs_nonneg _)
    have hfewn : 2 * (2 * p.voters.length) ≤ 2 ^ 53 := by
      have h1 : 5 * n ≤ 7200 := by
        refine le_trans ?_ hfew
        have h2 : (1 : ℚ) ≤ 2 ^ k * T := by
          have : (1 : ℚ) ≤ 2 ^ k := one_le_pow₀ (by norm_num)
          nlinarith
        have : 1 * (5 * n) ≤ 2 ^ k * T * (5 * n + 46) := mul_le_mul h2 (by linarith) (by positivity) (by linarith)
        linarith
      have h2 : p.voters.length ≤ 1440 := by
        have : (p.voters.length : ℚ) ≤ 1440 := by linarith
        exact_mod_cast this
      omega
    have hb := (hnear c).bounds hS0 hfewn
    have h5 := abs_le.1 hdiff
    have hSle : S ≤ 5 / 4 * T := by
      have h2 := hsup c
      have : 0 ≤ 5 * n / 2 ^ 53 * T := by positivity
      norm_num at hsum
      linarith
    have h3 : 2 * ((2 * p.voters.length : ℕ) : ℚ) / 2 ^ 53 * S ≤ 5 * n / 2 ^ 53 * T := by
      push_cast
      have := mul_le_mul_of_nonneg_left hSle (show 0 ≤ 2 * (2 * n) / 2 ^ 53 by positivity)
      refine this.trans (le_of_eq (by ring))
    have h4 : ((2 * p.voters.length : ℕ) : ℚ) / 2 ^ 53 * S ≤ 2 * ((2 * p.voters.length : ℕ) : ℚ) / 2 ^ 53 * S := by
      refine mul_le_mul_of_nonneg_right ?_ hS0
      have : (0 : ℚ) ≤ ((2 * p.voters.length : ℕ) : ℚ) := by positivity
      gcongr
      linarith
    rw [abs_le]
    constructor <;> linarith
  refine ⟨hE1, hx0, fun c => ?_, hsup, hacc, fun c => (hacc c).trans hsum⟩
  exact (hnear c).nonneg (Finset.sum_nonneg (fun i _ => hy0 i))

theorem EnestroemRel.step (hA : Sound A) (hS : SignedAccurate A) (hAc : Accurate A) {p : Profile} (hp : p.WF) {k : ℕ}
    (hT1 : 1 ≤ total p) (hfew : FewEnestroemRoundings p k) {W : List ℕ} {y : Fin p.voters.length → F} {x : VoterMap p}
    (h : EnestroemRel A p k W y x) (hW : W.length < k) (price : F) (hprice0 : 0 ≤ A.val price)
    (hprice : |A.val price - total p / k| ≤ 4 / 2 ^ 53 * (total p / k)) (m c : ℕ) (hc : SupportBest p W x c)
    (hcm : support p x c = support p x m) :
    EnestroemRel A p k (W ++ [c]) (fEnestroemUpd A p y (fKeep A (fSupport A (fBroke A) p (List.ofFn y) m) price) c)
      (enestroemUpd p (total p / k) W x c) := by
  obtain ⟨hE1, hx0, -, hsup, hacc, -⟩ := h.support_err hA hAc hp hT1 hfew hW
  have hq0 : 0 ≤ total p / k := div_nonneg (by linarith) (by positivity)
  set M := fSupport A (fBroke A) p (List.ofFn y) m with hM
  obtain ⟨k0, kerr⟩ := fKeep_error hA hS M price hprice0
  obtain ⟨r0, r1⟩ := keep_range (M := A.val M) hprice0
  have hkle : A.val (fKeep A M price) ≤ 1 + 13 / 2 ^ 53 := by
    have := (abs_le.1 kerr).2
    linarith
  refine ⟨.step h.run hc, fun i => ?_, ?_⟩
  · unfold fEnestroemUpd
    split
    · have h1 := hS.mul (y i) (fKeep A M price)
      have h2 : 0 ≤ A.val (y i) * A.val (fKeep A M price) := mul_nonneg (h.nonneg i) k0
      rw [abs_of_nonneg h2] at h1
      have h3 := (abs_le.1 h1).1
      norm_num at h3
      linarith
    · exact h.nonneg i
  · have h1 := fEnestroemUpd_error hS W (total p / k) hq0 y x hx0 (fKeep A M price)
      (by rw [abs_of_nonneg k0]; refine hkle.trans (by norm_num)) c
    refine h1.trans ?_
    rw [abs_of_nonneg k0]
    set E := ∑ i, |A.val (y i) - x i| with hE
    have hsplit : ∑ i ∈ backers p c, |A.val (y i) - x i| + ∑ i ∈ Finset.univ.filter (fun i => i ∉ backers p c), |A.val (y i) - x i| = E := by
      rw [hE, ← Finset.sum_filter_add_sum_filter_not Finset.univ (fun i => i ∈ backers p c), Finset.filter_mem_eq_inter, Finset.univ_inter]
    have hEb0 : 0 ≤ ∑ i ∈ backers p c, |A.val (y i) - x i| := Finset.sum_nonneg (fun i _ => abs_nonneg _)
    have hEn0 : 0 ≤ ∑ i ∈ Finset.univ.filter (fun i => i ∉ backers p c), |A.val (y i) - x i| := Finset.sum_nonneg (fun i _ => abs_nonneg _)
    have hs0 : 0 ≤ support p x c := by rw [support_eq_sum p x hx0]; exact Finset.sum_nonneg (fun i _ => hx0 i)
    have hclose := keep_close (M := support p x c) (M' := A.val M) (q := total p / k) (q' := A.val price)
      (δ := E + 5 * p.voters.length / 2 ^ 53 * total p) hs0 hq0 hprice0 (by rw [hcm]; exact hacc m)
    have hprice' : |A.val price - total p / k| ≤ 4 / 2 ^ 53 * total p := by
      refine hprice.trans (mul_le_mul_of_nonneg_left ?_ (by norm_num))
      exact div_le_self (by linarith) (by exact_mod_cast (by omega : 1 ≤ k))
    have hA1 : (A.val (fKeep A M price) + 8 / 2 ^ 53) * ∑ i ∈ backers p c, |A.val (y i) - x i| ≤
        ∑ i ∈ backers p c, |A.val (y i) - x i| + 21 / 2 ^ 53 * total p := by
      have g1 : (A.val (fKeep A M price) + 8 / 2 ^ 53) * ∑ i ∈ backers p c, |A.val (y i) - x i| ≤
          (1 + 21 / 2 ^ 53) * ∑ i ∈ backers p c, |A.val (y i) - x i| := by
        refine mul_le_mul_of_nonneg_right ?_ hEb0
        norm_num at hkle ⊢
        linarith
      have g2 : ∑ i ∈ backers p c, |A.val (y i) - x i| ≤ total p := by linarith
      have g3 := mul_le_mul_of_nonneg_left g2 (show (0 : ℚ) ≤ 21 / 2 ^ 53 by norm_num)
      linarith
    have hA2 : support p x c * (|A.val (fKeep A M price) - keep (support p x c) (total p / k)| + 8 / 2 ^ 53) ≤
        21 / 2 ^ 53 * total p + (4 / 2 ^ 53 * total p + (E + 5 * p.voters.length / 2 ^ 53 * total p)) := by
      have g1 := abs_sub_le (A.val (fKeep A M price)) (keep (A.val M) (A.val price)) (keep (support p x c) (total p / k))
      have g2 : |A.val (fKeep A M price) - keep (support p x c) (total p / k)| + 8 / 2 ^ 53 ≤
          21 / 2 ^ 53 + |keep (A.val M) (A.val price) - keep (support p x c) (total p / k)| := by
        norm_num at kerr ⊢
        linarith
      have g3 := mul_le_mul_of_nonneg_left g2 hs0
      have g4 := mul_le_mul_of_nonneg_left (hsup c) (show (0 : ℚ) ≤ 21 / 2 ^ 53 by norm_num)
      linarith
    have herr := h.err
    rw [← hE] at herr
    have e : ((2 : ℚ) ^ (W ++ [c]).length - 1) * (1 / 2 ^ 53 * total p * (5 * p.voters.length + 46)) =
        2 * ((2 ^ W.length - 1) * (1 / 2 ^ 53 * total p * (5 * p.voters.length + 46))) +
          (46 / 2 ^ 53 * total p + 5 * p.voters.length / 2 ^ 53 * total p) := by
      rw [List.length_append, List.length_singleton, pow_succ]
      ring
    rw [e]
    linarith

/-- C104: Phragmén-Eneström with floats returns the same list as with fractions, whenever different supports are not too close to each
other. -/
theorem C104_enestroem_separated (hA : Sound A) (hS : SignedAccurate A) (hAc : Accurate A) (p : Profile) (hp : p.WF) (k : ℕ)
    (hm : Moderate p k) (hfew : FewEnestroemRoundings p k) (hsep : EnestroemSeparated p k) (env : Env)
    (float : Except Err (List (List ℕ))) (a a' : Args) (hak : a.k = k) (hak' : a'.k = k) (alg : String) (hex : ExactAlg env alg)
    (hal : prologue env "phragmen-enestroem" p a = .ok "float-fractions") (hal' : prologue env "phragmen-enestroem" p a' = .ok alg)
    (hr : a'.resolute = a.resolute) (hmax : a'.max = a.max) :
    computeEnestroem env (floatEnestroem A p a) p a = computeEnestroem env float p a' := by
  have hv := validCall_of_prologue hal
  have hT1 := one_le_total hp hm.integer hv.voters
  have hkn : k ≤ p.numCand := hak ▸ hv.le
  have hk1 : 1 ≤ k := hak ▸ hv.pos
  have hk1q : (1 : ℚ) ≤ k := by exact_mod_cast hk1
  have hT : A.val (fTotalWeight A p) = total p := by
    unfold fTotalWeight
    rw [(sum_weights_exact hA hm p.voters (List.Sublist.refl _)).1, (num_sum hm p.voters (List.Sublist.refl _)).1, ← totalWeight_eq]
    rfl
  have hkv : A.val (A.int k) = k := by rw [hA.val_int]; simp
  have hk0 : A.val (A.int k) ≠ 0 := by rw [hkv]; linarith
  have hprice : A.pyDiv (fTotalWeight A p) (A.int k) = .ok (A.div (fTotalWeight A p) (A.int k)) := by
    unfold Arith.pyDiv
    rw [if_neg hk0]
  set price := A.div (fTotalWeight A p) (A.int k) with hpr
  have hpr0 : 0 ≤ A.val price := hA.div_nonneg _ _ (by rw [hT]; linarith) (by rw [hkv]; linarith)
  have hq0 : 0 ≤ total p / k := div_nonneg (by linarith) (by linarith)
  have hprerr : |A.val price - total p / k| ≤ 4 / 2 ^ 53 * (total p / k) := by
    have := hS.div (fTotalWeight A p) (A.int k) hk0
    rwa [hT, hkv, abs_of_nonneg hq0] at this
  unfold computeEnestroem floatEnestroem enestroemAlgorithm
  rw [hal, hal']
  simp only [bind, Except.bind]
  rw [withFractions_exact hex, withFractions_float, hak, hak',
    show a'.effMax = a.effMax by unfold Args.effMax Args.maxNum; rw [hr, hmax]]
  have hsumT : (p.voters.map Voter.weight).sum = total p := totalWeight_eq p
  have key : universes (fun n => decide (n.1.length = k)) (fun n => sortNat n.1) (fEnestroemSuccs A p price) a.effMax
      (dfsFuel p k) [([], p.voters.map (fun v => A.weight v.weight))] [] =
      universes (fun n => decide (n.1.length = k)) (fun n => sortNat n.1) (enestroemSuccs p (total p / k)) a.effMax
      (dfsFuel p k) [([], p.voters.map Voter.weight)] [] := by
    refine universes_simulation (fun (n : List ℕ × List F) (n' : List ℕ × List ℚ) => ∃ W y x, n = (W, List.ofFn y) ∧
      n' = (W, List.ofFn x) ∧ EnestroemRel A p k W y x ∧ W.length ≤ k) ?_ ?_ ?_ _ _ ?_ ?_ _
    · rintro n n' ⟨W, y, x, rfl, rfl, -⟩; rfl
    · rintro n n' ⟨W, y, x, rfl, rfl, -⟩; rfl
    · rintro n n' ⟨W, y, x, rfl, rfl, hR, hWk⟩ hf
      have hW : W.length < k := by
        simp only [decide_eq_false_iff_not] at hf
        omega
      obtain ⟨-, -, hf0, hsup, -, herr⟩ := hR.support_err hA hAc hp hT1 hfew hW
      obtain ⟨tied, M, m, g1, g2, g3, -, rfl, g6⟩ := fMaxSupport_exact hA hAc (fBroke A) W (by omega) y x (total p) hT1 hf0 hsup herr
        (hsep W x hR.run hW)
      obtain ⟨tied', g1', g2', -, -, g5'⟩ := enestroem_succSpec k hkn (total p / k) hq0 (fun i => (p.voters.get i).weight) W x hR.run hW
      have hcs : tied = tied' := by
        refine eq_of_lt_toFinset g2 g2' ?_
        ext c
        rw [List.mem_toFinset, List.mem_toFinset, g3, g5']
      subst hcs
      refine ⟨_, _, fEnestroemSuccs_ok price hpr0 W y g1, g1', ?_⟩
      rw [List.forall₂_map_left_iff, List.forall₂_map_right_iff, List.forall₂_same]
      intro c hc
      refine ⟨W ++ [c], _, _, rfl, rfl, hR.step hA hS hAc hp hT1 hfew hW price hpr0 hprerr m c ((g5' c).1 hc) (g6 c hc), ?_⟩
      rw [List.length_append, List.length_singleton]
      omega
    · refine List.Forall₂.cons ⟨[], fun i => A.weight (p.voters.get i).weight, fun i => (p.voters.get i).weight, ?_, ?_,
        ⟨.start, fun i => ?_, ?_⟩, by simp⟩ .nil
      · congr 1
        apply List.ext_getElem <;> simp
      · rw [voters_map_ofFn]
      · rw [hA.val_weight]; exact (weight_pos hp i).le
      · simp [hA.val_weight]
    · intro n hn
      simp only [List.mem_singleton] at hn
      rw [hn]
      simp only [List.length_nil, decide_eq_false_iff_not]
      omega
  simp only [hprice, hsumT, key]

/-! ### Small instances are separated -/

theorem enestroem_denominator {p : Profile} (hp : p.WF) (hw : IntegerWeights p) (T : ℕ) (hT : total p = T) (hT1 : 1 ≤ T) (k : ℕ)
    (hk : 1 ≤ k) {W : List ℕ} {b : VoterMap p}
    (h : Run (SupportBest p) (enestroemUpd p (total p / k)) [] (fun i => (p.voters.get i).weight) W b) :
    ∃ D : ℕ, 0 < D ∧ D ≤ (k * T) ^ (2 ^ W.length - 1) ∧ ∀ i, ∃ z : ℤ, b i = z / D := by
  have hq0 : 0 ≤ total p / k := by rw [hT]; positivity
  induction h with
  | start =>
    refine ⟨1, one_pos, by simp, fun i => ?_⟩
    obtain ⟨n, hn⟩ := hw _ (List.get_mem p.voters i)
    exact ⟨n, by change (p.voters.get i).weight = _; rw [hn]; simp⟩
  | @step W b c hrun hc ih =>
    obtain ⟨D, h1, h2, h3⟩ := ih
    have hrange := C40_budget_range p hp (total p / k) hq0 W b hrun
    have hx0 : ∀ i, 0 ≤ b i := fun i => (hrange i).1
    have hD' : (D : ℚ) ≠ 0 := by positivity
    have hDpos : (0 : ℚ) < D := by exact_mod_cast h1
    have hkT : 1 ≤ k * T := Nat.mul_pos hk hT1
    have hexp : 2 ^ (W ++ [c]).length - 1 = 1 + ((2 ^ W.length - 1) + (2 ^ W.length - 1)) := by
      rw [List.length_append, List.length_singleton, pow_succ]
      have : 1 ≤ 2 ^ W.length := Nat.one_le_two_pow
      omega
    have hlen : (k * T) * (D * D) ≤ (k * T) ^ (2 ^ (W ++ [c]).length - 1) := by
      rw [hexp, pow_add, pow_one, pow_add]
      exact Nat.mul_le_mul_left _ (Nat.mul_le_mul h2 h2)
    by_cases hs : total p / k < support p b c
    · obtain ⟨z, hz⟩ := support_fraction h3 c
      have hs0 : 0 < support p b c := lt_of_le_of_lt hq0 hs
      have hz0 : 0 < z := by
        rw [hz] at hs0
        have := (div_pos_iff_of_pos_right hDpos).1 hs0
        exact_mod_cast this
      obtain ⟨N, rfl⟩ : ∃ N : ℕ, z = N := ⟨z.toNat, by omega⟩
      have hN0 : 0 < N := by exact_mod_cast hz0
      have hNle : N ≤ T * D := by
        have h4 : support p b c ≤ T := by
          rw [← hT, support_eq_sum p b hx0 c]
          refine (Finset.sum_le_sum (fun i _ => (hrange i).2)).trans ?_
          exact Finset.sum_le_univ_sum_of_nonneg (fun i => (weight_pos hp i).le)
        rw [hz, div_le_iff₀ hDpos] at h4
        exact_mod_cast h4
      refine ⟨D * (k * N), Nat.mul_pos h1 (Nat.mul_pos hk hN0), le_trans ?_ hlen, fun i => ?_⟩
      · calc D * (k * N) ≤ D * (k * (T * D)) := Nat.mul_le_mul_left _ (Nat.mul_le_mul_left _ hNle)
          _ = k * T * (D * D) := by ring
      · obtain ⟨y, hy⟩ := h3 i
        have hN' : (N : ℚ) ≠ 0 := by positivity
        have hk' : (k : ℚ) ≠ 0 := by positivity
        unfold enestroemUpd
        by_cases hi : i ∈ backers p c
        · rw [if_pos hi, if_pos hs]
          refine ⟨y * (k * N - T * D), ?_⟩
          rw [hz, hy, hT]
          push_cast
          field_simp
        · rw [if_neg hi]
          refine ⟨y * (k * N), ?_⟩
          rw [hy]
          push_cast
          field_simp
    · refine ⟨D, h1, le_trans ?_ hlen, fun i => ?_⟩
      · have : 1 * (D * 1) ≤ (k * T) * (D * D) := Nat.mul_le_mul hkT (Nat.mul_le_mul_left _ h1)
        omega
      · unfold enestroemUpd
        by_cases hi : i ∈ backers p c
        · rw [if_pos hi, if_neg hs]
          exact ⟨0, by simp⟩
        · rw [if_neg hi]
          exact h3 i

/-- Integer weights whose total is so small that rounding errors do not matter for Phragmén-Eneström. -/
structure Spec.SmallEnestroem (p : Profile) (k : ℕ) : Prop where
  integer : IntegerWeights p
  budgets : 2 * total p * (k * total p) ^ (2 ^ (k - 1) - 1) ≤ 10 ^ 12
  roundings : 2 ^ k * total p * (5 * p.voters.length + 46) ≤ 7200

theorem Spec.SmallEnestroem.separated {p : Profile} (hp : p.WF) {k : ℕ} (hne : p.voters ≠ []) (h : SmallEnestroem p k) :
    EnestroemSeparated p k := by
  intro W b hrun hW c _ d _ _ _ hlt
  have hT1' := one_le_total hp h.integer hne
  obtain ⟨T, hT⟩ : ∃ T : ℕ, total p = T := wt_integer h.integer (Finset.univ : Group p)
  have hT1 : 1 ≤ T := by rw [hT] at hT1'; exact_mod_cast hT1'
  have hk : 1 ≤ k := by omega
  obtain ⟨D, h1, h2, h3⟩ := enestroem_denominator hp h.integer T hT hT1 k hk hrun
  have hDq : (0 : ℚ) < D := by exact_mod_cast h1
  have hgap : 2 * total p / 10 ^ 12 ≤ 1 / D := by
    rw [div_le_div_iff₀ (by norm_num) hDq, one_mul]
    have h5 : D ≤ (k * T) ^ (2 ^ (k - 1) - 1) := by
      refine h2.trans (Nat.pow_le_pow_right (Nat.mul_pos hk hT1) ?_)
      have : 2 ^ W.length ≤ 2 ^ (k - 1) := Nat.pow_le_pow_right (by norm_num) (by omega)
      omega
    have h6 : (D : ℚ) ≤ ((k : ℚ) * T) ^ (2 ^ (k - 1) - 1) := by exact_mod_cast h5
    have h7 := h.budgets
    rw [hT] at h7 ⊢
    have h8 := mul_le_mul_of_nonneg_left h6 (show (0 : ℚ) ≤ 2 * T by positivity)
    exact h8.trans h7
  obtain ⟨z, hz⟩ := support_fraction h3 c
  obtain ⟨z', hz'⟩ := support_fraction h3 d
  rw [hz, hz'] at hlt ⊢
  have hlt' : z < z' := by
    have := (div_lt_div_iff_of_pos_right hDq).1 hlt
    exact_mod_cast this
  have h5 : (z : ℚ) + 1 ≤ z' := by exact_mod_cast hlt'
  have h6 : (z : ℚ) / D + 1 / D ≤ z' / D := by
    rw [← add_div, div_le_div_iff_of_pos_right hDq]
    exact h5
  linarith

theorem Spec.SmallEnestroem.moderate {p : Profile} (hp : p.WF) {k : ℕ} (hne : p.voters ≠ []) (h : SmallEnestroem p k) :
    Moderate p k := by
  have hT := one_le_total hp h.integer hne
  have hr := h.roundings
  have hn0 : (0 : ℚ) ≤ p.voters.length := by positivity
  have hk2 : (k : ℚ) + 1 ≤ 2 ^ k := by exact_mod_cast Nat.lt_two_pow_self
  have hkT : ((k : ℚ) + 1) * total p ≤ 2 ^ k * total p := mul_le_mul_of_nonneg_right hk2 (by linarith)
  have h0 : (0 : ℚ) ≤ 2 ^ k * total p := mul_nonneg (by positivity) (by linarith)
  have h1 : (2 ^ k * total p) * 46 ≤ 7200 := by
    refine le_trans (mul_le_mul_of_nonneg_left ?_ h0) hr
    linarith
  refine ⟨h.integer, ?_, ?_⟩
  · norm_num
    linarith
  · have hk0 : (0 : ℚ) ≤ k := by positivity
    have : (k : ℚ) ≤ 200 := by nlinarith
    have : k ≤ 200 := by exact_mod_cast this
    omega

/-- C104: for integer weights of small total, Phragmén-Eneström returns the same list with floats and with fractions. -/
theorem C104_enestroem (hA : Sound A) (hS : SignedAccurate A) (hAc : Accurate A) (p : Profile) (hp : p.WF) (k : ℕ)
    (hs : SmallEnestroem p k) (env : Env) (float : Except Err (List (List ℕ))) (a a' : Args) (hak : a.k = k) (hak' : a'.k = k)
    (alg : String) (hex : ExactAlg env alg)
    (hal : prologue env "phragmen-enestroem" p a = .ok "float-fractions") (hal' : prologue env "phragmen-enestroem" p a' = .ok alg)
    (hr : a'.resolute = a.resolute) (hmax : a'.max = a.max) :
    computeEnestroem env (floatEnestroem A p a) p a = computeEnestroem env float p a' := by
  have hv := validCall_of_prologue hal
  exact C104_enestroem_separated hA hS hAc p hp k (hs.moderate hp hv.voters) hs.roundings (hs.separated hp hv.voters) env float a a'
    hak hak' alg hex hal hal' hr hmax

/-! ## `compute` -/

/-- C104: for integer weights of small total, `compute` returns the same list with "float-fractions" and with exact fractions. -/
theorem C104_compute (hA : Sound A) (hS : SignedAccurate A) (hAc : Accurate A) (ord : List (Voter × F) → List (Voter × F))
    (w : World) (hfl : w.float = floatFractions A ord w.iter) (p : Profile) (hp : p.WF) (k : ℕ) (ruleId : String)
    (hid : (ruleId = "consensus-rule" ∧ SmallConsensus p k) ∨ (ruleId = "phragmen-enestroem" ∧ SmallEnestroem p k))
    (a a' : Args) (hak : a.k = k) (hak' : a'.k = k) (hr : a'.resolute = a.resolute) (hmax : a'.max = a.max)
    (hal : prologue w.env ruleId p a = .ok "float-fractions") (alg : String) (hal' : prologue w.env ruleId p a' = .ok alg)
    (hex : ExactAlg w.env alg) :
    compute w ruleId p a.committeesize none a.kw = compute w ruleId p a'.committeesize none a'.kw := by
  rw [compute_none hal, compute_none hal']
  rcases hid with ⟨rfl, hs⟩ | ⟨rfl, hs⟩
  · change computeConsensus w.env (w.float "consensus-rule" p a) p a = computeConsensus w.env (w.float "consensus-rule" p a') p a'
    rw [hfl]
    exact C104_consensus hA hS hAc p hp k hs w.env _ a a' hak hak' alg hex hal hal' hr hmax
  · change computeEnestroem w.env (w.float "phragmen-enestroem" p a) p a = computeEnestroem w.env (w.float "phragmen-enestroem" p a') p a'
    rw [hfl]
    exact C104_enestroem hA hS hAc p hp k hs w.env _ a a' hak hak' alg hex hal hal' hr hmax

end

/-- C104 for Python's arithmetic. -/
theorem C104_python (weight : ℚ → PyNum) (hw : ∀ q, (weight q).val = q) (sum : List PyNum → PyNum)
    (hs : SumSound PyNum.val sum) (hsa : SumAccurate PyNum.val sum) (hss : SumSigned PyNum.val sum)
    (ord : List (Voter × PyNum) → List (Voter × PyNum))
    (w : World) (hfl : w.float = floatFractions (pyArith weight sum) ord w.iter)
    (p : Profile) (hp : p.WF) (k : ℕ) (ruleId : String)
    (hid : (ruleId = "consensus-rule" ∧ SmallConsensus p k) ∨ (ruleId = "phragmen-enestroem" ∧ SmallEnestroem p k))
    (a a' : Args) (hak : a.k = k) (hak' : a'.k = k) (hr : a'.resolute = a.resolute) (hmax : a'.max = a.max)
    (hal : prologue w.env ruleId p a = .ok "float-fractions") (alg : String) (hal' : prologue w.env ruleId p a' = .ok alg)
    (hex : ExactAlg w.env alg) :
    compute w ruleId p a.committeesize none a.kw = compute w ruleId p a'.committeesize none a'.kw :=
  C104_compute (pyArith_sound weight hw sum hs) (pyArith_signed weight sum hss) (pyArith_accurate weight sum hsa) ord w hfl p hp k
    ruleId hid a a' hak hak' hr hmax hal alg hal' hex

/-- Two candidates whose supports differ by less than the tolerance. -/
def closeProfile : Profile := ⟨2, [⟨[0], 10 ^ 13⟩, ⟨[1], 10 ^ 13 + 1⟩], []⟩

/-- C104 (finding): without a bound on the weights the two algorithms disagree: supports whose relative difference is below the
tolerance of `isclose` are considered tied, so that the candidate of smaller support is elected. -/
theorem C104_large_weights : closeProfile.WF ∧ ∀ ruleId ∈ ["consensus-rule", "phragmen-enestroem"],
    compute bothWorld ruleId closeProfile 1 none { algorithm := some "float-fractions", resolute := some true } = .ok [[0]] ∧
    compute bothWorld ruleId closeProfile 1 none { algorithm := some "standard-fractions", resolute := some true } = .ok [[1]] := by
  refine ⟨⟨by decide, by decide, by decide, ?_⟩, ?_⟩
  · intro v hv; simp [closeProfile] at hv; rcases hv with rfl | rfl <;> norm_num
  · intro ruleId h
    simp only [List.mem_cons, List.not_mem_nil, or_false] at h
    rcases h with rfl | rfl <;> exact ⟨by decide +kernel, by decide +kernel⟩

/-! ## The hypotheses of C104 are satisfiable -/

theorem smallConsensus_example : SmallConsensus exampleProfile 2 :=
  ⟨moderate_example.integer, by rw [← totalWeight_eq]; norm_num [exampleProfile, Profile.totalWeight],
    by rw [← totalWeight_eq]; norm_num [exampleProfile, Profile.totalWeight]⟩

theorem smallEnestroem_example : SmallEnestroem exampleProfile 2 :=
  ⟨moderate_example.integer, by rw [← totalWeight_eq]; norm_num [exampleProfile, Profile.totalWeight],
    by rw [← totalWeight_eq]; norm_num [exampleProfile, Profile.totalWeight]⟩

example (ruleId : String) (hid : ruleId = "consensus-rule" ∨ ruleId = "phragmen-enestroem") :
    compute bothWorld ruleId exampleProfile 2 none { algorithm := some "float-fractions", resolute := some true, max := none } =
      compute bothWorld ruleId exampleProfile 2 none { algorithm := some "standard-fractions", resolute := some true, max := none } := by
  have := C104_python exactWeight exactWeight_val PyNum.runningSum runningSum_sound PyNum.runningSum_accurate PyNum.runningSum_signed id
    bothWorld rfl exampleProfile
    ⟨by decide, by decide, by decide, by intro v hv; simp [exampleProfile] at hv; rcases hv with rfl | rfl <;> norm_num⟩
    2 ruleId (hid.imp (fun h => ⟨h, smallConsensus_example⟩) (fun h => ⟨h, smallEnestroem_example⟩))
    { committeesize := 2, algorithm := "float-fractions", resolute := true }
    { committeesize := 2, algorithm := "standard-fractions", resolute := true } (by decide) (by decide) rfl rfl
  exact this (by rcases hid with rfl | rfl <;> decide +kernel) "standard-fractions" (by rcases hid with rfl | rfl <;> decide +kernel) (Or.inl rfl)

end Abc
