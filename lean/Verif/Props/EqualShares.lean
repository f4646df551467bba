import Verif.Spec.EqualShares
import Verif.Props.Budgets
import Verif.Props.Phragmen

/-!
# C35, C36: the price computation of Equal Shares and the budgets
-/

namespace Abc
open Spec

/-! ## the price -/

def entryPay (q : ℚ) (vb : Voter × ℚ) : ℚ := min vb.2 (q * vb.1.weight)

theorem sum_lt_of_forall {l : List (Voter × ℚ)} (q : ℚ) (hne : l ≠ []) (h : ∀ e ∈ l, e.2 < q * e.1.weight) :
    (l.map Prod.snd).sum < q * (l.map (fun e => e.1.weight)).sum := by
  induction l with
  | nil => exact absurd rfl hne
  | cons e l ih =>
    simp only [List.map_cons, List.sum_cons]
    have h1 := h e (by simp)
    by_cases hl : l = []
    · subst hl; simpa using h1
    · have := ih hl (fun e he => h e (by simp [he]))
      linarith

theorem weights_pos {l : List (Voter × ℚ)} (hne : l ≠ []) (h : ∀ e ∈ l, 0 < e.1.weight) : 0 < (l.map (fun e => e.1.weight)).sum := by
  induction l with
  | nil => exact absurd rfl hne
  | cons e l ih =>
    simp only [List.map_cons, List.sum_cons]
    have h1 := h e (by simp)
    by_cases hl : l = []
    · subst hl; simpa using h1
    · have := ih hl (fun e he => h e (by simp [he]))
      linarith

theorem sum_pay_poor {l : List (Voter × ℚ)} (q : ℚ) (h : ∀ e ∈ l, e.2 < q * e.1.weight) :
    (l.map (entryPay q)).sum = (l.map Prod.snd).sum := by
  congr 1
  exact List.map_congr_left (fun e he => min_eq_left (h e he).le)

theorem sum_pay_rich {l : List (Voter × ℚ)} (q : ℚ) (h : ∀ e ∈ l, ¬ e.2 < q * e.1.weight) :
    (l.map (entryPay q)).sum = q * (l.map (fun e => e.1.weight)).sum := by
  induction l with
  | nil => simp
  | cons e l ih =>
    simp only [List.map_cons, List.sum_cons]
    rw [ih (fun e he => h e (by simp [he]))]
    have : entryPay q e = q * e.1.weight := min_eq_right (not_lt.1 (h e (by simp)))
    rw [this]; ring

theorem perm_split {α : Type} (l : List α) (P : α → Bool) : (l.filter P ++ l.filter (fun a => ! P a)).Perm l :=
  List.filter_append_perm P l

/-- The loop of `_equal_shares_get_min_q`. -/
theorem minQLoop_spec (fuel : ℕ) (rich poor : List (Voter × ℚ)) (hfuel : rich.length < fuel)
    (hw : ∀ e ∈ rich, 0 < e.1.weight)
    (hpoor : rich ≠ [] → ∀ e ∈ poor, e.2 < (1 - (poor.map Prod.snd).sum) / (rich.map (fun vb => vb.1.weight)).sum * e.1.weight)
    (hempty : rich = [] → (poor.map Prod.snd).sum < 1) (hwp : ∀ e ∈ poor, 0 < e.1.weight) :
    (∃ q, minQLoop fuel rich poor = .ok (some q) ∧ ((rich ++ poor).map (entryPay q)).sum = 1 ∧
        ∃ e ∈ rich ++ poor, ¬ e.2 < q * e.1.weight) ∨
    (minQLoop fuel rich poor = .ok none ∧ ((rich ++ poor).map Prod.snd).sum < 1) := by
  induction fuel generalizing rich poor with
  | zero => omega
  | succ fuel ih =>
    unfold minQLoop
    by_cases h0 : rich = []
    · right
      rw [if_pos (by simp [h0])]
      exact ⟨rfl, by simpa [h0] using hempty h0⟩
    · rw [if_neg (by simpa using h0)]
      simp only
      set q := (1 - (poor.map Prod.snd).sum) / (rich.map (fun vb => vb.1.weight)).sum with hq
      have hR := weights_pos h0 hw
      have hqR : q * (rich.map (fun vb => vb.1.weight)).sum = 1 - (poor.map Prod.snd).sum := by
        rw [hq]; field_simp
      by_cases hn : rich.filter (fun vb => decide (vb.2 < q * vb.1.weight)) = []
      · left
        rw [if_pos (by simp [hn])]
        have hrich : ∀ e ∈ rich, ¬ e.2 < q * e.1.weight := by
          intro e he
          have := List.filter_eq_nil_iff.1 hn e he
          simpa using this
        refine ⟨q, rfl, ?_, ?_⟩
        · rw [List.map_append, List.sum_append, sum_pay_rich q hrich, sum_pay_poor q (hpoor h0), hqR]
          ring
        · obtain ⟨e, he⟩ := List.exists_mem_of_ne_nil rich h0
          exact ⟨e, by simp [he], hrich e he⟩
      · rw [if_neg (by simpa using hn)]
        set N := rich.filter (fun vb => decide (vb.2 < q * vb.1.weight)) with hN
        set R' := rich.filter (fun vb => ! decide (vb.2 < q * vb.1.weight)) with hR'
        have hperm : (N ++ R').Perm rich := perm_split rich _
        have hNp : ∀ e ∈ N, e.2 < q * e.1.weight := by
          intro e he
          have := (List.mem_filter.1 he).2
          simpa using this
        have hNlt := sum_lt_of_forall q hn hNp
        have hsumw : (N.map (fun e => e.1.weight)).sum + (R'.map (fun e => e.1.weight)).sum = (rich.map (fun e => e.1.weight)).sum := by
          rw [← List.sum_append, ← List.map_append]
          exact (hperm.map _).sum_eq
        have hlen : N.length + R'.length = rich.length := by
          rw [← List.length_append]; exact hperm.length_eq
        have hNpos : 0 < N.length := List.length_pos_of_ne_nil hn
        have key : q * (R'.map (fun e => e.1.weight)).sum < 1 - ((poor ++ N).map Prod.snd).sum := by
          rw [List.map_append, List.sum_append]
          have : q * (R'.map (fun e => e.1.weight)).sum = q * (rich.map (fun e => e.1.weight)).sum - q * (N.map (fun e => e.1.weight)).sum := by
            rw [← hsumw]; ring
          rw [this, hqR]
          linarith
        have hw' : ∀ e ∈ R', 0 < e.1.weight := fun e he => hw e (List.mem_filter.1 he).1
        have hwp' : ∀ e ∈ poor ++ N, 0 < e.1.weight := by
          intro e he
          rcases List.mem_append.1 he with he | he
          · exact hwp e he
          · exact hw e (List.mem_filter.1 he).1
        have := ih R' (poor ++ N) (by omega) hw' ?_ ?_ hwp'
        · have hp2 : (R' ++ (poor ++ N)).Perm (rich ++ poor) := by
            have h1 : (R' ++ (poor ++ N)).Perm (R' ++ (N ++ poor)) := (List.perm_append_comm).append_left _
            rw [← List.append_assoc R' N poor] at h1
            exact h1.trans (((List.perm_append_comm).trans hperm).append_right _)
          rcases this with ⟨q', e1, e2, e, he, he2⟩ | ⟨e1, e2⟩
          · left
            exact ⟨q', e1, by rw [← (hp2.map _).sum_eq]; exact e2, e, hp2.mem_iff.1 he, he2⟩
          · right
            exact ⟨e1, by rw [← (hp2.map _).sum_eq]; exact e2⟩
        · intro hne e he
          have hRp := weights_pos hne hw'
          have hqq : q < (1 - ((poor ++ N).map Prod.snd).sum) / (R'.map (fun e => e.1.weight)).sum := by
            rw [lt_div_iff₀ hRp]; exact key
          have hle : e.2 < q * e.1.weight := by
            rcases List.mem_append.1 he with he | he
            · exact hpoor h0 e he
            · exact hNp e he
          exact hle.trans_le (mul_le_mul_of_nonneg_right hqq.le (hwp' e he).le)
        · intro he
          rw [he] at key
          simp at key
          simpa using key

theorem payments_mono {p : Profile} (hp : p.WF) (b : VoterMap p) (c : ℕ) {q q' : ℚ} (h : q ≤ q') :
    payments p b c q ≤ payments p b c q' :=
  Finset.sum_le_sum (fun i _ => min_le_min_left _ (mul_le_mul_of_nonneg_right h (weight_pos hp i).le))

theorem payments_le (p : Profile) (b : VoterMap p) (c : ℕ) (q : ℚ) : payments p b c q ≤ ∑ i ∈ backers p c, b i :=
  Finset.sum_le_sum (fun _ _ => min_le_left _ _)

theorem isPrice_unique {p : Profile} {b : VoterMap p} {c : ℕ} {q q' : ℚ} (h : IsPrice p b c q) (h' : IsPrice p b c q') : q = q' := by
  rcases lt_trichotomy q q' with hlt | h1 | hlt
  · have := h'.2 q hlt; have := h.1; linarith
  · exact h1
  · have := h.2 q' hlt; have := h'.1; linarith

theorem price_eq {p : Profile} {b : VoterMap p} {c : ℕ} {q : ℚ} (h : IsPrice p b c q) : price p b c = q :=
  isPrice_unique (Classical.epsilon_spec (p := IsPrice p b c) ⟨q, h⟩) h

theorem entries_eq (p : Profile) (b : VoterMap p) (c : ℕ) (g : Voter × ℚ → ℚ) :
    (((p.voters.zip (List.ofFn b)).filter (fun vb => decide (c ∈ vb.1.approved))).map g).sum
      = ∑ i ∈ backers p c, g (p.voters.get i, b i) := by
  unfold backers
  rw [sum_filter_map, zip_ofFn, List.map_ofFn, List.sum_ofFn, Finset.sum_filter]
  refine Finset.sum_congr rfl (fun i _ => ?_)
  simp only [decide_eq_true_eq, mem_appr, Function.comp]

/-- C35: the price computation never fails; it returns the lowest price at which the supporters of `c` can pay for it if they
have enough budget, and `None` exactly if they do not. -/
theorem C35_price (p : Profile) (hp : p.WF) (b : VoterMap p) (c : ℕ) :
    (∃ q, getMinQ p (List.ofFn b) c = .ok (some q) ∧ IsPrice p b c q ∧ Affordable p b c) ∨
    (getMinQ p (List.ofFn b) c = .ok none ∧ ¬ Affordable p b c ∧ ∀ q, ¬ IsPrice p b c q) := by
  set es := (p.voters.zip (List.ofFn b)).filter (fun vb => decide (c ∈ vb.1.approved)) with hes
  have hmem : ∀ e ∈ es, ∃ i ∈ backers p c, e = (p.voters.get i, b i) := by
    intro e he
    rw [hes, List.mem_filter, zip_ofFn, List.mem_ofFn] at he
    obtain ⟨⟨i, rfl⟩, h2⟩ := he
    exact ⟨i, mem_backers.2 (by simpa using h2), rfl⟩
  have hlen : es.length < p.voters.length + 1 := by
    have h1 : es.length ≤ (p.voters.zip (List.ofFn b)).length := List.length_filter_le _ _
    rw [List.length_zip] at h1
    have := min_le_left p.voters.length (List.ofFn b).length
    omega
  have hw : ∀ e ∈ es, 0 < e.1.weight := by
    intro e he
    obtain ⟨i, -, rfl⟩ := hmem e he
    exact weight_pos hp i
  have := minQLoop_spec (p.voters.length + 1) es [] hlen hw (by simp) (by simp) (by simp)
  unfold getMinQ
  rw [← hes]
  rcases this with ⟨q, e1, e2, e, he, he2⟩ | ⟨e1, e2⟩
  · left
    rw [List.append_nil] at e2 he
    have hpay : payments p b c q = 1 := by rw [← e2, hes, entries_eq]; rfl
    refine ⟨q, e1, ⟨hpay, ?_⟩, ?_⟩
    · intro q' hq'
      rw [← hpay]
      obtain ⟨i, hi, rfl⟩ := hmem e he
      have hwi := weight_pos hp i
      refine Finset.sum_lt_sum (fun j _ => min_le_min_left _ (mul_le_mul_of_nonneg_right hq'.le (weight_pos hp j).le)) ⟨i, hi, ?_⟩
      simp only at he2
      rw [min_eq_right (not_lt.1 he2)]
      exact (min_le_right _ _).trans_lt (mul_lt_mul_of_pos_right hq' hwi)
    · have := payments_le p b c q
      unfold Affordable
      linarith
  · right
    rw [List.append_nil] at e2
    have hsum : ∑ i ∈ backers p c, b i < 1 := by
      have := entries_eq p b c Prod.snd
      rw [← hes] at this
      rw [this] at e2
      simpa using e2
    refine ⟨e1, not_le.2 hsum, ?_⟩
    intro q hq
    have := payments_le p b c q
    have := hq.1
    linarith

theorem exists_price_iff {p : Profile} (hp : p.WF) (b : VoterMap p) (c : ℕ) : (∃ q, IsPrice p b c q) ↔ Affordable p b c := by
  rcases C35_price p hp b c with ⟨q, -, h1, h2⟩ | ⟨-, h1, h2⟩
  · exact ⟨fun _ => h2, fun _ => ⟨q, h1⟩⟩
  · exact ⟨fun ⟨q, h⟩ => absurd h (h2 q), fun h => absurd h h1⟩

/-- Non-vacuity of C35: voters with budgets 1/4, 1/2, 1 (weights 1, 1, 2): the poor voters pay everything they have. -/
example : getMinQ ⟨1, [⟨[0], 1⟩, ⟨[0], 1⟩, ⟨[0], 2⟩], []⟩ [1/8, 1/4, 1] 0 = .ok (some (5/16)) ∧
    getMinQ ⟨1, [⟨[0], 1⟩, ⟨[0], 1⟩, ⟨[0], 2⟩], []⟩ [1/8, 1/4, 1/2] 0 = .ok none := by decide +kernel

/-! ## the budgets -/

/-- Abbreviation: the runs of Equal Shares. -/
abbrev MRun (p : Profile) (r : ℚ) := Run (MESBest p) (mesUpd p) [] (budgetOf p r)

/-- C36: budgets are never negative, buying a candidate costs exactly 1, and only its supporters pay, equally per unit of
weight unless they run out of budget. -/
theorem C36_budgets (p : Profile) (hp : p.WF) (r : ℚ) (hr : 0 ≤ r) (W : List ℕ) (b : VoterMap p) (h : MRun p r W b) :
    (∀ i, 0 ≤ b i) ∧ ∑ i, b i = r * total p - W.length ∧
    ∀ c, MESBest p W b c →
      (∀ i, i ∉ backers p c → mesUpd p W b c i = b i) ∧
      (∀ i ∈ backers p c, mesUpd p W b c i = b i - price p b c * (p.voters.get i).weight ∨
        (mesUpd p W b c i = 0 ∧ b i ≤ price p b c * (p.voters.get i).weight)) ∧
      ∑ i, b i - ∑ i, mesUpd p W b c i = 1 := by
  have hpay : ∀ W b c, MESBest p W b c → ∑ i, b i - ∑ i, mesUpd p W b c i = 1 := by
    intro W b c hc
    obtain ⟨-, -, q, hq, -⟩ := hc
    rw [← Finset.sum_sub_distrib, ← hq.1, ← price_eq hq]
    unfold payments
    rw [← Finset.sum_subset (Finset.subset_univ (backers p c))]
    · refine Finset.sum_congr rfl (fun i hi => ?_)
      unfold mesUpd
      rw [if_pos hi]; ring
    · intro i _ hi
      unfold mesUpd
      rw [if_neg hi]; ring
  refine ⟨?_, ?_, ?_⟩
  · induction h with
    | start => intro i; exact mul_nonneg (weight_pos hp i).le hr
    | @step W b c _ _ ih =>
      intro i
      unfold mesUpd
      split
      · have := min_le_left (b i) (price p b c * (p.voters.get i).weight)
        linarith
      · exact ih i
  · induction h with
    | start =>
      unfold budgetOf total
      rw [← Finset.sum_mul]; simp; ring
    | @step W b c _ hc ih =>
      have := hpay W b c hc
      simp only [List.length_append, List.length_singleton, Nat.cast_add, Nat.cast_one]
      linarith
  · intro c hc
    refine ⟨fun i hi => by unfold mesUpd; rw [if_neg hi], fun i hi => ?_, hpay W b c hc⟩
    unfold mesUpd
    rw [if_pos hi]
    rcases le_total (b i) (price p b c * (p.voters.get i).weight) with h1 | h1
    · right; rw [min_eq_left h1]; exact ⟨sub_self _, h1⟩
    · left; rw [min_eq_right h1]

/-- With the standard budgets (`r = k / total weight`) at most `k` candidates are bought. -/
theorem mrun_length {p : Profile} (hp : p.WF) (hne : p.voters ≠ []) (k : ℕ) {W : List ℕ} {b : VoterMap p}
    (h : MRun p (k / total p) W b) : W.length ≤ k := by
  have ht := total_pos hp hne
  obtain ⟨h1, h2, -⟩ := C36_budgets p hp (k / total p) (by positivity) W b h
  have h3 : 0 ≤ ∑ i, b i := Finset.sum_nonneg (fun i _ => h1 i)
  rw [h2, div_mul_cancel₀ _ ht.ne'] at h3
  exact_mod_cast (by linarith : (W.length : ℚ) ≤ k)

/-! ## one iteration -/

theorem mesPrices_spec {p : Profile} (hp : p.WF) (b : VoterMap p) (cands : List ℕ) :
    ∃ l, mesPrices p (List.ofFn b) cands = .ok l ∧ (∀ e ∈ l, IsPrice p b e.1 e.2) ∧ (l.map Prod.fst).Sublist cands ∧
      ∀ c ∈ cands, Affordable p b c → c ∈ l.map Prod.fst := by
  induction cands with
  | nil => exact ⟨[], rfl, by simp, by simp, by simp⟩
  | cons c cs ih =>
    obtain ⟨l, h1, h2, h3, h4⟩ := ih
    unfold mesPrices
    rcases C35_price p hp b c with ⟨q, e, hq, hA⟩ | ⟨e, hA, -⟩
    · rw [e, h1]
      refine ⟨(c, q) :: l, rfl, ?_, ?_, ?_⟩
      · intro e he
        rcases List.mem_cons.1 he with rfl | he
        · exact hq
        · exact h2 e he
      · simpa using h3
      · intro d hd hdA
        rcases List.mem_cons.1 hd with rfl | hd
        · simp
        · have := h4 d hd hdA
          rw [List.map_cons, List.mem_cons]
          exact Or.inr this
    · rw [e, h1]
      refine ⟨l, rfl, h2, h3.cons _, ?_⟩
      intro d hd hdA
      rcases List.mem_cons.1 hd with rfl | hd
      · exact absurd hdA hA
      · exact h4 d hd hdA

theorem mesBudget_eq {p : Profile} (W : List ℕ) (b : VoterMap p) (c : ℕ) {q : ℚ} (hq : IsPrice p b c q) :
    mesBudget p (List.ofFn b) c q = List.ofFn (mesUpd p W b c) := by
  unfold mesBudget
  rw [zipWith_ofFn]
  congr 1
  funext i
  unfold mesUpd
  rw [price_eq hq]
  simp only [mem_backers]

/-- the rule with smallest-index tie-breaking if `resolute` -/
def MESNext (p : Profile) (resolute : Bool) (W : List ℕ) (b : VoterMap p) (c : ℕ) : Prop :=
  MESBest p W b c ∧ (resolute = true → ∀ d < c, ¬ MESBest p W b d)

theorem mesSuccs_spec {p : Profile} (hp : p.WF) (resolute : Bool) (W : List ℕ) (b : VoterMap p) :
    ∃ minQ, mesPrices p (List.ofFn b) (available p W) = .ok minQ ∧
      ((minQ = [] ∧ MESDone p W b) ∨
       (minQ ≠ [] ∧ ∃ cands : List ℕ, mesSuccs p resolute (W, List.ofFn b) minQ
          = cands.map (fun c => (W ++ [c], List.ofFn (mesUpd p W b c))) ∧ cands.Pairwise (· < ·) ∧ cands ≠ [] ∧
          ∀ c, c ∈ cands ↔ MESNext p resolute W b c)) := by
  obtain ⟨l, h1, h2, h3, h4⟩ := mesPrices_spec hp b (available p W)
  refine ⟨l, h1, ?_⟩
  by_cases hl : l = []
  · left
    refine ⟨hl, ?_⟩
    intro c hc hcW hA
    have := h4 c (mem_available.2 ⟨hc, hcW⟩) hA
    simp [hl] at this
  · right
    refine ⟨hl, ?_⟩
    set m := listMin (l.map Prod.snd) with hm
    set tied := sortNat ((l.filter (fun cq => decide (cq.2 = m))).map Prod.fst) with htied
    have hne : l.map Prod.snd ≠ [] := by simpa using hl
    have hmm : m ∈ l.map Prod.snd := listMin_mem hne
    have hle : ∀ e ∈ l, m ≤ e.2 := fun e he => listMin_le (List.mem_map.2 ⟨e, he, rfl⟩)
    have hmem : ∀ c, c ∈ tied ↔ MESBest p W b c := by
      intro c
      rw [htied, mem_sortNat, List.mem_map]
      constructor
      · rintro ⟨e, he, rfl⟩
        obtain ⟨he, hem⟩ := List.mem_filter.1 he
        have hem : e.2 = m := by simpa using hem
        obtain ⟨g1, g2⟩ := mem_available.1 (h3.subset (List.mem_map.2 ⟨e, he, rfl⟩))
        refine ⟨g1, g2, e.2, h2 e he, ?_⟩
        intro d hd hdW q' hq'
        have hA : Affordable p b d := (exists_price_iff hp b d).1 ⟨q', hq'⟩
        obtain ⟨e', he', rfl⟩ := List.mem_map.1 (h4 d (mem_available.2 ⟨hd, hdW⟩) hA)
        rw [isPrice_unique hq' (h2 e' he'), hem]
        exact hle e' he'
      · rintro ⟨g1, g2, q, hq, hmin⟩
        have hA : Affordable p b c := (exists_price_iff hp b c).1 ⟨q, hq⟩
        obtain ⟨e, he, rfl⟩ := List.mem_map.1 (h4 c (mem_available.2 ⟨g1, g2⟩) hA)
        refine ⟨e, List.mem_filter.2 ⟨he, ?_⟩, rfl⟩
        obtain ⟨e', he', he''⟩ := List.mem_map.1 hmm
        obtain ⟨k1, k2⟩ := mem_available.1 (h3.subset (List.mem_map.2 ⟨e', he', rfl⟩))
        have h5 := hmin e'.1 k1 k2 e'.2 (h2 e' he')
        rw [isPrice_unique hq (h2 e he), he''] at h5
        simpa using le_antisymm h5 (hle e he)
    have htl : tied.Pairwise (· < ·) := by
      refine sortNat_lt ?_
      have : (l.map Prod.fst).Nodup := h3.nodup (nodup_of_lt (available_lt p W))
      exact this.sublist (List.filter_sublist.map _)
    have htn : tied ≠ [] := by
      obtain ⟨e, he, hem⟩ := List.mem_map.1 hmm
      have : e.1 ∈ tied := by
        rw [htied, mem_sortNat]
        exact List.mem_map.2 ⟨e, List.mem_filter.2 ⟨he, by simpa using hem⟩, rfl⟩
      exact List.ne_nil_of_mem this
    have hval : ∀ c ∈ tied, IsPrice p b c m := by
      intro c hc
      rw [htied, mem_sortNat, List.mem_map] at hc
      obtain ⟨e, he, rfl⟩ := hc
      obtain ⟨he, hem⟩ := List.mem_filter.1 he
      have hem : e.2 = m := by simpa using hem
      rw [← hem]
      exact h2 e he
    refine ⟨if resolute then tied.take 1 else tied, ?_, ?_, ?_, ?_⟩
    · unfold mesSuccs
      simp only
      rw [← hm, ← htied]
      refine List.map_congr_left (fun c hc => ?_)
      have hc' : c ∈ tied := by
        cases resolute with
        | true => exact List.mem_of_mem_take (by simpa using hc)
        | false => simpa using hc
      rw [mesBudget_eq W b c (hval c hc')]
    · cases resolute with
      | true => simpa using htl.sublist (List.take_sublist 1 tied)
      | false => simpa using htl
    · cases resolute with
      | true => simpa using htn
      | false => simpa using htn
    · intro c
      unfold MESNext
      cases resolute with
      | false => simpa using hmem c
      | true =>
        cases ht : tied with
        | nil => exact absurd ht htn
        | cons x xs =>
          rw [ht, List.pairwise_cons] at htl
          have hx : MESBest p W b x := (hmem x).1 (by simp [ht])
          simp only [if_true, List.take_succ_cons, List.take_zero, List.mem_singleton, forall_const]
          constructor
          · rintro rfl
            refine ⟨hx, ?_⟩
            intro d hd hdb
            have := (hmem d).2 hdb
            rw [ht, List.mem_cons] at this
            rcases this with rfl | h
            · omega
            · have := htl.1 d h; omega
          · rintro ⟨hc, hmin⟩
            have hc' := (hmem c).2 hc
            rw [ht, List.mem_cons] at hc'
            rcases hc' with h | h
            · exact h
            · exact absurd hx (hmin x (htl.1 c h))

end Abc
