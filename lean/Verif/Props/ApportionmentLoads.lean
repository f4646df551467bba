import Verif.Props.Apportionment
import Verif.Props.Dummies
import Verif.Props.Consistency
import Verif.Spec.Changes

/-!
# C97, continued: maximin support and minimax-Phragmén on party lists
-/

namespace Abc
open Spec

section
variable {p : Profile} (hp : p.WF) (hpl : ∀ v ∈ p.voters, ∀ w ∈ p.voters, Disjoint v.A w.A ∨ v.A = w.A)

theorem appr_inter {W : Finset ℕ} {i : Fin p.voters.length} {c : ℕ} (hpl : ∀ v ∈ p.voters, ∀ w ∈ p.voters, Disjoint v.A w.A ∨ v.A = w.A)
    (hc : c ∈ appr p i) : W.filter (fun d => d ∈ appr p i) = W.filter (SameParty p c) := by
  ext d
  simp only [Finset.mem_filter]
  exact and_congr_right fun _ => ⟨fun hd => sameParty_of_common hpl hc hd, fun h => (h i).1 hc⟩

/-- A committee with fewer members of one party and not more members of any other party is smaller. -/
theorem parties_card {A B : Finset ℕ} {c : ℕ} (h : ∀ d, seats p B d ≤ seats p A d) (hlt : seats p B c < seats p A c) (hc : c ∈ A) :
    B.card < A.card := by
  set rep : ℕ → ℕ := fun d => sInf {x | SameParty p d x} with hrep
  have iff : ∀ d x, rep x = rep d ↔ SameParty p d x := by
    intro d x
    constructor
    · intro e
      have h1 : SameParty p d (rep d) := Nat.sInf_mem (s := {x | SameParty p d x}) ⟨d, SameParty.refl d⟩
      have h2 : SameParty p x (rep x) := Nat.sInf_mem (s := {y | SameParty p x y}) ⟨x, SameParty.refl x⟩
      rw [e] at h2
      exact h1.trans h2.symm
    · intro hs
      have : {y | SameParty p x y} = {y | SameParty p d y} := by
        ext y
        exact ⟨fun g => hs.trans g, fun g => hs.symm.trans g⟩
      simp only [hrep, this]
  have fib : ∀ (W : Finset ℕ) d, (W.filter (fun x => rep x = rep d)).card = seats p W d := by
    intro W d
    unfold seats
    congr 1
    ext x
    simp only [Finset.mem_filter, iff]
  rw [Finset.card_eq_sum_card_fiberwise (f := rep) (s := A) (t := (A ∪ B).image rep)
      (fun x hx => Finset.mem_coe.2 (Finset.mem_image_of_mem _ (Finset.mem_union_left _ hx))),
    Finset.card_eq_sum_card_fiberwise (f := rep) (s := B) (t := (A ∪ B).image rep)
      (fun x hx => Finset.mem_coe.2 (Finset.mem_image_of_mem _ (Finset.mem_union_right _ hx)))]
  refine Finset.sum_lt_sum (fun r hr => ?_) ⟨rep c, Finset.mem_image_of_mem _ (Finset.mem_union_left _ hc), ?_⟩
  · obtain ⟨d, -, rfl⟩ := Finset.mem_image.1 hr
    rw [fib, fib]
    exact h d
  · rw [fib, fib]
    exact hlt

include hp hpl

/-- Everything that the party of `c` gives to its members in `W`. -/
theorem party_sum {W : Finset ℕ} {c : ℕ} {f : Fin p.voters.length → ℕ → ℚ} (hf : ∀ i d, f i d ≠ 0 → d ∈ appr p i) {g : Fin p.voters.length → ℚ}
    (h0 : ∀ i d, 0 ≤ f i d) (hg : ∀ i, ∑ d ∈ W, f i d ≤ g i) : ∑ d ∈ W.filter (SameParty p c), ∑ i, f i d ≤ ∑ i ∈ backers p c, g i := by
  rw [Finset.sum_comm, ← Finset.sum_filter_add_sum_filter_not Finset.univ (fun i => c ∈ appr p i)]
  have hz : ∑ i ∈ Finset.univ.filter (fun i => ¬ c ∈ appr p i), ∑ d ∈ W.filter (SameParty p c), f i d = 0 := by
    refine Finset.sum_eq_zero fun i hi => Finset.sum_eq_zero fun d hd => ?_
    by_contra hne
    exact (Finset.mem_filter.1 hi).2 (((Finset.mem_filter.1 hd).2 i).2 (hf i d hne))
  rw [hz, add_zero]
  refine Finset.sum_le_sum fun i _ => le_trans ?_ (hg i)
  exact Finset.sum_le_sum_of_subset_of_nonneg (Finset.filter_subset _ _) fun d _ _ => h0 i d

/-- In a party list, members of the same party share the votes. -/
theorem support_party {W : Finset ℕ} {t : ℚ} : SupportAtLeast p W t ↔ ∀ c ∈ W, t ≤ votes p c / seats p W c := by
  constructor
  · rintro ⟨f, h0, hf, hw, ht⟩ c hc
    have hs : (0 : ℚ) < seats p W c := by exact_mod_cast seats_pos (p := p) hc
    rw [le_div_iff₀ hs]
    refine le_trans ?_ (party_sum hp hpl (W := W) (c := c) hf h0 hw)
    rw [mul_comm]
    unfold seats
    rw [← nsmul_eq_mul]
    exact Finset.card_nsmul_le_sum _ _ _ fun d hd => ht d (Finset.mem_filter.1 hd).1
  · intro h
    refine ⟨fun i c => if c ∈ W ∧ c ∈ appr p i then (p.voters.get i).weight / seats p W c else 0, fun i c => ?_, fun i c hne => ?_,
      fun i => ?_, fun c hc => ?_⟩
    · have := (weight_pos hp i).le
      dsimp only
      split_ifs
      · positivity
      · exact le_rfl
    · by_contra hn
      exact hne (if_neg fun g => hn g.2)
    · dsimp only
      have e : ∑ c ∈ W, (if c ∈ W ∧ c ∈ appr p i then (p.voters.get i).weight / seats p W c else 0)
          = ∑ c ∈ W.filter (fun c => c ∈ appr p i), (p.voters.get i).weight / seats p W c := by
        rw [Finset.sum_filter]
        exact Finset.sum_congr rfl fun c hc => by simp [hc]
      rw [e]
      rcases (W.filter (fun c => c ∈ appr p i)).eq_empty_or_nonempty with h0 | ⟨c, hc⟩
      · rw [h0, Finset.sum_empty]
        exact (weight_pos hp i).le
      · have hc1 := (Finset.mem_filter.1 hc).1
        have hc2 := (Finset.mem_filter.1 hc).2
        have hs : (0 : ℚ) < seats p W c := by exact_mod_cast seats_pos (p := p) hc1
        rw [appr_inter hpl hc2, Finset.sum_congr rfl (fun d hd => by rw [← (Finset.mem_filter.1 hd).2.seats_eq]), Finset.sum_const, nsmul_eq_mul]
        unfold seats at hs ⊢
        rw [mul_div_cancel₀ _ hs.ne']
    · refine (h c hc).trans (le_of_eq ?_)
      dsimp only
      simp only [hc, true_and]
      rw [← Finset.sum_filter]
      unfold votes wt backers
      rw [Finset.sum_div]

/-- Adding a candidate to an outcome of D'Hondt: the new candidate has the least support. -/
theorem support_insert {k : ℕ} {W : Finset ℕ} (hW : DivisorOutcome (marginalFct .pav) p k W) {c : ℕ} (hc : c < p.numCand) (hcW : c ∉ W) {t : ℚ} :
    SupportAtLeast p (insert c W) t ↔ t ≤ votes p c * marginalFct .pav (seats p W c + 1) := by
  have e : votes p c * marginalFct .pav (seats p W c + 1) = votes p c / seats p (insert c W) c := by
    rw [pav_succ, seats_insert_same hcW (SameParty.refl c), mul_one_div]
    push_cast
    rfl
  rw [support_party hp hpl, e]
  constructor
  · exact fun h => h c (Finset.mem_insert_self _ _)
  · intro h d hd
    by_cases hs : SameParty p d c
    · rw [hs.votes_eq, hs.seats_eq]
      exact h
    · have hdW : d ∈ W := by
        rcases Finset.mem_insert.1 hd with rfl | hd
        · exact absurd (SameParty.refl d) hs
        · exact hd
      rw [seats_insert_other hs]
      rw [← e] at h
      exact h.trans ((dhondt_iff.1 hW).2 d hdW c hc hcW |>.trans' (le_of_eq (by rw [pav_succ, mul_one_div])))

theorem maximin_divisor {k : ℕ} {A : Finset ℕ} : MaximinWinner 0 p k A ↔ DivisorOutcome (marginalFct .pav) p k A := by
  have hg : ∀ c d, SameParty p c d → ∀ j, votes p c * marginalFct .pav j = votes p d * marginalFct .pav j := fun c d h j => by rw [h.votes_eq]
  have hmono : ∀ c j, 1 ≤ j → votes p c * marginalFct .pav (j + 1) ≤ votes p c * marginalFct .pav j := fun c j hj =>
    mul_le_mul_of_nonneg_left (pav_noninc j hj) (votes_nonneg hp c)
  have best : ∀ (W : List ℕ) (s : Unit) (c : ℕ), DivisorOutcome (marginalFct .pav) p W.length W.toFinset →
      (MaximinBest 0 p W c ↔ c < p.numCand ∧ c ∉ W ∧ ∀ d < p.numCand, d ∉ W →
        votes p d * marginalFct .pav (seats p W.toFinset d + 1) ≤ votes p c * marginalFct .pav (seats p W.toFinset c + 1)) := by
    intro W _ c hW
    unfold MaximinBest
    refine and_congr_right fun hc => and_congr_right fun hcW => forall₃_congr fun d hd hdW => ?_
    have e : ∀ x, x < p.numCand → x ∉ W → ∀ t, SupportAtLeast p (insert x W.toFinset) t ↔ _ := fun x h1 h2 t =>
      support_insert hp hpl hW h1 (by simpa using h2)
    simp only [e d hd hdW, e c hc hcW, sub_zero]
    exact ⟨fun h => h _ le_rfl, fun h t ht => ht.trans h⟩
  refine runWinner_seat (p := p) (g := fun c j => votes p c * marginalFct .pav j) hg hmono
    (fun W _ => DivisorOutcome (marginalFct .pav) p W.length W.toFinset) ⟨⟨by simp, by simp⟩, by simp⟩ (fun W s c h => best W s c h) ?_
  intro W s c h hb
  obtain ⟨h1, h2, h3⟩ := (best W s c h).1 hb
  have e : (W ++ [c]).toFinset = insert c W.toFinset := by ext x; simp [or_comm]
  rw [e, List.length_append, List.length_singleton]
  exact divisor_insert hp hpl _ pav_noninc h h1 (by simpa using h2) (fun d hd hdV => h3 d hd (by simpa using hdV))

/-- The members of a party bear the same loads. -/
theorem load_party {W : Finset ℕ} {t : ℚ} (ht : 0 ≤ t) :
    LoadWithin p W t ↔ ∀ c ∈ W, (seats p W c : ℚ) ≤ t * votes p c := by
  constructor
  · rintro ⟨x, hx, hl⟩ c hc
    have h1 := party_sum hp hpl (W := W) (c := c) (f := fun i d => (p.voters.get i).weight * x i d) (g := fun i => (p.voters.get i).weight * t)
      (fun i d h => (hx.approved i d (fun g => h (by rw [g, mul_zero]))).1) (fun i d => mul_nonneg (weight_pos hp i).le (hx.nonneg i d))
      (fun i => by rw [← Finset.mul_sum]; exact mul_le_mul_of_nonneg_left (hl i) (weight_pos hp i).le)
    rw [Finset.sum_congr rfl (fun d hd => hx.one d (Finset.mem_filter.1 hd).1), Finset.sum_const, nsmul_eq_mul, mul_one,
      ← Finset.sum_mul] at h1
    rw [mul_comm]
    exact h1
  · intro h
    have hv : ∀ c ∈ W, 0 < votes p c := by
      intro c hc
      have hs : (0 : ℚ) < seats p W c := by exact_mod_cast seats_pos (p := p) hc
      have := h c hc
      rcases (votes_nonneg hp c).lt_or_eq with h0 | h0
      · exact h0
      · rw [← h0, mul_zero] at this
        linarith
    refine ⟨fun i c => if c ∈ W ∧ c ∈ appr p i then 1 / votes p c else 0, ⟨fun i c => ?_, fun i c hne => ?_, fun c hc => ?_⟩, fun i => ?_⟩
    · have := votes_nonneg hp c
      split_ifs
      · positivity
      · exact le_rfl
    · by_contra hn
      exact hne (if_neg fun g => hn ⟨g.2, g.1⟩)
    · simp only [hc, true_and, mul_ite, mul_zero]
      rw [← Finset.sum_filter]
      have e : ∑ i ∈ Finset.univ.filter (fun i => c ∈ appr p i), (p.voters.get i).weight * (1 / votes p c) = votes p c * (1 / votes p c) := by
        rw [← Finset.sum_mul]
        rfl
      rw [e, mul_one_div_cancel (hv c hc).ne']
    · have e : ∑ c ∈ W, (if c ∈ W ∧ c ∈ appr p i then 1 / votes p c else 0) = ∑ c ∈ W.filter (fun c => c ∈ appr p i), 1 / votes p c := by
        rw [Finset.sum_filter]
        exact Finset.sum_congr rfl fun c hc => by simp [hc]
      rw [e]
      rcases (W.filter (fun c => c ∈ appr p i)).eq_empty_or_nonempty with h0 | ⟨c, hc⟩
      · rw [h0, Finset.sum_empty]
        exact ht
      · have hc1 := (Finset.mem_filter.1 hc).1
        have hc2 := (Finset.mem_filter.1 hc).2
        rw [appr_inter hpl hc2, Finset.sum_congr rfl (fun d hd => by rw [← (Finset.mem_filter.1 hd).2.votes_eq]), Finset.sum_const,
          nsmul_eq_mul, mul_one_div, div_le_iff₀ (hv c hc1)]
        exact h c hc1

/-- D'Hondt minimises the largest load. -/
theorem dhondt_minimax {k : ℕ} (hk : 1 ≤ k) (hka : k ≤ (approvedSet p).card) {A : Finset ℕ} (hA : DHondt p k A) : MinimaxPhragmenOpt 0 p k A := by
  have hpos : ∀ c ∈ A, 0 < votes p c := by
    intro c hc
    refine (votes_nonneg hp c).lt_of_ne fun h0 => ?_
    have hcu : c ∉ approvedSet p := fun g => by
      have := votes_pos hp (approved_iff.1 (mem_approvedSet_iff.1 g))
      rw [← h0] at this
      exact lt_irrefl _ this
    have hlt : (A.erase c).card < (approvedSet p).card := by
      rw [Finset.card_erase_of_mem hc, hA.1.2]
      omega
    obtain ⟨d, hd, hdA⟩ := Finset.exists_mem_notMem_of_card_lt_card hlt
    have hdc : d ≠ c := fun e => hcu (e ▸ hd)
    have hdA' : d ∉ A := fun g => hdA (Finset.mem_erase.2 ⟨hdc, g⟩)
    have := hA.2 c hc d (Finset.mem_range.1 (approved_range hp hd)) hdA'
    rw [← h0, zero_div] at this
    have hv := votes_pos hp (approved_iff.1 (mem_approvedSet_iff.1 hd))
    have : 0 < votes p d / ((seats p A d : ℚ) + 1) := by positivity
    linarith
  refine ⟨⟨hA.1, Or.inl fun c hc => mem_approvedSet_iff.2 (approved_iff.2 ((votes_pos_iff hp).1 (hpos c hc)))⟩, fun B t hB hload => ?_⟩
  have ht : 0 ≤ t := by
    obtain ⟨x, hx, hl⟩ := hload
    obtain ⟨d, hd⟩ : B.Nonempty := Finset.card_pos.1 (by rw [hB.2]; omega)
    obtain ⟨i, hi⟩ := approved_iff.1 (approved_of_loads hx d hd)
    exact (Finset.sum_nonneg fun c _ => hx.nonneg i c).trans (hl i)
  rw [add_zero, load_party hp hpl ht]
  rw [load_party hp hpl ht] at hload
  intro c hc
  by_cases hcs : seats p A c ≤ seats p B c
  · have hB1 : 0 < seats p B c := lt_of_lt_of_le (seats_pos (p := p) hc) hcs
    obtain ⟨d, hd⟩ := Finset.card_pos.1 hB1
    obtain ⟨hdB, hds⟩ := Finset.mem_filter.1 hd
    have := hload d hdB
    rw [← hds.votes_eq, ← hds.seats_eq] at this
    exact le_trans (by exact_mod_cast hcs) this
  · have hdiff : ∃ d ∈ B, seats p A d < seats p B d := by
      by_contra hno
      push Not at hno
      have := parties_card (p := p) (B := B) (A := A) (c := c) (by
        intro d
        rcases Nat.eq_zero_or_pos (seats p B d) with h0 | h0
        · omega
        · obtain ⟨e, he⟩ := Finset.card_pos.1 h0
          obtain ⟨heB, hes⟩ := Finset.mem_filter.1 he
          rw [hes.seats_eq, hes.seats_eq]
          exact hno e heB) (by omega) hc
      rw [hA.1.2, hB.2] at this
      omega
    obtain ⟨d, hdB, hlt⟩ := hdiff
    obtain ⟨e, he, heA⟩ := Finset.exists_mem_notMem_of_card_lt_card hlt
    obtain ⟨heB, hes⟩ := Finset.mem_filter.1 he
    have heA' : e ∉ A := fun g => heA (Finset.mem_filter.2 ⟨g, hes⟩)
    have h1 := hload e heB
    have h2 := hA.2 c hc e (Finset.mem_range.1 (hB.1 heB)) heA'
    rw [hes.seats_eq, hes.seats_eq] at hlt
    have hs : (0 : ℚ) < seats p A c := by exact_mod_cast seats_pos (p := p) hc
    rw [div_le_div_iff₀ (by positivity) hs] at h2
    have h3 : (seats p A e : ℚ) + 1 ≤ seats p B e := by exact_mod_cast hlt
    have h4 : (seats p A e : ℚ) + 1 ≤ t * votes p e := h3.trans h1
    have hve : 0 < votes p e := by
      rcases (votes_nonneg hp e).lt_or_eq with h0 | h0
      · exact h0
      · rw [← h0, mul_zero] at h4
        have : (0 : ℚ) ≤ seats p A e := Nat.cast_nonneg _
        linarith
    have h5 : votes p e * seats p A c ≤ votes p e * (t * votes p c) := by
      refine h2.trans ?_
      calc votes p c * ((seats p A e : ℚ) + 1) ≤ votes p c * (t * votes p e) := mul_le_mul_of_nonneg_left h4 (votes_nonneg hp c)
        _ = votes p e * (t * votes p c) := by ring
    exact le_of_mul_le_mul_left h5 hve

end

/-! ### The theorems -/

section
variable (w : World) (hw : w.Exact) (p : Profile) (hp : p.WF) (hpl : p.isPartyList = true) (a : Args) {alg : String}
include hw hp hpl

/-- **C97** The maximin support method elects on party lists exactly the D'Hondt outcomes. -/
theorem C97_dhondt_maximin (hal : prologue w.env "maximin-support" p a = .ok alg) (hi : IntegerWeights p) (hk : a.k ≤ 3162) :
    Answers a (compute w "maximin-support" p a.committeesize none a.kw) (DHondt p a.k) :=
  answers_of_iff (fun _ => (maximin_divisor hp ((C06_isPartyList_iff p hp).1 hpl)).trans dhondt_iff)
    (C31_compute w hw p hp a _ alg hal (.maximinSupport hi hk))

/-- **C97** On party lists all D'Hondt outcomes are among the committees returned by `minimaxphragmen`. -/
theorem C97_dhondt_minimax (h : AllCommittees a) (hal : prologue w.env "minimaxphragmen" p a = .ok alg) (hi : IntegerWeights p)
    (ht : total p ≤ 3162) (hk : a.k ≤ (approvedSet p).card) {W : List ℕ} (hW : W.Pairwise (· < ·)) (hd : DHondt p a.k W.toFinset) :
    ∃ cs, compute w "minimaxphragmen" p a.committeesize none a.kw = .ok cs ∧ W ∈ cs := by
  have g := C31_compute w hw p hp a _ alg hal (.minimaxphragmen hi ht hk)
  unfold Answers at g
  rw [h.1, h.2] at g
  obtain ⟨cs, h1, h2, h3⟩ := g
  exact ⟨cs, h1, (returns_mem h2 h3 W).2 ⟨hW, dhondt_minimax hp ((C06_isPartyList_iff p hp).1 hpl) (validCall_of_prologue hal).pos hk hd⟩⟩

end

/-! ### The hypotheses can be met -/

/-- Three parties with 5, 3 and 1 votes and four seats. -/
example (w : World) (hw : w.env = exampleEnv) :
    IntegerWeights threeParties ∧ total threeParties ≤ 3162 ∧ 4 ≤ (approvedSet threeParties).card ∧ DHondt threeParties 4 [0, 1, 2, 3].toFinset ∧
    prologue w.env "maximin-support" threeParties { committeesize := 4, algorithm := "gurobi", resolute := false } = .ok "gurobi" ∧
    prologue w.env "minimaxphragmen" threeParties { committeesize := 4, algorithm := "gurobi", resolute := false } = .ok "gurobi" := by
  refine ⟨?_, by decide +kernel, by decide +kernel, ⟨⟨by decide +kernel, by decide +kernel⟩, by decide +kernel⟩, ?_, ?_⟩
  · intro v hv
    simp only [threeParties, List.mem_cons, List.not_mem_nil, or_false] at hv
    rcases hv with rfl | rfl | rfl | rfl
    · exact ⟨3, rfl⟩
    · exact ⟨2, rfl⟩
    · exact ⟨3, rfl⟩
    · exact ⟨1, rfl⟩
  · rw [hw]; decide +kernel
  · rw [hw]; decide +kernel

end Abc
