import Verif.Spec.Relations
import Verif.Props.ApportionmentLoads
import Verif.Props.SingleSeat
import Verif.Props.FloatSav
import Verif.Props.ParetoRules
import Verif.Props.Monotonicity
import Verif.Spec.Changes

/-!
# C123: when different rules elect the same committees
-/

namespace Abc
open Spec

/-! ### Candidates with the highest scores, one at a time -/

theorem TopSet.add {s : ℕ → ℚ} {U : Finset ℕ} {j : ℕ} {T : Finset ℕ} (h : TopSet s U ∅ j T) {x : ℕ} (hx : x ∈ U) (hxT : x ∉ T)
    (hmax : ∀ y ∈ U, y ∉ T → s y ≤ s x) : TopSet s U ∅ (j + 1) (insert x T) := by
  refine ⟨Finset.insert_subset hx h.sub, by simp, by rw [Finset.card_insert_of_notMem hxT, h.card], ?_⟩
  intro z hz _ y hy hyT
  rw [Finset.mem_insert, not_or] at hyT
  rcases Finset.mem_insert.1 hz with rfl | hz
  · exact hmax y hy hyT.2
  · exact h.exch z hz (by simp) y hy hyT.2

/-- Every set of `j + 1` top candidates arises from `j` top candidates. -/
theorem TopSet.last {s : ℕ → ℚ} {U : Finset ℕ} {j : ℕ} {T : Finset ℕ} (h : TopSet s U ∅ (j + 1) T) :
    ∃ x ∈ T, TopSet s U ∅ j (T.erase x) ∧ ∀ y ∈ U, y ∉ T.erase x → s y ≤ s x := by
  obtain ⟨x, hx, hmin⟩ := Finset.exists_min_image T s (Finset.card_pos.1 (by rw [h.card]; omega))
  refine ⟨x, hx, h.erase hx hmin, fun y hy hyT => ?_⟩
  by_cases hyx : y = x
  · rw [hyx]
  · exact h.exch x hx (by simp) y hy (fun h' => hyT (Finset.mem_erase.2 ⟨hyx, h'⟩))

/-- Every set of `j` top candidates arises from `j + 1` top candidates, if there are so many. -/
theorem TopSet.next {s : ℕ → ℚ} {U : Finset ℕ} {j : ℕ} {T : Finset ℕ} (h : TopSet s U ∅ j T) (hj : j < U.card) :
    ∃ x ∈ U, x ∉ T ∧ TopSet s U ∅ (j + 1) (insert x T) ∧ ∀ y ∈ insert x T, s x ≤ s y := by
  have hne : (U \ T).Nonempty := by
    rw [Finset.sdiff_nonempty]
    intro hs
    have := Finset.card_le_card hs
    rw [h.card] at this
    omega
  obtain ⟨x, hx, hmax⟩ := Finset.exists_max_image (U \ T) s hne
  obtain ⟨x1, x2⟩ := Finset.mem_sdiff.1 hx
  refine ⟨x, x1, x2, h.add x1 x2 fun y hy hyT => hmax y (Finset.mem_sdiff.2 ⟨hy, hyT⟩), fun y hy => ?_⟩
  rcases Finset.mem_insert.1 hy with rfl | hy
  · exact le_rfl
  · exact h.exch y hy (by simp) x x1 x2

/-! ### Thiele scores that are sums over the members -/

section
variable {p : Profile} {f : ℕ → ℚ} (ha : ∀ W : Finset ℕ, score f p W = ∑ c ∈ W, candScore .av p c)
include ha

theorem gain_additive {W : Finset ℕ} {c : ℕ} (hc : c ∉ W) : gain f p W c = candScore .av p c := by
  unfold gain
  rw [ha, ha, Finset.sum_insert hc]
  ring

theorem loss_additive {W : Finset ℕ} {c : ℕ} (hc : c ∈ W) : loss f p W c = candScore .av p c := by
  unfold loss
  rw [ha, ha, ← Finset.add_sum_erase W _ hc]
  ring

theorem thiele_additive (k : ℕ) (A : Finset ℕ) : ThieleOpt f p k A ↔ SepOpt .av p k A := by
  unfold ThieleOpt SepOpt
  simp only [ha]

theorem seqThiele_additive (k : ℕ) (A : Finset ℕ) : SeqThieleWinner f p k A ↔ SepOpt .av p k A := by
  rw [sepOpt_iff_topSet]
  constructor
  · rintro ⟨W, hW, rfl, rfl⟩
    induction hW with
    | nil => exact ⟨by simp, by simp, rfl, by simp⟩
    | @snoc W c _ h1 h2 h3 ih =>
      have e : (W ++ [c]).toFinset = insert c W.toFinset := by ext x; simp [or_comm]
      rw [e, List.length_append, List.length_singleton]
      refine ih.add (Finset.mem_range.2 h1) (by simpa using h2) fun y hy hyW => ?_
      rw [← gain_additive ha hyW, ← gain_additive ha (show c ∉ W.toFinset by simpa using h2)]
      exact h3 y (Finset.mem_range.1 hy) (by simpa using hyW)
  · intro h
    induction k generalizing A with
    | zero => exact ⟨[], .nil, rfl, (Finset.card_eq_zero.1 h.card).symm ▸ rfl⟩
    | succ k ih =>
      obtain ⟨x, hx, h1, h2⟩ := h.last
      obtain ⟨W, g1, g2, g3⟩ := ih _ h1
      have hxW : x ∉ W := fun hxW => Finset.notMem_erase x A (g3 ▸ List.mem_toFinset.2 hxW)
      refine ⟨W ++ [x], g1.snoc (Finset.mem_range.1 (h.sub hx)) hxW fun d hd hdW => ?_, by simp [g2], ?_⟩
      · rw [gain_additive ha (by simpa using hdW), gain_additive ha (by simpa using hxW)]
        exact h2 d (Finset.mem_range.2 hd) (by rw [← g3]; simpa using hdW)
      · rw [List.toFinset_append, g3]
        simp [hx]

theorem revseqThiele_additive (k : ℕ) (A : Finset ℕ) : (RevRun f p A ∧ A.card = k) ↔ SepOpt .av p k A := by
  rw [sepOpt_iff_topSet]
  constructor
  · rintro ⟨h, rfl⟩
    induction h with
    | all => exact ⟨fun _ h => h, by simp, rfl, fun x _ _ y hy hy' => absurd hy hy'⟩
    | @remove W c _ h1 h2 ih =>
      rw [Finset.card_erase_of_mem h1]
      have hpos := Finset.card_pos.2 ⟨c, h1⟩
      refine TopSet.erase (j := W.card - 1) (by rw [Nat.sub_add_cancel hpos]; exact ih) h1 fun z hz => ?_
      rw [← loss_additive ha h1, ← loss_additive ha hz]
      exact h2 z hz
  · intro h
    refine ⟨?_, h.card⟩
    obtain ⟨m, hm⟩ : ∃ m, m + k = p.numCand := ⟨p.numCand - k, by
      have := Finset.card_le_card h.sub
      rw [h.card, Finset.card_range] at this
      omega⟩
    induction m generalizing k A with
    | zero =>
      have : A = Finset.range p.numCand := Finset.eq_of_subset_of_card_le h.sub (by rw [Finset.card_range, h.card]; omega)
      rw [this]
      exact .all
    | succ m ih =>
      obtain ⟨x, x1, x2, h1, h2⟩ := h.next (by rw [Finset.card_range]; omega)
      have := (ih _ _ h1 (by omega)).remove (Finset.mem_insert_self x A) fun d hd => by
        rw [loss_additive ha (Finset.mem_insert_self x A), loss_additive ha hd]
        exact h2 d hd
      rwa [Finset.erase_insert x2] at this

end

/-! ### Approval voting -/

theorem score_av (p : Profile) (W : Finset ℕ) : score (marginalFct .av) p W = ∑ c ∈ W, candScore .av p c := (sum_candScore_av p W).symm

/-- If nobody approves more than one candidate, the score with `f 1 = 1` is the number of supporters of the members. -/
theorem score_singleVotes {p : Profile} (h : SingleVotes p) {f : ℕ → ℚ} (h1 : f 1 = 1) (W : Finset ℕ) :
    score f p W = ∑ c ∈ W, candScore .av p c := by
  rw [sum_candScore_av]
  unfold score
  congr 1
  refine List.map_congr_left fun v hv => ?_
  have : util v W ≤ 1 := (Finset.card_le_card Finset.inter_subset_left).trans (h v hv)
  rcases Nat.le_one_iff_eq_zero_or_eq_one.1 this with e | e <;> simp [e, h1, marginalFct]

/-! ### Single votes -/

section
variable {p : Profile} (h : SingleVotes p)
include h

theorem sav_singleVotes (c : ℕ) : candScore .sav p c = candScore .av p c := by
  unfold candScore
  congr 1
  refine List.map_congr_left fun v hv => ?_
  split_ifs with hc
  · have h1 := h v hv
    have h2 := Finset.card_pos.2 ⟨c, hc⟩
    have : v.A.card = 1 := by omega
    simp [this]
  · rfl

theorem sepOpt_singleVotes (k : ℕ) (A : Finset ℕ) : SepOpt .sav p k A ↔ SepOpt .av p k A := by
  unfold SepOpt
  simp only [sav_singleVotes h]

theorem coverage_singleVotes {l : ℕ} (hl : 2 ≤ l) (W : Finset ℕ) : coverage p l W = 0 := by
  unfold coverage
  refine List.sum_eq_zero fun x hx => ?_
  obtain ⟨v, hv, rfl⟩ := List.mem_map.1 hx
  have : util v W ≤ 1 := (Finset.card_le_card Finset.inter_subset_left).trans (h v hv)
  rw [if_neg (by omega)]

theorem lexcc_singleVotes {k : ℕ} (hk : 1 ≤ k) (A : Finset ℕ) : LexccOpt p k A ↔ SepOpt .av p k A := by
  rw [← thiele_additive (score_singleVotes h (f := marginalFct .cc) rfl)]
  refine ⟨lexcc_cc hk, fun hA => ⟨hA.1, fun B hB hlt => ?_⟩⟩
  unfold coverageVector at hlt
  rw [map_range_lt_iff] at hlt
  obtain ⟨i, hi, -, hlt⟩ := hlt
  simp only at hlt
  rcases Nat.eq_zero_or_pos i with rfl | hi0
  · have := hA.2 B hB
    rw [← coverage_one, ← coverage_one] at this
    exact absurd hlt (not_lt.2 this)
  · rw [coverage_singleVotes h (by omega), coverage_singleVotes h (by omega)] at hlt
    exact lt_irrefl _ hlt

theorem partyList_singleVotes : ∀ v ∈ p.voters, ∀ w ∈ p.voters, Disjoint v.A w.A ∨ v.A = w.A := by
  intro v hv w hw
  have h1 := h v hv
  have h2 := h w hw
  rw [Finset.card_le_one] at h1 h2
  by_cases hd : Disjoint v.A w.A
  · exact Or.inl hd
  · rw [Finset.not_disjoint_iff] at hd
    obtain ⟨x, x1, x2⟩ := hd
    right
    ext y
    exact ⟨fun hy => h1 y hy x x1 ▸ x2, fun hy => h2 y hy x x2 ▸ x1⟩

theorem sameParty_singleVotes {c d : ℕ} (hc : (backers p c).Nonempty) (hs : SameParty p c d) : d = c := by
  obtain ⟨i, hi⟩ := hc
  have hci : c ∈ appr p i := (Finset.mem_filter.1 hi).2
  have := h _ (List.get_mem p.voters i)
  rw [Finset.card_le_one] at this
  exact this d ((hs i).1 hci) c hci

theorem seats_singleVotes {c : ℕ} (hc : (backers p c).Nonempty) (W : Finset ℕ) : seats p W c = if c ∈ W then 1 else 0 := by
  have : W.filter (SameParty p c) = if c ∈ W then {c} else ∅ := by
    ext d
    rw [Finset.mem_filter]
    constructor
    · rintro ⟨h1, h2⟩
      obtain rfl := sameParty_singleVotes h hc h2
      rw [if_pos h1]
      simp
    · split_ifs with hcW
      · rw [Finset.mem_singleton]
        rintro rfl
        exact ⟨hcW, SameParty.refl d⟩
      · simp
  unfold seats
  rw [this]
  split_ifs <;> rfl

/-- A divisor method gives its seats to the candidates with the most votes. -/
theorem divisor_singleVotes (hp : p.WF) {f : ℕ → ℚ} (h1 : f 1 = 1) (k : ℕ) (A : Finset ℕ) :
    DivisorOutcome f p k A ↔ SepOpt .av p k A := by
  have e : SepOpt .av p k A ↔ TopCommittee p (votes p) k A := by
    unfold SepOpt TopCommittee votes
    simp only [candScore_av_wt]
  rw [e, topCommittee_iff]
  refine and_congr_right fun _ => forall₂_congr fun c hc => forall_congr' fun d => forall₂_congr fun hd hdA => ?_
  have g1 : votes p d * f (seats p A d + 1) = votes p d := by
    by_cases hb : (backers p d).Nonempty
    · rw [seats_singleVotes h hb, if_neg hdA, zero_add, h1, mul_one]
    · have : votes p d = 0 := le_antisymm (not_lt.1 fun h0 => hb ((votes_pos_iff hp).1 h0)) (votes_nonneg hp d)
      rw [this, zero_mul]
  have g2 : votes p c * f (seats p A c) = votes p c := by
    by_cases hb : (backers p c).Nonempty
    · rw [seats_singleVotes h hb, if_pos hc, h1, mul_one]
    · have : votes p c = 0 := le_antisymm (not_lt.1 fun h0 => hb ((votes_pos_iff hp).1 h0)) (votes_nonneg hp c)
      rw [this, zero_mul]
  rw [g1, g2]

theorem seatOutcome_votes (k : ℕ) (A : Finset ℕ) : SeatOutcome (fun c _ => votes p c) p k A ↔ SepOpt .av p k A := by
  have e : SepOpt .av p k A ↔ TopCommittee p (votes p) k A := by
    unfold SepOpt TopCommittee votes
    simp only [candScore_av_wt]
  rw [e, topCommittee_iff]
  rfl

theorem enestroem_singleVotes (hp : p.WF) (k : ℕ) (A : Finset ℕ) : EnestroemWinner p k A ↔ SepOpt .av p k A := by
  rw [enestroem_seat hp (partyList_singleVotes h), ← seatOutcome_votes h]
  have hq : 0 ≤ total p / k := div_nonneg (Finset.sum_nonneg (fun i _ => (weight_pos hp i).le)) (Nat.cast_nonneg _)
  refine and_congr_right fun _ => forall₂_congr fun c hc => forall_congr' fun d => forall₂_congr fun hd hdA => ?_
  have g1 : max 0 (votes p d - seats p A d * (total p / k)) = votes p d := by
    by_cases hb : (backers p d).Nonempty
    · rw [seats_singleVotes h hb, if_neg hdA, Nat.cast_zero, zero_mul, sub_zero, max_eq_right (votes_nonneg hp d)]
    · have : votes p d = 0 := le_antisymm (not_lt.1 fun h0 => hb ((votes_pos_iff hp).1 h0)) (votes_nonneg hp d)
      rw [this, zero_sub, max_eq_left (neg_nonpos.2 (mul_nonneg (Nat.cast_nonneg _) hq))]
  have g2 : max 0 (votes p c - ((seats p A c : ℚ) - 1) * (total p / k)) = votes p c := by
    by_cases hb : (backers p c).Nonempty
    · rw [seats_singleVotes h hb, if_pos hc, Nat.cast_one, sub_self, zero_mul, sub_zero, max_eq_right (votes_nonneg hp c)]
    · have : votes p c = 0 := le_antisymm (not_lt.1 fun h0 => hb ((votes_pos_iff hp).1 h0)) (votes_nonneg hp c)
      have h1 : (1 : ℚ) ≤ seats p A c := by exact_mod_cast seats_pos hc
      rw [this, zero_sub, max_eq_left (neg_nonpos.2 (mul_nonneg (by linarith) hq))]
  rw [g1, g2]

theorem consensus_singleVotes (hp : p.WF) (k : ℕ) (A : Finset ℕ) : ConsensusWinner p k A ↔ SepOpt .av p k A := by
  rw [← seatOutcome_votes h]
  refine runWinner_seat (fun c d hs _ => hs.votes_eq) (fun _ _ _ => le_rfl)
    (fun W b => ∀ i, (∀ c ∈ W, i ∉ backers p c) → b i = W.length * (p.voters.get i).weight) (fun i _ => by simp) ?_ ?_
  · intro W b c hb
    have hs : ∀ d, d ∉ W → support p (income p b) d = ((W.length : ℚ) + 1) * votes p d := by
      intro d hd
      have hi : ∀ i ∈ backers p d, income p b i = ((W.length : ℚ) + 1) * (p.voters.get i).weight := by
        intro i hi
        unfold income
        rw [hb i fun e he hie => ?_]
        · ring
        · have := h _ (List.get_mem p.voters i)
          rw [Finset.card_le_one] at this
          exact hd (this e (Finset.mem_filter.1 hie).2 d (Finset.mem_filter.1 hi).2 ▸ he)
      unfold support votes wt
      rw [Finset.filter_true_of_mem fun i hi' => by
        rw [hi i hi']
        exact mul_pos (by positivity) (weight_pos hp i), Finset.mul_sum]
      exact Finset.sum_congr rfl hi
    have h0 : (0 : ℚ) < (W.length : ℚ) + 1 := by positivity
    refine and_congr_right fun _ => and_congr_right fun hc => forall_congr' fun d => forall₂_congr fun _ hd => ?_
    rw [hs d hd, hs c hc, mul_le_mul_iff_right₀ h0]
  · intro W b c hb _ i hi
    unfold consensusUpd
    rw [if_neg fun hh => hi c (by simp) hh.1]
    unfold income
    rw [hb i fun d hd => hi d (by simp [hd])]
    push_cast [List.length_append, List.length_singleton]
    ring

/-- The candidates Equal Shares can afford have more votes than the others. -/
theorem lowerQuotas_singleVotes (hp : p.WF) {k : ℕ} {W : Finset ℕ} (hW : LowerQuotas p k W) {c : ℕ} (hc : c < p.numCand) :
    c ∈ W ↔ 1 ≤ votes p c * k / total p := by
  have h2 := hW.2 c hc
  by_cases hb : (backers p c).Nonempty
  · rw [seats_singleVotes h hb, seats_singleVotes h hb, if_pos (Finset.mem_range.2 hc)] at h2
    rw [← Nat.one_le_floor_iff]
    split_ifs at h2 with hcW
    · exact iff_of_true hcW (by omega)
    · exact iff_of_false hcW (by omega)
  · have : votes p c = 0 := le_antisymm (not_lt.1 fun h0 => hb ((votes_pos_iff hp).1 h0)) (votes_nonneg hp c)
    rw [this, zero_mul, zero_div]
    refine iff_of_false (fun hcW => ?_) (by norm_num)
    rw [this, zero_mul, zero_div, Nat.floor_zero, Nat.zero_min] at h2
    have := seats_pos (p := p) hcW
    omega

theorem lowerQuotas_exist (hp : p.WF) (k : ℕ) : ∃ W, LowerQuotas p k W := by
  refine ⟨(Finset.range p.numCand).filter fun c => 1 ≤ votes p c * k / total p, Finset.filter_subset _ _, fun c hc => ?_⟩
  by_cases hb : (backers p c).Nonempty
  · rw [seats_singleVotes h hb, seats_singleVotes h hb, if_pos (Finset.mem_range.2 hc)]
    by_cases h1 : 1 ≤ votes p c * k / total p
    · rw [if_pos (Finset.mem_filter.2 ⟨Finset.mem_range.2 hc, h1⟩)]
      have := Nat.one_le_floor_iff _ |>.2 h1
      omega
    · rw [if_neg (show ¬ c ∈ _ from fun h2 => h1 (Finset.mem_filter.1 h2).2)]
      have := mt (Nat.one_le_floor_iff _).1 h1
      omega
  · have h0 : votes p c = 0 := le_antisymm (not_lt.1 fun h0 => hb ((votes_pos_iff hp).1 h0)) (votes_nonneg hp c)
    rw [h0, zero_mul, zero_div, Nat.floor_zero, Nat.zero_min]
    unfold seats
    rw [Finset.card_eq_zero, Finset.filter_eq_empty_iff]
    intro d hd hs
    have := (Finset.mem_filter.1 hd).2
    rw [← hs.votes_eq, h0, zero_mul, zero_div] at this
    norm_num at this

theorem mesAv_singleVotes (hp : p.WF) (k : ℕ) (A : Finset ℕ) : MESWinner p k .av (k / total p) A ↔ SepOpt .av p k A := by
  have hpl := partyList_singleVotes h
  have ht : 0 ≤ (k : ℚ) / total p := div_nonneg (Nat.cast_nonneg _) (Finset.sum_nonneg (fun i _ => (weight_pos hp i).le))
  have hs : candScore .av p = votes p := funext fun c => candScore_av_wt p c
  -- the elected candidates have more votes than the others
  have hlt : ∀ {W : Finset ℕ}, LowerQuotas p k W → ∀ x ∈ W, ∀ y < p.numCand, y ∉ W → votes p y < votes p x := by
    intro W hW x hx y hy hyW
    have h1 := (lowerQuotas_singleVotes h hp hW (Finset.mem_range.1 (hW.1 hx))).1 hx
    have h2 := mt (lowerQuotas_singleVotes h hp hW hy).2 hyW
    by_contra hle
    refine h2 (h1.trans ?_)
    rw [mul_div_assoc, mul_div_assoc]
    exact mul_le_mul_of_nonneg_right (not_lt.1 hle) ht
  rw [sepOpt_iff_topSet, hs]
  constructor
  · rintro ⟨W, b, hr, h1⟩
    have hW : LowerQuotas p k W.toFinset := by
      refine (mes_none_quota hp hpl).1 ⟨W, b, hr, ?_⟩
      rcases h1 with h1 | h1
      · exact Or.inl ⟨h1.1, rfl⟩
      · exact Or.inr ⟨h1.1, h1.2.1, rfl⟩
    have hnd := (mesParty_run hp hpl ht hr).1
    rcases h1 with ⟨h1, rfl⟩ | ⟨-, -, h1⟩
    · exact ⟨hW.1, by simp, by rw [List.toFinset_card_of_nodup hnd, h1],
        fun x hx _ y hy hyA => (hlt hW x hx y (Finset.mem_range.1 hy) hyA).le⟩
    · have h2 : TopSet (votes p) (Finset.range p.numCand) W.toFinset k A := by
        rw [topSet_iff, ← hs]
        exact h1
      refine ⟨h2.sub, by simp, h2.card, fun x hx _ y hy hyA => ?_⟩
      by_cases hxW : x ∈ W.toFinset
      · exact (hlt hW x hxW y (Finset.mem_range.1 hy) fun hyW => hyA (h2.sup hyW)).le
      · exact h2.exch x hx hxW y hy hyA
  · intro hA
    obtain ⟨W₀, hW₀⟩ := lowerQuotas_exist h hp k
    obtain ⟨W, b, hr, h1⟩ := (mes_none_quota hp hpl).2 hW₀
    have hWW : W.toFinset = W₀ := by
      rcases h1 with h1 | h1
      · exact h1.2
      · exact h1.2.2.symm
    rw [← hWW] at hW₀
    have hnd := (mesParty_run hp hpl ht hr).1
    have hcard : W.toFinset.card ≤ k := by
      rw [List.toFinset_card_of_nodup hnd]
      rcases h1 with h1 | h1
      · exact h1.1.le
      · exact h1.1.le
    have hsub : W.toFinset ⊆ A := by
      intro x hx
      by_contra hxA
      obtain ⟨y, hy, hyW⟩ : ∃ y ∈ A, y ∉ W.toFinset := by
        by_contra hall
        push Not at hall
        have := Finset.eq_of_subset_of_card_le (fun y hy => hall y hy) (by rw [hA.card]; exact hcard)
        exact hxA (this ▸ hx)
      exact absurd (hA.exch y hy (by simp) x (hW₀.1 hx) hxA) (not_le.2 (hlt hW₀ x hx y (Finset.mem_range.1 (hA.sub hy)) hyW))
    refine ⟨W, b, hr, ?_⟩
    rcases h1 with h1 | h1
    · left
      refine ⟨h1.1, Finset.eq_of_subset_of_card_le hsub ?_⟩
      rw [hA.card, List.toFinset_card_of_nodup hnd, h1.1]
    · right
      refine ⟨h1.1, h1.2.1, ?_⟩
      have : TopSet (candScore .av p) (Finset.range p.numCand) W.toFinset k A :=
        ⟨hA.sub, hsub, hA.card, fun x hx _ y hy hyA => by rw [hs]; exact hA.exch x hx (by simp) y hy hyA⟩
      exact (topSet_iff _ _ _ _ _).1 this

end

/-! ### Refinements -/

theorem lexminimaxav_minimaxav {p : Profile} {k : ℕ} {A : Finset ℕ} (h : LexminimaxavOpt p k A) : MinimaxavOpt p k A := by
  refine ⟨h.1, fun B hB d hd v hv => ?_⟩
  by_contra hlt
  have hmem : ∀ (W : Finset ℕ) (x : ℕ), x ∈ distVector p W ↔ ∃ v ∈ p.voters, dist v W = x := by
    intro W x
    unfold distVector
    rw [Multiset.mem_sort, Multiset.mem_coe, List.mem_map]
  have hsort : ∀ W, (distVector p W).Pairwise (· ≥ ·) := fun W => Multiset.pairwise_sort _ _
  have hA := (hmem A _).2 ⟨v, hv, rfl⟩
  have hB' := (hmem B _).2 ⟨v, hv, rfl⟩
  refine h.2 B hB ?_
  rcases hva : distVector p A with _ | ⟨a, as⟩
  · rw [hva] at hA; exact absurd hA (by simp)
  rcases hvb : distVector p B with _ | ⟨b, bs⟩
  · rw [hvb] at hB'; exact absurd hB' (by simp)
  refine List.Lex.rel ?_
  obtain ⟨u, hu, hub⟩ := (hmem B b).1 (by rw [hvb]; simp)
  have h1 : b ≤ d := hub ▸ hd u hu
  have h2 : dist v A ≤ a := by
    have hp := hsort A
    rw [hva, List.pairwise_cons] at hp
    rw [hva, List.mem_cons] at hA
    rcases hA with hA | hA
    · exact hA.le
    · exact hp.1 _ hA
  omega

/-! ### Completions of Equal Shares -/

theorem completed_contains {p : Profile} {k : ℕ} {cp : Completion} (hcp : cp = .seqphragmen ∨ cp = .av) {W : List ℕ} {b : VoterMap p}
    {A : Finset ℕ} (h : Completed p k cp W b A) : W.toFinset ⊆ A := by
  rcases hcp with rfl | rfl
  · obtain ⟨V, x, hr, -, rfl⟩ := h
    intro c hc
    exact List.mem_toFinset.2 (hr.prefix.subset (List.mem_toFinset.1 hc))
  · exact h.2.1

theorem completed_exists {p : Profile} {k : ℕ} (hk : k ≤ p.numCand) {cp : Completion} (hcp : cp = .seqphragmen ∨ cp = .av) {W : List ℕ}
    (b : VoterMap p) (hW : W.length ≤ k) (hnd : W.Nodup) (hsub : W.toFinset ⊆ Finset.range p.numCand) : ∃ A, Completed p k cp W b A := by
  rcases hcp with rfl | rfl
  · have key : ∀ m, m + W.length ≤ k → ∃ V x, Run (PhragBest p) (phragUpd p) W (fun i => - b i / (p.voters.get i).weight) V x ∧
        V.length = m + W.length := by
      intro m
      induction m with
      | zero => exact fun _ => ⟨W, _, .start, by simp⟩
      | succ m ih =>
        intro hm
        obtain ⟨V, x, h1, h2⟩ := ih (by omega)
        obtain ⟨c, hc⟩ := exists_phragBest p V x (by omega)
        exact ⟨_, _, h1.step hc, by rw [List.length_append, List.length_singleton]; omega⟩
    obtain ⟨V, x, h1, h2⟩ := key (k - W.length) (by omega)
    exact ⟨_, V, x, h1, by omega, rfl⟩
  · have hc : W.toFinset.card ≤ k := by rw [List.toFinset_card_of_nodup hnd]; exact hW
    obtain ⟨B, h1, h2, h3⟩ := Finset.exists_subsuperset_card_eq hsub hc (by rw [Finset.card_range]; exact hk)
    obtain ⟨A, hA, hmax⟩ := Finset.exists_max_image (((Finset.range p.numCand).powersetCard k).filter (W.toFinset ⊆ ·))
      (fun B => ∑ c ∈ B, candScore .av p c) ⟨B, Finset.mem_filter.2 ⟨Finset.mem_powersetCard.2 ⟨h2, h3⟩, h1⟩⟩
    obtain ⟨hA1, hA2⟩ := Finset.mem_filter.1 hA
    refine ⟨A, Finset.mem_powersetCard.1 hA1, hA2, fun B hB hWB => ?_⟩
    exact hmax B (Finset.mem_filter.2 ⟨Finset.mem_powersetCard.2 hB, hWB⟩)

/-- The committees of a completed version of Equal Shares contain one of the version without completion … -/
theorem mesWinner_contains {p : Profile} {k : ℕ} {cp : Completion} (hcp : cp = .seqphragmen ∨ cp = .av) {r : ℚ} {A : Finset ℕ}
    (h : MESWinner p k cp r A) : ∃ B ⊆ A, MESWinner p k .none r B := by
  obtain ⟨W, b, hr, ⟨h1, rfl⟩ | ⟨h1, h2, h3⟩⟩ := h
  · exact ⟨_, Finset.Subset.refl _, W, b, hr, Or.inl ⟨h1, rfl⟩⟩
  · exact ⟨_, completed_contains hcp h3, W, b, hr, Or.inr ⟨h1, h2, rfl⟩⟩

/-- … and the committees of the version without completion can be completed. -/
theorem mesWinner_contained {p : Profile} {k : ℕ} (hk : k ≤ p.numCand) {cp : Completion} (hcp : cp = .seqphragmen ∨ cp = .av) {r : ℚ}
    {B : Finset ℕ} (h : MESWinner p k .none r B) : ∃ A, B ⊆ A ∧ MESWinner p k cp r A := by
  obtain ⟨W, b, hr, ⟨h1, rfl⟩ | ⟨h1, h2, h3⟩⟩ := h
  · exact ⟨_, Finset.Subset.refl _, W, b, hr, Or.inl ⟨h1, rfl⟩⟩
  · obtain ⟨g1, g2⟩ := hr.nodup (m := p.numCand) (fun W s c _ h => ⟨h.1, h.2.1⟩) (by simp) (by simp)
    obtain ⟨A, hA⟩ := completed_exists hk hcp b h1.le g1 (fun c hc => Finset.mem_range.2 (g2 c (List.mem_toFinset.1 hc)))
    refine ⟨A, ?_, W, b, hr, Or.inr ⟨h1, h2, hA⟩⟩
    rw [show B = W.toFinset from h3]
    exact completed_contains hcp hA

/-! ## The theorems -/

theorem elects_singleVotes {w : World} {p : Profile} (hp : p.WF) (h : SingleVotes p) {k : ℕ} (hk : 1 ≤ k) {alg ruleId : String}
    (hr : SingleVoteRule w p k alg ruleId) : ∃ S, Elects w p k alg ruleId S ∧ ∀ A, S A ↔ SepOpt .av p k A := by
  have hpl := partyList_singleVotes h
  have h1 : marginalFct .pav 1 = 1 := by norm_num [marginalFct]
  cases hr with
  | sav => exact ⟨_, .sav, sepOpt_singleVotes h k⟩
  | @thiele _ s hs hok hcp =>
    refine ⟨_, .thiele hs hok hcp, thiele_additive (score_singleVotes h ?_) k⟩
    rcases hok with rfl | rfl | rfl | ⟨b, rfl, -⟩ <;> norm_num [marginalFct]
  | lexcc hg => exact ⟨_, .lexcc hg, lexcc_singleVotes h hk⟩
  | seqThiele hs hn h1 => exact ⟨_, .seqThiele hs hn, seqThiele_additive (score_singleVotes h h1) k⟩
  | revseqThiele hs h1 => exact ⟨_, .revseqThiele hs, revseqThiele_additive (score_singleVotes h h1) k⟩
  | seqphragmen ha he => exact ⟨_, .seqphragmen ha he, fun A => (phragmen_divisor hp hpl).trans (divisor_singleVotes h hp h1 k A)⟩
  | maximinSupport hi hk' => exact ⟨_, .maximinSupport hi hk', fun A => (maximin_divisor hp hpl).trans (divisor_singleVotes h hp h1 k A)⟩
  | equalShares hm ha he => exact ⟨_, .equalShares hm ha he, fun A => (mes_phragmen_divisor hp hpl).trans (divisor_singleVotes h hp h1 k A)⟩
  | equalSharesAv he => exact ⟨_, .equalSharesAv he, mesAv_singleVotes h hp k⟩
  | enestroem he => exact ⟨_, .enestroem he, enestroem_singleVotes h hp k⟩
  | consensus he => exact ⟨_, .consensus he, consensus_singleVotes h hp k⟩

section
variable (w : World) (hw : w.Exact) (p : Profile) (hp : p.WF) (a : Args) {ruleId alg : String}
  (hal : prologue w.env ruleId p a = .ok alg)
include hw hp hal

/-- **C123** `seqav` and `revseqav` are approval voting. -/
theorem C123_approval_voting (hr : ruleId ∈ ["av", "seqav", "revseqav"]) :
    Answers a (compute w ruleId p a.committeesize none a.kw) (SepOpt .av p a.k) := by
  have hs : w.env.scoreId "av" = .ok .av := rfl
  simp only [List.mem_cons, List.not_mem_nil, or_false] at hr
  rcases hr with rfl | rfl | rfl
  · exact C31_compute w hw p hp a _ alg hal .av
  · exact answers_of_iff (seqThiele_additive (score_av p) a.k)
      (C31_compute w hw p hp a _ alg hal (.seqThiele hs (marginalFct_nonneg .av (by simp))))
  · exact answers_of_iff (revseqThiele_additive (score_av p) a.k) (C31_compute w hw p hp a _ alg hal (.revseqThiele hs))

/-- **C123** If nobody approves more than one candidate, many rules elect the candidates with the most votes. -/
theorem C123_single_votes (h : SingleVotes p) (hr : SingleVoteRule w p a.k alg ruleId) :
    Answers a (compute w ruleId p a.committeesize none a.kw) (SepOpt .av p a.k) := by
  obtain ⟨S, h1, h2⟩ := elects_singleVotes hp h (validCall_of_prologue hal).pos hr
  exact answers_of_iff h2 (C31_compute w hw p hp a _ alg hal h1)

/-- **C123** If all candidates are to be elected, every rule (except Equal Shares without completion) elects all candidates. -/
theorem C123_everybody {S : Finset ℕ → Prop} (hS : Elects w p a.k alg ruleId S) (hr : ruleId ∉ withoutCompletion)
    (hk : a.committeesize = p.numCand) :
    compute w ruleId p a.committeesize none a.kw = .ok [List.range p.numCand] := by
  obtain ⟨cs, h1, h2, h3, h4, -, -⟩ := C31_valid w hw p hp a ruleId alg hal hS
  rw [h1]
  have hall : ∀ W ∈ cs, W = List.range p.numCand := by
    intro W hW
    obtain ⟨g1, g2, -, g4⟩ := h4 W hW
    have g5 : W.length = p.numCand := by exact_mod_cast (g4 hr).trans hk
    refine asc_unique (h3.asc W hW) List.pairwise_lt_range ?_
    rw [List.toFinset_range]
    refine Finset.eq_of_subset_of_card_le (fun x hx => Finset.mem_range.2 (g1 x (List.mem_toFinset.1 hx))) ?_
    rw [Finset.card_range, List.toFinset_card_of_nodup g2, g5]
  congr 1
  rcases cs with _ | ⟨W, _ | ⟨W', cs⟩⟩
  · exact absurd rfl h2
  · rw [hall W (by simp)]
  · have e := (hall W (by simp)).trans (hall W' (by simp)).symm
    have := h3.nodup
    rw [e] at this
    simp at this

end

section
variable (w w' : World) (hw : w.Exact) (hw' : w'.Exact) (p : Profile) (hp : p.WF) (a a' : Args) (h : AllCommittees a)
  (h' : AllCommittees a') (hk : a'.committeesize = a.committeesize)
include hw hw' hp h h' hk

/-- All committees of one rule and of another. -/
theorem both_returned {r r' alg alg' : String} (hal : prologue w.env r p a = .ok alg) (hal' : prologue w'.env r' p a' = .ok alg')
    {S S' : Finset ℕ → Prop} (hS : Elects w p a.k alg r S) (hS' : Elects w' p a'.k alg' r' S') :
    ∃ cs cs', compute w r p a.committeesize none a.kw = .ok cs ∧ compute w' r' p a'.committeesize none a'.kw = .ok cs' ∧
      (∀ W, W ∈ cs ↔ W.Pairwise (· < ·) ∧ S W.toFinset) ∧ ∀ W, W ∈ cs' ↔ W.Pairwise (· < ·) ∧ S' W.toFinset := by
  have g := C31_compute w hw p hp a r alg hal hS
  have g' := C31_compute w' hw' p hp a' r' alg' hal' hS'
  unfold Answers at g g'
  rw [h.1, h.2] at g
  rw [h'.1, h'.2] at g'
  obtain ⟨cs, h1, h2, h3⟩ := g
  obtain ⟨cs', h1', h2', h3'⟩ := g'
  exact ⟨cs, cs', h1, h1', returns_mem h2 h3, returns_mem h2' h3'⟩

/-- **C123** The committees of `lexcc` are among those of `cc`. -/
theorem C123_lexcc_cc {alg alg' : String} (hal : prologue w.env "lexcc" p a = .ok alg) (hal' : prologue w'.env "cc" p a' = .ok alg')
    (hg : alg = "gurobi" → Granular p) (hcp : alg' = "ortools-cp" → IntegerWeights p) :
    ∃ cs cs', compute w "lexcc" p a.committeesize none a.kw = .ok cs ∧ compute w' "cc" p a'.committeesize none a'.kw = .ok cs' ∧
      ∀ W ∈ cs, W ∈ cs' := by
  have hs : w'.env.scoreId "cc" = .ok .cc := rfl
  obtain ⟨cs, cs', h1, h1', h2, h2'⟩ := both_returned w w' hw hw' p hp a a' h h' hk hal hal' (.lexcc hg)
    (.thiele hs (Or.inr (Or.inr (Or.inl rfl))) hcp)
  refine ⟨cs, cs', h1, h1', fun W hW => (h2' W).2 ⟨((h2 W).1 hW).1, ?_⟩⟩
  rw [show a'.k = a.k by unfold Args.k; rw [hk]]
  exact lexcc_cc (validCall_of_prologue hal).pos ((h2 W).1 hW).2

/-- **C123** The committees of `lexminimaxav` are among those of `minimaxav`. -/
theorem C123_lexminimaxav_minimaxav {alg alg' : String} (hal : prologue w.env "lexminimaxav" p a = .ok alg)
    (hal' : prologue w'.env "minimaxav" p a' = .ok alg') (hu : ∀ v ∈ p.voters, v.weight = 1) :
    ∃ cs cs', compute w "lexminimaxav" p a.committeesize none a.kw = .ok cs ∧
      compute w' "minimaxav" p a'.committeesize none a'.kw = .ok cs' ∧ ∀ W ∈ cs, W ∈ cs' := by
  obtain ⟨cs, cs', h1, h1', h2, h2'⟩ := both_returned w w' hw hw' p hp a a' h h' hk hal hal' (.lexminimaxav hu) .minimaxav
  refine ⟨cs, cs', h1, h1', fun W hW => (h2' W).2 ⟨((h2 W).1 hW).1, ?_⟩⟩
  rw [show a'.k = a.k by unfold Args.k; rw [hk]]
  exact lexminimaxav_minimaxav ((h2 W).1 hW).2

/-- **C123** Equal Shares with a completion elects extensions of the committees of Equal Shares without completion, and extensions of all of
them. -/
theorem C123_completion {r r' alg alg' : String} (hal : prologue w.env r p a = .ok alg) (hal' : prologue w'.env r' p a' = .ok alg')
    (hr : r ∈ ["rule-x-without-phragmen-phase", "equal-shares-without-phragmen-phase", "equal-shares-without-completion"])
    (hr' : (r' ∈ ["rule-x", "equal-shares", "equal-shares-with-seqphragmen-completion"] ∧ ApproversAtLeastOne p) ∨
      r' = "equal-shares-with-av-completion") (he : ExactAlg w.env alg) (he' : ExactAlg w'.env alg') :
    ∃ cs cs', compute w r p a.committeesize none a.kw = .ok cs ∧ compute w' r' p a'.committeesize none a'.kw = .ok cs' ∧
      (∀ W' ∈ cs', ∃ W ∈ cs, W ⊆ W') ∧ ∀ W ∈ cs, ∃ W' ∈ cs', W ⊆ W' := by
  have hkk : a'.k = a.k := by unfold Args.k; rw [hk]
  have hle := (validCall_of_prologue hal).le
  obtain ⟨cp, hcp, hS'⟩ : ∃ cp, (cp = .seqphragmen ∨ cp = .av) ∧ Elects w' p a'.k alg' r' (MESWinner p a'.k cp (a'.k / total p)) := by
    rcases hr' with ⟨h1, h2⟩ | rfl
    · exact ⟨_, Or.inl rfl, .equalShares h1 h2 he'⟩
    · exact ⟨_, Or.inr rfl, .equalSharesAv he'⟩
  obtain ⟨cs, cs', h1, h1', h2, h2'⟩ := both_returned w w' hw hw' p hp a a' h h' hk hal hal' (.equalSharesNone hr he) hS'
  rw [hkk] at h2'
  have hasc : ∀ A : Finset ℕ, ∃ W : List ℕ, W.Pairwise (· < ·) ∧ W.toFinset = A := fun A =>
    ⟨A.sort (· ≤ ·), Finset.sortedLT_sort A |>.pairwise, Finset.sort_toFinset _ _⟩
  refine ⟨cs, cs', h1, h1', fun W' hW' => ?_, fun W hW => ?_⟩
  · obtain ⟨B, hB, hw⟩ := mesWinner_contains hcp ((h2' W').1 hW').2
    obtain ⟨W, g1, rfl⟩ := hasc B
    exact ⟨W, (h2 W).2 ⟨g1, hw⟩, fun c hc => List.mem_toFinset.1 (hB (List.mem_toFinset.2 hc))⟩
  · obtain ⟨A, hA, hw⟩ := mesWinner_contained hle hcp ((h2 W).1 hW).2
    obtain ⟨W', g1, rfl⟩ := hasc A
    exact ⟨W', (h2' W').2 ⟨g1, hw⟩, fun c hc => List.mem_toFinset.1 (hA (List.mem_toFinset.2 hc))⟩

end

/-! ### Examples -/

/-- Six voters, each of whom approves at most one of four candidates. -/
def singleBallots : Profile := ⟨4, [⟨[0], 1⟩, ⟨[1], 1⟩, ⟨[0], 1⟩, ⟨[2], 1⟩, ⟨[], 1⟩, ⟨[0], 1⟩], []⟩

theorem singleBallots_wf : singleBallots.WF := ⟨by decide, by decide, by decide, by decide +kernel⟩

/-- Six voters, three of whom approve two candidates. -/
def doubleBallots : Profile := ⟨4, [⟨[0], 1⟩, ⟨[0, 1], 1⟩, ⟨[1, 0], 1⟩, ⟨[0, 1], 1⟩, ⟨[2], 1⟩, ⟨[2], 1⟩], []⟩

/-- **C123** If some voters approve two candidates, PAV is not approval voting. -/
theorem C123_contrast :
    computeSeparable exampleEnv .av doubleBallots { committeesize := 2, resolute := false } = .ok [[0, 1]] ∧
    computeThieleMethod exampleEnv "pav" (fun _ => .error .importError) doubleBallots
      { committeesize := 2, algorithm := "brute-force", resolute := false } = .ok [[0, 2]] := by
  refine ⟨?_, ?_⟩ <;> decide +kernel

/-- The hypotheses of `C123_single_votes` can be met. -/
example (w : World) (hw : w.env = exampleEnv) : singleBallots.WF ∧ SingleVotes singleBallots ∧
    prologue w.env "seqpav" singleBallots { committeesize := 2, resolute := false } = .ok "standard" ∧
    SingleVoteRule w singleBallots 2 "standard" "seqpav" ∧
    prologue w.env "equal-shares-with-av-completion" singleBallots { committeesize := 2, algorithm := "standard-fractions", resolute := false } =
      .ok "standard-fractions" ∧
    SingleVoteRule w singleBallots 2 "standard-fractions" "equal-shares-with-av-completion" :=
  ⟨singleBallots_wf, by unfold SingleVotes; decide +kernel, by rw [hw]; decide +kernel,
    .seqThiele (sid := "pav") (s := .pav) (by rw [hw]; rfl) (marginalFct_nonneg .pav (by simp)) (by norm_num [marginalFct]),
    by rw [hw]; decide +kernel, .equalSharesAv (Or.inl rfl)⟩

/-- The hypotheses of `C123_approval_voting` can be met. -/
example (w : World) (hw : w.env = exampleEnv) : fourVoters.WF ∧
    prologue w.env "revseqav" fourVoters { committeesize := 2, resolute := true } = .ok "standard" := by
  refine ⟨⟨by decide, by decide, by decide, by decide +kernel⟩, by rw [hw]; decide +kernel⟩

/-- The hypotheses of `C123_everybody` can be met. -/
example (w : World) (hw : w.env = exampleEnv) :
    prologue w.env "minimaxav" fourVoters { committeesize := fourVoters.numCand, algorithm := "brute-force", resolute := false } =
      .ok "brute-force" ∧ "minimaxav" ∉ withoutCompletion ∧
    Elects w fourVoters fourVoters.numCand "brute-force" "minimaxav" (MinimaxavOpt fourVoters fourVoters.numCand) :=
  ⟨by rw [hw]; decide +kernel, by decide, .minimaxav⟩

/-- The hypotheses of `C123_lexcc_cc`, `C123_lexminimaxav_minimaxav` and `C123_completion` can be met. -/
example (w : World) (hw : w.env = exampleEnv) :
    AllCommittees { committeesize := 2, algorithm := "brute-force", resolute := false } ∧
    prologue w.env "lexcc" fourVoters { committeesize := 2, algorithm := "brute-force", resolute := false } = .ok "brute-force" ∧
    prologue w.env "cc" fourVoters { committeesize := 2, algorithm := "brute-force", resolute := false } = .ok "brute-force" ∧
    prologue w.env "lexminimaxav" fourVoters { committeesize := 2, algorithm := "brute-force", resolute := false } = .ok "brute-force" ∧
    (∀ v ∈ fourVoters.voters, v.weight = 1) ∧
    prologue w.env "equal-shares-without-completion" fourVoters
      { committeesize := 2, algorithm := "standard-fractions", resolute := false } = .ok "standard-fractions" ∧
    prologue w.env "equal-shares-with-av-completion" fourVoters
      { committeesize := 2, algorithm := "standard-fractions", resolute := false } = .ok "standard-fractions" :=
  ⟨⟨rfl, rfl⟩, by rw [hw]; decide +kernel, by rw [hw]; decide +kernel, by rw [hw]; decide +kernel, by decide +kernel,
    by rw [hw]; decide +kernel, by rw [hw]; decide +kernel⟩

end Abc
