import Verif.Spec.Apportionment
import Verif.Props.Axioms
import Verif.Props.Preferences
import Verif.Props.Dispatch
import Verif.Spec.Budgets

/-!
# C97: on party lists the rules are apportionment methods
-/

namespace Abc
open Spec

section
variable {p : Profile}

/-! ### Parties -/

theorem Spec.SameParty.refl (c : ℕ) : SameParty p c c := fun _ => Iff.rfl

theorem Spec.SameParty.symm {c d : ℕ} (h : SameParty p c d) : SameParty p d c := fun i => (h i).symm

theorem Spec.SameParty.trans {c d e : ℕ} (h : SameParty p c d) (h' : SameParty p d e) : SameParty p c e := fun i => (h i).trans (h' i)

theorem Spec.SameParty.votes_eq {c d : ℕ} (h : SameParty p c d) : votes p c = votes p d := by
  unfold votes backers
  congr 1
  exact Finset.filter_congr (fun i _ => h i)

theorem Spec.SameParty.seats_eq {c d : ℕ} (h : SameParty p c d) (W : Finset ℕ) : seats p W c = seats p W d := by
  unfold seats
  congr 1
  exact Finset.filter_congr (fun e _ => ⟨fun g => h.symm.trans g, fun g => h.trans g⟩)

theorem seats_pos {W : Finset ℕ} {c : ℕ} (hc : c ∈ W) : 1 ≤ seats p W c :=
  Finset.card_pos.2 ⟨c, Finset.mem_filter.2 ⟨hc, SameParty.refl c⟩⟩

theorem seats_mono {V W : Finset ℕ} (h : V ⊆ W) (c : ℕ) : seats p V c ≤ seats p W c :=
  Finset.card_le_card (Finset.filter_subset_filter _ h)

theorem seats_insert_same {W : Finset ℕ} {c d : ℕ} (hc : c ∉ W) (h : SameParty p d c) : seats p (insert c W) d = seats p W d + 1 := by
  unfold seats
  rw [Finset.filter_insert, if_pos h, Finset.card_insert_of_notMem (fun g => hc (Finset.mem_filter.1 g).1)]

theorem seats_insert_other {W : Finset ℕ} {c d : ℕ} (h : ¬ SameParty p d c) : seats p (insert c W) d = seats p W d := by
  unfold seats
  rw [Finset.filter_insert, if_neg h]

theorem seats_erase_same {W : Finset ℕ} {c d : ℕ} (hc : c ∈ W) (h : SameParty p d c) : seats p (W.erase c) d + 1 = seats p W d := by
  conv_rhs => rw [← Finset.insert_erase hc]
  rw [seats_insert_same (Finset.notMem_erase c W) h]

theorem seats_erase_other {W : Finset ℕ} {c d : ℕ} (hc : c ∈ W) (h : ¬ SameParty p d c) : seats p (W.erase c) d = seats p W d := by
  conv_rhs => rw [← Finset.insert_erase hc]
  rw [seats_insert_other h]

theorem votes_nonneg (hp : p.WF) (c : ℕ) : 0 ≤ votes p c := Finset.sum_nonneg (fun i _ => (weight_pos hp i).le)

/-- In a party-list profile the supporters of `c` approve exactly the party of `c`. -/
theorem sat_eq_seats (hpl : ∀ v ∈ p.voters, ∀ w ∈ p.voters, Disjoint v.A w.A ∨ v.A = w.A) (W : Finset ℕ) {c : ℕ}
    {i : Fin p.voters.length} (hi : c ∈ appr p i) : sat p W i = seats p W c := by
  unfold sat seats
  congr 1
  ext d
  rw [Finset.mem_inter, Finset.mem_filter, and_comm]
  refine and_congr_right fun _ => ⟨fun hd j => ?_, fun h => (h i).1 hi⟩
  have hdis : ∀ x, x ∈ appr p i → x ∈ appr p j → appr p i = appr p j := by
    intro x h1 h2
    rcases hpl _ (List.get_mem p.voters i) _ (List.get_mem p.voters j) with h | h
    · exact absurd h2 (Finset.disjoint_left.1 h h1)
    · exact h
  constructor
  · intro hc
    rw [← hdis c hi hc]; exact hd
  · intro hdj
    rw [← hdis d hd hdj]; exact hi

section
variable (hpl : ∀ v ∈ p.voters, ∀ w ∈ p.voters, Disjoint v.A w.A ∨ v.A = w.A) (f : ℕ → ℚ)
include hpl

theorem gain_party {W : Finset ℕ} {c : ℕ} (hc : c ∉ W) : gain f p W c = votes p c * f (seats p W c + 1) := by
  unfold gain votes wt
  rw [score_insert f p W c hc, voters_sum_fin, Finset.sum_mul]
  unfold backers
  rw [Finset.sum_filter]
  refine Finset.sum_congr rfl (fun i _ => ?_)
  by_cases h : c ∈ appr p i
  · rw [if_pos h, if_pos (show c ∈ (p.voters.get i).A from h), util_sat, sat_eq_seats hpl W h]
  · rw [if_neg h, if_neg (show c ∉ (p.voters.get i).A from h)]

theorem loss_party {W : Finset ℕ} {c : ℕ} (hc : c ∈ W) : loss f p W c = votes p c * f (seats p W c) := by
  have := gain_party hpl f (Finset.notMem_erase c W)
  unfold gain at this
  rw [Finset.insert_erase hc, seats_erase_same hc (SameParty.refl c)] at this
  exact this

end

theorem antitone_of (f : ℕ → ℚ) (hf : ∀ i, 1 ≤ i → f (i + 1) ≤ f i) {i j : ℕ} (hi : 1 ≤ i) (hij : i ≤ j) : f j ≤ f i := by
  induction j, hij using Nat.le_induction with
  | base => exact le_rfl
  | succ j hj ih => exact (hf j (by omega)).trans ih

/-! ### Seats with non-increasing values

`g c j` is the value of the `j`-th seat for the party of `c`. -/

/-- No party has a better claim to one more seat than the party of a member had to its last seat. -/
def SeatOutcome (g : ℕ → ℕ → ℚ) (p : Profile) (k : ℕ) (W : Finset ℕ) : Prop :=
  IsCommittee p k W ∧ ∀ c ∈ W, ∀ d < p.numCand, d ∉ W → g d (seats p W d + 1) ≤ g c (seats p W c)

section
variable {g : ℕ → ℕ → ℚ} (hg : ∀ c d, SameParty p c d → ∀ j, g c j = g d j) (hmono : ∀ c j, 1 ≤ j → g c (j + 1) ≤ g c j)
include hg hmono

/-- Adding a candidate of maximal value to an outcome. -/
theorem seat_insert {k : ℕ} {W : Finset ℕ} (h : SeatOutcome g p k W) {c : ℕ} (hc : c < p.numCand) (hcW : c ∉ W)
    (hmax : ∀ d < p.numCand, d ∉ W → g d (seats p W d + 1) ≤ g c (seats p W c + 1)) :
    SeatOutcome g p (k + 1) (insert c W) := by
  refine ⟨⟨?_, by rw [Finset.card_insert_of_notMem hcW, h.1.2]⟩, ?_⟩
  · intro x hx
    rcases Finset.mem_insert.1 hx with rfl | hx
    · exact Finset.mem_range.2 hc
    · exact h.1.1 hx
  · intro x hx d hd hdW
    rw [Finset.mem_insert, not_or] at hdW
    have h1 : g d (seats p (insert c W) d + 1) ≤ g d (seats p W d + 1) :=
      antitone_of (g d) (hmono d) (by omega) (by have := seats_mono (p := p) (Finset.subset_insert c W) d; omega)
    refine h1.trans ?_
    by_cases hs : SameParty p x c
    · rw [seats_insert_same hcW hs, hs.seats_eq, hg x c hs]
      exact hmax d hd hdW.2
    · rw [seats_insert_other hs]
      rcases Finset.mem_insert.1 hx with rfl | hx
      · exact absurd (SameParty.refl x) hs
      · exact h.2 x hx d hd hdW.2

/-- Every outcome can be completed step by step: some member still missing has maximal value. -/
theorem seat_next {k : ℕ} {W S : Finset ℕ} (h : SeatOutcome g p k W) (hSW : S ⊆ W) (hne : S ≠ W) :
    ∃ c ∈ W, c ∉ S ∧ ∀ d < p.numCand, d ∉ S → g d (seats p S d + 1) ≤ g c (seats p S c + 1) := by
  have hnon : (W \ S).Nonempty := by
    rw [Finset.nonempty_iff_ne_empty]
    intro he
    exact hne (hSW.antisymm (Finset.sdiff_eq_empty_iff_subset.1 he))
  obtain ⟨c, hc, hmax⟩ := Finset.exists_max_image (W \ S) (fun c => g c (seats p S c + 1)) hnon
  obtain ⟨hcW, hcS⟩ := Finset.mem_sdiff.1 hc
  refine ⟨c, hcW, hcS, fun d hd hdS => ?_⟩
  by_cases hdW : d ∈ W
  · exact hmax d (Finset.mem_sdiff.2 ⟨hdW, hdS⟩)
  by_cases hex : ∃ e ∈ W \ S, SameParty p d e
  · obtain ⟨e, he, hs⟩ := hex
    rw [hg d e hs, hs.seats_eq]
    exact hmax e he
  · push Not at hex
    have s1 : seats p S d = seats p W d := by
      unfold seats
      congr 1
      refine subset_antisymm (Finset.filter_subset_filter _ hSW) ?_
      intro x hx
      obtain ⟨x1, x2⟩ := Finset.mem_filter.1 hx
      refine Finset.mem_filter.2 ⟨?_, x2⟩
      by_contra hxS
      exact hex x (Finset.mem_sdiff.2 ⟨x1, hxS⟩) x2
    have s2 : seats p S c + 1 ≤ seats p W c := by
      rw [← seats_insert_same hcS (SameParty.refl c)]
      exact seats_mono (Finset.insert_subset hcW hSW) c
    rw [s1]
    exact (h.2 c hcW d hd hdW).trans (antitone_of (g c) (hmono c) (by omega) s2)

/-- A sequential rule that always elects a candidate of maximal value elects exactly the outcomes. -/
theorem runWinner_seat {σ : Type} {Best : List ℕ → σ → ℕ → Prop} {upd : List ℕ → σ → ℕ → σ} {s₀ : σ} (inv : List ℕ → σ → Prop)
    (h0 : inv [] s₀)
    (hbest : ∀ W s c, inv W s → (Best W s c ↔ c < p.numCand ∧ c ∉ W ∧ ∀ d < p.numCand, d ∉ W →
      g d (seats p W.toFinset d + 1) ≤ g c (seats p W.toFinset c + 1)))
    (hupd : ∀ W s c, inv W s → Best W s c → inv (W ++ [c]) (upd W s c)) {k : ℕ} {A : Finset ℕ} :
    RunWinner Best upd s₀ k A ↔ SeatOutcome g p k A := by
  have fwd : ∀ {V : List ℕ} {y : σ}, Run Best upd [] s₀ V y → V.Nodup ∧ inv V y ∧ SeatOutcome g p V.length V.toFinset := by
    intro V y h
    induction h with
    | start => exact ⟨List.nodup_nil, h0, ⟨by simp, by simp⟩, by simp⟩
    | @step V y c hr hb ih =>
      obtain ⟨h1, h2, h3⟩ := ih
      obtain ⟨b1, b2, b3⟩ := (hbest V y c h2).1 hb
      have hcF : c ∉ V.toFinset := by simpa using b2
      have e : (V ++ [c]).toFinset = insert c V.toFinset := by ext x; simp [or_comm]
      refine ⟨?_, hupd V y c h2 hb, ?_⟩
      · rw [List.nodup_append]
        exact ⟨h1, by simp, by rintro x hx y hy rfl; simp at hy; exact b2 (hy ▸ hx)⟩
      · rw [e, List.length_append, List.length_singleton]
        exact seat_insert hg hmono h3 b1 hcF (fun d hd hdV => b3 d hd (by simpa using hdV))
  constructor
  · rintro ⟨V, y, h, rfl, rfl⟩
    exact (fwd h).2.2
  · intro hA
    have : ∀ j ≤ k, ∃ V y, Run Best upd [] s₀ V y ∧ V.length = j ∧ V.toFinset ⊆ A := by
      intro j
      induction j with
      | zero => exact fun _ => ⟨[], s₀, .start, rfl, by simp⟩
      | succ j ih =>
        intro hj
        obtain ⟨V, y, h1, h2, h3⟩ := ih (by omega)
        obtain ⟨f1, f2, -⟩ := fwd h1
        obtain ⟨c, c1, c2, c3⟩ := seat_next hg hmono hA h3 (by
          intro he
          have := congrArg Finset.card he
          rw [List.toFinset_card_of_nodup f1, hA.1.2] at this
          omega)
        refine ⟨V ++ [c], _, .step h1 ((hbest V y c f2).2 ⟨Finset.mem_range.1 (hA.1.1 c1), by simpa using c2,
          fun d hd hdV => c3 d hd (by simpa using hdV)⟩), by simp [h2], ?_⟩
        intro x hx
        simp only [List.toFinset_append, Finset.mem_union, List.mem_toFinset, List.mem_singleton] at hx
        rcases hx with hx | rfl
        · exact h3 (List.mem_toFinset.2 hx)
        · exact c1
    obtain ⟨V, y, h1, h2, h3⟩ := this k le_rfl
    refine ⟨V, y, h1, h2, Finset.eq_of_subset_of_card_le h3 ?_⟩
    rw [List.toFinset_card_of_nodup (fwd h1).1, h2, hA.1.2]

end

/-! ### Optimal committees -/

section
variable (hp : p.WF) (hpl : ∀ v ∈ p.voters, ∀ w ∈ p.voters, Disjoint v.A w.A ∨ v.A = w.A) (f : ℕ → ℚ)
  (hf : ∀ i, 1 ≤ i → f (i + 1) ≤ f i)
include hp hpl hf

theorem thieleOpt_divisor {k : ℕ} {W : Finset ℕ} : ThieleOpt f p k W ↔ DivisorOutcome f p k W := by
  constructor
  · rintro ⟨hW, hopt⟩
    refine ⟨hW, fun c hc d hd hdW => ?_⟩
    by_cases hs : SameParty p c d
    · rw [← hs.votes_eq, ← hs.seats_eq]
      exact mul_le_mul_of_nonneg_left (hf _ (seats_pos hc)) (votes_nonneg hp c)
    · have hde : d ∉ W.erase c := fun h => hdW (Finset.mem_of_mem_erase h)
      have h1 := hopt (insert d (W.erase c)) ⟨by
        intro x hx
        rcases Finset.mem_insert.1 hx with rfl | hx
        · exact Finset.mem_range.2 hd
        · exact hW.1 (Finset.mem_of_mem_erase hx), by
        rw [Finset.card_insert_of_notMem hde, Finset.card_erase_of_mem hc, hW.2]
        have := Finset.card_pos.2 ⟨c, hc⟩
        rw [hW.2] at this
        omega⟩
      have h2 := gain_party hpl f hde
      have h3 := loss_party hpl f hc
      unfold gain at h2
      unfold loss at h3
      rw [seats_erase_other hc (fun h => hs h.symm)] at h2
      linarith
  · rintro ⟨hW, hloc⟩
    refine ⟨hW, ?_⟩
    have key : ∀ n : ℕ, ∀ B, IsCommittee p k B → (B \ W).card = n → score f p B ≤ score f p W := by
      intro n
      induction n with
      | zero =>
        intro B hB hn
        rw [Finset.card_eq_zero, Finset.sdiff_eq_empty_iff_subset] at hn
        rw [Finset.eq_of_subset_of_card_le hn (by rw [hB.2, hW.2])]
      | succ n ih =>
        intro B hB hn
        have hcard : (W \ B).card = n + 1 := by
          have h1 := Finset.card_sdiff_add_card_inter B W
          have h2 := Finset.card_sdiff_add_card_inter W B
          rw [Finset.inter_comm] at h2
          rw [hB.2] at h1; rw [hW.2] at h2
          omega
        -- a swap that does not decrease the score
        obtain ⟨d, hd, c, hc, hle⟩ : ∃ d ∈ B \ W, ∃ c ∈ W \ B,
            votes p d * f (seats p B d) ≤ votes p c * f (seats p (B.erase d) c + 1) := by
          by_cases hex : ∃ d ∈ B \ W, ∃ c ∈ W \ B, SameParty p d c
          · obtain ⟨d, hd, c, hc, h⟩ := hex
            refine ⟨d, hd, c, hc, ?_⟩
            rw [seats_erase_same (Finset.mem_sdiff.1 hd).1 h.symm, h.votes_eq, h.seats_eq]
          · push Not at hex
            obtain ⟨d, hd⟩ := Finset.card_pos.1 (show 0 < (B \ W).card by omega)
            obtain ⟨c, hc⟩ := Finset.card_pos.1 (show 0 < (W \ B).card by omega)
            obtain ⟨hdB, hdW⟩ := Finset.mem_sdiff.1 hd
            obtain ⟨hcW, hcB⟩ := Finset.mem_sdiff.1 hc
            refine ⟨d, hd, c, hc, ?_⟩
            have s1 : seats p W d + 1 ≤ seats p B d := by
              unfold seats
              rw [Nat.succ_le_iff]
              refine Finset.card_lt_card ⟨?_, fun h => hdW (Finset.mem_filter.1 (h (Finset.mem_filter.2 ⟨hdB, SameParty.refl d⟩))).1⟩
              intro x hx
              obtain ⟨x1, x2⟩ := Finset.mem_filter.1 hx
              refine Finset.mem_filter.2 ⟨?_, x2⟩
              by_contra hxB
              exact hex d hd x (Finset.mem_sdiff.2 ⟨x1, hxB⟩) x2
            have s2 : seats p B c + 1 ≤ seats p W c := by
              unfold seats
              rw [Nat.succ_le_iff]
              refine Finset.card_lt_card ⟨?_, fun h => hcB (Finset.mem_filter.1 (h (Finset.mem_filter.2 ⟨hcW, SameParty.refl c⟩))).1⟩
              intro x hx
              obtain ⟨x1, x2⟩ := Finset.mem_filter.1 hx
              refine Finset.mem_filter.2 ⟨?_, x2⟩
              by_contra hxW
              exact hex x (Finset.mem_sdiff.2 ⟨x1, hxW⟩) c hc x2.symm
            rw [seats_erase_other hdB (fun h => hex d hd c hc h.symm)]
            calc votes p d * f (seats p B d) ≤ votes p d * f (seats p W d + 1) :=
                  mul_le_mul_of_nonneg_left (antitone_of f hf (by omega) s1) (votes_nonneg hp d)
              _ ≤ votes p c * f (seats p W c) := hloc c hcW d (Finset.mem_range.1 (hB.1 hdB)) hdW
              _ ≤ votes p c * f (seats p B c + 1) := mul_le_mul_of_nonneg_left (antitone_of f hf (by omega) s2) (votes_nonneg hp c)
        obtain ⟨hdB, hdW⟩ := Finset.mem_sdiff.1 hd
        obtain ⟨hcW, hcB⟩ := Finset.mem_sdiff.1 hc
        have hce : c ∉ B.erase d := fun h => hcB (Finset.mem_of_mem_erase h)
        have h2 := gain_party hpl f hce
        have h3 := loss_party hpl f hdB
        unfold gain at h2
        unfold loss at h3
        have hB' : IsCommittee p k (insert c (B.erase d)) := by
          refine ⟨?_, ?_⟩
          · intro x hx
            rcases Finset.mem_insert.1 hx with rfl | hx
            · exact hW.1 hcW
            · exact hB.1 (Finset.mem_of_mem_erase hx)
          · rw [Finset.card_insert_of_notMem hce, Finset.card_erase_of_mem hdB, hB.2]
            have := Finset.card_pos.2 ⟨d, hdB⟩
            rw [hB.2] at this
            omega
        have hn' : (insert c (B.erase d) \ W).card = n := by
          have : insert c (B.erase d) \ W = (B \ W).erase d := by
            ext x
            simp only [Finset.mem_sdiff, Finset.mem_insert, Finset.mem_erase]
            constructor
            · rintro ⟨rfl | ⟨h1, h2⟩, h3⟩
              · exact absurd hcW h3
              · exact ⟨h1, h2, h3⟩
            · rintro ⟨h1, h2, h3⟩
              exact ⟨Or.inr ⟨h1, h2⟩, h3⟩
          rw [this, Finset.card_erase_of_mem hd, hn]
          rfl
        have := ih _ hB' hn'
        linarith
    exact fun B hB => key _ B hB rfl

/-! ### Sequential rules -/

/-- Adding a candidate of maximal gain to an outcome. -/
theorem divisor_insert {k : ℕ} {W : Finset ℕ} (h : DivisorOutcome f p k W) {c : ℕ} (hc : c < p.numCand) (hcW : c ∉ W)
    (hmax : ∀ d < p.numCand, d ∉ W → votes p d * f (seats p W d + 1) ≤ votes p c * f (seats p W c + 1)) :
    DivisorOutcome f p (k + 1) (insert c W) :=
  seat_insert (g := fun c j => votes p c * f j) (fun _ _ h _ => by rw [h.votes_eq])
    (fun c j hj => mul_le_mul_of_nonneg_left (hf j hj) (votes_nonneg hp c)) h hc hcW hmax

theorem seqRun_divisor {L : List ℕ} (h : SeqRun f p L) : L.Nodup ∧ DivisorOutcome f p L.length L.toFinset := by
  induction h with
  | nil => exact ⟨List.nodup_nil, ⟨by simp, by simp⟩, by simp⟩
  | @snoc W c hr hc hcW hmax ih =>
    have hcF : c ∉ W.toFinset := by simpa using hcW
    have e : (W ++ [c]).toFinset = insert c W.toFinset := by ext x; simp [or_comm]
    refine ⟨?_, ?_⟩
    · rw [List.nodup_append]
      exact ⟨ih.1, by simp, by rintro x hx y hy rfl; simp at hy; exact hcW (hy ▸ hx)⟩
    · rw [e, List.length_append, List.length_singleton]
      refine divisor_insert hp hpl f hf ih.2 hc hcF (fun d hd hdW => ?_)
      rw [← gain_party hpl f hdW, ← gain_party hpl f hcF]
      exact hmax d hd (by simpa using hdW)

/-- Every outcome can be completed step by step: some member still missing has maximal gain. -/
theorem divisor_next {k : ℕ} {W S : Finset ℕ} (h : DivisorOutcome f p k W) (hSW : S ⊆ W) (hne : S ≠ W) :
    ∃ c ∈ W, c ∉ S ∧ ∀ d < p.numCand, d ∉ S → votes p d * f (seats p S d + 1) ≤ votes p c * f (seats p S c + 1) :=
  seat_next (g := fun c j => votes p c * f j) (fun _ _ h _ => by rw [h.votes_eq])
    (fun c j hj => mul_le_mul_of_nonneg_left (hf j hj) (votes_nonneg hp c)) h hSW hne

theorem seqThiele_divisor {k : ℕ} {W : Finset ℕ} : SeqThieleWinner f p k W ↔ DivisorOutcome f p k W := by
  constructor
  · rintro ⟨L, h1, rfl, rfl⟩
    exact (seqRun_divisor hp hpl f hf h1).2
  · intro h
    have : ∀ j ≤ k, ∃ L : List ℕ, SeqRun f p L ∧ L.length = j ∧ L.toFinset ⊆ W := by
      intro j
      induction j with
      | zero => exact fun _ => ⟨[], .nil, rfl, by simp⟩
      | succ j ih =>
        intro hj
        obtain ⟨L, h1, h2, h3⟩ := ih (by omega)
        have hnd := (seqRun_divisor hp hpl f hf h1).1
        obtain ⟨c, c1, c2, c3⟩ := divisor_next hp hpl f hf h h3 (by
          intro he
          have := congrArg Finset.card he
          rw [List.toFinset_card_of_nodup hnd, h.1.2] at this
          omega)
        refine ⟨L ++ [c], .snoc h1 (Finset.mem_range.1 (h.1.1 c1)) (by simpa using c2) (fun d hd hdL => ?_), by simp [h2], ?_⟩
        · have hdF : d ∉ L.toFinset := by simpa using hdL
          rw [gain_party hpl f hdF, gain_party hpl f c2]
          exact c3 d hd hdF
        · intro x hx
          simp only [List.toFinset_append, Finset.mem_union, List.mem_toFinset, List.mem_singleton] at hx
          rcases hx with hx | rfl
          · exact h3 (List.mem_toFinset.2 hx)
          · exact c1
    obtain ⟨L, h1, h2, h3⟩ := this k le_rfl
    refine ⟨L, h1, h2, Finset.eq_of_subset_of_card_le h3 ?_⟩
    rw [List.toFinset_card_of_nodup (seqRun_divisor hp hpl f hf h1).1, h2, h.1.2]

/-! ### Reverse sequential rules -/

theorem divisor_erase {k : ℕ} {W : Finset ℕ} (h : DivisorOutcome f p (k + 1) W) {c : ℕ} (hcW : c ∈ W)
    (hmin : ∀ x ∈ W, votes p c * f (seats p W c) ≤ votes p x * f (seats p W x)) : DivisorOutcome f p k (W.erase c) := by
  refine ⟨⟨(Finset.erase_subset _ _).trans h.1.1, by rw [Finset.card_erase_of_mem hcW, h.1.2]; rfl⟩, ?_⟩
  intro x hx d hd hdW
  have hxW := Finset.mem_of_mem_erase hx
  have h1 : votes p x * f (seats p W x) ≤ votes p x * f (seats p (W.erase c) x) :=
    mul_le_mul_of_nonneg_left (antitone_of f hf (seats_pos hx) (seats_mono (Finset.erase_subset _ _) x)) (votes_nonneg hp x)
  refine le_trans ?_ h1
  by_cases hs : SameParty p d c
  · rw [seats_erase_same hcW hs, hs.seats_eq, hs.votes_eq]
    exact hmin x hxW
  · rw [seats_erase_other hcW hs]
    refine h.2 x hxW d hd (fun hdin => hdW (Finset.mem_erase.2 ⟨?_, hdin⟩))
    rintro rfl
    exact hs (SameParty.refl d)

theorem revRun_divisor {W : Finset ℕ} (h : RevRun f p W) : DivisorOutcome f p W.card W := by
  induction h with
  | all => exact ⟨⟨subset_rfl, rfl⟩, fun c _ d hd hdW => absurd (Finset.mem_range.2 hd) hdW⟩
  | @remove W c hr hc hmin ih =>
    have hcard := Finset.card_pos.2 ⟨c, hc⟩
    refine divisor_erase hp hpl f hf (k := (W.erase c).card) ?_ hc (fun x hx => ?_)
    · rw [Finset.card_erase_of_mem hc, Nat.sub_add_cancel hcard]; exact ih
    · rw [← loss_party hpl f hc, ← loss_party hpl f hx]
      exact hmin x hx

theorem revseqThiele_divisor {k : ℕ} {W : Finset ℕ} : RevRun f p W ∧ W.card = k ↔ DivisorOutcome f p k W := by
  constructor
  · rintro ⟨h, rfl⟩
    exact revRun_divisor hp hpl f hf h
  · intro h
    refine ⟨?_, h.1.2⟩
    have hWk := h.1.2
    have : ∀ j, ∀ n, n + j = p.numCand → k ≤ n → ∃ S, RevRun f p S ∧ S.card = n ∧ W ⊆ S := by
      intro j
      induction j with
      | zero => exact fun n hn _ => ⟨_, .all, by simpa using hn.symm, h.1.1⟩
      | succ j ih =>
        intro n hn hkn
        obtain ⟨S, h1, h2, h3⟩ := ih (n + 1) (by omega) (by omega)
        have hnon : (S \ W).Nonempty := by
          rw [← Finset.card_pos]
          have := Finset.card_sdiff_add_card_eq_card h3
          omega
        obtain ⟨c, hc, hmin⟩ := Finset.exists_min_image (S \ W) (fun c => votes p c * f (seats p S c)) hnon
        obtain ⟨hcS, hcW⟩ := Finset.mem_sdiff.1 hc
        refine ⟨S.erase c, .remove h1 hcS (fun x hx => ?_), by rw [Finset.card_erase_of_mem hcS, h2]; rfl,
          fun x hx => Finset.mem_erase.2 ⟨fun e => hcW (e ▸ hx), h3 hx⟩⟩
        rw [loss_party hpl f hcS, loss_party hpl f hx]
        by_cases hex : ∃ e ∈ S \ W, SameParty p x e
        · obtain ⟨e, he, hs⟩ := hex
          rw [hs.votes_eq, hs.seats_eq]
          exact hmin e he
        · push Not at hex
          have hxW : x ∈ W := by
            by_contra hxW
            exact hex x (Finset.mem_sdiff.2 ⟨hx, hxW⟩) (SameParty.refl x)
          have s1 : seats p S x = seats p W x := by
            unfold seats
            congr 1
            refine subset_antisymm ?_ (Finset.filter_subset_filter _ h3)
            intro y hy
            obtain ⟨y1, y2⟩ := Finset.mem_filter.1 hy
            refine Finset.mem_filter.2 ⟨?_, y2⟩
            by_contra hyW
            exact hex y (Finset.mem_sdiff.2 ⟨y1, hyW⟩) y2
          have s2 : seats p W c + 1 ≤ seats p S c := by
            rw [← seats_insert_same hcW (SameParty.refl c)]
            exact seats_mono (Finset.insert_subset hcS h3) c
          rw [s1]
          refine le_trans (mul_le_mul_of_nonneg_left (antitone_of f hf (by omega) s2) (votes_nonneg hp c)) ?_
          exact h.2 x hxW c (Finset.mem_range.1 ((revRun_divisor hp hpl f hf h1).1.1 hcS)) hcW
    have hle : k ≤ p.numCand := by
      rw [← hWk]
      simpa using Finset.card_le_card h.1.1
    obtain ⟨S, h1, h2, h3⟩ := this (p.numCand - k) k (by omega) le_rfl
    rwa [Finset.eq_of_subset_of_card_le h3 (by rw [h2, hWk])]

end

/-! ### seq-Phragmén -/

theorem run_trans {σ : Type} {Best : List ℕ → σ → ℕ → Prop} {upd : List ℕ → σ → ℕ → σ} {W₀ W V : List ℕ} {s₀ s t : σ}
    (h : Run Best upd W₀ s₀ W s) (h' : Run Best upd W s V t) : Run Best upd W₀ s₀ V t := by
  induction h' with
  | start => exact h
  | step _ hb ih => exact .step ih hb

section
variable (hp : p.WF) (hpl : ∀ v ∈ p.voters, ∀ w ∈ p.voters, Disjoint v.A w.A ∨ v.A = w.A)

theorem pav_succ (n : ℕ) : marginalFct .pav (n + 1) = 1 / ((n : ℚ) + 1) := by simp [marginalFct]

theorem pav_noninc (i : ℕ) (hi : 1 ≤ i) : marginalFct .pav (i + 1) ≤ marginalFct .pav i := by
  obtain ⟨j, rfl⟩ := Nat.exists_eq_add_of_le' hi
  rw [pav_succ, pav_succ]
  push_cast
  exact one_div_le_one_div_of_le (by positivity) (by linarith)

include hp

theorem votes_pos {c : ℕ} (h : (backers p c).Nonempty) : 0 < votes p c :=
  Finset.sum_pos (fun i _ => weight_pos hp i) h

theorem votes_pos_iff {c : ℕ} : 0 < votes p c ↔ (backers p c).Nonempty := by
  refine ⟨fun h => ?_, votes_pos hp⟩
  rw [Finset.nonempty_iff_ne_empty]
  intro he
  unfold votes wt at h
  rw [he, Finset.sum_empty] at h
  exact lt_irrefl _ h

/-- The candidate has maximal claim to the next seat. -/
def NextSeat (p : Profile) (W : Finset ℕ) (c : ℕ) : Prop :=
  c < p.numCand ∧ c ∉ W ∧ ∀ d < p.numCand, d ∉ W →
    votes p d * marginalFct .pav (seats p W d + 1) ≤ votes p c * marginalFct .pav (seats p W c + 1)

/-- The loads of the voters of a party are the seats divided by the votes, up to a constant. -/
def PartyLoads (p : Profile) (t : ℚ) (W : Finset ℕ) (x : VoterMap p) : Prop :=
  ∀ i c, c ∈ appr p i → x i = seats p W c / votes p c - t

theorem newLoad_party {t : ℚ} {W : Finset ℕ} {x : VoterMap p} (hx : PartyLoads p t W x) {c : ℕ} (hc : (backers p c).Nonempty) :
    newLoad p x c = ((seats p W c : ℚ) + 1) / votes p c - t := by
  have hv := votes_pos hp hc
  unfold newLoad
  have : ∑ i ∈ backers p c, (p.voters.get i).weight * x i = votes p c * (seats p W c / votes p c - t) := by
    unfold votes wt
    rw [Finset.sum_mul]
    refine Finset.sum_congr rfl (fun i hi => ?_)
    rw [hx i c (Finset.mem_filter.1 hi).2]
    rfl
  rw [this]
  change _ / votes p c = _
  field_simp
  ring

theorem phragBest_party {t : ℚ} {W : List ℕ} {x : VoterMap p} (hx : PartyLoads p t W.toFinset x) (c : ℕ) :
    PhragBest p W x c ↔ NextSeat p W.toFinset c := by
  unfold PhragBest NextSeat
  rw [List.mem_toFinset]
  refine and_congr_right fun _ => and_congr_right fun _ => ?_
  have hzero : ∀ d, backers p d = ∅ → votes p d = 0 := by
    intro d hd
    unfold votes wt
    rw [hd, Finset.sum_empty]
  have hle : ∀ d, (backers p d).Nonempty → (backers p c).Nonempty → (newLoad p x c ≤ newLoad p x d ↔
      votes p d * marginalFct .pav (seats p W.toFinset d + 1) ≤ votes p c * marginalFct .pav (seats p W.toFinset c + 1)) := by
    intro d hd hc
    rw [newLoad_party hp hx hd, newLoad_party hp hx hc, pav_succ, pav_succ, sub_le_sub_iff_right, mul_one_div, mul_one_div,
      div_le_div_iff₀ (votes_pos hp hc) (votes_pos hp hd), div_le_div_iff₀ (by positivity) (by positivity)]
    constructor <;> intro h <;> linarith
  constructor
  · rintro (⟨hne, h⟩ | h) d hd hdW
    · rcases Finset.eq_empty_or_nonempty (backers p d) with he | hd'
      · rw [hzero d he, zero_mul, pav_succ]
        exact mul_nonneg (votes_nonneg hp c) (by positivity)
      · exact (hle d hd' hne).1 (h d hd (fun g => hdW (List.mem_toFinset.2 g)) hd')
    · rw [hzero d (h d hd (fun g => hdW (List.mem_toFinset.2 g))), zero_mul, pav_succ]
      exact mul_nonneg (votes_nonneg hp c) (by positivity)
  · intro h
    rcases Finset.eq_empty_or_nonempty (backers p c) with he | hc
    · right
      intro d hd hdW
      by_contra hne
      have h1 := h d hd (fun g => hdW (List.mem_toFinset.1 g))
      rw [hzero c he, zero_mul, pav_succ] at h1
      have h2 := votes_pos hp (Finset.nonempty_iff_ne_empty.2 hne)
      have : 0 < votes p d * (1 / ((seats p W.toFinset d : ℚ) + 1)) := mul_pos h2 (by positivity)
      linarith
    · exact Or.inl ⟨hc, fun d hd hdW hd' => (hle d hd' hc).2 (h d hd (fun g => hdW (List.mem_toFinset.1 g)))⟩

include hpl

omit hp in
theorem sameParty_of_common {i : Fin p.voters.length} {c d : ℕ} (hc : c ∈ appr p i) (hd : d ∈ appr p i) : SameParty p c d := by
  intro j
  have hdis : ∀ x, x ∈ appr p i → x ∈ appr p j → appr p i = appr p j := by
    intro x h1 h2
    rcases hpl _ (List.get_mem p.voters i) _ (List.get_mem p.voters j) with h | h
    · exact absurd h2 (Finset.disjoint_left.1 h h1)
    · exact h
  exact ⟨fun h => hdis c hc h ▸ hd, fun h => hdis d hd h ▸ hc⟩

theorem phragUpd_party {t : ℚ} {W : List ℕ} {x : VoterMap p} (hx : PartyLoads p t W.toFinset x) {c : ℕ} (hc : c ∉ W) :
    PartyLoads p t (W ++ [c]).toFinset (phragUpd p W x c) := by
  have e : (W ++ [c]).toFinset = insert c W.toFinset := by ext x; simp [or_comm]
  have hcF : c ∉ W.toFinset := by simpa using hc
  intro i d hd
  rw [e]
  unfold phragUpd
  split_ifs with hi
  · have hci := (Finset.mem_filter.1 hi).2
    have hs := sameParty_of_common hpl hd hci
    rw [newLoad_party hp hx ⟨i, hi⟩, seats_insert_same hcF hs, hs.seats_eq, hs.votes_eq]
    push_cast
    rfl
  · rw [seats_insert_other, hx i d hd]
    exact fun h => hi (Finset.mem_filter.2 ⟨Finset.mem_univ _, (h i).1 hd⟩)

/-- seq-Phragmén started from a D'Hondt outcome with its loads: the committees stay D'Hondt outcomes. -/
theorem phragRun_divisor {t : ℚ} {W V : List ℕ} {x y : VoterMap p} (hx : PartyLoads p t W.toFinset x) (hnd : W.Nodup)
    (hW : DivisorOutcome (marginalFct .pav) p W.length W.toFinset) (h : Run (PhragBest p) (phragUpd p) W x V y) :
    V.Nodup ∧ PartyLoads p t V.toFinset y ∧ DivisorOutcome (marginalFct .pav) p V.length V.toFinset := by
  induction h with
  | start => exact ⟨hnd, hx, hW⟩
  | @step V y c hr hb ih =>
    obtain ⟨h1, h2, h3⟩ := ih
    have hcV : c ∉ V := hb.2.1
    have hcF : c ∉ V.toFinset := by simpa using hcV
    have e : (V ++ [c]).toFinset = insert c V.toFinset := by ext x; simp [or_comm]
    refine ⟨?_, phragUpd_party hp hpl h2 hcV, ?_⟩
    · rw [List.nodup_append]
      exact ⟨h1, by simp, by rintro x hx y hy rfl; simp at hy; exact hcV (hy ▸ hx)⟩
    · rw [e, List.length_append, List.length_singleton]
      exact divisor_insert hp hpl _ pav_noninc h3 hb.1 hcF ((phragBest_party hp h2 c).1 hb).2.2

/-- seq-Phragmén can complete a part of a D'Hondt outcome to this outcome. -/
theorem phragRun_reach {t : ℚ} {k : ℕ} {A : Finset ℕ} (hA : DivisorOutcome (marginalFct .pav) p k A) (n : ℕ) :
    ∀ (W : List ℕ) (x : VoterMap p), PartyLoads p t W.toFinset x → W.Nodup → W.toFinset ⊆ A → W.length + n = k →
      ∃ V y, Run (PhragBest p) (phragUpd p) W x V y ∧ V.length = k ∧ V.toFinset = A := by
  induction n with
  | zero =>
    intro W x hx hnd hs hl
    refine ⟨W, x, .start, by omega, Finset.eq_of_subset_of_card_le hs ?_⟩
    rw [List.toFinset_card_of_nodup hnd, hA.1.2]
    omega
  | succ n ih =>
    intro W x hx hnd hs hl
    obtain ⟨c, c1, c2, c3⟩ := divisor_next hp hpl _ pav_noninc hA hs (by
      intro he
      have := congrArg Finset.card he
      rw [List.toFinset_card_of_nodup hnd, hA.1.2] at this
      omega)
    have hcW : c ∉ W := by simpa using c2
    have hb : PhragBest p W x c := (phragBest_party hp hx c).2 ⟨Finset.mem_range.1 (hA.1.1 c1), c2, c3⟩
    obtain ⟨V, y, h1, h2, h3⟩ := ih (W ++ [c]) (phragUpd p W x c) (phragUpd_party hp hpl hx hcW) (by
        rw [List.nodup_append]
        exact ⟨hnd, by simp, by rintro x hx y hy rfl; simp at hy; exact hcW (hy ▸ hx)⟩) (by
        intro y hy
        simp only [List.toFinset_append, Finset.mem_union, List.mem_toFinset, List.mem_singleton] at hy
        rcases hy with hy | rfl
        · exact hs (List.mem_toFinset.2 hy)
        · exact c1) (by rw [List.length_append, List.length_singleton]; omega)
    exact ⟨V, y, run_trans (.step .start hb) h1, h2, h3⟩

omit hpl hp in
theorem partyLoads_zero : PartyLoads p 0 (([] : List ℕ).toFinset) (fun _ => 0) := by
  intro i c _
  simp [seats]

theorem phragmen_divisor {k : ℕ} {W : Finset ℕ} :
    RunWinner (PhragBest p) (phragUpd p) (fun _ => 0) k W ↔ DivisorOutcome (marginalFct .pav) p k W := by
  constructor
  · rintro ⟨V, y, h, rfl, rfl⟩
    exact (phragRun_divisor hp hpl partyLoads_zero List.nodup_nil ⟨⟨by simp, by simp⟩, by simp⟩ h).2.2
  · intro h
    exact phragRun_reach hp hpl h k [] _ partyLoads_zero List.nodup_nil (by simp) (by simp)


/-! ### Equal Shares -/

/-- The members of a committee, counted by what their supporters spend if all supporters of a candidate spend the same per weight. -/
theorem spent_card {W : Finset ℕ} (hW : ∀ c ∈ W, (backers p c).Nonempty) :
    ∑ i, (p.voters.get i).weight * ∑ c ∈ W with c ∈ appr p i, 1 / votes p c = (W.card : ℚ) := by
  have h1 : ∀ i : Fin p.voters.length, (p.voters.get i).weight * ∑ c ∈ W with c ∈ appr p i, 1 / votes p c
      = ∑ c ∈ W, if c ∈ appr p i then (p.voters.get i).weight * (1 / votes p c) else 0 := by
    intro i
    rw [Finset.mul_sum, Finset.sum_filter]
  rw [Finset.sum_congr rfl (fun i _ => h1 i), Finset.sum_comm]
  have h2 : ∀ c ∈ W, (∑ i, if c ∈ appr p i then (p.voters.get i).weight * (1 / votes p c) else 0) = 1 := by
    intro c hc
    rw [← Finset.sum_filter, ← Finset.sum_mul]
    change votes p c * _ = 1
    exact mul_one_div_cancel (votes_pos hp (hW c hc)).ne'
  rw [Finset.sum_congr rfl h2]
  simp

omit hp in
theorem spent_party (W : Finset ℕ) {i : Fin p.voters.length} {c : ℕ} (hc : c ∈ appr p i) :
    ∑ d ∈ W with d ∈ appr p i, 1 / votes p d = seats p W c / votes p c := by
  have : W.filter (fun d => d ∈ appr p i) = W.filter (SameParty p c) :=
    Finset.filter_congr (fun d _ => ⟨fun hd => sameParty_of_common hpl hc hd, fun h => (h i).1 hc⟩)
  rw [this, Finset.sum_congr rfl (fun d hd => by rw [← (Finset.mem_filter.1 hd).2.votes_eq]), Finset.sum_const]
  rw [nsmul_eq_mul, mul_one_div]
  rfl

/-- If every party can afford its seats at a budget of `k / total` per weight and some party can afford one seat more, then there are
fewer than `k` seats. -/
theorem seats_lt {W : Finset ℕ} {r : ℚ} {k : ℕ} (hr : r * total p ≤ k) (hr0 : 0 ≤ r)
    (hW : ∀ c ∈ W, (seats p W c : ℚ) ≤ votes p c * r) {d : ℕ}
    (hd : (seats p W d : ℚ) + 1 ≤ votes p d * r) : W.card < k := by
  have hpos : ∀ c ∈ W, (backers p c).Nonempty := by
    intro c hc
    rw [← votes_pos_iff hp]
    have h1 : (1 : ℚ) ≤ seats p W c := by exact_mod_cast seats_pos hc
    have h2 := hW c hc
    rcases (votes_nonneg hp c).lt_or_eq with h | h
    · exact h
    · rw [← h, zero_mul] at h2; linarith
  have hdpos : 0 < votes p d := by
    rcases (votes_nonneg hp d).lt_or_eq with h | h
    · exact h
    · rw [← h, zero_mul] at hd
      have : (0 : ℚ) ≤ seats p W d := Nat.cast_nonneg _
      linarith
  obtain ⟨j, hj⟩ := (votes_pos_iff hp).1 hdpos
  have hjd := (Finset.mem_filter.1 hj).2
  have hlt : ∑ i, (p.voters.get i).weight * ∑ c ∈ W with c ∈ appr p i, 1 / votes p c < ∑ i, (p.voters.get i).weight * r := by
    refine Finset.sum_lt_sum (fun i _ => mul_le_mul_of_nonneg_left ?_ (weight_pos hp i).le)
      ⟨j, Finset.mem_univ _, mul_lt_mul_of_pos_left ?_ (weight_pos hp j)⟩
    · rcases (W.filter (fun c => c ∈ appr p i)).eq_empty_or_nonempty with h | ⟨c, hc⟩
      · rw [h, Finset.sum_empty]; exact hr0
      · obtain ⟨c1, c2⟩ := Finset.mem_filter.1 hc
        rw [spent_party hpl W c2, div_le_iff₀ (votes_pos hp (hpos c c1)), mul_comm]
        exact hW c c1
    · rw [spent_party hpl W hjd, div_lt_iff₀ hdpos, mul_comm]
      linarith
  rw [spent_card hp hpl hpos, ← Finset.sum_mul] at hlt
  have htot : (∑ i, (p.voters.get i).weight) * r ≤ k := by rw [mul_comm]; exact hr
  exact_mod_cast hlt.trans_le htot

/-- Budgets of the voters of a party. -/
def PartyBudgets (p : Profile) (r : ℚ) (W : Finset ℕ) (b : VoterMap p) : Prop :=
  ∀ i c, c ∈ appr p i → b i = (p.voters.get i).weight * (r - seats p W c / votes p c)

omit hpl in
theorem payments_party {r : ℚ} {W : Finset ℕ} {b : VoterMap p} (hb : PartyBudgets p r W b) (c : ℕ) (q : ℚ) :
    payments p b c q = votes p c * min (r - seats p W c / votes p c) q := by
  unfold payments votes wt
  rw [Finset.sum_mul]
  refine Finset.sum_congr rfl (fun i hi => ?_)
  rw [hb i c (Finset.mem_filter.1 hi).2, mul_comm q, mul_min_of_nonneg _ _ (weight_pos hp i).le]
  rfl

omit hpl in
theorem isPrice_party {r : ℚ} {W : Finset ℕ} {b : VoterMap p} (hb : PartyBudgets p r W b) (c : ℕ) (q : ℚ) :
    IsPrice p b c q ↔ (seats p W c : ℚ) + 1 ≤ votes p c * r ∧ q = 1 / votes p c := by
  unfold IsPrice
  simp only [payments_party hp hb]
  rcases (votes_nonneg hp c).lt_or_eq with hv | hv
  · have hm : (seats p W c : ℚ) + 1 ≤ votes p c * r ↔ 1 / votes p c ≤ r - seats p W c / votes p c := by
      rw [div_le_iff₀ hv, sub_mul, div_mul_cancel₀ _ hv.ne']
      constructor <;> intro h <;> linarith
    rw [hm]
    constructor
    · rintro ⟨h1, h2⟩
      have hmin : min (r - seats p W c / votes p c) q = 1 / votes p c := by
        rw [eq_div_iff hv.ne', mul_comm]; exact h1
      have h3 : 1 / votes p c ≤ r - seats p W c / votes p c := hmin ▸ min_le_left _ _
      have h4 : 1 / votes p c ≤ q := hmin ▸ min_le_right _ _
      refine ⟨h3, ?_⟩
      by_contra hne
      have := h2 (1 / votes p c) (lt_of_le_of_ne h4 (Ne.symm hne))
      rw [min_eq_right h3, mul_one_div_cancel hv.ne'] at this
      exact lt_irrefl _ this
    · rintro ⟨h1, rfl⟩
      refine ⟨by rw [min_eq_right h1, mul_one_div_cancel hv.ne'], fun q' hq' => ?_⟩
      calc _ ≤ votes p c * q' := mul_le_mul_of_nonneg_left (min_le_right _ _) hv.le
        _ < votes p c * (1 / votes p c) := mul_lt_mul_of_pos_left hq' hv
        _ = 1 := mul_one_div_cancel hv.ne'
  · rw [← hv]
    simp only [zero_mul]
    constructor
    · rintro ⟨h, -⟩; exact absurd h (by norm_num)
    · rintro ⟨h, -⟩
      have : (0 : ℚ) ≤ seats p W c := Nat.cast_nonneg _
      linarith

omit hpl in
theorem price_party {r : ℚ} {W : Finset ℕ} {b : VoterMap p} (hb : PartyBudgets p r W b) {c : ℕ}
    (h : (seats p W c : ℚ) + 1 ≤ votes p c * r) : price p b c = 1 / votes p c := by
  have h1 : IsPrice p b c (price p b c) := Classical.epsilon_spec ⟨_, (isPrice_party hp hb c _).2 ⟨h, rfl⟩⟩
  exact ((isPrice_party hp hb c _).1 h1).2

omit hpl in
theorem affordable_party {r : ℚ} {W : Finset ℕ} {b : VoterMap p} (hb : PartyBudgets p r W b) (c : ℕ) :
    Affordable p b c ↔ (seats p W c : ℚ) + 1 ≤ votes p c * r := by
  have : ∑ i ∈ backers p c, b i = votes p c * (r - seats p W c / votes p c) := by
    unfold votes wt
    rw [Finset.sum_mul]
    exact Finset.sum_congr rfl (fun i hi => hb i c (Finset.mem_filter.1 hi).2)
  unfold Affordable
  rw [this]
  rcases (votes_nonneg hp c).lt_or_eq with hv | hv
  · rw [mul_sub, mul_div_cancel₀ _ hv.ne']
    constructor <;> intro h <;> linarith
  · rw [← hv]
    have : (0 : ℚ) ≤ seats p W c := Nat.cast_nonneg _
    constructor <;> intro h <;> linarith

theorem mesUpd_party {r : ℚ} {W : List ℕ} {b : VoterMap p} (hb : PartyBudgets p r W.toFinset b) {c : ℕ} (hc : c ∉ W)
    (h : (seats p W.toFinset c : ℚ) + 1 ≤ votes p c * r) : PartyBudgets p r (W ++ [c]).toFinset (mesUpd p W b c) := by
  have e : (W ++ [c]).toFinset = insert c W.toFinset := by ext x; simp [or_comm]
  have hcF : c ∉ W.toFinset := by simpa using hc
  intro i d hd
  rw [e]
  unfold mesUpd
  split_ifs with hi
  · have hci := (Finset.mem_filter.1 hi).2
    have hs := sameParty_of_common hpl hd hci
    have hv := votes_pos hp ⟨i, hi⟩
    have hw := weight_pos hp i
    rw [price_party hp hb h, hb i c hci, seats_insert_same hcF hs, hs.seats_eq, hs.votes_eq]
    have hm : 1 / votes p c ≤ r - seats p W.toFinset c / votes p c := by
      rw [div_le_iff₀ hv, sub_mul, div_mul_cancel₀ _ hv.ne']
      linarith
    have hmin : min ((p.voters.get i).weight * (r - seats p W.toFinset c / votes p c)) (1 / votes p c * (p.voters.get i).weight)
        = 1 / votes p c * (p.voters.get i).weight := by
      refine min_eq_right ?_
      rw [mul_comm]
      exact mul_le_mul_of_nonneg_left hm hw.le
    rw [hmin]
    push_cast
    field_simp
    ring
  · rw [seats_insert_other, hb i d hd]
    exact fun h => hi (Finset.mem_filter.2 ⟨Finset.mem_univ _, (h i).1 hd⟩)

/-- What holds in every state of Equal Shares: distinct candidates, budgets by party, and every party can afford its seats. -/
structure MesParty (p : Profile) (r : ℚ) (W : List ℕ) (b : VoterMap p) : Prop where
  nodup : W.Nodup
  sub : W.toFinset ⊆ Finset.range p.numCand
  budgets : PartyBudgets p r W.toFinset b
  afford : ∀ c, (seats p W.toFinset c : ℚ) ≤ votes p c * r

theorem mesParty_step {r : ℚ} {W : List ℕ} {b : VoterMap p} (h : MesParty p r W b) {c : ℕ} (hc : MESBest p W b c) :
    MesParty p r (W ++ [c]) (mesUpd p W b c) := by
  obtain ⟨q, hq, -⟩ := hc.2.2
  have haff := ((isPrice_party hp h.budgets c q).1 hq).1
  have hcW := hc.2.1
  have hcF : c ∉ W.toFinset := by simpa using hcW
  have e : (W ++ [c]).toFinset = insert c W.toFinset := by ext x; simp [or_comm]
  refine ⟨?_, ?_, mesUpd_party hp hpl h.budgets hcW haff, ?_⟩
  · rw [List.nodup_append]
    exact ⟨h.nodup, by simp, by rintro x hx y hy rfl; simp at hy; exact hcW (hy ▸ hx)⟩
  · rw [e]
    exact Finset.insert_subset (Finset.mem_range.2 hc.1) h.sub
  · intro d
    rw [e]
    by_cases hs : SameParty p d c
    · rw [seats_insert_same hcF hs, hs.seats_eq, hs.votes_eq]
      push_cast
      exact haff
    · rw [seats_insert_other hs]
      exact h.afford d

omit hpl in
theorem mesParty_start {r : ℚ} (hr : 0 ≤ r) : MesParty p r [] (budgetOf p r) :=
  ⟨List.nodup_nil, by simp, fun i c _ => by simp [seats, budgetOf], fun c => by
    simpa [seats] using mul_nonneg (votes_nonneg hp c) hr⟩

theorem mesParty_run {r : ℚ} (hr : 0 ≤ r) {W : List ℕ} {b : VoterMap p}
    (h : Run (MESBest p) (mesUpd p) [] (budgetOf p r) W b) : MesParty p r W b := by
  induction h with
  | start => exact mesParty_start hp hr
  | step _ hb ih => exact mesParty_step hp hpl ih hb

omit hpl in
/-- When nothing more can be bought, the seats are a D'Hondt outcome. -/
theorem mes_divisor {r : ℚ} {W : Finset ℕ} (hsub : W ⊆ Finset.range p.numCand)
    (haff : ∀ c, (seats p W c : ℚ) ≤ votes p c * r)
    (hdone : ∀ d < p.numCand, d ∉ W → ¬ (seats p W d : ℚ) + 1 ≤ votes p d * r) :
    DivisorOutcome (marginalFct .pav) p W.card W := by
  refine ⟨⟨hsub, rfl⟩, fun c hc d hd hdW => ?_⟩
  have h1 := hdone d hd hdW
  rw [not_le] at h1
  have h2 := haff c
  have h3 := seats_pos (p := p) hc
  obtain ⟨s, hs⟩ := Nat.exists_eq_add_of_le' h3
  rw [hs] at h2 ⊢
  rw [pav_succ, pav_succ, mul_one_div, mul_one_div, div_le_div_iff₀ (by positivity) (by positivity)]
  push_cast at h2
  have hr : 0 < r := by
    by_contra hr
    have : votes p c * r ≤ 0 := mul_nonpos_of_nonneg_of_nonpos (votes_nonneg hp c) (not_lt.1 hr)
    have : (0 : ℚ) ≤ s := Nat.cast_nonneg _
    linarith
  have h4 : votes p d * r * ((s : ℚ) + 1) ≤ votes p c * r * ((seats p W d : ℚ) + 1) := by
    calc _ ≤ ((seats p W d : ℚ) + 1) * ((s : ℚ) + 1) := mul_le_mul_of_nonneg_right h1.le (by positivity)
      _ ≤ ((seats p W d : ℚ) + 1) * (votes p c * r) := mul_le_mul_of_nonneg_left h2 (by positivity)
      _ = _ := by ring
  refine le_of_mul_le_mul_right ?_ hr
  calc _ = votes p d * r * ((s : ℚ) + 1) := by ring
    _ ≤ _ := h4
    _ = _ := by ring

/-- Equal Shares with Phragmén completion on party lists: D'Hondt. -/
theorem mes_phragmen_divisor {k : ℕ} {A : Finset ℕ} :
    MESWinner p k .seqphragmen (k / total p) A ↔ DivisorOutcome (marginalFct .pav) p k A := by
  have ht : 0 ≤ total p := Finset.sum_nonneg (fun i _ => (weight_pos hp i).le)
  have hr : (0 : ℚ) ≤ k / total p := div_nonneg (Nat.cast_nonneg _) ht
  have hrt : (k : ℚ) / total p * total p ≤ k := by
    rcases ht.lt_or_eq with h | h
    · rw [div_mul_cancel₀ _ h.ne']
    · rw [← h, mul_zero]; exact Nat.cast_nonneg _
  have loads : ∀ {W : List ℕ} {b : VoterMap p}, MesParty p (k / total p) W b →
      PartyLoads p (k / total p) W.toFinset (fun i => - b i / (p.voters.get i).weight) := by
    intro W b h i c hc
    change - b i / _ = _
    rw [h.budgets i c hc, neg_div, mul_div_cancel_left₀ _ (weight_pos hp i).ne']
    ring
  constructor
  · rintro ⟨W, b, hrun, h⟩
    have hm := mesParty_run hp hpl hr hrun
    have hcard : W.toFinset.card = W.length := List.toFinset_card_of_nodup hm.nodup
    rcases h with ⟨hk, rfl⟩ | ⟨hk, hdone, V, y, hphr, hV, rfl⟩
    · have := mes_divisor hp hm.sub hm.afford (fun d hd hdW haff => by
        have := seats_lt hp hpl hrt hr (fun c _ => hm.afford c) haff
        omega)
      rwa [hcard, hk] at this
    · have hW := mes_divisor hp hm.sub hm.afford (fun d hd hdW haff =>
        hdone d hd (by simpa using hdW) ((affordable_party hp hm.budgets d).2 haff))
      rw [hcard] at hW
      have := (phragRun_divisor hp hpl (loads hm) hm.nodup hW hphr).2.2
      rwa [hV] at this
  · intro hA
    -- a run of Equal Shares inside the outcome
    have key : ∀ n : ℕ, ∀ (W : List ℕ) (b : VoterMap p), Run (MESBest p) (mesUpd p) [] (budgetOf p (k / total p)) W b →
        W.toFinset ⊆ A → W.length + n = k → ∃ V b', Run (MESBest p) (mesUpd p) [] (budgetOf p (k / total p)) V b' ∧
          V.toFinset ⊆ A ∧ (V.length = k ∨ (V.length < k ∧ MESDone p V b')) := by
      intro n
      induction n with
      | zero => exact fun W b h hs hl => ⟨W, b, h, hs, Or.inl (by omega)⟩
      | succ n ih =>
        intro W b h hs hl
        have hm := mesParty_run hp hpl hr h
        by_cases hdone : MESDone p W b
        · exact ⟨W, b, h, hs, Or.inr ⟨by omega, hdone⟩⟩
        · -- a candidate of lowest price
          unfold MESDone at hdone
          push Not at hdone
          obtain ⟨d, d1, d2, d3⟩ := hdone
          rw [affordable_party hp hm.budgets] at d3
          obtain ⟨c, hc, hmax⟩ := Finset.exists_max_image ((Finset.range p.numCand).filter (fun d => d ∉ W ∧
            (seats p W.toFinset d : ℚ) + 1 ≤ votes p d * (k / total p))) (votes p)
            ⟨d, Finset.mem_filter.2 ⟨Finset.mem_range.2 d1, d2, d3⟩⟩
          obtain ⟨c1, c2, c3⟩ := Finset.mem_filter.1 hc
          have hcpos : 0 < votes p c := by
            rcases (votes_nonneg hp c).lt_or_eq with h | h
            · exact h
            · rw [← h, zero_mul] at c3
              have : (0 : ℚ) ≤ seats p W.toFinset c := Nat.cast_nonneg _
              linarith
          -- the outcome has a member of the same party that is not yet bought
          obtain ⟨e, e1, e2, e3⟩ : ∃ e ∈ A, e ∉ W ∧ SameParty p c e := by
            by_contra hex
            push Not at hex
            have hcA : c ∉ A := fun g => hex c g c2 (SameParty.refl c)
            have s1 : seats p A c = seats p W.toFinset c := by
              unfold seats
              congr 1
              refine subset_antisymm ?_ (Finset.filter_subset_filter _ hs)
              intro x hx
              obtain ⟨x1, x2⟩ := Finset.mem_filter.1 hx
              refine Finset.mem_filter.2 ⟨?_, x2⟩
              by_contra hxW
              exact hex x x1 (by simpa using hxW) x2
            have hlt := seats_lt hp hpl (W := A) hrt hr (fun x hx => by
              have h1 := hA.2 x hx c (Finset.mem_range.1 c1) hcA
              obtain ⟨s, hs'⟩ := Nat.exists_eq_add_of_le' (seats_pos (p := p) hx)
              rw [hs', pav_succ, pav_succ, mul_one_div, mul_one_div, div_le_div_iff₀ (by positivity) (by positivity), s1] at h1
              rw [hs']
              push_cast
              refine le_of_mul_le_mul_right ?_ hcpos
              calc ((s : ℚ) + 1) * votes p c = votes p c * ((s : ℚ) + 1) := by ring
                _ ≤ votes p x * ((seats p W.toFinset c : ℚ) + 1) := h1
                _ ≤ votes p x * (votes p c * (k / total p)) := mul_le_mul_of_nonneg_left c3 (votes_nonneg hp x)
                _ = _ := by ring) (d := c) (by rw [s1]; exact c3)
            rw [hA.1.2] at hlt
            exact lt_irrefl _ hlt
          have hbest : MESBest p W b e := by
            refine ⟨Finset.mem_range.1 (hA.1.1 e1), e2, 1 / votes p e, (isPrice_party hp hm.budgets e _).2
              ⟨by rw [← e3.seats_eq, ← e3.votes_eq]; exact c3, rfl⟩, fun d' d'1 d'2 q' hq' => ?_⟩
            obtain ⟨g1, rfl⟩ := (isPrice_party hp hm.budgets d' q').1 hq'
            rw [← e3.votes_eq]
            have hd' : 0 < votes p d' := by
              rcases (votes_nonneg hp d').lt_or_eq with h | h
              · exact h
              · rw [← h, zero_mul] at g1
                have : (0 : ℚ) ≤ seats p W.toFinset d' := Nat.cast_nonneg _
                linarith
            exact one_div_le_one_div_of_le hd' (hmax d' (Finset.mem_filter.2 ⟨Finset.mem_range.2 d'1, d'2, g1⟩))
          refine ih (W ++ [e]) _ (.step h hbest) ?_ (by rw [List.length_append, List.length_singleton]; omega)
          intro y hy
          simp only [List.toFinset_append, Finset.mem_union, List.mem_toFinset, List.mem_singleton] at hy
          rcases hy with hy | rfl
          · exact hs (List.mem_toFinset.2 hy)
          · exact e1
    obtain ⟨V, b, h1, h2, h3⟩ := key k [] _ .start (by simp) (by simp)
    have hm := mesParty_run hp hpl hr h1
    refine ⟨V, b, h1, ?_⟩
    rcases h3 with h3 | ⟨h3, h4⟩
    · refine Or.inl ⟨h3, Finset.eq_of_subset_of_card_le h2 ?_⟩
      rw [List.toFinset_card_of_nodup hm.nodup, h3, hA.1.2]
    · exact Or.inr ⟨h3, h4, phragRun_reach hp hpl hA (k - V.length) V _ (loads hm) hm.nodup h2 (by omega)⟩


/-- If every party can afford its seats at a budget of `k / total` per weight, then there are at most `k` seats. -/
theorem seats_le {W : Finset ℕ} {r : ℚ} {k : ℕ} (hr : r * total p ≤ k) (hr0 : 0 ≤ r)
    (hW : ∀ c ∈ W, (seats p W c : ℚ) ≤ votes p c * r) : W.card ≤ k := by
  have hpos : ∀ c ∈ W, (backers p c).Nonempty := by
    intro c hc
    rw [← votes_pos_iff hp]
    have h1 : (1 : ℚ) ≤ seats p W c := by exact_mod_cast seats_pos hc
    have h2 := hW c hc
    rcases (votes_nonneg hp c).lt_or_eq with h | h
    · exact h
    · rw [← h, zero_mul] at h2; linarith
  have hle : ∑ i, (p.voters.get i).weight * ∑ c ∈ W with c ∈ appr p i, 1 / votes p c ≤ ∑ i, (p.voters.get i).weight * r := by
    refine Finset.sum_le_sum (fun i _ => mul_le_mul_of_nonneg_left ?_ (weight_pos hp i).le)
    rcases (W.filter (fun c => c ∈ appr p i)).eq_empty_or_nonempty with h | ⟨c, hc⟩
    · rw [h, Finset.sum_empty]; exact hr0
    · obtain ⟨c1, c2⟩ := Finset.mem_filter.1 hc
      rw [spent_party hpl W c2, div_le_iff₀ (votes_pos hp (hpos c c1)), mul_comm]
      exact hW c c1
  rw [spent_card hp hpl hpos, ← Finset.sum_mul] at hle
  have htot : (∑ i, (p.voters.get i).weight) * r ≤ k := by rw [mul_comm]; exact hr
  exact_mod_cast hle.trans htot

/-- Equal Shares without completion on party lists: the lower quota of every party. -/
theorem mes_none_quota {k : ℕ} {A : Finset ℕ} : MESWinner p k .none (k / total p) A ↔ LowerQuotas p k A := by
  have ht : 0 ≤ total p := Finset.sum_nonneg (fun i _ => (weight_pos hp i).le)
  have hr : (0 : ℚ) ≤ k / total p := div_nonneg (Nat.cast_nonneg _) ht
  have hrt : (k : ℚ) / total p * total p ≤ k := by
    rcases ht.lt_or_eq with h | h
    · rw [div_mul_cancel₀ _ h.ne']
    · rw [← h, mul_zero]; exact Nat.cast_nonneg _
  have hfl : ∀ c n, n ≤ ⌊votes p c * k / total p⌋₊ ↔ (n : ℚ) ≤ votes p c * (k / total p) := by
    intro c n
    rw [mul_div_assoc, Nat.le_floor_iff (mul_nonneg (votes_nonneg hp c) hr)]
  constructor
  · rintro ⟨W, b, hrun, h⟩
    have hm := mesParty_run hp hpl hr hrun
    have hcard : W.toFinset.card = W.length := List.toFinset_card_of_nodup hm.nodup
    have hA : A = W.toFinset ∧ ∀ d < p.numCand, d ∉ W → ¬ (seats p W.toFinset d : ℚ) + 1 ≤ votes p d * (k / total p) := by
      rcases h with ⟨hk, rfl⟩ | ⟨hk, hdone, hc⟩
      · refine ⟨rfl, fun d hd hdW haff => ?_⟩
        have := seats_lt hp hpl hrt hr (fun c _ => hm.afford c) haff
        omega
      · exact ⟨hc, fun d hd hdW haff => hdone d hd hdW ((affordable_party hp hm.budgets d).2 haff)⟩
    obtain ⟨rfl, hun⟩ := hA
    refine ⟨hm.sub, fun c hc => le_antisymm (le_min ((hfl c _).2 (hm.afford c)) (seats_mono hm.sub c)) ?_⟩
    by_contra hlt
    rw [not_le, lt_min_iff] at hlt
    -- some candidate of the party is not elected
    obtain ⟨d, hd1, hd2⟩ : ∃ d ∈ (Finset.range p.numCand).filter (SameParty p c), d ∉ W.toFinset.filter (SameParty p c) := by
      by_contra hno
      push Not at hno
      exact absurd (Finset.card_le_card hno) (not_le.2 hlt.2)
    obtain ⟨d3, d4⟩ := Finset.mem_filter.1 hd1
    refine hun d (Finset.mem_range.1 d3) (fun g => hd2 (Finset.mem_filter.2 ⟨List.mem_toFinset.2 g, d4⟩)) ?_
    rw [← d4.seats_eq, ← d4.votes_eq]
    have := (hfl c (seats p W.toFinset c + 1)).1 hlt.1
    push_cast at this
    exact this
  · rintro ⟨hsub, hq⟩
    have haff : ∀ c ∈ A, (seats p A c : ℚ) ≤ votes p c * (k / total p) := fun c hc =>
      (hfl c _).1 ((hq c (Finset.mem_range.1 (hsub hc))).le.trans (min_le_left _ _))
    have hAk := seats_le hp hpl hrt hr haff
    have key : ∀ n : ℕ, ∀ (W : List ℕ) (b : VoterMap p), Run (MESBest p) (mesUpd p) [] (budgetOf p (k / total p)) W b →
        W.toFinset ⊆ A → W.length + n = A.card → ∃ V b', Run (MESBest p) (mesUpd p) [] (budgetOf p (k / total p)) V b' ∧
          V.toFinset = A := by
      intro n
      induction n with
      | zero =>
        intro W b h hs hl
        refine ⟨W, b, h, Finset.eq_of_subset_of_card_le hs ?_⟩
        rw [List.toFinset_card_of_nodup (mesParty_run hp hpl hr h).nodup]
        omega
      | succ n ih =>
        intro W b h hs hl
        have hm := mesParty_run hp hpl hr h
        obtain ⟨x, hxA, hxW⟩ : ∃ x ∈ A, x ∉ W.toFinset := by
          by_contra hno
          push Not at hno
          have := Finset.card_le_card (show A ⊆ W.toFinset from hno)
          rw [List.toFinset_card_of_nodup hm.nodup] at this
          omega
        have hxaff : (seats p W.toFinset x : ℚ) + 1 ≤ votes p x * (k / total p) := by
          refine le_trans ?_ (haff x hxA)
          have : seats p W.toFinset x + 1 ≤ seats p A x := by
            rw [← seats_insert_same hxW (SameParty.refl x)]
            exact seats_mono (Finset.insert_subset hxA hs) x
          exact_mod_cast this
        obtain ⟨c, hc, hmax⟩ := Finset.exists_max_image ((Finset.range p.numCand).filter (fun d => d ∉ W ∧
          (seats p W.toFinset d : ℚ) + 1 ≤ votes p d * (k / total p))) (votes p)
          ⟨x, Finset.mem_filter.2 ⟨hsub hxA, by simpa using hxW, hxaff⟩⟩
        obtain ⟨c1, c2, c3⟩ := Finset.mem_filter.1 hc
        obtain ⟨e, e1, e2, e3⟩ : ∃ e ∈ A, e ∉ W ∧ SameParty p c e := by
          by_contra hex
          push Not at hex
          have hcA : c ∉ A := fun g => hex c g c2 (SameParty.refl c)
          have s1 : seats p A c = seats p W.toFinset c := by
            unfold seats
            congr 1
            refine subset_antisymm ?_ (Finset.filter_subset_filter _ hs)
            intro x hx
            obtain ⟨x1, x2⟩ := Finset.mem_filter.1 hx
            refine Finset.mem_filter.2 ⟨?_, x2⟩
            by_contra hxW
            exact hex x x1 (by simpa using hxW) x2
          have h1 : seats p A c + 1 ≤ ⌊votes p c * k / total p⌋₊ := by
            rw [hfl, s1]
            push_cast
            exact c3
          have h2 : seats p A c + 1 ≤ seats p (Finset.range p.numCand) c := by
            rw [← seats_insert_same hcA (SameParty.refl c)]
            exact seats_mono (Finset.insert_subset c1 hsub) c
          have := hq c (Finset.mem_range.1 c1)
          omega
        have hbest : MESBest p W b e := by
          refine ⟨Finset.mem_range.1 (hsub e1), e2, 1 / votes p e, (isPrice_party hp hm.budgets e _).2
            ⟨by rw [← e3.seats_eq, ← e3.votes_eq]; exact c3, rfl⟩, fun d' d'1 d'2 q' hq' => ?_⟩
          obtain ⟨g1, rfl⟩ := (isPrice_party hp hm.budgets d' q').1 hq'
          rw [← e3.votes_eq]
          have hd' : 0 < votes p d' := by
            rcases (votes_nonneg hp d').lt_or_eq with h | h
            · exact h
            · rw [← h, zero_mul] at g1
              have : (0 : ℚ) ≤ seats p W.toFinset d' := Nat.cast_nonneg _
              linarith
          exact one_div_le_one_div_of_le hd' (hmax d' (Finset.mem_filter.2 ⟨Finset.mem_range.2 d'1, d'2, g1⟩))
        refine ih (W ++ [e]) _ (.step h hbest) ?_ (by rw [List.length_append, List.length_singleton]; omega)
        intro y hy
        simp only [List.toFinset_append, Finset.mem_union, List.mem_toFinset, List.mem_singleton] at hy
        rcases hy with hy | rfl
        · exact hs (List.mem_toFinset.2 hy)
        · exact e1
    obtain ⟨V, b, h1, h2⟩ := key A.card [] _ .start (by simp) (by simp)
    have hm := mesParty_run hp hpl hr h1
    have hcard : V.toFinset.card = V.length := List.toFinset_card_of_nodup hm.nodup
    rw [h2] at hcard
    refine ⟨V, b, h1, ?_⟩
    rcases Nat.lt_or_ge V.length k with h | h
    · refine Or.inr ⟨h, fun c hc hcV haf => ?_, h2.symm⟩
      rw [affordable_party hp hm.budgets, h2] at haf
      have hcA : c ∉ A := by rw [← h2]; simpa using hcV
      have h1 : seats p A c + 1 ≤ ⌊votes p c * k / total p⌋₊ := by
        rw [hfl]
        push_cast
        exact haf
      have h2 : seats p A c + 1 ≤ seats p (Finset.range p.numCand) c := by
        rw [← seats_insert_same hcA (SameParty.refl c)]
        exact seats_mono (Finset.insert_subset (Finset.mem_range.2 hc) hsub) c
      have := hq c hc
      omega
    · exact Or.inl ⟨by omega, h2⟩


/-- D'Hondt gives every party its lower quota. -/
theorem divisor_lower_quota {k : ℕ} {A : Finset ℕ} (hA : DivisorOutcome (marginalFct .pav) p k A) (c : ℕ) :
    min ⌊votes p c * k / total p⌋₊ (seats p (Finset.range p.numCand) c) ≤ seats p A c := by
  have ht : 0 ≤ total p := Finset.sum_nonneg (fun i _ => (weight_pos hp i).le)
  have hr : (0 : ℚ) ≤ k / total p := div_nonneg (Nat.cast_nonneg _) ht
  have hrt : (k : ℚ) / total p * total p ≤ k := by
    rcases ht.lt_or_eq with h | h
    · rw [div_mul_cancel₀ _ h.ne']
    · rw [← h, mul_zero]; exact Nat.cast_nonneg _
  by_contra hlt
  rw [not_le, lt_min_iff] at hlt
  obtain ⟨d, hd1, hd2⟩ : ∃ d ∈ (Finset.range p.numCand).filter (SameParty p c), d ∉ A.filter (SameParty p c) := by
    by_contra hno
    push Not at hno
    exact absurd (Finset.card_le_card hno) (not_le.2 hlt.2)
  obtain ⟨d3, d4⟩ := Finset.mem_filter.1 hd1
  have hdA : d ∉ A := fun g => hd2 (Finset.mem_filter.2 ⟨g, d4⟩)
  have hq : (seats p A d : ℚ) + 1 ≤ votes p d * (k / total p) := by
    have : seats p A c + 1 ≤ ⌊votes p c * k / total p⌋₊ := hlt.1
    rw [mul_div_assoc, Nat.le_floor_iff (mul_nonneg (votes_nonneg hp c) hr)] at this
    rw [← d4.seats_eq, ← d4.votes_eq]
    push_cast at this
    exact this
  have hdpos : 0 < votes p d := by
    rcases (votes_nonneg hp d).lt_or_eq with h | h
    · exact h
    · rw [← h, zero_mul] at hq
      have : (0 : ℚ) ≤ seats p A d := Nat.cast_nonneg _
      linarith
  have hlt := seats_lt hp hpl (W := A) hrt hr (fun x hx => by
    have h1 := hA.2 x hx d (Finset.mem_range.1 d3) hdA
    obtain ⟨s, hs'⟩ := Nat.exists_eq_add_of_le' (seats_pos (p := p) hx)
    rw [hs', pav_succ, pav_succ, mul_one_div, mul_one_div, div_le_div_iff₀ (by positivity) (by positivity)] at h1
    rw [hs']
    push_cast
    refine le_of_mul_le_mul_right ?_ hdpos
    calc ((s : ℚ) + 1) * votes p d = votes p d * ((s : ℚ) + 1) := by ring
      _ ≤ votes p x * ((seats p A d : ℚ) + 1) := h1
      _ ≤ votes p x * (votes p d * (k / total p)) := mul_le_mul_of_nonneg_left hq (votes_nonneg hp x)
      _ = _ := by ring) hq
  rw [hA.1.2] at hlt
  exact lt_irrefl _ hlt

end

/-! ### Phragmén-Eneström -/

section
variable (hp : p.WF) (hpl : ∀ v ∈ p.voters, ∀ w ∈ p.voters, Disjoint v.A w.A ∨ v.A = w.A)
include hp

/-- Budgets of the voters of a party: the party's votes minus the quotas for its seats, in proportion to the weights. -/
def EneBudgets (p : Profile) (q : ℚ) (W : Finset ℕ) (b : VoterMap p) : Prop :=
  ∀ i c, c ∈ appr p i → b i = (p.voters.get i).weight * max 0 (1 - seats p W c * q / votes p c)

theorem support_ene {q : ℚ} {W : Finset ℕ} {b : VoterMap p} (hb : EneBudgets p q W b) (c : ℕ) :
    support p b c = if (backers p c).Nonempty then max 0 (votes p c - seats p W c * q) else 0 := by
  unfold support
  have h1 : ∑ i ∈ backers p c with 0 < b i, b i = ∑ i ∈ backers p c, b i := by
    rw [Finset.sum_filter]
    refine Finset.sum_congr rfl (fun i hi => ?_)
    split_ifs with h
    · rfl
    · refine le_antisymm ?_ (not_lt.1 h)
      rw [hb i c (Finset.mem_filter.1 hi).2]
      exact mul_nonneg (weight_pos hp i).le (le_max_left _ _)
  rw [h1]
  split_ifs with hne
  · have hv := votes_pos hp hne
    have : ∑ i ∈ backers p c, b i = votes p c * max 0 (1 - seats p W c * q / votes p c) := by
      unfold votes wt
      rw [Finset.sum_mul]
      exact Finset.sum_congr rfl (fun i hi => hb i c (Finset.mem_filter.1 hi).2)
    rw [this, mul_max_of_nonneg _ _ hv.le, mul_zero, mul_sub, mul_one, mul_div_cancel₀ _ hv.ne']
  · rw [Finset.not_nonempty_iff_eq_empty.1 hne, Finset.sum_empty]

include hpl

theorem enestroem_seat {k : ℕ} {A : Finset ℕ} : EnestroemWinner p k A ↔ LargestRemainders p k A := by
  have ht : 0 ≤ total p := Finset.sum_nonneg (fun i _ => (weight_pos hp i).le)
  have hq : 0 ≤ total p / k := div_nonneg ht (Nat.cast_nonneg _)
  have hg : ∀ c d, SameParty p c d → ∀ j : ℕ, max 0 (votes p c - ((j : ℚ) - 1) * (total p / k))
      = max 0 (votes p d - ((j : ℚ) - 1) * (total p / k)) := fun c d h j => by rw [h.votes_eq]
  have hmono : ∀ c (j : ℕ), 1 ≤ j → max 0 (votes p c - (((j + 1 : ℕ) : ℚ) - 1) * (total p / k))
      ≤ max 0 (votes p c - ((j : ℚ) - 1) * (total p / k)) := by
    intro c j _
    refine max_le_max le_rfl (sub_le_sub_left (mul_le_mul_of_nonneg_right ?_ hq) _)
    push_cast
    linarith
  have hval : ∀ {W : Finset ℕ} {b : VoterMap p}, EneBudgets p (total p / k) W b → ∀ c,
      support p b c = max 0 (votes p c - (((seats p W c + 1 : ℕ) : ℚ) - 1) * (total p / k)) := by
    intro W b hb c
    rw [support_ene hp hb]
    have e : ((seats p W c + 1 : ℕ) : ℚ) - 1 = seats p W c := by push_cast; ring
    rw [e]
    split_ifs with h
    · rfl
    · have : votes p c = 0 := by
        unfold votes wt
        rw [Finset.not_nonempty_iff_eq_empty.1 h, Finset.sum_empty]
      rw [this, zero_sub, max_eq_left]
      exact neg_nonpos.2 (mul_nonneg (Nat.cast_nonneg _) hq)
  have key := runWinner_seat (p := p) (Best := SupportBest p) (upd := enestroemUpd p (total p / k))
    (s₀ := fun i => (p.voters.get i).weight) hg hmono (fun W b => EneBudgets p (total p / k) W.toFinset b)
    (fun i c _ => by simp [seats])
    (fun W b c hb => by
      unfold SupportBest
      rw [hval hb]
      refine and_congr_right fun _ => and_congr_right fun _ => forall₃_congr fun d _ _ => ?_
      rw [hval hb])
    (fun W b c hb hbest => by
      have hcW := hbest.2.1
      have hcF : c ∉ W.toFinset := by simpa using hcW
      have e : (W ++ [c]).toFinset = insert c W.toFinset := by ext x; simp [or_comm]
      intro i d hd
      rw [e]
      unfold enestroemUpd
      by_cases hi : i ∈ backers p c
      · have hne : (backers p c).Nonempty := ⟨i, hi⟩
        have hv := votes_pos hp hne
        have hci := (Finset.mem_filter.1 hi).2
        have hs := sameParty_of_common hpl hd hci
        have hsup := support_ene hp hb c
        rw [if_pos hne] at hsup
        rw [if_pos hi, seats_insert_same hcF hs, hs.seats_eq, hs.votes_eq, hb i c hci, hsup]
        push_cast
        have e2 : 1 - ((seats p W.toFinset c : ℚ) + 1) * (total p / k) / votes p c
            = (votes p c - seats p W.toFinset c * (total p / k) - total p / k) / votes p c := by
          field_simp
          ring
        have e1 : 1 - (seats p W.toFinset c : ℚ) * (total p / k) / votes p c
            = (votes p c - seats p W.toFinset c * (total p / k)) / votes p c := by
          field_simp
        rw [e1, e2]
        generalize votes p c - seats p W.toFinset c * (total p / k) = R
        generalize total p / k = q at hq
        split_ifs with hlt
        · have hR : q < R := by
            rcases lt_max_iff.1 hlt with h | h
            · exact absurd h (not_lt.2 hq)
            · exact h
          have hR0 : 0 < R := hq.trans_lt hR
          rw [max_eq_right hR0.le, max_eq_right (div_nonneg hR0.le hv.le), max_eq_right (div_nonneg (by linarith) hv.le)]
          field_simp
        · rw [not_lt, max_le_iff] at hlt
          rw [max_eq_left (div_nonpos_of_nonpos_of_nonneg (by linarith) hv.le), mul_zero]
      · rw [if_neg hi, seats_insert_other, hb i d hd]
        exact fun h => hi (Finset.mem_filter.2 ⟨Finset.mem_univ _, (h i).1 hd⟩)) (k := k) (A := A)
  unfold EnestroemWinner
  rw [key]
  unfold SeatOutcome LargestRemainders
  refine and_congr_right fun _ => forall₂_congr fun c hc => forall₃_congr fun d _ _ => ?_
  have e : ((seats p A d + 1 : ℕ) : ℚ) - 1 = seats p A d := by push_cast; ring
  dsimp only
  rw [e]

/-- Largest remainders give every party its lower quota. -/
theorem remainders_lower_quota {k : ℕ} {A : Finset ℕ} (hA : LargestRemainders p k A) (c : ℕ) :
    min ⌊votes p c * k / total p⌋₊ (seats p (Finset.range p.numCand) c) ≤ seats p A c := by
  have ht : 0 ≤ total p := Finset.sum_nonneg (fun i _ => (weight_pos hp i).le)
  by_contra hlt
  rw [not_le, lt_min_iff] at hlt
  obtain ⟨d, hd1, hd2⟩ : ∃ d ∈ (Finset.range p.numCand).filter (SameParty p c), d ∉ A.filter (SameParty p c) := by
    by_contra hno
    push Not at hno
    exact absurd (Finset.card_le_card hno) (not_le.2 hlt.2)
  obtain ⟨d3, d4⟩ := Finset.mem_filter.1 hd1
  have hdA : d ∉ A := fun g => hd2 (Finset.mem_filter.2 ⟨g, d4⟩)
  have hT : 0 < total p := by
    rcases ht.lt_or_eq with h | h
    · exact h
    · rw [← h, div_zero, Nat.floor_zero] at hlt
      exact absurd hlt.1 (by omega)
  have hk : 0 < (k : ℚ) := by
    rcases (Nat.cast_nonneg k : (0 : ℚ) ≤ k).lt_or_eq with h | h
    · exact h
    · rw [← h, mul_zero, zero_div, Nat.floor_zero] at hlt
      exact absurd hlt.1 (by omega)
  have hq : (seats p A d : ℚ) + 1 ≤ votes p d * (k / total p) := by
    have : seats p A c + 1 ≤ ⌊votes p c * k / total p⌋₊ := hlt.1
    rw [mul_div_assoc, Nat.le_floor_iff (mul_nonneg (votes_nonneg hp c) (by positivity))] at this
    rw [← d4.seats_eq, ← d4.votes_eq]
    push_cast at this
    exact this
  have hq' : total p / k ≤ votes p d - seats p A d * (total p / k) := by
    have h1 := mul_le_mul_of_nonneg_right hq (show 0 ≤ total p / k by positivity)
    have h2 : votes p d * (k / total p) * (total p / k) = votes p d := by field_simp
    rw [h2] at h1
    linarith
  have hlt := seats_lt hp hpl (W := A) (r := k / total p) (k := k) (by rw [div_mul_cancel₀ _ hT.ne']) (by positivity) (fun x hx => by
    have h1 := hA.2 x hx d (Finset.mem_range.1 d3) hdA
    have h2 : total p / k ≤ max 0 (votes p x - ((seats p A x : ℚ) - 1) * (total p / k)) := (hq'.trans (le_max_right _ _)).trans h1
    have h3 : total p / k ≤ votes p x - ((seats p A x : ℚ) - 1) * (total p / k) := by
      rcases le_max_iff.1 h2 with h | h
      · exact absurd h (not_le.2 (by positivity))
      · exact h
    have h4 : (seats p A x : ℚ) * (total p / k) ≤ votes p x := by linarith
    have h5 := mul_le_mul_of_nonneg_right h4 (show 0 ≤ k / total p by positivity)
    have h6 : (seats p A x : ℚ) * (total p / k) * (k / total p) = seats p A x := by field_simp
    rwa [h6] at h5) hq
  rw [hA.1.2] at hlt
  exact lt_irrefl _ hlt

/-- Largest remainders give no party more than its upper quota, if every party has candidates enough. -/
theorem remainders_upper_quota {k : ℕ} (hk : 1 ≤ k) (hT : 0 < total p) {A : Finset ℕ} (hA : LargestRemainders p k A)
    (hen : ∀ i, ∃ d ∈ appr p i, d < p.numCand ∧ d ∉ A) (c : ℕ) (hcA : c ∈ A) : seats p A c ≤ ⌈votes p c * k / total p⌉₊ := by
  have hk' : 0 < (k : ℚ) := by exact_mod_cast hk
  by_contra hlt
  rw [not_le] at hlt
  have hlt' : votes p c * k / total p ≤ (seats p A c : ℚ) - 1 := by
    have h1 : votes p c * k / total p ≤ ((seats p A c - 1 : ℕ) : ℚ) := Nat.ceil_le.1 (by omega)
    rwa [Nat.cast_sub (seats_pos hcA), Nat.cast_one] at h1
  have hvc : votes p c ≤ ((seats p A c : ℚ) - 1) * (total p / k) := by
    rw [div_le_iff₀ hT] at hlt'
    rw [← mul_div_assoc, le_div_iff₀ hk']
    exact hlt'
  -- all parties have used up their votes
  have hspent : ∀ i : Fin p.voters.length, k / total p ≤ ∑ d ∈ A with d ∈ appr p i, 1 / votes p d := by
    intro i
    obtain ⟨d, d1, d2, d3⟩ := hen i
    have hv := votes_pos hp ⟨i, Finset.mem_filter.2 ⟨Finset.mem_univ _, d1⟩⟩
    have h1 := hA.2 c hcA d d2 d3
    rw [max_eq_left (a := (0 : ℚ)) (b := votes p c - _) (by linarith)] at h1
    have h2 := (le_max_right _ _).trans h1
    rw [spent_party hpl A d1, div_le_div_iff₀ hT hv]
    have h3 : votes p d ≤ seats p A d * (total p / k) := by linarith
    rw [← mul_div_assoc, le_div_iff₀ hk'] at h3
    linarith
  have hfil : ∀ i : Fin p.voters.length, (A.filter (fun c => (backers p c).Nonempty)).filter (fun d => d ∈ appr p i)
      = A.filter (fun d => d ∈ appr p i) := by
    intro i
    ext d
    simp only [Finset.mem_filter]
    constructor
    · exact fun h => ⟨h.1.1, h.2⟩
    · exact fun h => ⟨⟨h.1, i, Finset.mem_filter.2 ⟨Finset.mem_univ _, h.2⟩⟩, h.2⟩
  have hcard := spent_card hp hpl (W := A.filter (fun c => (backers p c).Nonempty)) (fun c hc => (Finset.mem_filter.1 hc).2)
  simp only [hfil] at hcard
  have hsum : ∑ i, (p.voters.get i).weight * (k / total p) = k := by
    rw [← Finset.sum_mul]
    change total p * _ = _
    field_simp
  have hle : (k : ℚ) ≤ ∑ i, (p.voters.get i).weight * ∑ d ∈ A with d ∈ appr p i, 1 / votes p d := by
    conv_lhs => rw [← hsum]
    exact Finset.sum_le_sum (fun i _ => mul_le_mul_of_nonneg_left (hspent i) (weight_pos hp i).le)
  by_cases hne : (backers p c).Nonempty
  · obtain ⟨i, hi⟩ := hne
    have hv := votes_pos hp ⟨i, hi⟩
    have hci := (Finset.mem_filter.1 hi).2
    have hlt : (k : ℚ) < ∑ i, (p.voters.get i).weight * ∑ d ∈ A with d ∈ appr p i, 1 / votes p d := by
      conv_lhs => rw [← hsum]
      refine Finset.sum_lt_sum (fun i _ => mul_le_mul_of_nonneg_left (hspent i) (weight_pos hp i).le)
        ⟨i, Finset.mem_univ _, mul_lt_mul_of_pos_left ?_ (weight_pos hp i)⟩
      rw [spent_party hpl A hci, div_lt_div_iff₀ hT hv]
      rw [← mul_div_assoc, le_div_iff₀ hk'] at hvc
      linarith
    rw [hcard] at hlt
    have h2 := Finset.card_le_card (Finset.filter_subset (fun c => (backers p c).Nonempty) A)
    rw [hA.1.2] at h2
    have : k < (A.filter (fun c => (backers p c).Nonempty)).card := by exact_mod_cast hlt
    omega
  · rw [hcard] at hle
    have h2 : (A.filter (fun c => (backers p c).Nonempty)).card < A.card :=
      Finset.card_lt_card ⟨Finset.filter_subset _ _, fun h => hne (Finset.mem_filter.1 (h hcA)).2⟩
    rw [hA.1.2] at h2
    have : k ≤ (A.filter (fun c => (backers p c).Nonempty)).card := by exact_mod_cast hle
    omega

end

theorem dhondt_iff {k : ℕ} {W : Finset ℕ} : DivisorOutcome (marginalFct .pav) p k W ↔ DHondt p k W := by
  unfold DivisorOutcome DHondt
  refine and_congr_right fun _ => forall₂_congr fun c hc => forall₃_congr fun d _ _ => ?_
  have := seats_pos (p := p) hc
  rw [pav_succ, mul_one_div]
  simp only [marginalFct, if_neg (show seats p W c ≠ 0 by omega), mul_one_div]

theorem sainteLague_iff {k : ℕ} {W : Finset ℕ} : DivisorOutcome (marginalFct .slav) p k W ↔ SainteLague p k W := by
  unfold DivisorOutcome SainteLague
  refine and_congr_right fun _ => forall₂_congr fun c hc => forall₃_congr fun d _ _ => ?_
  have := seats_pos (p := p) hc
  have e : (2 * ((seats p W d + 1 : ℕ) : ℚ) - 1) = 2 * seats p W d + 1 := by push_cast; ring
  simp only [marginalFct, if_neg (show seats p W c ≠ 0 by omega), mul_one_div, if_neg (Nat.succ_ne_zero _), e]

/-- Marginal score functions that never increase: all of the library's except `atleast<ell>` and `geom<base>` with base < 1. -/
theorem marginal_noninc {s : ScoreId} (hs : s = .pav ∨ s = .slav ∨ s = .cc ∨ s = .av ∨ ∃ b, s = .geom b ∧ 1 ≤ b) (i : ℕ) (hi : 1 ≤ i) :
    marginalFct s (i + 1) ≤ marginalFct s i := by
  obtain ⟨j, rfl⟩ := Nat.exists_eq_add_of_le' hi
  rcases hs with rfl | rfl | rfl | rfl | ⟨b, rfl, hb⟩
  · exact pav_noninc _ hi
  · simp only [marginalFct, if_neg (Nat.succ_ne_zero _)]
    push_cast
    exact one_div_le_one_div_of_le (by have : (0 : ℚ) ≤ j := Nat.cast_nonneg _; linarith) (by linarith)
  · simp only [marginalFct]
    split_ifs <;> first | omega | norm_num
  · simp [marginalFct]
  · simp only [marginalFct, if_neg (Nat.succ_ne_zero _), Nat.add_sub_cancel]
    exact one_div_le_one_div_of_le (by positivity) (pow_le_pow_right₀ hb (by omega))

end

/-! ## The theorems -/

theorem answers_of_iff {a : Args} {r : Except Err (List (List ℕ))} {S T : Finset ℕ → Prop} (h : ∀ A, S A ↔ T A) (hr : Answers a r S) :
    Answers a r T := by
  rwa [show T = S from funext fun A => propext (h A).symm]

section
variable (w : World) (hw : w.Exact) (p : Profile) (hp : p.WF) (hpl : p.isPartyList = true) (a : Args) {ruleId alg : String}
  (hal : prologue w.env ruleId p a = .ok alg)
include hw hp hpl hal

/-- **C97** PAV, seq-PAV and reverse seq-PAV elect on party lists exactly the D'Hondt outcomes. -/
theorem C97_dhondt_thiele (hr : ruleId ∈ ["pav", "seqpav", "revseqpav"]) (hcp : alg = "ortools-cp" → IntegerWeights p) :
    Answers a (compute w ruleId p a.committeesize none a.kw) (DHondt p a.k) := by
  have hpl' := (C06_isPartyList_iff p hp).1 hpl
  have hs : w.env.scoreId "pav" = .ok .pav := rfl
  simp only [List.mem_cons, List.not_mem_nil, or_false] at hr
  rcases hr with rfl | rfl | rfl
  · exact answers_of_iff (fun W => (thieleOpt_divisor hp hpl' _ pav_noninc).trans dhondt_iff) (C31_compute w hw p hp a _ alg hal (.thiele hs (Or.inl rfl) hcp))
  · exact answers_of_iff (fun W => (seqThiele_divisor hp hpl' _ pav_noninc).trans dhondt_iff) (C31_compute w hw p hp a _ alg hal (.seqThiele hs (marginalFct_nonneg .pav (by simp))))
  · exact answers_of_iff (fun W => (revseqThiele_divisor hp hpl' _ pav_noninc).trans dhondt_iff) (C31_compute w hw p hp a _ alg hal (.revseqThiele hs))

/-- **C97** seq-Phragmén and Equal Shares with seq-Phragmén completion (`rule-x`, `equal-shares`) elect on party lists exactly the
D'Hondt outcomes. -/
theorem C97_dhondt_loads
    (hr : ruleId ∈ ["seqphragmen", "rule-x", "equal-shares", "equal-shares-with-seqphragmen-completion"])
    (h1 : ApproversAtLeastOne p) (he : ExactAlg w.env alg) :
    Answers a (compute w ruleId p a.committeesize none a.kw) (DHondt p a.k) := by
  have hpl' := (C06_isPartyList_iff p hp).1 hpl
  rcases List.mem_cons.1 hr with rfl | hr
  · exact answers_of_iff (fun W => (phragmen_divisor hp hpl').trans dhondt_iff) (C31_compute w hw p hp a _ alg hal (.seqphragmen h1 he))
  · exact answers_of_iff (fun W => (mes_phragmen_divisor hp hpl').trans dhondt_iff) (C31_compute w hw p hp a _ alg hal (.equalShares hr h1 he))

/-- **C97** SLAV, seq-SLAV and reverse seq-SLAV elect on party lists exactly the Sainte-Laguë outcomes. -/
theorem C97_sainte_lague (hr : ruleId ∈ ["slav", "seqslav", "revseqslav"]) (hcp : alg = "ortools-cp" → IntegerWeights p) :
    Answers a (compute w ruleId p a.committeesize none a.kw) (SainteLague p a.k) := by
  have hpl' := (C06_isPartyList_iff p hp).1 hpl
  have hs : w.env.scoreId "slav" = .ok .slav := rfl
  have hn := marginal_noninc (s := .slav) (by simp)
  simp only [List.mem_cons, List.not_mem_nil, or_false] at hr
  rcases hr with rfl | rfl | rfl
  · exact answers_of_iff (fun W => (thieleOpt_divisor hp hpl' _ hn).trans sainteLague_iff) (C31_compute w hw p hp a _ alg hal (.thiele hs (Or.inr (Or.inl rfl)) hcp))
  · exact answers_of_iff (fun W => (seqThiele_divisor hp hpl' _ hn).trans sainteLague_iff) (C31_compute w hw p hp a _ alg hal (.seqThiele hs (marginalFct_nonneg .slav (by simp))))
  · exact answers_of_iff (fun W => (revseqThiele_divisor hp hpl' _ hn).trans sainteLague_iff) (C31_compute w hw p hp a _ alg hal (.revseqThiele hs))

/-- **C97** Phragmén-Eneström elects on party lists exactly the committees of the method of largest remainders. -/
theorem C97_largest_remainders (hr : ruleId = "phragmen-enestroem") (he : ExactAlg w.env alg) :
    Answers a (compute w ruleId p a.committeesize none a.kw) (LargestRemainders p a.k) := by
  subst hr
  exact answers_of_iff (fun W => enestroem_seat hp ((C06_isPartyList_iff p hp).1 hpl))
    (C31_compute w hw p hp a _ alg hal (.enestroem he))

/-- **C97** Equal Shares without completion gives every party its lower quota (or all its candidates) and nothing more. -/
theorem C97_lower_quotas (hr : ruleId ∈ ["rule-x-without-phragmen-phase", "equal-shares-without-phragmen-phase",
      "equal-shares-without-completion"]) (he : ExactAlg w.env alg) :
    Answers a (compute w ruleId p a.committeesize none a.kw) (LowerQuotas p a.k) := by
  have hpl' := (C06_isPartyList_iff p hp).1 hpl
  exact answers_of_iff (fun W => mes_none_quota hp hpl') (C31_compute w hw p hp a _ alg hal (.equalSharesNone hr he))

end

/-- **C97** On party lists the optimisation, the sequential and the reverse sequential version of a Thiele method with a
non-increasing marginal score function (AV, PAV, SLAV, CC and `geom<base>` with base ≥ 1) have the same winning committees: the
outcomes of the divisor method. -/
theorem C97_divisor (p : Profile) (hp : p.WF) (hpl : p.isPartyList = true) {s : ScoreId}
    (hs : s = .pav ∨ s = .slav ∨ s = .cc ∨ s = .av ∨ ∃ b, s = .geom b ∧ 1 ≤ b) (k : ℕ) (W : Finset ℕ) :
    (ThieleOpt (marginalFct s) p k W ↔ DivisorOutcome (marginalFct s) p k W) ∧
    (SeqThieleWinner (marginalFct s) p k W ↔ DivisorOutcome (marginalFct s) p k W) ∧
    (RevRun (marginalFct s) p W ∧ W.card = k ↔ DivisorOutcome (marginalFct s) p k W) := by
  have hpl' := (C06_isPartyList_iff p hp).1 hpl
  have hn := marginal_noninc hs
  exact ⟨thieleOpt_divisor hp hpl' _ hn, seqThiele_divisor hp hpl' _ hn, revseqThiele_divisor hp hpl' _ hn⟩

/-- **C97** The same for calls of `compute`: `pav`, `slav`, `cc`, `geom<base>` and their sequential and reverse sequential versions. -/
theorem C97_divisor_compute (w : World) (hw : w.Exact) (p : Profile) (hp : p.WF) (hpl : p.isPartyList = true) (a : Args)
    {sid pre alg : String} {s : ScoreId} (hsid : w.env.scoreId sid = .ok s)
    (hs : s = .pav ∨ s = .slav ∨ s = .cc ∨ (s = .av ∧ pre ≠ "") ∨ ∃ b, s = .geom b ∧ 1 < b) (hpre : pre ∈ ["", "seq", "revseq"])
    (hal : prologue w.env (pre ++ sid) p a = .ok alg) (hcp : alg = "ortools-cp" → IntegerWeights p) :
    Answers a (compute w (pre ++ sid) p a.committeesize none a.kw) (DivisorOutcome (marginalFct s) p a.k) := by
  have hs' : s = .pav ∨ s = .slav ∨ s = .cc ∨ s = .av ∨ ∃ b, s = .geom b ∧ 1 ≤ b := by
    rcases hs with h | h | h | h | ⟨b, h, hb⟩
    · exact Or.inl h
    · exact Or.inr (Or.inl h)
    · exact Or.inr (Or.inr (Or.inl h))
    · exact Or.inr (Or.inr (Or.inr (Or.inl h.1)))
    · exact Or.inr (Or.inr (Or.inr (Or.inr ⟨b, h, hb.le⟩)))
  have hnn : ∀ i, 0 ≤ marginalFct s i := by
    rcases hs' with rfl | rfl | rfl | rfl | ⟨b, rfl, hb⟩
    · exact marginalFct_nonneg _ (by simp)
    · exact marginalFct_nonneg _ (by simp)
    · exact marginalFct_nonneg _ (by simp)
    · exact marginalFct_nonneg _ (by simp)
    · exact marginalFct_nonneg _ (by rintro b' ⟨⟩; linarith)
  have hd := C97_divisor p hp hpl hs' a.k
  simp only [List.mem_cons, List.not_mem_nil, or_false] at hpre
  rcases hpre with rfl | rfl | rfl
  · have e : "" ++ sid = sid := String.empty_append
    rw [e] at hal ⊢
    refine answers_of_iff (fun W => (hd W).1) (C31_compute w hw p hp a _ alg hal (.thiele hsid ?_ hcp))
    rcases hs with h | h | h | h | ⟨b, h, hb⟩
    · exact Or.inl h
    · exact Or.inr (Or.inl h)
    · exact Or.inr (Or.inr (Or.inl h))
    · exact absurd rfl h.2
    · exact Or.inr (Or.inr (Or.inr ⟨b, h, Or.inl hb⟩))
  · exact answers_of_iff (fun W => (hd W).2.1) (C31_compute w hw p hp a _ alg hal (.seqThiele hsid hnn))
  · exact answers_of_iff (fun W => (hd W).2.2) (C31_compute w hw p hp a _ alg hal (.revseqThiele hsid))

/-- **C97** D'Hondt outcomes give every party at least its lower quota (or all its candidates). -/
theorem C97_dhondt_quota (p : Profile) (hp : p.WF) (hpl : p.isPartyList = true) (k : ℕ) (W : Finset ℕ) (h : DHondt p k W) (c : ℕ) :
    min ⌊votes p c * k / total p⌋₊ (seats p (Finset.range p.numCand) c) ≤ seats p W c :=
  divisor_lower_quota hp ((C06_isPartyList_iff p hp).1 hpl) (dhondt_iff.2 h) c

/-- **C97** The method of largest remainders gives every party at least its lower quota (or all its candidates), and at most its upper
quota if every voter approves some candidate that is not elected. -/
theorem C97_remainders_quota (p : Profile) (hp : p.WF) (hpl : p.isPartyList = true) (hv : p.voters ≠ []) (k : ℕ) (hk : 1 ≤ k)
    (W : Finset ℕ) (h : LargestRemainders p k W) :
    (∀ c, min ⌊votes p c * k / total p⌋₊ (seats p (Finset.range p.numCand) c) ≤ seats p W c) ∧
    ((∀ i, ∃ d ∈ appr p i, d ∉ W) → ∀ c ∈ W, seats p W c ≤ ⌈votes p c * k / total p⌉₊) := by
  have hpl' := (C06_isPartyList_iff p hp).1 hpl
  have hT : 0 < total p := Finset.sum_pos (fun i _ => weight_pos hp i) ⟨⟨0, List.length_pos_iff.2 hv⟩, Finset.mem_univ _⟩
  refine ⟨remainders_lower_quota hp hpl' h, fun hen => remainders_upper_quota hp hpl' hk hT h (fun i => ?_)⟩
  obtain ⟨d, h1, h2⟩ := hen i
  exact ⟨d, h1, hp.lt _ (List.get_mem _ _) _ (List.mem_toFinset.1 h1), h2⟩

/-! ### The hypotheses can be met -/

/-- Three parties: candidates 0, 1, 2 with 5 votes, 3, 4 with 3 votes, 5 with 1 vote; candidate 6 has no supporters. -/
def threeParties : Profile := ⟨7, [⟨[0, 1, 2], 3⟩, ⟨[2, 1, 0], 2⟩, ⟨[3, 4], 3⟩, ⟨[5], 1⟩], []⟩

theorem threeParties_wf : threeParties.WF := ⟨by decide, by decide, by decide, by decide +kernel⟩

theorem threeParties_partyList : threeParties.isPartyList = true := by decide +kernel

/-- Four seats: D'Hondt gives three seats to the large party and one to the second; with Sainte-Laguë the small party may get a seat. -/
example : DivisorOutcome (marginalFct .pav) threeParties 4 {0, 1, 2, 3} ∧ ¬ DivisorOutcome (marginalFct .pav) threeParties 4 {0, 1, 3, 5} := by
  constructor
  · refine ⟨⟨by decide +kernel, by decide +kernel⟩, by decide +kernel⟩
  · rintro ⟨-, h⟩
    exact absurd (h 5 (by decide) 2 (by decide) (by decide)) (by decide +kernel)

example : DivisorOutcome (marginalFct .slav) threeParties 4 {0, 1, 3, 5} :=
  ⟨⟨by decide +kernel, by decide +kernel⟩, by decide +kernel⟩

/-- Largest remainders: quota 9/4, remainders 1/2 (after two seats), 3/4 (after one seat) and 1. -/
example : LargestRemainders threeParties 4 {0, 1, 3, 5} ∧ ¬ LargestRemainders threeParties 4 {0, 1, 2, 3} := by
  constructor
  · exact ⟨⟨by decide +kernel, by decide +kernel⟩, by decide +kernel⟩
  · rintro ⟨-, h⟩
    exact absurd (h 0 (by decide) 5 (by decide) (by decide)) (by decide +kernel)

example (w : World) (hw : w.env = exampleEnv) :
    prologue w.env "seqpav" threeParties { committeesize := 4, resolute := false } = .ok "standard" := by rw [hw]; decide +kernel

example (w : World) (hw : w.env = exampleEnv) :
    prologue w.env "rule-x" threeParties { committeesize := 4, algorithm := "standard-fractions", resolute := false } = .ok "standard-fractions" ∧
    ApproversAtLeastOne threeParties ∧ ExactAlg w.env "standard-fractions" :=
  ⟨by rw [hw]; decide +kernel, approversAtLeastOne_of_weights (by decide +kernel), Or.inl rfl⟩

end Abc
