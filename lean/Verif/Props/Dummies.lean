import Verif.Spec.Dummies
import Verif.Props.Dominance
import Verif.Props.Neutrality

/-!
# C111 Additional candidates whom nobody approves
-/

namespace Abc

open Spec

/-- The profile with `n` candidates (named `names`) and the same ballots. -/
def widen (p : Profile) (n : ℕ) (names : List Name) : Profile := ⟨n, p.voters, names⟩

section
variable {p : Profile} {n : ℕ} {names : List Name}

theorem widen_wf (hp : p.WF) (hn : p.numCand ≤ n) : (widen p n names).WF :=
  ⟨lt_of_lt_of_le hp.pos hn, hp.nodup, fun v hv c hc => lt_of_lt_of_le (hp.lt v hv c hc) hn, hp.weight⟩

theorem unapproved_new (hp : p.WF) {d : ℕ} (hd : p.numCand ≤ d) : Unapproved p d := fun v hv h =>
  absurd (hp.lt v hv d (List.mem_toFinset.1 h)) (not_lt.2 hd)

theorem committee_widen (hn : p.numCand ≤ n) {k : ℕ} {A : Finset ℕ} (h : IsCommittee p k A) : IsCommittee (widen p n names) k A :=
  ⟨h.1.trans (Finset.range_subset_range.2 hn), h.2⟩

theorem approved_range (hp : p.WF) : approvedSet p ⊆ Finset.range p.numCand := fun c hc => by
  obtain ⟨i, hi⟩ := approved_iff.1 (mem_approvedSet_iff.1 hc)
  exact Finset.mem_range.2 (appr_lt hp (Finset.mem_filter.1 hi).2)

/-- A committee with enough approved candidates that elects approved candidates first has only approved candidates. -/
theorem approved_of_first (hp : p.WF) {A : Finset ℕ} (h : FirstSet p A) (hA : A.card ≤ (approvedSet p).card) : A ⊆ approvedSet p := by
  intro d hd
  rw [mem_approvedSet_iff]
  intro hu
  have h1 : approvedSet p ⊆ A.erase d := fun c hc => by
    have hc' := mem_approvedSet_iff.1 hc
    exact Finset.mem_erase.2 ⟨fun e => hc' (e ▸ hu), h d hd hu c (Finset.mem_range.1 (approved_range hp hc)) hc'⟩
  have h2 := Finset.card_le_card h1
  rw [Finset.card_erase_of_mem hd] at h2
  have : 0 < A.card := Finset.card_pos.2 ⟨d, hd⟩
  omega

theorem first_widen {k : ℕ} (hp : p.WF) (hn : p.numCand ≤ n) (hk : k ≤ (approvedSet p).card) {A : Finset ℕ}
    (h : FirstSet (widen p n names) A) (hA : A.card ≤ k) : A ⊆ Finset.range p.numCand :=
  (approved_of_first (widen_wf hp hn) h (hA.trans hk)).trans (approved_range hp)

/-- Rules that maximise something. -/
theorem opt_widen {k : ℕ} {P : Finset ℕ → Prop} {R : Finset ℕ → Finset ℕ → Prop} (ht : ∀ A B C, R A B → R B C → R A C)
    (hn : p.numCand ≤ n)
    (hsub : ∀ A, (IsCommittee (widen p n names) k A ∧ P A ∧ ∀ B, IsCommittee (widen p n names) k B → P B → R B A) →
      A ⊆ Finset.range p.numCand)
    (hex : ∃ A, IsCommittee (widen p n names) k A ∧ P A ∧ ∀ B, IsCommittee (widen p n names) k B → P B → R B A) (A : Finset ℕ) :
    (IsCommittee p k A ∧ P A ∧ ∀ B, IsCommittee p k B → P B → R B A) ↔
      (IsCommittee (widen p n names) k A ∧ P A ∧ ∀ B, IsCommittee (widen p n names) k B → P B → R B A) := by
  constructor
  · rintro ⟨h1, h2, h3⟩
    obtain ⟨C, hC⟩ := hex
    exact ⟨committee_widen hn h1, h2, fun B hB hPB => ht _ _ _ (hC.2.2 B hB hPB) (h3 C ⟨hsub C hC, hC.1.2⟩ hC.2.1)⟩
  · intro h
    exact ⟨⟨hsub A h, h.1.2⟩, h.2.1, fun B hB hPB => h.2.2 B (committee_widen hn hB) hPB⟩

theorem opt_widen' {k : ℕ} {R : Finset ℕ → Finset ℕ → Prop} (ht : ∀ A B C, R A B → R B C → R A C) (hn : p.numCand ≤ n)
    (hsub : ∀ A, (IsCommittee (widen p n names) k A ∧ ∀ B, IsCommittee (widen p n names) k B → R B A) → A ⊆ Finset.range p.numCand)
    (hex : ∃ A, IsCommittee (widen p n names) k A ∧ ∀ B, IsCommittee (widen p n names) k B → R B A) (A : Finset ℕ) :
    (IsCommittee p k A ∧ ∀ B, IsCommittee p k B → R B A) ↔
      (IsCommittee (widen p n names) k A ∧ ∀ B, IsCommittee (widen p n names) k B → R B A) := by
  have := opt_widen (P := fun _ => True) ht hn (k := k) (names := names) (fun A h => hsub A ⟨h.1, fun B hB => h.2.2 B hB trivial⟩)
    (by obtain ⟨A, h1, h2⟩ := hex; exact ⟨A, h1, trivial, fun B hB _ => h2 B hB⟩) A
  simpa using this

/-- Rules that elect one candidate after the other. -/
theorem run_widen {σ : Type} {Best Best' : List ℕ → σ → ℕ → Prop} {upd : List ℕ → σ → ℕ → σ} {W₀ : List ℕ} {s₀ : σ} {m : ℕ}
    (h2 : ∀ W s c, c < m → Best' W s c → Best W s c) {W : List ℕ} {s : σ} (h : Run Best' upd W₀ s₀ W s) (hW : ∀ c ∈ W, c < m) :
    Run Best upd W₀ s₀ W s := by
  induction h with
  | start => exact .start
  | @step W s c _ hb ih => exact .step (ih fun d hd => hW d (List.mem_append_left _ hd)) (h2 _ _ _ (hW c (by simp)) hb)

theorem run_weaken {σ : Type} {Best Best' : List ℕ → σ → ℕ → Prop} {upd : List ℕ → σ → ℕ → σ} {W₀ : List ℕ} {s₀ : σ}
    (h1 : ∀ W s c, Best W s c → Best' W s c) {W : List ℕ} {s : σ} (h : Run Best upd W₀ s₀ W s) : Run Best' upd W₀ s₀ W s := by
  induction h with
  | start => exact .start
  | step _ hb ih => exact .step ih (h1 _ _ _ hb)

theorem runWinner_widen {σ : Type} {Best Best' : List ℕ → σ → ℕ → Prop} {upd : List ℕ → σ → ℕ → σ} {s₀ : σ} {k m : ℕ}
    (h1 : ∀ W s c, Best W s c → Best' W s c) (h2 : ∀ W s c, c < m → Best' W s c → Best W s c)
    (hsub : ∀ A, RunWinner Best' upd s₀ k A → A ⊆ Finset.range m) (A : Finset ℕ) :
    RunWinner Best upd s₀ k A ↔ RunWinner Best' upd s₀ k A := by
  constructor
  · rintro ⟨W, s, h, hl, e⟩
    exact ⟨W, s, run_weaken h1 h, hl, e⟩
  · intro hA
    have := hsub A hA
    obtain ⟨W, s, h, hl, rfl⟩ := hA
    exact ⟨W, s, run_widen h2 h fun c hc => Finset.mem_range.1 (this (List.mem_toFinset.2 hc)), hl, rfl⟩

/-! ### The rules -/

theorem phragBest_widen (hp : p.WF) (hn : p.numCand ≤ n) (W : List ℕ) (x : VoterMap p) (c : ℕ) (h : PhragBest p W x c) :
    PhragBest (widen p n names) W x c := by
  refine ⟨lt_of_lt_of_le h.1 hn, h.2.1, ?_⟩
  rcases h.2.2 with ⟨h1, h2⟩ | h1
  · refine Or.inl ⟨h1, fun d hd hdW hdn => ?_⟩
    by_cases hlt : d < p.numCand
    · exact h2 d hlt hdW hdn
    · exact absurd (unapproved_new hp (not_lt.1 hlt)) (approved_iff.2 hdn)
  · refine Or.inr fun d hd hdW => ?_
    by_cases hlt : d < p.numCand
    · exact h1 d hlt hdW
    · exact unapproved_iff.1 (unapproved_new hp (not_lt.1 hlt))

theorem phragBest_narrow (hn : p.numCand ≤ n) (W : List ℕ) (x : VoterMap p) (c : ℕ) (hc : c < p.numCand)
    (h : PhragBest (widen p n names) W x c) : PhragBest p W x c := by
  refine ⟨hc, h.2.1, ?_⟩
  rcases h.2.2 with ⟨h1, h2⟩ | h1
  · exact Or.inl ⟨h1, fun d hd hdW hdn => h2 d (lt_of_lt_of_le hd hn) hdW hdn⟩
  · exact Or.inr fun d hd hdW => h1 d (lt_of_lt_of_le hd hn) hdW

theorem mesBest_widen (hp : p.WF) (hn : p.numCand ≤ n) (W : List ℕ) (b : VoterMap p) (c : ℕ) :
    MESBest p W b c ↔ MESBest (widen p n names) W b c := by
  constructor
  · rintro ⟨h1, h2, q, hq, h3⟩
    refine ⟨lt_of_lt_of_le h1 hn, h2, q, hq, fun d hd hdW q' hq' => ?_⟩
    by_cases hlt : d < p.numCand
    · exact h3 d hlt hdW q' hq'
    · exact absurd (unapproved_new hp (not_lt.1 hlt)) (approved_of_price hq')
  · rintro ⟨h1, h2, q, hq, h3⟩
    refine ⟨?_, h2, q, hq, fun d hd hdW q' hq' => h3 d (lt_of_lt_of_le hd hn) hdW q' hq'⟩
    by_contra hlt
    exact approved_of_price (p := p) hq (unapproved_new hp (not_lt.1 hlt))

theorem mesBest_eq (hp : p.WF) (hn : p.numCand ≤ n) : MESBest p = MESBest (widen p n names) := by
  funext W b c
  exact propext (mesBest_widen hp hn W b c)

theorem mesDone_widen (hp : p.WF) (hn : p.numCand ≤ n) (W : List ℕ) (b : VoterMap p) : MESDone p W b ↔ MESDone (widen p n names) W b := by
  constructor
  · intro h c hc hcW ha
    by_cases hlt : c < p.numCand
    · exact h c hlt hcW ha
    · have h1 : backers p c = ∅ := unapproved_iff.1 (unapproved_new hp (not_lt.1 hlt))
      have h2 : 1 ≤ ∑ i ∈ backers p c, b i := ha
      rw [h1, Finset.sum_empty] at h2
      linarith
  · intro h c hc hcW ha
    exact h c (lt_of_lt_of_le hc hn) hcW ha

theorem firstOutcome_widen (hp : p.WF) (hn : p.numCand ≤ n) (k : ℕ) (r : ℚ) (W : List ℕ) :
    FirstOutcome p k r W ↔ FirstOutcome (widen p n names) k r W := by
  have key : ∀ b, (RunFirst (MESBest p) (mesUpd p) [] (budgetOf p r) W b ∧ (W.length = k ∨ (W.length < k ∧ MESDone p W b))) ↔
      (RunFirst (MESBest (widen p n names)) (mesUpd p) [] (budgetOf p r) W b ∧
        (W.length = k ∨ (W.length < k ∧ MESDone (widen p n names) W b))) := by
    intro b
    rw [mesBest_eq (names := names) hp hn, mesDone_widen (names := names) hp hn]
    exact Iff.rfl
  constructor
  · rintro ⟨b, hb⟩
    exact ⟨b, (key b).1 hb⟩
  · rintro ⟨b, hb⟩
    exact ⟨b, (key b).2 hb⟩

theorem increment_widen (hp : p.WF) (hn : p.numCand ≤ n) {k : ℕ} (hk : k ≤ (approvedSet p).card) (A : Finset ℕ) :
    IncrementWinner p k A ↔ IncrementWinner (widen p n names) k A := by
  have e : (approvedSet (widen p n names)) = approvedSet p := rfl
  have et : total (widen p n names) = total p := rfl
  unfold IncrementWinner
  rw [e, et]
  simp only [not_lt.2 hk, false_and, false_or, ← firstOutcome_widen hp hn]

theorem mes_widen (hp : p.WF) (hn : p.numCand ≤ n) {k : ℕ} (hk : k ≤ (approvedSet p).card) {completion : Completion} {r : ℚ}
    (hcompl : completion = .none ∨ completion = .seqphragmen ∨ completion = .av) (A : Finset ℕ) :
    MESWinner p k completion r A ↔ MESWinner (widen p n names) k completion r A := by
  have hsub : ∀ A, MESWinner (widen p n names) k completion r A → A.card ≤ k → A ⊆ Finset.range p.numCand := fun A hA hc =>
    first_widen hp hn hk (first_mes (widen_wf hp hn) hA) hc
  have key : ∀ W b, Run (MESBest (widen p n names)) (mesUpd p) [] (budgetOf p r) W b → W.length < k → MESDone p W b →
      (Completed p k completion W b A ↔ Completed (widen p n names) k completion W b A) := by
    intro W b hrun hl hdone
    have hdone' := (mesDone_widen (n := n) (names := names) hp hn W b).1 hdone
    have hwin : ∀ B, Completed (widen p n names) k completion W b B → MESWinner (widen p n names) k completion r B := fun B hB =>
      ⟨W, b, hrun, Or.inr ⟨hl, hdone', hB⟩⟩
    rcases hcompl with rfl | rfl | rfl
    · exact Iff.rfl
    · constructor
      · rintro ⟨V, x, h, e1, e2⟩
        exact ⟨V, x, run_weaken (phragBest_widen hp hn) h, e1, e2⟩
      · intro hA
        have hA' := hwin A hA
        obtain ⟨V, x, h, e1, rfl⟩ := hA
        have hr := hsub _ hA' ((List.toFinset_card_le V).trans e1.le)
        exact ⟨V, x, run_widen (phragBest_narrow hn) h fun c hc => Finset.mem_range.1 (hr (List.mem_toFinset.2 hc)), e1, rfl⟩
    · refine opt_widen (P := fun B => W.toFinset ⊆ B) (R := fun B A => ∑ c ∈ B, candScore .av p c ≤ ∑ c ∈ A, candScore .av p c)
        (fun A B C h1 h2 => h1.trans h2) hn (fun B hB => hsub B (hwin B hB) hB.1.2.le) ?_ A
      have hWsub : W.toFinset ⊆ Finset.range n := fun c hc => by
        have := approved_mes hrun c (List.mem_toFinset.1 hc)
        obtain ⟨i, hi⟩ := approved_iff.1 this
        exact Finset.mem_range.2 (lt_of_lt_of_le (appr_lt hp (Finset.mem_filter.1 hi).2) hn)
      have hkn : k ≤ (Finset.range n).card :=
        (hk.trans (Finset.card_le_card (approved_range hp))).trans (by simpa using hn)
      obtain ⟨B₀, hB1, hB2, hB3⟩ := Finset.exists_subsuperset_card_eq hWsub ((List.toFinset_card_le W).trans hl.le) hkn
      obtain ⟨B, hB, hmax⟩ := ((Finset.range n).powersetCard k |>.filter (fun B => W.toFinset ⊆ B)).exists_max_image
        (fun B => ∑ c ∈ B, candScore .av p c) ⟨B₀, Finset.mem_filter.2 ⟨Finset.mem_powersetCard.2 ⟨hB2, hB3⟩, hB1⟩⟩
      rw [Finset.mem_filter, Finset.mem_powersetCard] at hB
      exact ⟨B, hB.1, hB.2, fun C hC hPC => hmax C (Finset.mem_filter.2 ⟨Finset.mem_powersetCard.2 hC, hPC⟩)⟩
  constructor
  · rintro ⟨W, b, h, h2⟩
    rw [mesBest_eq (n := n) (names := names) hp hn] at h
    refine ⟨W, b, h, ?_⟩
    rcases h2 with h2 | ⟨h2, h3, h4⟩
    · exact Or.inl h2
    · exact Or.inr ⟨h2, (mesDone_widen hp hn W b).1 h3, (key W b h h2 h3).1 h4⟩
  · rintro ⟨W, b, h, h2⟩
    refine ⟨W, b, by rw [mesBest_eq (n := n) (names := names) hp hn]; exact h, ?_⟩
    rcases h2 with h2 | ⟨h2, h3, h4⟩
    · exact Or.inl h2
    · have h3' := (mesDone_widen hp hn W b).2 h3
      exact Or.inr ⟨h2, h3', (key W b h h2 h3').2 h4⟩

theorem maximinBest_widen (hp : p.WF) (hn : p.numCand ≤ n) (W : List ℕ) (_ : Unit) (c : ℕ) (h : MaximinBest 0 p W c) :
    MaximinBest 0 (widen p n names) W c := by
  refine ⟨lt_of_lt_of_le h.1 hn, h.2.1, fun d hd hdW t ht => ?_⟩
  by_cases hlt : d < p.numCand
  · exact h.2.2 d hlt hdW t ht
  · have hu := unapproved_new hp (not_lt.1 hlt)
    have ht0 : t ≤ 0 := by
      obtain ⟨f, -, h2, -, h4⟩ := ht
      refine (h4 d (Finset.mem_insert_self _ _)).trans (le_of_eq (Finset.sum_eq_zero fun i _ => ?_))
      by_contra hne
      exact hu _ (List.get_mem _ i) (h2 i d hne)
    refine ⟨fun _ _ => 0, fun _ _ => le_rfl, fun _ _ h => absurd rfl h, fun i => ?_, fun c _ => ?_⟩
    · rw [Finset.sum_const_zero]
      exact (weight_pos hp i).le
    · simpa using ht0

theorem gain_new (f : ℕ → ℚ) {d : ℕ} (hu : Unapproved p d) (W : Finset ℕ) : gain f p W d = 0 := by
  unfold gain score
  rw [sub_eq_zero]
  congr 1
  refine List.map_congr_left fun v hv => ?_
  have : v.A ∩ insert d W = v.A ∩ W := by
    rw [Finset.inter_insert_of_notMem (hu v hv)]
  unfold util
  rw [this]

theorem seqRun_widen (hp : p.WF) (hn : p.numCand ≤ n) {f : ℕ → ℚ} (hf : ∀ i, 0 ≤ f i) {W : List ℕ} (h : SeqRun f p W) :
    SeqRun f (widen p n names) W := by
  induction h with
  | nil => exact .nil
  | @snoc W c _ h2 h3 h4 ih =>
    refine .snoc ih (lt_of_lt_of_le h2 hn) h3 fun d hd hdW => ?_
    by_cases hlt : d < p.numCand
    · exact h4 d hlt hdW
    · have e1 : gain f (widen p n names) W.toFinset d = 0 := gain_new f (p := p) (unapproved_new hp (not_lt.1 hlt)) _
      rw [e1]
      exact gain_nonneg f hf p hp _ _

theorem seqRun_narrow (hn : p.numCand ≤ n) {f : ℕ → ℚ} {W : List ℕ} (h : SeqRun f (widen p n names) W) (hW : ∀ c ∈ W, c < p.numCand) :
    SeqRun f p W := by
  induction h with
  | nil => exact .nil
  | @snoc W c _ h2 h3 h4 ih =>
    exact .snoc (ih fun d hd => hW d (List.mem_append_left _ hd)) (hW c (by simp)) h3 fun d hd hdW => h4 d (lt_of_lt_of_le hd hn) hdW

/-- Removing candidates of minimal loss, starting from `S`. -/
inductive RevFrom (f : ℕ → ℚ) (p : Profile) (S : Finset ℕ) : Finset ℕ → Prop
  | start : RevFrom f p S S
  | remove {W : Finset ℕ} {c : ℕ} : RevFrom f p S W → c ∈ W → (∀ d ∈ W, loss f p W c ≤ loss f p W d) → RevFrom f p S (W.erase c)

theorem loss_eq_gain (f : ℕ → ℚ) {W : Finset ℕ} {c : ℕ} (hc : c ∈ W) : loss f p W c = gain f p (W.erase c) c := by
  unfold loss gain
  rw [Finset.insert_erase hc]

theorem loss_pos_of_approved (hp : p.WF) {f : ℕ → ℚ} (hf : ∀ i, 0 < f (i + 1)) {W : Finset ℕ} {c : ℕ} (hc : c ∈ W)
    (h : ¬ Unapproved p c) : 0 < loss f p W c := by
  rw [loss_eq_gain f hc]
  unfold gain
  rw [score_insert f p _ c (Finset.notMem_erase c W), voters_sum_fin]
  obtain ⟨i, hi⟩ := approved_iff.1 h
  have h0 : ∀ j : Fin p.voters.length, 0 ≤ (if c ∈ (p.voters.get j).A then (p.voters.get j).weight * f (util (p.voters.get j) (W.erase c) + 1) else 0) := by
    intro j
    split
    · exact mul_nonneg (weight_pos hp j).le (hf _).le
    · exact le_rfl
  refine Finset.sum_pos' (fun j _ => h0 j) ⟨i, Finset.mem_univ i, ?_⟩
  rw [if_pos (show c ∈ (p.voters.get i).A from (Finset.mem_filter.1 hi).2)]
  exact mul_pos (weight_pos hp i) (hf _)

theorem loss_new (f : ℕ → ℚ) {W : Finset ℕ} {c : ℕ} (hc : c ∈ W) (h : Unapproved p c) : loss f p W c = 0 := by
  rw [loss_eq_gain f hc, gain_new f h]

theorem revRun_from (hp : p.WF) {f : ℕ → ℚ} (hf : ∀ i, 0 < f (i + 1)) {A : Finset ℕ} (h : RevRun f p A) :
    approvedSet p ⊆ A ∨ RevFrom f p (approvedSet p) A := by
  induction h with
  | all => exact Or.inl (approved_range hp)
  | @remove W c _ hc hmin ih =>
    rcases ih with ih | ih
    · by_cases hca : c ∈ approvedSet p
      · have : W = approvedSet p := by
          refine Finset.Subset.antisymm (fun d hd => ?_) ih
          rw [mem_approvedSet_iff]
          intro hu
          have h1 := hmin d hd
          rw [loss_new f hd hu] at h1
          exact absurd (loss_pos_of_approved hp hf hc (mem_approvedSet_iff.1 hca)) (not_lt.2 h1)
        right
        rw [this] at hc hmin ⊢
        exact .remove .start hc hmin
      · left
        exact fun d hd => Finset.mem_erase.2 ⟨fun e => hca (e ▸ hd), ih hd⟩
    · exact Or.inr (.remove ih hc hmin)

theorem revRun_of_from (hp : p.WF) {f : ℕ → ℚ} (hf : ∀ i, 0 < f (i + 1)) {A : Finset ℕ} (h : RevFrom f p (approvedSet p) A) :
    RevRun f p A := by
  induction h with
  | start =>
    have key : ∀ D : Finset ℕ, D ⊆ Finset.range p.numCand \ approvedSet p → RevRun f p (Finset.range p.numCand \ D) := by
      intro D
      induction D using Finset.induction_on with
      | empty => intro _; rw [Finset.sdiff_empty]; exact .all
      | @insert c D hcD ih =>
        intro hD
        have hc := Finset.mem_sdiff.1 (hD (Finset.mem_insert_self _ _))
        have hu : Unapproved p c := by
          by_contra hu
          exact hc.2 (mem_approvedSet_iff.2 hu)
        have hcm : c ∈ Finset.range p.numCand \ D := Finset.mem_sdiff.2 ⟨hc.1, hcD⟩
        have e : Finset.range p.numCand \ insert c D = (Finset.range p.numCand \ D).erase c := by
          ext x
          simp only [Finset.mem_sdiff, Finset.mem_insert, Finset.mem_erase]
          tauto
        rw [e]
        refine .remove (ih ((Finset.subset_insert _ _).trans hD)) hcm fun d hd => ?_
        rw [loss_new f hcm hu]
        by_cases hda : Unapproved p d
        · exact (loss_new f hd hda).ge
        · exact (loss_pos_of_approved hp hf hd hda).le
    have := key (Finset.range p.numCand \ approvedSet p) subset_rfl
    rwa [Finset.sdiff_sdiff_eq_self (approved_range hp)] at this
  | remove _ hc hmin ih => exact .remove ih hc hmin

theorem revFrom_widen {f : ℕ → ℚ} {S A : Finset ℕ} : RevFrom f p S A ↔ RevFrom f (widen p n names) S A := by
  constructor
  · intro h
    induction h with
    | start => exact .start
    | remove _ hc hmin ih => exact .remove ih hc hmin
  · intro h
    induction h with
    | start => exact .start
    | remove _ hc hmin ih => exact .remove ih hc hmin

theorem revRun_iff (hp : p.WF) {f : ℕ → ℚ} (hf : ∀ i, 0 < f (i + 1)) {A : Finset ℕ} (hA : A ⊆ approvedSet p) :
    RevRun f p A ↔ RevFrom f p (approvedSet p) A := by
  refine ⟨fun h => ?_, revRun_of_from hp hf⟩
  rcases revRun_from hp hf h with h1 | h1
  · rw [Finset.Subset.antisymm hA h1]
    exact .start
  · exact h1

theorem loadWithin_widen {A : Finset ℕ} {t : ℚ} : LoadWithin p A t ↔ LoadWithin (widen p n names) A t :=
  ⟨fun ⟨x, ⟨h1, h2, h3⟩, h4⟩ => ⟨x, ⟨h1, h2, h3⟩, h4⟩, fun ⟨x, ⟨h1, h2, h3⟩, h4⟩ => ⟨x, ⟨h1, h2, h3⟩, h4⟩⟩

theorem prologue_widen {env : Env} {ruleId alg : String} {a : Args} (hn : p.numCand ≤ n) (h : prologue env ruleId p a = .ok alg) :
    prologue env ruleId (widen p n names) a = .ok alg := by
  have hv := validCall_of_prologue h
  have h1 : ¬ (a.committeesize > (p.numCand : ℤ)) := by
    have := hv.le
    have := hv.pos
    unfold Args.k at *
    omega
  have h2 : ¬ (a.committeesize > (n : ℤ)) := by omega
  have e1 : (widen p n names).numCand = n := rfl
  have e2 : (widen p n names).voters = p.voters := rfl
  have e3 : ∀ ri algorithm, verifyComputeParameters ri (widen p n names) a.committeesize algorithm a.resolute a.max =
      verifyComputeParameters ri p a.committeesize algorithm a.resolute a.max := by
    intro ri algorithm
    unfold verifyComputeParameters
    rw [e1, e2, if_neg h1, if_neg h2]
  rw [← h]
  unfold prologue
  simp only [e3]

end

theorem elects_dummies {w : World} (hw : w.Exact) {p : Profile} (hp : p.WF) {n : ℕ} {names : List Name} (hn : p.numCand ≤ n) {a : Args}
    {ruleId alg : String} (hal : prologue w.env ruleId p a = .ok alg) (hk : a.k ≤ (approvedSet p).card)
    (h : DummyRule w p a.k alg ruleId) :
    ∃ S S', Elects w p a.k alg ruleId S ∧ Elects w (widen p n names) a.k alg ruleId S' ∧ ∀ A, S A ↔ S' A := by
  have hq := widen_wf (names := names) hp hn
  have hal' := prologue_widen (names := names) hn hal
  have hfirst : ∀ {A : Finset ℕ}, FirstSet (widen p n names) A → A.card = a.k → A ⊆ Finset.range p.numCand := fun h1 h2 =>
    first_widen hp hn hk h1 h2.le
  have hdom : ∀ {A : Finset ℕ}, IsCommittee (widen p n names) a.k A →
      (∀ c d, MoreApproved (widen p n names) c d → d ∈ A → c ∈ A) → A ⊆ Finset.range p.numCand := fun h1 h2 =>
    hfirst (firstSet_of_dominance h2) h1.2
  cases h with
  | av =>
    refine ⟨_, _, .av, .av, opt_widen' (R := fun B A => ∑ c ∈ B, candScore .av p c ≤ ∑ c ∈ A, candScore .av p c)
      (fun A B C h1 h2 => h1.trans h2) hn (fun A hA => hdom hA.1 fun c d => ?_) ?_⟩
    · exact dominance_of_pareto hq hA.1.1 (av_pareto hq hA)
    · exact elects_nonempty hw hq hal' .av
  | sav =>
    refine ⟨_, _, .sav, .sav, opt_widen' (R := fun B A => ∑ c ∈ B, candScore .sav p c ≤ ∑ c ∈ A, candScore .sav p c)
      (fun A B C h1 h2 => h1.trans h2) hn (fun A hA => hdom hA.1 fun c d => ?_) ?_⟩
    · exact dominance_of_pareto hq hA.1.1 (sav_pareto hq hA)
    · exact elects_nonempty hw hq hal' .sav
  | @thiele sid s hs hrule hint =>
    have hok : s = .pav ∨ s = .slav ∨ s = .cc ∨
        ∃ b, s = .geom b ∧ (1 < b ∨ (alg = "branch-and-bound" ∧ 1 ≤ b) ∨ (alg = "brute-force" ∧ 0 < b)) := by
      rcases hrule with h | h | h
      · exact Or.inl h
      · exact Or.inr (Or.inl h)
      · exact Or.inr (Or.inr (Or.inr h))
    have hpos : s.Positive := by
      rcases hrule with rfl | rfl | ⟨b, rfl, hb⟩
      · trivial
      · trivial
      · show 0 < b
        rcases hb with h | ⟨-, h⟩ | ⟨-, h⟩ <;> linarith
    refine ⟨_, _, .thiele hs hok hint, .thiele hs hok hint, opt_widen' (R := fun B A => score (marginalFct s) p B ≤ score (marginalFct s) p A)
      (fun A B C h1 h2 => h1.trans h2) hn (fun A hA => hdom hA.1 fun c d => ?_) ?_⟩
    · exact dominance_of_pareto hq hA.1.1 (ThieleOpt.pareto (marginalFct_pos s hpos) hq hA)
    · exact elects_nonempty hw hq hal' (.thiele hs hok hint)
  | lexcc hg =>
    refine ⟨_, _, .lexcc hg, .lexcc hg, opt_widen' (R := fun B A => ¬ coverageVector p a.k A < coverageVector p a.k B)
      (fun A B C h1 h2 => ?_) hn (fun A hA => hdom hA.1 fun c d => ?_) ?_⟩
    · rw [not_lt] at h1 h2 ⊢
      exact h1.trans h2
    · exact dominance_of_pareto hq hA.1.1 (lexcc_pareto hq hA)
    · exact elects_nonempty hw hq hal' (.lexcc hg)
  | @seqThiele sid s hs hpos =>
    have h0 := marginalFct_nonneg s (by rintro b rfl; exact hpos)
    refine ⟨_, _, .seqThiele hs h0, .seqThiele hs h0, fun A => ?_⟩
    constructor
    · rintro ⟨W, h1, h2, h3⟩
      exact ⟨W, seqRun_widen hp hn h0 h1, h2, h3⟩
    · rintro ⟨W, h1, h2, rfl⟩
      have hcard : W.toFinset.card ≤ a.k := (List.toFinset_card_le W).trans h2.le
      have hsub := first_widen hp hn hk (firstSet_of_dominance fun c d h => by
        simpa using dominance_seq hq (marginalFct_pos s hpos) h h1) hcard
      exact ⟨W, seqRun_narrow hn h1 fun c hc => Finset.mem_range.1 (hsub (List.mem_toFinset.2 hc)), h2, rfl⟩
  | @revseqThiele sid s hs hpos =>
    refine ⟨_, _, .revseqThiele hs, .revseqThiele hs, fun A => ?_⟩
    have hf := marginalFct_pos s hpos
    constructor
    · rintro ⟨h1, h2⟩
      have hA := approved_of_first hp (firstSet_of_dominance fun c d h => dominance_revseq hp hf h h1) (h2.le.trans hk)
      exact ⟨(revRun_iff hq hf hA).2 (revFrom_widen.1 ((revRun_iff hp hf hA).1 h1)), h2⟩
    · rintro ⟨h1, h2⟩
      have hA := approved_of_first hq (firstSet_of_dominance fun c d h => dominance_revseq hq hf h h1) (h2.le.trans hk)
      exact ⟨(revRun_iff hp hf hA).2 (revFrom_widen.2 ((revRun_iff hq hf hA).1 h1)), h2⟩
  | lexminimaxav hu =>
    refine ⟨_, _, .lexminimaxav hu, .lexminimaxav hu, opt_widen' (R := fun B A => ¬ distVector p B < distVector p A)
      (fun A B C h1 h2 => ?_) hn (fun A hA => hdom hA.1 fun c d => ?_) ?_⟩
    · rw [not_lt] at h1 h2 ⊢
      exact h2.trans h1
    · exact dominance_of_pareto hq hA.1.1 (lexminimaxav_pareto hA)
    · exact elects_nonempty hw hq hal' (.lexminimaxav hu)
  | seqphragmen h1 h2 =>
    refine ⟨_, _, .seqphragmen h1 h2, .seqphragmen h1 h2, runWinner_widen (phragBest_widen hp hn) (phragBest_narrow hn) ?_⟩
    rintro A ⟨W, x, hr, hl, rfl⟩
    exact first_widen hp hn hk (first_phragmen (fun d hd => by simp at hd) hr) ((List.toFinset_card_le W).trans hl.le)
  | minimaxphragmen h1 h2 =>
    refine ⟨_, _, .minimaxphragmen h1 h2 hk, .minimaxphragmen h1 h2 hk, fun A => ?_⟩
    constructor
    · rintro ⟨g1, g2⟩
      refine ⟨⟨committee_widen hn g1.1, g1.2⟩, fun B t hB hload => loadWithin_widen.1 (g2 B t ⟨?_, hB.2⟩ (loadWithin_widen.2 hload))⟩
      obtain ⟨x, hx, -⟩ := loadWithin_widen.2 hload
      exact fun d hd => approved_range hp (mem_approvedSet_iff.2 (approved_of_loads (p := p) hx d hd))
    · rintro ⟨g1, g2⟩
      exact ⟨⟨⟨hfirst (first_load g1) g1.1.2, g1.1.2⟩, g1.2⟩, fun B t hB hload =>
        loadWithin_widen.2 (g2 B t (committee_widen hn hB) (loadWithin_widen.1 hload))⟩
  | maximinSupport h1 h2 =>
    refine ⟨_, _, .maximinSupport h1 h2, .maximinSupport h1 h2, runWinner_widen (maximinBest_widen hp hn)
      (m := p.numCand) (fun W s c hc h => ⟨hc, h.2.1, fun d hd => h.2.2 d (lt_of_lt_of_le hd hn)⟩) ?_⟩
    rintro A ⟨W, x, hr, hl, rfl⟩
    exact first_widen hp hn hk (first_maximin hq hr) ((List.toFinset_card_le W).trans hl.le)
  | equalShares h h1 h2 => exact ⟨_, _, .equalShares h h1 h2, .equalShares h h1 h2, mes_widen hp hn hk (Or.inr (Or.inl rfl))⟩
  | equalSharesAv h => exact ⟨_, _, .equalSharesAv h, .equalSharesAv h, mes_widen hp hn hk (Or.inr (Or.inr rfl))⟩
  | equalSharesIncrement h h1 => exact ⟨_, _, .equalSharesIncrement h h1, .equalSharesIncrement h h1, increment_widen hp hn hk⟩
  | equalSharesNone h h1 => exact ⟨_, _, .equalSharesNone h h1, .equalSharesNone h h1, mes_widen hp hn hk (Or.inl rfl)⟩

theorem widen_of {p q : Profile} (h : MoreCandidates p q) : q = widen p q.numCand q.candNames := by
  obtain ⟨h1, -⟩ := h
  unfold widen
  rw [← h1]

/-- **C111** Additional candidates whom nobody approves do not change the winning committees, provided that there are enough approved
candidates: any call for the larger election returns what a call for the smaller one may return. -/
theorem C111_unapproved_candidates (w : World) (hw : w.Exact) (p q : Profile) (hp : p.WF) (hpq : MoreCandidates p q) (a : Args)
    {ruleId alg : String} (hal : prologue w.env ruleId p a = .ok alg) (hk : a.k ≤ (approvedSet p).card)
    (h : DummyRule w p a.k alg ruleId) :
    ∃ S, Elects w p a.k alg ruleId S ∧ Answers a (compute w ruleId p a.committeesize none a.kw) S ∧
      Answers a (compute w ruleId q a.committeesize none a.kw) S := by
  rw [widen_of hpq]
  obtain ⟨S, S', h1, h2, h3⟩ := elects_dummies hw hp (names := q.candNames) hpq.2 hal hk h
  exact ⟨S, h1, C31_compute w hw p hp a ruleId alg hal h1,
    answers_congr (fun A => (h3 A).symm) (C31_compute w hw _ (widen_wf hp hpq.2) a ruleId alg (prologue_widen hpq.2 hal) h2)⟩

/-- **C111** In particular irresolute calls return exactly the same list. -/
theorem C111_irresolute (w : World) (hw : w.Exact) (p q : Profile) (hp : p.WF) (hpq : MoreCandidates p q) (a : Args)
    (hr : a.resolute = false) (hm : a.max = none) {ruleId alg : String} (hal : prologue w.env ruleId p a = .ok alg)
    (hk : a.k ≤ (approvedSet p).card) (h : DummyRule w p a.k alg ruleId) :
    compute w ruleId q a.committeesize none a.kw = compute w ruleId p a.committeesize none a.kw := by
  obtain ⟨S, -, h1, h2⟩ := C111_unapproved_candidates w hw p q hp hpq a hal hk h
  unfold Answers at h1 h2
  rw [hr, hm] at h1 h2
  obtain ⟨cs, e, hc, g⟩ := h1
  obtain ⟨cs', e', hc', g'⟩ := h2
  rw [e, e', canonical_ext hc' hc fun A => by rw [g, g']]

/-! ## Examples -/

/-- Non-vacuity: three approved candidates, and a fourth whom nobody approves. -/
example (w : World) (hw : w.env = exampleEnv) : exampleProfile.WF ∧ MoreCandidates exampleProfile ⟨4, exampleProfile.voters, []⟩ ∧
    prologue w.env "pav" exampleProfile { committeesize := 2, resolute := false } = .ok "branch-and-bound" ∧
    2 ≤ (approvedSet exampleProfile).card ∧ DummyRule w exampleProfile 2 "branch-and-bound" "pav" :=
  ⟨⟨by decide, by decide, by decide, by decide⟩, ⟨rfl, by decide⟩, by rw [hw]; decide +kernel, by decide +kernel,
    .thiele (s := .pav) (by rw [hw]; decide +kernel) (Or.inl rfl) (by simp)⟩

/-- **C111** Contrast: for CC a further candidate matters if one candidate already represents everybody, and if there are fewer approved
candidates than seats then the others are elected, too. -/
theorem C111_contrast :
    computeThieleMethod exampleEnv "cc" (fun _ => .error .importError) ⟨2, [⟨[0, 1], 1⟩], []⟩
      { committeesize := 2, algorithm := "brute-force", resolute := false } = .ok [[0, 1]] ∧
    computeThieleMethod exampleEnv "cc" (fun _ => .error .importError) ⟨3, [⟨[0, 1], 1⟩], []⟩
      { committeesize := 2, algorithm := "brute-force", resolute := false } = .ok [[0, 1], [0, 2], [1, 2]] ∧
    computeSeparable exampleEnv .av ⟨2, [⟨[0], 1⟩], []⟩ { committeesize := 2, resolute := false } = .ok [[0, 1]] ∧
    computeSeparable exampleEnv .av ⟨3, [⟨[0], 1⟩], []⟩ { committeesize := 2, resolute := false } = .ok [[0, 1], [0, 2]] := by
  decide +kernel

end Abc
