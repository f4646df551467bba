import Verif.Props.LosingCandidate
import Verif.Props.Dummies

/-!
# C116: a losing candidate can leave
-/

namespace Abc

open Spec

theorem KeepsOthers.trans {c : ℕ} {S T S' : Finset ℕ → Prop} (h : KeepsOthers c S T) (h' : KeepsOthers c T S') : KeepsOthers c S S' := by
  refine ⟨fun A hA hc => h.1 A (h'.1 A hA hc) hc, fun hno A hA => ?_⟩
  exact h'.2 hno A (h.2 (fun B hB => hno B (h'.2 hno B hB)) A hA)

section
variable {p : Profile} {names : List Name}

theorem committee_last {k : ℕ} {A : Finset ℕ} (h : IsCommittee (widen p (p.numCand + 1) names) k A) (hc : p.numCand ∉ A) :
    IsCommittee p k A := by
  refine ⟨fun d hd => ?_, h.2⟩
  have h1 : d < p.numCand + 1 := Finset.mem_range.1 (h.1 hd)
  have h2 : d ≠ p.numCand := fun e => hc (e ▸ hd)
  exact Finset.mem_range.2 (by omega)

/-- Rules that maximise something. -/
theorem opt_leaves {k : ℕ} {P : Finset ℕ → Prop} {R : Finset ℕ → Finset ℕ → Prop} (ht : ∀ A B C, R A B → R B C → R A C)
    (hex : ∃ A, IsCommittee (widen p (p.numCand + 1) names) k A ∧ P A ∧ ∀ B, IsCommittee (widen p (p.numCand + 1) names) k B → P B → R B A) :
    KeepsOthers p.numCand (fun A => IsCommittee p k A ∧ P A ∧ ∀ B, IsCommittee p k B → P B → R B A)
      (fun A => IsCommittee (widen p (p.numCand + 1) names) k A ∧ P A ∧
        ∀ B, IsCommittee (widen p (p.numCand + 1) names) k B → P B → R B A) := by
  constructor
  · rintro A ⟨h1, h2, h3⟩ hc
    exact ⟨committee_last h1 hc, h2, fun B hB hPB => h3 B (committee_widen (by omega) hB) hPB⟩
  · rintro hno A ⟨h1, h2, h3⟩
    obtain ⟨C, hC⟩ := hex
    exact ⟨committee_widen (by omega) h1, h2, fun B hB hPB =>
      ht _ _ _ (hC.2.2 B hB hPB) (h3 C (committee_last hC.1 (hno C hC)) hC.2.1)⟩

theorem opt_leaves' {k : ℕ} {R : Finset ℕ → Finset ℕ → Prop} (ht : ∀ A B C, R A B → R B C → R A C)
    (hex : ∃ A, IsCommittee (widen p (p.numCand + 1) names) k A ∧ ∀ B, IsCommittee (widen p (p.numCand + 1) names) k B → R B A) :
    KeepsOthers p.numCand (fun A => IsCommittee p k A ∧ ∀ B, IsCommittee p k B → R B A)
      (fun A => IsCommittee (widen p (p.numCand + 1) names) k A ∧ ∀ B, IsCommittee (widen p (p.numCand + 1) names) k B → R B A) := by
  have := opt_leaves (P := fun _ => True) ht (k := k) (names := names) (p := p)
    (by obtain ⟨A, h1, h2⟩ := hex; exact ⟨A, h1, trivial, fun B hB _ => h2 B hB⟩)
  simpa using this

/-- Rules that elect one candidate after the other. -/
theorem run_leaves {σ : Type} {Best Best' : List ℕ → σ → ℕ → Prop} {upd : List ℕ → σ → ℕ → σ} {W₀ : List ℕ} {s₀ : σ} {k n : ℕ}
    (h1 : ∀ W s c, Best W s c → Best' W s c) (h2 : ∀ W s c, c < n → Best' W s c → Best W s c) (h3 : ∀ W s c, Best' W s c → c < n + 1)
    (h0 : ∀ c ∈ W₀, c < n) :
    KeepsOthers n (fun A => ∃ V x, Run Best upd W₀ s₀ V x ∧ V.length = k ∧ V.toFinset = A)
      (fun A => ∃ V x, Run Best' upd W₀ s₀ V x ∧ V.length = k ∧ V.toFinset = A) := by
  constructor
  · rintro A ⟨V, x, hr, hl, rfl⟩ hc
    refine ⟨V, x, run_widen h2 hr fun d hd => ?_, hl, rfl⟩
    have hlt : ∀ d ∈ V, d < n + 1 := by
      clear hc hd hl
      induction hr with
      | start => exact fun d hd => (h0 d hd).trans (by omega)
      | @step V x e _ hb ih =>
        intro d hd
        rcases List.mem_append.1 hd with h | h
        · exact ih d h
        · rw [List.mem_singleton.1 h]; exact h3 _ _ _ hb
    have := hlt d hd
    have : d ≠ n := fun e => hc (List.mem_toFinset.2 (e ▸ hd))
    omega
  · rintro - A ⟨V, x, hr, hl, rfl⟩
    exact ⟨V, x, run_weaken h1 hr, hl, rfl⟩

variable (hp : p.WF)
include hp

theorem support_last (b : VoterMap p) {d : ℕ} (hd : p.numCand ≤ d) (e : ℕ) : support p b d ≤ support p b e := by
  have h0 : support p b d = 0 := by
    unfold support
    rw [unapproved_iff.1 (unapproved_new hp hd)]
    simp
  rw [h0]
  exact Finset.sum_nonneg fun i hi => (Finset.mem_filter.1 hi).2.le

theorem supportBest_leaves (W : List ℕ) (b : VoterMap p) (c : ℕ) (h : SupportBest p W b c) :
    SupportBest (widen p (p.numCand + 1) names) W b c := by
  refine ⟨lt_of_lt_of_le h.1 (by simp [widen]), h.2.1, fun d hd hdW => ?_⟩
  by_cases hlt : d < p.numCand
  · exact h.2.2 d hlt hdW
  · exact support_last hp b (not_lt.1 hlt) c

omit hp in
theorem supportBest_stays (W : List ℕ) (b : VoterMap p) (c : ℕ) (hc : c < p.numCand) (h : SupportBest (widen p (p.numCand + 1) names) W b c) :
    SupportBest p W b c := ⟨hc, h.2.1, fun d hd hdW => h.2.2 d (lt_of_lt_of_le hd (by simp [widen])) hdW⟩

theorem enestroem_leaves (k : ℕ) : KeepsOthers p.numCand (EnestroemWinner p k) (EnestroemWinner (widen p (p.numCand + 1) names) k) :=
  run_leaves (Best' := SupportBest (widen p (p.numCand + 1) names)) (upd := enestroemUpd p (total p / k)) (W₀ := [])
    (s₀ := fun i => (p.voters.get i).weight) (supportBest_leaves hp) (supportBest_stays (p := p)) (fun _ _ _ h => h.1) (by simp)

theorem consensus_leaves (k : ℕ) : KeepsOthers p.numCand (ConsensusWinner p k) (ConsensusWinner (widen p (p.numCand + 1) names) k) :=
  run_leaves (Best := ConsensusBest p) (Best' := ConsensusBest (widen p (p.numCand + 1) names)) (upd := consensusUpd p) (W₀ := []) (s₀ := fun _ => 0)
    (fun W b c h => supportBest_leaves hp W (income p b) c h) (fun W b c hc h => supportBest_stays W (income p b) c hc h)
    (fun _ _ _ h => h.1) (by simp)

theorem greedyMonroe_leaves (k : ℕ) : KeepsOthers p.numCand (RunWinner (GMBest p) (gmUpd p k) [] k)
    (RunWinner (GMBest (widen p (p.numCand + 1) names)) (gmUpd (widen p (p.numCand + 1) names) k) [] k) := by
  refine run_leaves (Best := GMBest p) (Best' := GMBest (widen p (p.numCand + 1) names)) (upd := gmUpd p k) (W₀ := []) (s₀ := [])
    (fun W Ds c h => ⟨lt_of_lt_of_le h.1 (by simp [widen]), h.2.1, fun d hd hdW => ?_⟩)
    (fun W Ds c hc h => ⟨hc, h.2.1, fun d hd hdW => h.2.2 d (lt_of_lt_of_le hd (by simp [widen])) hdW⟩) (fun _ _ _ h => h.1) (by simp)
  by_cases hlt : d < p.numCand
  · exact h.2.2 d hlt hdW
  · have h0 : backers (widen p (p.numCand + 1) names) d = ∅ := unapproved_iff.1 (unapproved_new hp (not_lt.1 hlt))
    rw [h0]
    simp

theorem seqThiele_leaves {f : ℕ → ℚ} (hf : ∀ i, 0 ≤ f i) (k : ℕ) :
    KeepsOthers p.numCand (SeqThieleWinner f p k) (SeqThieleWinner f (widen p (p.numCand + 1) names) k) := by
  constructor
  · rintro A ⟨W, hr, hl, rfl⟩ hc
    refine ⟨W, seqRun_narrow (by omega) hr fun d hd => ?_, hl, rfl⟩
    have h1 : d < p.numCand + 1 := (seqRun_len hr).2 d hd
    have h2 : d ≠ p.numCand := fun e => hc (List.mem_toFinset.2 (e ▸ hd))
    omega
  · rintro - A ⟨W, hr, hl, rfl⟩
    exact ⟨W, seqRun_widen hp (by omega) hf hr, hl, rfl⟩

theorem phragmen_leaves {W : List ℕ} (hW : ∀ c ∈ W, c < p.numCand) (x : VoterMap p) (k : ℕ) :
    KeepsOthers p.numCand (fun A => ∃ V y, Run (PhragBest p) (phragUpd p) W x V y ∧ V.length = k ∧ V.toFinset = A)
      (fun A => ∃ V y, Run (PhragBest (widen p (p.numCand + 1) names)) (phragUpd (widen p (p.numCand + 1) names)) W x V y ∧
        V.length = k ∧ V.toFinset = A) :=
  run_leaves (upd := phragUpd p) (phragBest_widen hp (by omega)) (phragBest_narrow (by omega)) (fun _ _ _ h => h.1) hW

theorem maximin_leaves (k : ℕ) : KeepsOthers p.numCand (MaximinWinner 0 p k) (MaximinWinner 0 (widen p (p.numCand + 1) names) k) :=
  run_leaves (Best := fun W (_ : Unit) e => MaximinBest 0 p W e) (Best' := fun W (_ : Unit) e => MaximinBest 0 (widen p (p.numCand + 1) names) W e)
    (upd := fun _ _ _ => ()) (W₀ := []) (s₀ := ()) (maximinBest_widen hp (by omega))
    (fun W s c hc h => ⟨hc, h.2.1, fun d hd => h.2.2 d (lt_of_lt_of_le hd (by simp [widen]))⟩) (fun _ _ _ h => h.1) (by simp)

theorem mes_leaves {k : ℕ} (hk : k ≤ p.numCand) {completion : Completion} {r : ℚ}
    (hcompl : completion = .none ∨ completion = .seqphragmen ∨ completion = .av) :
    KeepsOthers p.numCand (MESWinner p k completion r) (MESWinner (widen p (p.numCand + 1) names) k completion r) := by
  have hn : p.numCand ≤ p.numCand + 1 := by omega
  have key : ∀ W b, Run (MESBest p) (mesUpd p) [] (budgetOf p r) W b → W.length < k →
      KeepsOthers p.numCand (Completed p k completion W b) (Completed (widen p (p.numCand + 1) names) k completion W b) := by
    intro W b hrun hl
    obtain ⟨-, hW⟩ := hrun.nodup (m := p.numCand) (fun W s c _ h => ⟨h.1, h.2.1⟩) (by simp) (by simp)
    rcases hcompl with rfl | rfl | rfl
    · exact ⟨fun A h _ => h, fun _ A h => h⟩
    · exact phragmen_leaves hp hW _ k
    · refine opt_leaves (P := fun B => W.toFinset ⊆ B) (R := fun B A => ∑ c ∈ B, candScore .av p c ≤ ∑ c ∈ A, candScore .av p c)
        (fun A B C h1 h2 => h1.trans h2) ?_
      have hWsub : W.toFinset ⊆ Finset.range (p.numCand + 1) := fun c hc =>
        Finset.mem_range.2 (lt_of_lt_of_le (hW c (List.mem_toFinset.1 hc)) hn)
      obtain ⟨B₀, hB1, hB2, hB3⟩ := Finset.exists_subsuperset_card_eq (n := k) hWsub ((List.toFinset_card_le W).trans hl.le)
        (by rw [Finset.card_range]; omega)
      obtain ⟨B, hB, hmax⟩ := ((Finset.range (p.numCand + 1)).powersetCard k |>.filter (fun B => W.toFinset ⊆ B)).exists_max_image
        (fun B => ∑ c ∈ B, candScore .av p c) ⟨B₀, Finset.mem_filter.2 ⟨Finset.mem_powersetCard.2 ⟨hB2, hB3⟩, hB1⟩⟩
      rw [Finset.mem_filter, Finset.mem_powersetCard] at hB
      exact ⟨B, hB.1, hB.2, fun C hC hPC => hmax C (Finset.mem_filter.2 ⟨Finset.mem_powersetCard.2 hC, hPC⟩)⟩
  have hbest := mesBest_eq (n := p.numCand + 1) (names := names) hp hn
  constructor
  · rintro A ⟨W, b, h, h2⟩ hc
    have h' : Run (MESBest p) (mesUpd p) [] (budgetOf p r) W b := by rw [hbest]; exact h
    refine ⟨W, b, h', ?_⟩
    rcases h2 with h2 | ⟨h2, h3, h4⟩
    · exact Or.inl h2
    · exact Or.inr ⟨h2, (mesDone_widen hp hn W b).2 h3, (key W b h' h2).1 A h4 hc⟩
  · rintro hno A ⟨W, b, h, h2⟩
    have h' : Run (MESBest (widen p (p.numCand + 1) names)) (mesUpd p) [] (budgetOf p r) W b := by rw [← hbest]; exact h
    refine ⟨W, b, h', ?_⟩
    rcases h2 with h2 | ⟨h2, h3, h4⟩
    · exact Or.inl h2
    · have h3' := (mesDone_widen (n := p.numCand + 1) (names := names) hp hn W b).1 h3
      exact Or.inr ⟨h2, h3', (key W b h h2).2 (fun B hB => hno B ⟨W, b, h', Or.inr ⟨h2, h3', hB⟩⟩) A h4⟩

omit hp in
theorem monroe_leaves {k : ℕ} (hex : ∃ A, MonroeOpt (widen p (p.numCand + 1) names) k A) :
    KeepsOthers p.numCand (MonroeOpt p k) (MonroeOpt (widen p (p.numCand + 1) names) k) := by
  constructor
  · rintro A ⟨h1, φ, h2, h3⟩ hc
    exact ⟨committee_last h1 hc, φ, h2, fun B ψ hB hψ => h3 B ψ (committee_widen (by omega) hB) hψ⟩
  · rintro hno A ⟨h1, φ, h2, h3⟩
    obtain ⟨C, hC⟩ := hex
    have hcC := hno C hC
    obtain ⟨g1, χ, g2, g3⟩ := hC
    exact ⟨committee_widen (by omega) h1, φ, h2, fun B ψ hB hψ => (g3 B ψ hB hψ).trans (h3 C χ (committee_last g1 hcC) g2)⟩

theorem minimaxphragmen_leaves {k : ℕ} : KeepsOthers p.numCand (MinimaxPhragmenOpt 0 p k)
    (MinimaxPhragmenOpt 0 (widen p (p.numCand + 1) names) k) := by
  have hn : p.numCand ≤ p.numCand + 1 := by omega
  constructor
  · rintro A ⟨g1, g2⟩ hc
    exact ⟨⟨committee_last g1.1 hc, g1.2⟩, fun B t hB hload =>
        loadWithin_widen.2 (g2 B t (committee_widen hn hB) (loadWithin_widen.1 hload))⟩
  · rintro - A ⟨g1, g2⟩
    refine ⟨⟨committee_widen hn g1.1, g1.2⟩, fun B t hB hload => loadWithin_widen.1 (g2 B t ⟨?_, hB.2⟩ (loadWithin_widen.2 hload))⟩
    obtain ⟨x, hx, -⟩ := loadWithin_widen.2 hload
    exact fun d hd => approved_range hp (mem_approvedSet_iff.2 (approved_of_loads (p := p) hx d hd))

end

theorem leaves_more {p' p : Profile} (L : LastCandidateLeaves p' p) : MoreApprovals p.numCand (widen p (p.numCand + 1) p'.candNames) p' := by
  refine ⟨L.cand, L.voters.imp ?_⟩
  rintro v v' ⟨hw, he⟩
  refine ⟨hw, ?_⟩
  by_cases hc : p.numCand ∈ v'.A
  · exact Or.inr (by rw [he, Finset.insert_erase hc])
  · exact Or.inl (by rw [he, Finset.erase_eq_of_notMem hc])

/-- **C116** If the last candidate is not elected, the outcome is the same without this candidate. -/
theorem C116_candidate_leaves {w w' : World} (hw : w.Exact) (hw' : w'.Exact) {p p' : Profile} (hp : p.WF) (hp' : p'.WF)
    (L : LastCandidateLeaves p' p) {a a' : Args} (h : AllCommittees a) (h' : AllCommittees a') (hk : a'.k = a.k)
    {ruleId alg alg' : String} (hal : prologue w.env ruleId p a = .ok alg) (hal' : prologue w'.env ruleId p' a' = .ok alg')
    (hr : LoserRule' w w' p p' a.k alg alg' ruleId) :
    LoserIrrelevant p.numCand (compute w ruleId p a.committeesize none a.kw) (compute w' ruleId p' a'.committeesize none a'.kw) := by
  have hv := validCall_of_prologue hal
  have hle := hv.le
  have hn := hv.voters
  have M := leaves_more L
  have hq : (widen p (p.numCand + 1) p'.candNames).WF := widen_wf hp (by omega)
  have halq := prologue_widen (n := p.numCand + 1) (names := p'.candNames) (by omega) hal
  have hleq : a.k ≤ (widen p (p.numCand + 1) p'.candNames).numCand := hle.trans (by simp [widen])
  have main : ∃ S S', Elects w p a.k alg ruleId S ∧ Elects w' p' a'.k alg' ruleId S' ∧ KeepsOthers p.numCand S S' := by
    rw [hk]
    have hpos : (0 : ℚ) ≤ a.k / total p := div_nonneg (Nat.cast_nonneg _) (total_pos hp hn).le
    have happ : approvedSet p ⊆ approvedSet p' := (approvedSet_new M : approvedSet (widen p (p.numCand + 1) p'.candNames) ⊆ approvedSet p')
    have htot : total p' = total p := (total_new M : total p' = total (widen p (p.numCand + 1) p'.candNames))
    cases hr with
    | common hr =>
      cases hr with
      | av => exact ⟨_, _, .av, .av, (opt_leaves' (R := fun B A => ∑ c ∈ B, candScore .av p c ≤ ∑ c ∈ A, candScore .av p c)
          (fun A B C h1 h2 => h1.trans h2) (elects_nonempty hw hq halq .av)).trans (others_av hq M _)⟩
      | @thiele _ s h1 h2 h3 h4 h5 => exact ⟨_, _, .thiele h1 ((geom_any h3).1 _) h4, .thiele h2 ((geom_any h3).1 _) h5,
          (opt_leaves' (R := fun B A => score (marginalFct s) p B ≤ score (marginalFct s) p A)
          (fun A B C h1 h2 => h1.trans h2) (elects_nonempty hw hq halq (.thiele h1 ((geom_any h3).1 _) h4))).trans
            (others_thiele hq M (geom_any h3).2 _)⟩
      | lexcc h1 h2 => exact ⟨_, _, .lexcc h1, .lexcc h2, (opt_leaves' (R := fun B A => ¬ coverageVector p a.k A < coverageVector p a.k B)
          (fun A B C h1 h2 => by rw [not_lt] at h1 h2 ⊢; exact h1.trans h2) (elects_nonempty hw hq halq (.lexcc h1))).trans (others_lexcc hq M _)⟩
      | seqThiele h1 h2 h3 => exact ⟨_, _, .seqThiele h1 h3, .seqThiele h2 h3, (seqThiele_leaves hp h3 _).trans (others_seqThiele hq M h3 hleq)⟩
      | seqphragmen h1 h2 h3 h4 => exact ⟨_, _, .seqphragmen h1 h3, .seqphragmen h2 h4,
          (phragmen_leaves hp (W := []) (by simp) (fun _ => 0) _).trans (others_seqphragmen hq M hleq)⟩
      | minimaxphragmen h1 h2 h3 h4 =>
        have hS := Elects.minimaxphragmen (w := w') (alg := alg') h2 h3 (h4.trans (Finset.card_le_card happ))
        refine ⟨_, _, .minimaxphragmen h1 (by rw [← htot]; exact h3) h4, hS, (minimaxphragmen_leaves hp).trans (others_minimaxphragmen M h4 ?_)⟩
        rw [← hk] at hS ⊢
        exact elects_nonempty hw' hp' hal' hS
      | maximinSupport h1 h2 h3 => exact ⟨_, _, .maximinSupport h1 h3, .maximinSupport h2 h3,
          (maximin_leaves hp _).trans (others_maximin hq M hp' hleq)⟩
    | monroe h1 => exact ⟨_, _, .monroe h1, .monroe (unit_new M h1),
        (monroe_leaves (elects_nonempty hw hq halq (.monroe h1))).trans (others_monroe M _)⟩
    | enestroem h1 h2 => exact ⟨_, _, .enestroem h1, .enestroem h2, (enestroem_leaves hp _).trans (others_enestroem M hleq)⟩
    | consensus h1 h2 => exact ⟨_, _, .consensus h1, .consensus h2, (consensus_leaves hp _).trans (others_consensus M hleq)⟩
    | equalShares h1 h2 h3 h4 h5 =>
      refine ⟨_, _, .equalShares h1 h2 h4, .equalShares h1 h3 h5, ?_⟩
      rw [htot]
      exact (mes_leaves hp hle (Or.inr (Or.inl rfl))).trans (others_mes_phragmen hq M hp' hleq hpos)
    | equalSharesAv h1 h2 =>
      refine ⟨_, _, .equalSharesAv h1, .equalSharesAv h2, ?_⟩
      rw [htot]
      exact (mes_leaves hp hle (Or.inr (Or.inr rfl))).trans (others_mes_av hq M hp' hleq hpos)
    | equalSharesNone h1 h2 h3 =>
      refine ⟨_, _, .equalSharesNone h1 h2, .equalSharesNone h1 h3, ?_⟩
      rw [htot]
      exact (mes_leaves hp hle (Or.inl rfl)).trans (others_mes_none hq M hp' hpos)
  obtain ⟨S, S', hS, hS', hK⟩ := main
  exact loserIrrelevant_of_answers h h' (C31_compute w hw p hp a _ _ hal hS) (C31_compute w' hw' p' hp' a' _ _ hal' hS') hK

/-! ### The hypotheses can be met -/

/-- Candidate 2 gets one vote and loses; candidates 0 and 1 share the two seats. -/
example (w : World) (hw : w.env = exampleEnv) (p p' : Profile) (e : p = ⟨2, [⟨[0, 1], 1⟩, ⟨[0, 1], 2⟩, ⟨[1], 1⟩], []⟩)
    (e' : p' = ⟨3, [⟨[0, 1, 2], 1⟩, ⟨[0, 1], 2⟩, ⟨[1], 1⟩], []⟩) :
    p.WF ∧ p'.WF ∧ LastCandidateLeaves p' p ∧ LoserRule' w w p p' 2 "standard-fractions" "standard-fractions" "equal-shares" ∧
    prologue w.env "equal-shares" p { committeesize := 2, resolute := false } = .ok "standard-fractions" ∧
    prologue w.env "equal-shares" p' { committeesize := 2, resolute := false } = .ok "standard-fractions" ∧
    compute bothWorld "equal-shares" p' 2 none { resolute := some false } = .ok [[0, 1]] := by
  subst e e'
  refine ⟨⟨by decide +kernel, by decide +kernel, by decide +kernel, by decide +kernel⟩,
    ⟨by decide +kernel, by decide +kernel, by decide +kernel, by decide +kernel⟩,
    ⟨rfl, .cons ⟨rfl, by decide⟩ (.cons ⟨rfl, by decide⟩ (.cons ⟨rfl, by decide⟩ .nil))⟩, ?_, ?_, ?_, ?_⟩
  · refine .equalShares (by simp) (approversAtLeastOne_of_weights ?_) (approversAtLeastOne_of_weights ?_) (Or.inl rfl) (Or.inl rfl)
    all_goals decide +kernel
  · rw [hw]; decide +kernel
  · rw [hw]; decide +kernel
  · decide +kernel

end Abc
