import Verif.Spec.Supporters
import Verif.Props.MonotoneRounds
import Verif.Props.Ballots

/-!
# C112: new voters who approve only `c` never harm `c`
-/

namespace Abc

open Spec

section
variable {c : ℕ} {p p' : Profile} (N : NewSupporters c p p')
include N

/-- The new voters, approving nobody yet. -/
theorem supporters_middle (hp : p.WF) (hp' : p'.WF) : ∃ q : Profile, q.WF ∧ SameBallots p q ∧ MoreApprovals c q p' := by
  obtain ⟨l, hl, hc⟩ := N.voters
  have hmem : ∀ v ∈ p.voters ++ l.map (fun v => (⟨[], v.weight⟩ : Voter)), v ∈ p.voters ∨ ∃ u ∈ p'.voters, v = ⟨[], u.weight⟩ := by
    intro v hv
    rcases List.mem_append.1 hv with h | h
    · exact Or.inl h
    · obtain ⟨u, hu, rfl⟩ := List.mem_map.1 h
      exact Or.inr ⟨u, by rw [hl]; exact List.mem_append_right _ hu, rfl⟩
  refine ⟨⟨p.numCand, p.voters ++ l.map (fun v => ⟨[], v.weight⟩), []⟩, ⟨hp.pos, fun v hv => ?_, fun v hv d hd => ?_, fun v hv => ?_⟩,
    ⟨rfl, fun A hA => ?_⟩, ⟨N.cand, ?_⟩⟩
  · rcases hmem v hv with h | ⟨u, hu, rfl⟩
    · exact hp.nodup v h
    · exact List.nodup_nil
  · rcases hmem v hv with h | ⟨u, hu, rfl⟩
    · exact hp.lt v h d hd
    · cases hd
  · rcases hmem v hv with h | ⟨u, hu, rfl⟩
    · exact hp.weight v h
    · exact hp'.weight u hu
  · unfold electorate
    rw [List.filter_append, List.map_append, List.sum_append]
    have : (l.map (fun v => (⟨[], v.weight⟩ : Voter))).filter (fun v => decide (v.A = A)) = [] := by
      rw [List.filter_eq_nil_iff]
      intro v hv
      obtain ⟨u, -, rfl⟩ := List.mem_map.1 hv
      rw [decide_eq_true_eq]
      exact fun e => hA e.symm
    rw [this]
    simp
  · rw [hl]
    refine List.rel_append (List.forall₂_same.2 fun v _ => ⟨rfl, Or.inl rfl⟩) ?_
    have : ∀ m : List Voter, (∀ v ∈ m, v.approved = [c]) →
        List.Forall₂ (fun v v' : Voter => v'.weight = v.weight ∧ (v'.A = v.A ∨ v'.A = insert c v.A))
          (m.map (fun v => (⟨[], v.weight⟩ : Voter))) m := by
      intro m
      induction m with
      | nil => exact fun _ => .nil
      | cons v m ih =>
        intro h
        refine .cons ⟨rfl, Or.inr ?_⟩ (ih fun u hu => h u (List.mem_cons_of_mem _ hu))
        unfold Voter.A
        rw [h v (List.mem_cons_self ..)]
        rfl
    exact this l hc

theorem keeps_of_middle (hp : p.WF) (hp' : p'.WF) {S S' : Profile → Finset ℕ → Prop}
    (hb : ∀ q, q.WF → SameBallots p q → MoreApprovals c q p' → ∀ A, S p A ↔ S q A) (hm : ∀ q, q.WF → SameBallots p q → MoreApprovals c q p' → KeepsCandidate c (S q) (S' p')) :
    KeepsCandidate c (S p) (S' p') := by
  obtain ⟨q, hq, hpq, M⟩ := supporters_middle N hp hp'
  rw [show S p = S q from funext fun A => propext (hb q hq hpq M A)]
  exact hm q hq hpq M

theorem supporters_committee (k : ℕ) (A : Finset ℕ) : IsCommittee p' k A ↔ IsCommittee p k A := by
  unfold IsCommittee
  rw [N.cand]

/-- Scores: only committees with `c` profit. -/
theorem score_supporters (f : ℕ → ℚ) (hf : 0 ≤ f 1) (hp' : p'.WF) : ∃ s, 0 ≤ s ∧ ∀ A, score f p' A = score f p A + if c ∈ A then s else 0 := by
  obtain ⟨l, hl, hc⟩ := N.voters
  have hw : ∀ v ∈ l, 0 < v.weight := fun v hv => hp'.weight v (by rw [hl]; exact List.mem_append_right _ hv)
  refine ⟨(l.map (fun v => v.weight * f 1)).sum, List.sum_nonneg fun x hx => ?_, fun A => ?_⟩
  · obtain ⟨v, hv, rfl⟩ := List.mem_map.1 hx
    exact mul_nonneg (hw v hv).le hf
  · unfold score
    rw [hl, List.map_append, List.sum_append]
    congr 1
    split_ifs with h
    · congr 1
      refine List.map_congr_left fun v hv => ?_
      have : util v A = 1 := by
        unfold util Voter.A
        rw [hc v hv, List.toFinset_cons, List.toFinset_nil, insert_empty_eq, Finset.singleton_inter_of_mem h, Finset.card_singleton]
      rw [this]
      simp
    · refine List.sum_eq_zero fun x hx => ?_
      obtain ⟨v, hv, rfl⟩ := List.mem_map.1 hx
      have : util v A = 0 := by
        unfold util Voter.A
        rw [hc v hv, List.toFinset_cons, List.toFinset_nil, insert_empty_eq, Finset.singleton_inter_of_notMem h, Finset.card_empty]
      rw [this]
      simp

omit N in
/-- A reverse sequential run can be continued. -/
theorem revRun_extend {f : ℕ → ℚ} {q : Profile} {k : ℕ} (n : ℕ) : ∀ A, RevRun f q A → A.card = k + n →
    ∃ B ⊆ A, RevRun f q B ∧ B.card = k := by
  induction n with
  | zero => exact fun A hA hk => ⟨A, fun _ h => h, hA, hk⟩
  | succ n ih =>
    intro A hA hk
    obtain ⟨d, hd, hmin⟩ := Finset.exists_min_image A (loss f q A) (Finset.card_pos.1 (by omega))
    obtain ⟨B, hB, h1, h2⟩ := ih (A.erase d) (.remove hA hd hmin) (by rw [Finset.card_erase_of_mem hd]; omega)
    exact ⟨B, hB.trans (Finset.erase_subset _ _), h1, h2⟩

theorem keeps_revseqThiele {f : ℕ → ℚ} (hf : 0 ≤ f 1) (hp' : p'.WF) (k : ℕ) :
    KeepsCandidate c (fun A => RevRun f p A ∧ A.card = k) (fun A => RevRun f p' A ∧ A.card = k) := by
  obtain ⟨s, hs, hscore⟩ := score_supporters N f hf hp'
  have hother : ∀ W d, d ≠ c → loss f p' W d = loss f p W d := by
    intro W d hd
    unfold loss
    rw [hscore, hscore]
    have : c ∈ W.erase d ↔ c ∈ W := by simp [Finset.mem_erase, Ne.symm hd]
    simp only [this]
    ring
  have hself : ∀ W, loss f p W c ≤ loss f p' W c := by
    intro W
    unfold loss
    rw [hscore, hscore, if_neg (Finset.notMem_erase c W)]
    split_ifs <;> linarith
  have hnot : ∀ W, c ∉ W → ∀ d, loss f p' W d = loss f p W d := by
    intro W hc d
    unfold loss
    rw [hscore, hscore, if_neg hc, if_neg fun h => hc (Finset.mem_of_mem_erase h)]
    ring
  constructor
  · rintro ⟨A, ⟨hA, hk⟩, hc⟩
    refine ⟨A, ⟨?_, hk⟩, hc⟩
    clear hk
    induction hA with
    | all => rw [← N.cand]; exact .all
    | @remove W d hW hd hmin ih =>
      have hcW := Finset.mem_of_mem_erase hc
      have hdc : d ≠ c := fun h => Finset.notMem_erase d W (h ▸ hc)
      refine .remove (ih hcW) hd fun e he => ?_
      rw [hother W d hdc]
      by_cases hec : e = c
      · rw [hec]; exact (hmin c hcW).trans (hself W)
      · rw [hother W e hec]; exact hmin e he
  · rintro hall A ⟨hA, hk⟩
    have key : ∀ B, RevRun f p' B → k ≤ B.card → RevRun f p B ∨ ∃ D, RevRun f p D ∧ D.card = k ∧ c ∉ D := by
      intro B hB
      induction hB with
      | all => intro _; rw [N.cand]; exact Or.inl .all
      | @remove W d hW hd hmin ih =>
        intro hle
        rw [Finset.card_erase_of_mem hd] at hle
        rcases ih (by omega) with h | h
        · by_cases hcW : c ∈ W
          · by_cases hless : loss f p W c < loss f p W d ∧ d ≠ c
            · right
              have hmin' : ∀ e ∈ W, loss f p W c ≤ loss f p W e := by
                intro e he
                by_cases hec : e = c
                · rw [hec]
                · have h1 := hmin e he
                  rw [hother W d hless.2, hother W e hec] at h1
                  exact hless.1.le.trans h1
              have hpos : 0 < W.card := Finset.card_pos.2 ⟨d, hd⟩
              obtain ⟨D, hD, h1, h2⟩ := revRun_extend (k := k) (W.card - 1 - k) (W.erase c) (.remove h hcW hmin')
                (by rw [Finset.card_erase_of_mem hcW]; omega)
              exact ⟨D, h1, h2, fun g => Finset.notMem_erase c W (hD g)⟩
            · left
              refine .remove h hd fun e he => ?_
              by_cases hdc : d = c
              · subst hdc
                by_cases hed : e = d
                · rw [hed]
                · rw [← hother W e hed]
                  exact (hself W).trans (hmin e he)
              · by_cases hec : e = c
                · subst hec
                  exact not_lt.1 fun g => hless ⟨g, hdc⟩
                · rw [← hother W e hec, ← hother W d hdc]
                  exact hmin e he
          · left
            refine .remove h hd fun e he => ?_
            rw [← hnot W hcW, ← hnot W hcW]
            exact hmin e he
        · exact Or.inr h
    rcases key A hA hk.ge with h | ⟨D, h1, h2, h3⟩
    · exact hall A ⟨h, hk⟩
    · exact absurd (hall D ⟨h1, h2⟩) h3

theorem keeps_minimaxav_supporters {k : ℕ} :
    KeepsCandidate c (MinimaxavOpt p k) (MinimaxavOpt p' k) := by
  obtain ⟨l, hl, hc⟩ := N.voters
  have hin : ∀ v ∈ l, ∀ A : Finset ℕ, A.card = k → c ∈ A → dist v A + 1 = k := by
    intro v hv A hA hcA
    have : symmDiff v.A A = A.erase c := by
      unfold Voter.A
      rw [hc v hv]
      ext x
      rw [Finset.mem_symmDiff, Finset.mem_erase]
      simp only [List.toFinset_cons, List.toFinset_nil, insert_empty_eq, Finset.mem_singleton]
      constructor
      · rintro (⟨rfl, h⟩ | ⟨h1, h2⟩)
        · exact absurd hcA h
        · exact ⟨h2, h1⟩
      · rintro ⟨h1, h2⟩
        exact Or.inr ⟨h2, h1⟩
    unfold dist
    rw [this, Finset.card_erase_of_mem hcA, hA]
    have := Finset.card_pos.2 ⟨c, hcA⟩
    omega
  have hout : ∀ v ∈ l, ∀ A : Finset ℕ, A.card = k → c ∉ A → dist v A = k + 1 := by
    intro v hv A hA hcA
    have : symmDiff v.A A = insert c A := by
      unfold Voter.A
      rw [hc v hv]
      ext x
      rw [Finset.mem_symmDiff, Finset.mem_insert]
      simp only [List.toFinset_cons, List.toFinset_nil, insert_empty_eq, Finset.mem_singleton]
      constructor
      · rintro (⟨h, -⟩ | ⟨h, -⟩)
        · exact Or.inl h
        · exact Or.inr h
      · rintro (h | h)
        · exact Or.inl ⟨h, h ▸ hcA⟩
        · exact Or.inr ⟨h, fun e => hcA (e ▸ h)⟩
    unfold dist
    rw [this, Finset.card_insert_of_notMem hcA, hA]
  unfold MinimaxavOpt
  simp only [supporters_committee N]
  have hall' : ∀ (A : Finset ℕ) (d : ℕ), (∀ v ∈ p'.voters, dist v A ≤ d) ↔ (∀ v ∈ p.voters, dist v A ≤ d) ∧ ∀ v ∈ l, dist v A ≤ d := by
    intro A d
    rw [hl, List.forall_mem_append]
  simp only [hall']
  constructor
  · rintro ⟨A, ⟨hA, hmin⟩, hcA⟩
    refine ⟨A, ⟨hA, fun B hB d hd => ⟨hmin B hB d hd.1, fun v hv => ?_⟩⟩, hcA⟩
    have h1 := hin v hv A hA.2 hcA
    have h2 := hd.2 v hv
    by_cases hcB : c ∈ B
    · have := hin v hv B hB.2 hcB
      omega
    · have := hout v hv B hB.2 hcB
      omega
  · rintro hall A ⟨hA, hmin⟩
    by_contra hcA
    -- an optimal committee before the change
    obtain ⟨O, hO, hOmin⟩ := Set.exists_min_image {A | IsCommittee p k A} (fun A => (p.voters.map (fun v => dist v A)).foldr max 0)
      (committees_finite p k) ⟨A, hA⟩
    have hval : ∀ (m : List Voter) (A : Finset ℕ) (d : ℕ), (m.map (fun v => dist v A)).foldr max 0 ≤ d ↔ ∀ v ∈ m, dist v A ≤ d := by
      intro m A d
      induction m with
      | nil => simp
      | cons v m ih => simp [ih]
    have hOopt : ∀ B, IsCommittee p k B → ∀ d, (∀ v ∈ p.voters, dist v B ≤ d) → ∀ v ∈ p.voters, dist v O ≤ d := by
      intro B hB d hd
      rw [← hval]
      exact (hOmin B hB).trans ((hval p.voters B d).2 hd)
    have hcO := hall O ⟨hO, hOopt⟩
    refine hcA (hall A ⟨hA, fun B hB d hd => ?_⟩)
    -- `A` is as good as `O`
    have h1 := hOopt B hB d hd
    rcases l.eq_nil_or_concat with rfl | ⟨l₀, u, rfl⟩
    · exact (hmin O hO d ⟨h1, by simp⟩).1
    · have hu : u ∈ l₀.concat u := by simp
      have hkO := hin u hu O hO.2 hcO
      by_cases hd' : k ≤ d + 1
      · have h2 := (hmin O hO d ⟨h1, fun v hv => by have := hin v hv O hO.2 hcO; omega⟩).2 u hu
        have h3 := hout u hu A hA.2 hcA
        have h4 := (hmin O hO d ⟨h1, fun v hv => by have := hin v hv O hO.2 hcO; omega⟩).1
        exact h4
      · have h2 := (hmin O hO (k - 1) ⟨fun v hv => (h1 v hv).trans (by omega), fun v hv => by have := hin v hv O hO.2 hcO; omega⟩).2 u hu
        have h3 := hout u hu A hA.2 hcA
        omega

end

/-- **C112** New voters who approve only `c` never harm `c`. -/
theorem C112_new_supporters {w w' : World} (hw : w.Exact) (hw' : w'.Exact) {c : ℕ} {p p' : Profile} (hp : p.WF) (hp' : p'.WF)
    (N : NewSupporters c p p') {a a' : Args} (h : AllCommittees a) (h' : AllCommittees a') (hk : a'.k = a.k)
    {ruleId alg alg' : String} (hal : prologue w.env ruleId p a = .ok alg) (hal' : prologue w'.env ruleId p' a' = .ok alg')
    (hr : SupporterRule w w' p p' a.k alg alg' ruleId) :
    StillElected c (compute w ruleId p a.committeesize none a.kw) (compute w' ruleId p' a'.committeesize none a'.kw) := by
  have hv := validCall_of_prologue hal
  have hle := hv.le
  have main : ∃ S S', Elects w p a.k alg ruleId S ∧ Elects w' p' a'.k alg' ruleId S' ∧ KeepsCandidate c S S' := by
    rw [hk]
    cases hr with
    | av => exact ⟨_, _, .av, .av, keeps_of_middle N hp hp' (S := fun q => SepOpt .av q a.k) (S' := fun q => SepOpt .av q a.k)
        (fun q _ hb _ A => sepOpt_ballots hb _ _ A) (fun q hq _ M => keeps_sep hq M _ _)⟩
    | sav => exact ⟨_, _, .sav, .sav, keeps_of_middle N hp hp' (S := fun q => SepOpt .sav q a.k) (S' := fun q => SepOpt .sav q a.k)
        (fun q _ hb _ A => sepOpt_ballots hb _ _ A) (fun q hq _ M => keeps_sep hq M _ _)⟩
    | @thiele _ s h1 h2 h3 h4 h5 =>
      have h3' : ∀ x : String, s = .pav ∨ s = .slav ∨ s = .cc ∨
          ∃ b, s = .geom b ∧ (1 < b ∨ (x = "branch-and-bound" ∧ 1 ≤ b) ∨ (x = "brute-force" ∧ 0 < b)) := fun x =>
        h3.imp id (Or.imp id (Or.imp id fun ⟨b, e, hb⟩ => ⟨b, e, Or.inl hb⟩))
      have hf : ∀ i, 0 ≤ marginalFct s i := by
        refine marginalFct_nonneg s fun b hb => ?_
        rcases h3 with h | h | h | ⟨b', h, hb'⟩
        · rw [h] at hb; cases hb
        · rw [h] at hb; cases hb
        · rw [h] at hb; cases hb
        · rw [h] at hb; cases hb; linarith
      exact ⟨_, _, .thiele h1 (h3' _) h4, .thiele h2 (h3' _) h5, keeps_of_middle N hp hp' (S := fun q => ThieleOpt (marginalFct s) q a.k)
        (S' := fun q => ThieleOpt (marginalFct s) q a.k) (fun q _ hb _ A => thieleOpt_ballots hb _ _ A) (fun q hq _ M => keeps_thiele hq M hf _)⟩
    | lexcc h1 h2 => exact ⟨_, _, .lexcc h1, .lexcc h2, keeps_of_middle N hp hp' (S := fun q => LexccOpt q a.k) (S' := fun q => LexccOpt q a.k)
        (fun q _ hb _ A => lexccOpt_ballots hb _ A) (fun q hq _ M => keeps_lexcc hq M _)⟩
    | @seqThiele _ s h1 h2 h3 => exact ⟨_, _, .seqThiele h1 h3, .seqThiele h2 h3, keeps_of_middle N hp hp'
        (S := fun q => SeqThieleWinner (marginalFct s) q a.k) (S' := fun q => SeqThieleWinner (marginalFct s) q a.k)
        (fun q _ hb _ A => seqThiele_ballots hb _ _ A) (fun q hq _ M => keeps_seqThiele hq M h3 _)⟩
    | revseqThiele h1 h2 h3 => exact ⟨_, _, .revseqThiele h1, .revseqThiele h2, keeps_revseqThiele N h3 hp' _⟩
    | seqphragmen h1 h2 h3 h4 => exact ⟨_, _, .seqphragmen h1 h3, .seqphragmen h2 h4, keeps_of_middle N hp hp'
        (S := fun q => RunWinner (PhragBest q) (phragUpd q) (fun _ => 0) a.k) (S' := fun q => RunWinner (PhragBest q) (phragUpd q) (fun _ => 0) a.k)
        (fun q hq hb M A => seqphragmen_ballots hb hp hq _ A) (fun q hq _ M => keeps_seqphragmen hq M _)⟩
    | minimaxphragmen h1 h2 h3 h4 =>
      obtain ⟨l, hl, -⟩ := N.voters
      have hsub : approvedSet p ⊆ approvedSet p' := by
        intro d hd
        rw [mem_approvedSet_iff] at hd ⊢
        exact fun g => hd fun v hv => g v (by rw [hl]; exact List.mem_append_left _ hv)
      have ht : total p ≤ total p' := by
        have hlist : ∀ q : Profile, total q = (q.voters.map Voter.weight).sum := fun q => Fin.sum_univ_fun_getElem q.voters Voter.weight
        rw [hlist, hlist, hl, List.map_append, List.sum_append]
        have : 0 ≤ (l.map Voter.weight).sum := List.sum_nonneg fun x hx => by
          obtain ⟨v, hv, rfl⟩ := List.mem_map.1 hx
          exact (hp'.weight v (by rw [hl]; exact List.mem_append_right _ hv)).le
        linarith
      have hS := Elects.minimaxphragmen (w := w') (alg := alg') h2 h3 (h4.trans (Finset.card_le_card hsub))
      refine ⟨_, _, .minimaxphragmen h1 (ht.trans h3) h4, hS, keeps_of_middle N hp hp'
        (S := fun q => MinimaxPhragmenOpt 0 q a.k) (S' := fun q => MinimaxPhragmenOpt 0 q a.k)
        (fun q hq hb M A => minimaxphragmen_ballots hb hp hq hv.voters ?_ _ _ A) (fun q hq hb M => (others_minimaxphragmen M ?_ ?_).keeps)⟩
      · refine List.ne_nil_of_length_pos ?_
        rw [M.voters.length_eq, hl, List.length_append]
        have := List.length_pos_of_ne_nil hv.voters
        omega
      · rw [← approvedSet_ballots hb hp hq]; exact h4
      · rw [← hk] at hS ⊢
        exact elects_nonempty hw' hp' hal' hS
    | maximinSupport h1 h2 h3 => exact ⟨_, _, .maximinSupport h1 h3, .maximinSupport h2 h3, keeps_of_middle N hp hp'
        (S := fun q => MaximinWinner 0 q a.k) (S' := fun q => MaximinWinner 0 q a.k)
        (fun q hq hb M A => maximin_ballots hb hp hq _ _ A) (fun q hq hb M => (others_maximin hq M hp' (by rw [← hb.1]; exact hle)).keeps)⟩
    | minimaxav => exact ⟨_, _, .minimaxav, .minimaxav, keeps_minimaxav_supporters N⟩
    | lexminimaxav h1 =>
      obtain ⟨l, hl, -⟩ := N.voters
      have h0 : ∀ v ∈ p.voters, v.weight = 1 := fun v hv => h1 v (by rw [hl]; exact List.mem_append_left _ hv)
      obtain ⟨q, hq, hb, M⟩ := supporters_middle N hp hp'
      have hq1 : ∀ v ∈ q.voters, v.weight = 1 := by
        intro v hv
        obtain ⟨i, rfl⟩ := List.get_of_mem hv
        rw [← (newBallot_get M i).1]
        exact h1 _ (List.get_mem _ _)
      refine ⟨_, _, .lexminimaxav h0, .lexminimaxav h1, ?_⟩
      rw [show LexminimaxavOpt p a.k = LexminimaxavOpt q a.k from funext fun A => propext (lexminimaxav_ballots hb hp hq h0 hq1 _ A)]
      exact keeps_lexminimaxav M _
  obtain ⟨S, S', h1, h2, h3⟩ := main
  exact stillElected_of_answers h h' (C31_compute w hw p hp a _ _ hal h1) (C31_compute w' hw' p' hp' a' _ _ hal' h2) h3

/-! ### The hypotheses can be met -/

example (w : World) (hw : w.env = exampleEnv) (p' : Profile) (hp' : p' = ⟨3, [⟨[0, 1], 1⟩, ⟨[1, 2], 2⟩, ⟨[2], 1⟩, ⟨[2], 3⟩], []⟩) :
    NewSupporters 2 exampleProfile p' ∧ (∀ k alg, SupporterRule w w exampleProfile p' k alg alg "seqpav") ∧
    prologue w.env "seqpav" exampleProfile { committeesize := 2, resolute := false } = .ok "standard" ∧
    prologue w.env "seqpav" p' { committeesize := 2, resolute := false } = .ok "standard" := by
  subst hp'
  refine ⟨⟨rfl, [⟨[2], 1⟩, ⟨[2], 3⟩], rfl, by simp⟩, fun k alg => ?_, by rw [hw]; decide +kernel, by rw [hw]; decide +kernel⟩
  exact .seqThiele (sid := "pav") (s := .pav) (by rw [hw]; rfl) (by rw [hw]; rfl) (marginalFct_nonneg _ (fun b h => by cases h))

end Abc
