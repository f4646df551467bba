import Verif.Spec.LosingCandidate
import Verif.Props.Supporters
import Verif.Props.FloatAccuracyEph

/-!
# C115: support for a candidate who loses anyway changes nothing
-/

namespace Abc

open Spec

theorem loserIrrelevant_of_answers {c : ℕ} {a a' : Args} (h : AllCommittees a) (h' : AllCommittees a')
    {r r' : Except Err (List (List ℕ))} {S S' : Finset ℕ → Prop} (g : Answers a r S) (g' : Answers a' r' S')
    (hS : KeepsOthers c S S') : LoserIrrelevant c r r' := by
  unfold Answers at g g'
  rw [h.1, h.2] at g
  rw [h'.1, h'.2] at g'
  obtain ⟨cs, e, hc, m⟩ := g
  obtain ⟨cs', e', hc', m'⟩ := g'
  refine ⟨cs, cs', e, e', fun W hW hcW => ?_, fun hno => ?_⟩
  · rw [returns_mem hc m]
    exact ⟨hc'.asc W hW, hS.1 _ ((m' _).1 ⟨W, hW, rfl⟩) (by rwa [List.mem_toFinset])⟩
  · have hno' : ∀ A, S' A → c ∉ A := by
      intro A hA hcA
      obtain ⟨W, hW, rfl⟩ := (m' A).2 hA
      exact hno W hW (List.mem_toFinset.1 hcA)
    refine canonical_ext hc' hc fun A => ?_
    rw [m, m']
    exact ⟨fun hA => hS.1 A hA (hno' A hA), hS.2 hno' A⟩

section
variable {c : ℕ} {p p' : Profile} (hp : p.WF) (M : MoreApprovals c p p')
include hp M

theorem both_av (k : ℕ) : KeepsOthers c (SepOpt .av p k) (SepOpt .av p' k) ∧ KeepsOne c (SepOpt .av p k) (SepOpt .av p' k) := by
  have := others_of_values (C := fun A => IsCommittee p k A) (v := fun A => ∑ d ∈ A, candScore .av p d)
    (v' := fun A => ∑ d ∈ A, candScore .av p' d) (c := c) (committees_finite p k)
    (fun A _ hc => Finset.sum_le_sum fun d _ => by
      by_cases hdc : d = c
      · rw [hdc]; exact candScore_self hp M
      · exact (candScore_other M hdc).ge)
    (fun B _ hc => Finset.sum_congr rfl fun d hd => candScore_other M fun g => hc (g ▸ hd))
  unfold SepOpt
  simp only [more_committee M]
  exact this

theorem others_av (k : ℕ) : KeepsOthers c (SepOpt .av p k) (SepOpt .av p' k) := (both_av hp M k).1

theorem others_seqThiele {f : ℕ → ℚ} (hf : ∀ i, 0 ≤ f i) {k : ℕ} (hk : k ≤ p.numCand) :
    KeepsOthers c (SeqThieleWinner f p k) (SeqThieleWinner f p' k) := by
  have hrun : ∀ q : Profile, q.numCand = p.numCand → SeqThieleWinner f q k = RunWinner (fun W (_ : Unit) e => e < p.numCand ∧ e ∉ W ∧
      ∀ d < p.numCand, d ∉ W → gain f q W.toFinset d ≤ gain f q W.toFinset e) (fun _ _ _ => ()) () k := by
    intro q hq
    funext A
    refine propext ⟨?_, ?_⟩
    · rintro ⟨W, hW, hl, hA⟩
      refine ⟨W, (), ?_, hl, hA⟩
      clear hl hA
      induction hW with
      | nil => exact .start
      | snoc h1 h2 h3 h4 ih => exact .step ih ⟨by rw [← hq]; exact h2, h3, fun d hd => h4 d (by rw [hq]; exact hd)⟩
    · rintro ⟨W, x, hW, hl, hA⟩
      refine ⟨W, ?_, hl, hA⟩
      clear hl hA
      induction hW with
      | start => exact .nil
      | step h1 h2 ih => exact .snoc ih (by rw [hq]; exact h2.1) h2.2.1 (fun d hd => h2.2.2 d (by rw [← hq]; exact hd))
  rw [hrun p rfl, hrun p' M.cand]
  refine others_run (m := id) (favours_of_values (v := fun W (_ : Unit) e => gain f p W.toFinset e)
    (v' := fun W (_ : Unit) e => gain f p' W.toFinset e) (fun _ _ _ _ => rfl) (fun W s d _ hcW hdc => ?_)
    (fun W s _ hcW => ?_)) rfl (fun W s h => exists_best_value hk (fun W (_ : Unit) e => gain f p' W.toFinset e) W s h)
  · exact gain_new_other M (by simpa using hcW) hdc
  · exact gain_new_self hp M hf (by simpa using hcW)

theorem others_seqphragmen {k : ℕ} (hk : k ≤ p.numCand) : KeepsOthers c (RunWinner (PhragBest p) (phragUpd p) (fun _ => 0) k)
    (RunWinner (PhragBest p') (phragUpd p') (fun _ => 0) k) := by
  refine others_run (favours_phragmen hp M (W₀ := []) (x₀ := fun _ => 0) fun d hd _ hne i => ?_) rfl
    (fun W x h => phragBest_exists x (by rw [M.cand]; omega))
  unfold newLoad
  refine div_nonneg ?_ (Finset.sum_nonneg (fun i _ => (weight_pos hp i).le))
  simp

end

theorem others_of_middle {c : ℕ} {p p' : Profile} (N : NewSupporters c p p') (hp : p.WF) (hp' : p'.WF) {S S' : Profile → Finset ℕ → Prop}
    (hb : ∀ q, q.WF → SameBallots p q → MoreApprovals c q p' → ∀ A, S p A ↔ S q A)
    (hm : ∀ q, q.WF → SameBallots p q → MoreApprovals c q p' → KeepsOthers c (S q) (S' p')) :
    KeepsOthers c (S p) (S' p') := by
  obtain ⟨q, hq, hpq, M⟩ := supporters_middle N hp hp'
  rw [show S p = S q from funext fun A => propext (hb q hq hpq M A)]
  exact hm q hq hpq M

theorem geom_any {s : ScoreId} (h : s = .pav ∨ s = .slav ∨ s = .cc ∨ ∃ b, s = .geom b ∧ 1 < b) :
    (∀ x : String, s = .pav ∨ s = .slav ∨ s = .cc ∨
      ∃ b, s = .geom b ∧ (1 < b ∨ (x = "branch-and-bound" ∧ 1 ≤ b) ∨ (x = "brute-force" ∧ 0 < b))) ∧ ∀ i, 0 ≤ marginalFct s i := by
  refine ⟨fun x => h.imp id (Or.imp id (Or.imp id fun ⟨b, e, hb⟩ => ⟨b, e, Or.inl hb⟩)), marginalFct_nonneg s fun b hb => ?_⟩
  rcases h with h | h | h | ⟨b', h, hb'⟩
  · rw [h] at hb; cases hb
  · rw [h] at hb; cases hb
  · rw [h] at hb; cases hb
  · rw [h] at hb; cases hb; linarith

section
variable {w w' : World} (hw : w.Exact) (hw' : w'.Exact) {c : ℕ} {p p' : Profile} (hp : p.WF) (hp' : p'.WF) {a a' : Args}
  (h : AllCommittees a) (h' : AllCommittees a') (hk : a'.k = a.k) {ruleId alg alg' : String}
  (hal : prologue w.env ruleId p a = .ok alg) (hal' : prologue w'.env ruleId p' a' = .ok alg')
include hw hw' hp hp' h h' hk hal hal'

/-- **C115** Additional approvals for a candidate `c` who is not elected with them change nothing; put differently, voters can
withdraw their approval of a losing candidate without any effect. -/
theorem C115_approvals (M : MoreApprovals c p p') (hr : LoserRule' w w' p p' a.k alg alg' ruleId) :
    LoserIrrelevant c (compute w ruleId p a.committeesize none a.kw) (compute w' ruleId p' a'.committeesize none a'.kw) := by
  have hv := validCall_of_prologue hal
  have hle := hv.le
  have hn := hv.voters
  have main : ∃ S S', Elects w p a.k alg ruleId S ∧ Elects w' p' a'.k alg' ruleId S' ∧ KeepsOthers c S S' := by
    rw [hk]
    have hpos : (0 : ℚ) ≤ a.k / total p := div_nonneg (Nat.cast_nonneg _) (total_pos hp hn).le
    cases hr with
    | common hr =>
      cases hr with
      | av => exact ⟨_, _, .av, .av, others_av hp M _⟩
      | thiele h1 h2 h3 h4 h5 => exact ⟨_, _, .thiele h1 ((geom_any h3).1 _) h4, .thiele h2 ((geom_any h3).1 _) h5,
          others_thiele hp M (geom_any h3).2 _⟩
      | lexcc h1 h2 => exact ⟨_, _, .lexcc h1, .lexcc h2, others_lexcc hp M _⟩
      | seqThiele h1 h2 h3 => exact ⟨_, _, .seqThiele h1 h3, .seqThiele h2 h3, others_seqThiele hp M h3 hle⟩
      | seqphragmen h1 h2 h3 h4 => exact ⟨_, _, .seqphragmen h1 h3, .seqphragmen h2 h4, others_seqphragmen hp M hle⟩
      | minimaxphragmen h1 h2 h3 h4 =>
        have hS := Elects.minimaxphragmen (w := w') (alg := alg') h2 h3 (h4.trans (Finset.card_le_card (approvedSet_new M)))
        refine ⟨_, _, .minimaxphragmen h1 (by rw [← total_new M]; exact h3) h4, hS, others_minimaxphragmen M h4 ?_⟩
        rw [← hk] at hS ⊢
        exact elects_nonempty hw' hp' hal' hS
      | maximinSupport h1 h2 h3 => exact ⟨_, _, .maximinSupport h1 h3, .maximinSupport h2 h3, others_maximin hp M hp' hle⟩
    | monroe h1 => exact ⟨_, _, .monroe h1, .monroe (unit_new M h1), others_monroe M _⟩
    | enestroem h1 h2 => exact ⟨_, _, .enestroem h1, .enestroem h2, others_enestroem M hle⟩
    | consensus h1 h2 => exact ⟨_, _, .consensus h1, .consensus h2, others_consensus M hle⟩
    | equalShares h1 h2 h3 h4 h5 =>
      refine ⟨_, _, .equalShares h1 h2 h4, .equalShares h1 h3 h5, ?_⟩
      rw [total_new M]
      exact others_mes_phragmen hp M hp' hle hpos
    | equalSharesAv h1 h2 =>
      refine ⟨_, _, .equalSharesAv h1, .equalSharesAv h2, ?_⟩
      rw [total_new M]
      exact others_mes_av hp M hp' hle hpos
    | equalSharesNone h1 h2 h3 =>
      refine ⟨_, _, .equalSharesNone h1 h2, .equalSharesNone h1 h3, ?_⟩
      rw [total_new M]
      exact others_mes_none hp M hp' hpos
  obtain ⟨S, S', hS, hS', hK⟩ := main
  exact loserIrrelevant_of_answers h h' (C31_compute w hw p hp a _ _ hal hS) (C31_compute w' hw' p' hp' a' _ _ hal' hS') hK

/-- **C115** New voters who approve only a candidate `c` who is not elected with them change nothing. -/
theorem C115_voters (N : NewSupporters c p p') (hr : LoserRule w w' p p' a.k alg alg' ruleId) :
    LoserIrrelevant c (compute w ruleId p a.committeesize none a.kw) (compute w' ruleId p' a'.committeesize none a'.kw) := by
  have hv := validCall_of_prologue hal
  have hle := hv.le
  have main : ∃ S S', Elects w p a.k alg ruleId S ∧ Elects w' p' a'.k alg' ruleId S' ∧ KeepsOthers c S S' := by
    rw [hk]
    cases hr with
    | av => exact ⟨_, _, .av, .av, others_of_middle N hp hp' (S := fun q => SepOpt .av q a.k) (S' := fun q => SepOpt .av q a.k)
        (fun q _ hb _ A => sepOpt_ballots hb _ _ A) (fun q hq _ M => others_av hq M _)⟩
    | @thiele _ s h1 h2 h3 h4 h5 =>
      exact ⟨_, _, .thiele h1 ((geom_any h3).1 _) h4, .thiele h2 ((geom_any h3).1 _) h5, others_of_middle N hp hp'
        (S := fun q => ThieleOpt (marginalFct s) q a.k) (S' := fun q => ThieleOpt (marginalFct s) q a.k)
        (fun q _ hb _ A => thieleOpt_ballots hb _ _ A) (fun q hq _ M => others_thiele hq M (geom_any h3).2 _)⟩
    | lexcc h1 h2 => exact ⟨_, _, .lexcc h1, .lexcc h2, others_of_middle N hp hp' (S := fun q => LexccOpt q a.k) (S' := fun q => LexccOpt q a.k)
        (fun q _ hb _ A => lexccOpt_ballots hb _ A) (fun q hq _ M => others_lexcc hq M _)⟩
    | @seqThiele _ s h1 h2 h3 => exact ⟨_, _, .seqThiele h1 h3, .seqThiele h2 h3, others_of_middle N hp hp'
        (S := fun q => SeqThieleWinner (marginalFct s) q a.k) (S' := fun q => SeqThieleWinner (marginalFct s) q a.k)
        (fun q _ hb _ A => seqThiele_ballots hb _ _ A) (fun q hq hb M => others_seqThiele hq M h3 (by rw [← hb.1]; exact hle))⟩
    | seqphragmen h1 h2 h3 h4 => exact ⟨_, _, .seqphragmen h1 h3, .seqphragmen h2 h4, others_of_middle N hp hp'
        (S := fun q => RunWinner (PhragBest q) (phragUpd q) (fun _ => 0) a.k) (S' := fun q => RunWinner (PhragBest q) (phragUpd q) (fun _ => 0) a.k)
        (fun q hq hb M A => seqphragmen_ballots hb hp hq _ A) (fun q hq hb M => others_seqphragmen hq M (by rw [← hb.1]; exact hle))⟩
    | minimaxphragmen h1 h2 h3 h4 =>
      obtain ⟨l, hl, -⟩ := N.voters
      have hsub : approvedSet p ⊆ approvedSet p' := by
        intro d hd
        rw [mem_approvedSet_iff] at hd ⊢
        exact fun g => hd fun v hv => g v (by rw [hl]; exact List.mem_append_left _ hv)
      have ht : total p ≤ total p' := by
        have hlist : ∀ q : Profile, total q = (q.voters.map Voter.weight).sum := fun q => Fin.sum_univ_fun_getElem q.voters Voter.weight
        rw [hlist, hlist, hl, List.map_append, List.sum_append]
        have : 0 ≤ (l.map Voter.weight).sum := List.sum_nonneg fun x hx => by
          obtain ⟨v, hv, rfl⟩ := List.mem_map.1 hx
          exact (hp'.weight v (by rw [hl]; exact List.mem_append_right _ hv)).le
        linarith
      have hS := Elects.minimaxphragmen (w := w') (alg := alg') h2 h3 (h4.trans (Finset.card_le_card hsub))
      refine ⟨_, _, .minimaxphragmen h1 (ht.trans h3) h4, hS, others_of_middle N hp hp'
        (S := fun q => MinimaxPhragmenOpt 0 q a.k) (S' := fun q => MinimaxPhragmenOpt 0 q a.k)
        (fun q hq hb M A => minimaxphragmen_ballots hb hp hq hv.voters ?_ _ _ A) (fun q hq hb M => others_minimaxphragmen M ?_ ?_)⟩
      · refine List.ne_nil_of_length_pos ?_
        rw [M.voters.length_eq, hl, List.length_append]
        have := List.length_pos_of_ne_nil hv.voters
        omega
      · rw [← approvedSet_ballots hb hp hq]; exact h4
      · rw [← hk] at hS ⊢
        exact elects_nonempty hw' hp' hal' hS
    | maximinSupport h1 h2 h3 => exact ⟨_, _, .maximinSupport h1 h3, .maximinSupport h2 h3, others_of_middle N hp hp'
        (S := fun q => MaximinWinner 0 q a.k) (S' := fun q => MaximinWinner 0 q a.k)
        (fun q hq hb M A => maximin_ballots hb hp hq _ _ A) (fun q hq hb M => others_maximin hq M hp' (by rw [← hb.1]; exact hle))⟩
  obtain ⟨S, S', hS, hS', hK⟩ := main
  exact loserIrrelevant_of_answers h h' (C31_compute w hw p hp a _ _ hal hS) (C31_compute w' hw' p' hp' a' _ _ hal' hS') hK

end

/-! ### The hypotheses can be met -/

/-- A voter additionally approves candidate 2, who loses nevertheless; candidates 0 and 1 share the two seats. -/
example (w : World) (hw : w.env = exampleEnv) (p p' : Profile) (e : p = ⟨3, [⟨[0, 1], 1⟩, ⟨[0, 1], 2⟩, ⟨[1], 1⟩], []⟩)
    (e' : p' = ⟨3, [⟨[0, 1, 2], 1⟩, ⟨[0, 1], 2⟩, ⟨[1], 1⟩], []⟩) :
    MoreApprovals 2 p p' ∧ LoserRule' w w p p' 2 "standard-fractions" "standard-fractions" "equal-shares" ∧
    prologue w.env "equal-shares" p { committeesize := 2, resolute := false } = .ok "standard-fractions" ∧
    prologue w.env "equal-shares" p' { committeesize := 2, resolute := false } = .ok "standard-fractions" ∧
    compute bothWorld "equal-shares" p' 2 none { resolute := some false } = .ok [[0, 1]] := by
  subst e e'
  refine ⟨⟨rfl, .cons ⟨rfl, Or.inr (by decide)⟩ (.cons ⟨rfl, Or.inl rfl⟩ (.cons ⟨rfl, Or.inl rfl⟩ .nil))⟩, ?_, ?_, ?_, ?_⟩
  · refine .equalShares (by simp) (approversAtLeastOne_of_weights ?_) (approversAtLeastOne_of_weights ?_) (Or.inl rfl) (Or.inl rfl)
    all_goals decide +kernel
  · rw [hw]; decide +kernel
  · rw [hw]; decide +kernel
  · decide +kernel

/-- For satisfaction approval voting this is different: a voter who additionally approves the losing candidate 2 costs candidate 0
the tie with candidate 1. -/
example : compute { bothWorld with env := exampleEnv } "sav" ⟨3, [⟨[0], 1⟩, ⟨[1], 1⟩], []⟩ 1 none { resolute := some false } = .ok [[0], [1]] ∧
    compute { bothWorld with env := exampleEnv } "sav" ⟨3, [⟨[0, 2], 1⟩, ⟨[1], 1⟩], []⟩ 1 none { resolute := some false } = .ok [[1]] := by
  decide +kernel

/-- Also not for minimax approval voting. -/
example : compute { bothWorld with env := exampleEnv } "minimaxav" ⟨3, [⟨[], 1⟩, ⟨[0], 1⟩, ⟨[0, 1], 1⟩], []⟩ 1 none
      { algorithm := some "brute-force", resolute := some false } = .ok [[0]] ∧
    compute { bothWorld with env := exampleEnv } "minimaxav" ⟨3, [⟨[2], 1⟩, ⟨[0], 1⟩, ⟨[0, 1], 1⟩], []⟩ 1 none
      { algorithm := some "brute-force", resolute := some false } = .ok [[0], [1]] := by
  decide +kernel

end Abc
