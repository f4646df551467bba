import Verif.Spec.ReportShares
import Verif.Lemmas.ReportPhragmen
import Verif.Props.EqualSharesRule

/-!
# The main loop of Equal Shares with the recorded information
-/

namespace Abc
open Spec Classical

theorem mesCompleteInfo_fst (p : Profile) (k : ℕ) (resolute : Bool) (completion : Completion) (committee : List ℕ) (budget : List ℚ)
    (info : MesInfo) : (mesCompleteInfo p k resolute completion committee budget info).map Prod.fst =
      mesComplete p k resolute completion committee budget := by
  unfold mesCompleteInfo
  by_cases hc : completion = .seqphragmen
  · rw [if_pos hc, hc]
    unfold mesComplete phragmenPhaseInfo phragmenPhase
    dsimp only
    cases resolute with
    | true =>
      simp only [if_true]
      cases seqphragmenResolute p k (List.zipWith (fun (v : Voter) b => -b / v.weight) p.voters budget) committee <;> rfl
    | false =>
      simp only [Bool.false_eq_true, if_false]
      cases seqphragmenIrresolute p k none (List.zipWith (fun (v : Voter) b => -b / v.weight) p.voters budget) committee <;> rfl
  · rw [if_neg hc]
    cases mesComplete p k resolute completion committee budget <;> rfl

/-- Recording the information does not change the committees. -/
theorem mesLoopInfo_fst (p : Profile) (k : ℕ) (resolute : Bool) (completion : Completion) (max : Option ℕ) (fuel : ℕ)
    (stack : List (List ℕ × List ℚ)) (win : List (List ℕ)) (info : MesInfo) :
    (mesLoopInfo p k resolute completion max fuel stack win info).map Prod.fst = mesLoop p k resolute completion max fuel stack win := by
  induction fuel generalizing stack win info with
  | zero => cases stack <;> rfl
  | succ fuel ih =>
    cases stack with
    | nil => rfl
    | cons n rest =>
      unfold mesLoopInfo mesLoop mesStep
      cases hq : mesPrices p n.2 (available p n.1) with
      | error e => rfl
      | ok minQ =>
        simp only [bind, Except.bind]
        by_cases hl : minQ.length > 0
        · rw [if_pos hl, if_pos hl]
          dsimp only
          cases he : expandLoop (fun n : List ℕ × List ℚ => decide (n.1.length = k)) (fun n => sortNat n.1) max
            (mesSuccs p resolute n minQ) [] win with
          | inl w => rfl
          | inr r =>
            dsimp only
            by_cases hb : boundReached max r.2.length
            · rw [if_pos hb, if_pos hb]
              cases sortedCommittees r.2 <;> rfl
            · rw [if_neg hb, if_neg hb]
              exact ih _ _ _
        · rw [if_neg hl, if_neg hl]
          rw [← mesCompleteInfo_fst p k resolute completion n.1 n.2 info]
          cases hm : mesCompleteInfo p k resolute completion n.1 n.2 info with
          | error e => rfl
          | ok r =>
            simp only [Except.map]
            by_cases hb : boundReached max (r.1.foldl setAdd win).length
            · rw [if_pos hb, if_pos hb]
              cases sortedCommittees (r.1.foldl setAdd win) <;> rfl
            · rw [if_neg hb, if_neg hb, List.nil_append]
              exact ih _ _ _

/-- One round with `resolute`. -/
theorem mesRound_first {p : Profile} (hp : p.WF) (W : List ℕ) (b : VoterMap p) :
    ∃ minQ, mesPrices p (List.ofFn b) (available p W) = .ok minQ ∧
      ((minQ = [] ∧ MESDone p W b) ∨
       (minQ ≠ [] ∧ ∃ c, MESBest p W b c ∧ (∀ d < c, ¬ MESBest p W b d) ∧
          mesSuccs p true (W, List.ofFn b) minQ = [(W ++ [c], List.ofFn (mesUpd p W b c))] ∧
          mesRecord p (List.ofFn b) minQ = [⟨c, mesTied p W b, price p b c, List.ofFn (mesUpd p W b c)⟩])) := by
  obtain ⟨l, h1, h2, h3, h4⟩ := mesPrices_spec hp b (available p W)
  obtain ⟨l', h1', hcase⟩ := mesSuccs_spec hp false W b
  obtain rfl : l = l' := Except.ok.inj (h1.symm.trans h1')
  refine ⟨l, h1, ?_⟩
  rcases hcase with h | ⟨hl, cands, hs, hasc, hne, hmem⟩
  · exact Or.inl h
  right
  refine ⟨hl, ?_⟩
  have htasc : (mesTiedCands l).Pairwise (· < ·) :=
    ((available_lt p W).sublist h3).sublist (List.filter_sublist.map _)
  have htc : sortNat (mesTiedCands l) = mesTiedCands l := sortNat_of_lt htasc
  have hcands : mesTiedCands l = cands := by
    unfold mesSuccs at hs
    simp only [Bool.false_eq_true, if_false] at hs
    have := congrArg (List.map (fun n : List ℕ × List ℚ => n.1.getLast?)) hs
    simp only [List.map_map, Function.comp_def, List.getLast?_append, List.getLast?_singleton, Option.some_or] at this
    rw [show (l.filter (fun cq => decide (cq.2 = listMin (l.map Prod.snd)))).map Prod.fst = mesTiedCands l from rfl, htc] at this
    exact List.map_injective_iff.2 (Option.some_injective _) this
  have hmem' : ∀ c, c ∈ mesTiedCands l ↔ MESBest p W b c := by
    intro c
    rw [hcands, hmem c]
    unfold MESNext
    simp
  have hprice : ∀ c ∈ mesTiedCands l, IsPrice p b c (listMin (l.map Prod.snd)) := by
    intro c hc
    unfold mesTiedCands at hc
    obtain ⟨e, he, rfl⟩ := List.mem_map.1 hc
    obtain ⟨he, hem⟩ := List.mem_filter.1 he
    rw [decide_eq_true_eq] at hem
    rw [← hem]
    exact h2 e he
  have hspec : mesTiedCands l = mesTied p W b := by
    refine eq_of_lt_of_mem htasc (List.Pairwise.filter _ List.pairwise_lt_range) fun c => ?_
    rw [hmem']
    unfold mesTied
    simp only [List.mem_filter, List.mem_range, decide_eq_true_eq]
    exact ⟨fun h => ⟨h.1, h⟩, fun h => h.2⟩
  cases ht : mesTiedCands l with
  | nil => rw [ht] at hcands; exact absurd hcands.symm hne
  | cons c cs =>
    have hc : c ∈ mesTiedCands l := by rw [ht]; simp
    have hm := hprice c hc
    refine ⟨c, (hmem' c).1 hc, ?_, ?_, ?_⟩
    · intro d hd hb
      have h5 := (hmem' d).2 hb
      rw [ht] at h5 htasc
      rw [List.pairwise_cons] at htasc
      rcases List.mem_cons.1 h5 with h5 | h5
      · omega
      · have := htasc.1 d h5; omega
    · unfold mesSuccs
      simp only [if_true]
      rw [show (l.filter (fun cq => decide (cq.2 = listMin (l.map Prod.snd)))).map Prod.fst = mesTiedCands l from rfl, htc, ht]
      simp only [List.take_succ_cons, List.take_zero, List.map_cons, List.map_nil]
      rw [mesBudget_eq W b c hm]
    · unfold mesRecord
      rw [htc, ht]
      simp only [List.take_succ_cons, List.take_zero, List.map_cons, List.map_nil]
      rw [← ht, hspec, mesBudget_eq W b c hm, price_eq hm]

theorem mesRound_ok (num : ℚ → Name) {p : Profile} (hn : Named p) (hne : p.voters ≠ []) (i : ℕ) {c : ℕ}
    (hc : c < p.numCand) {tied : List ℕ} (ht : ∀ d ∈ tied, d < p.numCand) (y : VoterMap p) (m : ℚ) :
    mesRoundMsgs num p i ⟨c, tied, m, List.ofFn y⟩ = .ok (Purchase.lines num p ⟨i + 1, c, m, List.ofFn y, tied⟩) := by
  unfold mesRoundMsgs Purchase.lines
  dsimp only
  rw [nameOf_ok hn hc]
  have h := loadsText_ok num hne [] (load := List.ofFn y) (by simp)
  rw [List.nil_append, List.nil_append] at h
  dsimp only [bind, Except.bind]
  rw [h]
  dsimp only
  by_cases h2 : tied.length > 1
  · rw [if_pos h2, if_pos h2, setText_ok hn ht]
  · rw [if_neg h2, if_neg h2]

theorem mesTied_lt {p : Profile} {W : List ℕ} {b : VoterMap p} : ∀ d ∈ mesTied p W b, d < p.numCand := by
  intro d hd
  unfold mesTied at hd
  simp only [List.mem_filter, List.mem_range] at hd
  exact hd.1

/-- How a resolute call ends: either `k` candidates are bought, or nothing is affordable and the committee is completed. -/
def MesEnd (p : Profile) (k : ℕ) (completion : Completion) (W : List ℕ) (b : VoterMap p) (info : MesInfo) : Prop :=
  (W.length = k ∧ info.startLoad = none) ∨
  (W.length < k ∧ MESDone p W b ∧
    if completion = .seqphragmen then ∃ U x, RunFirst (PhragBest p) (phragUpd p) W (startLoads p b) (W ++ U) x ∧ (W ++ U).length = k ∧
      info.startLoad = some (List.ofFn (startLoads p b)) ∧
      ∀ num tieText, phragRoundsMsgs num p tieText W.length info.phragmen =
        .ok ((phragProtocol p k W (startLoads p b) U).flatMap (LoadRound.lines num p tieText))
    else info.startLoad = none)

theorem mesLoopInfo_resolute {p : Profile} (hp : p.WF) (hn : Named p) (hne : p.voters ≠ []) (k : ℕ) (hk : k ≤ p.numCand)
    (completion : Completion) (hcomp : CompletionOk p completion) (r : ℚ) (hr : 0 ≤ r) (s : ℕ) (W : List ℕ) (b : VoterMap p)
    (hs : k - W.length = s) (hl : W.length < k) (hrun : RunFirst (MESBest p) (mesUpd p) [] (budgetOf p r) W b) (fuel : ℕ) (hf : s ≤ fuel)
    (info : MesInfo) (hinfo : info.startLoad = none) :
    ∃ w info' U b' R, mesLoopInfo p k true completion (some 1) fuel [(W, List.ofFn b)] [] info = .ok (w, info') ∧
      RunFirst (MESBest p) (mesUpd p) [] (budgetOf p r) (W ++ U) b' ∧ info'.rounds = info.rounds ++ R ∧ R.length = U.length ∧
      (∀ num, mesRoundsMsgs num p W.length R = .ok ((mesProtocol p W b U).flatMap (Purchase.lines num p))) ∧
      MesEnd p k completion (W ++ U) b' info' := by
  induction s generalizing W b fuel info with
  | zero => omega
  | succ s ih =>
    obtain ⟨fuel, rfl⟩ : ∃ f, fuel = f + 1 := ⟨fuel - 1, by omega⟩
    obtain ⟨minQ, hq, hcase⟩ := mesRound_first hp W b
    unfold mesLoopInfo
    simp only [hq, bind, Except.bind]
    rcases hcase with ⟨hnil, hdone⟩ | ⟨hqn, c, hc, hmin, hsucc, hrec⟩
    · -- completion
      rw [if_neg (by simp [hnil])]
      have hmr : Run (MESNext p true) (mesUpd p) [] (budgetOf p r) W b := run_next_true.2 hrun
      obtain ⟨new, e1, e2, e3, -⟩ := compSpec hp hne k hk true completion hcomp r hr W b hmr hl hdone
      have hfst := mesCompleteInfo_fst p k true completion W (List.ofFn b) info
      rw [e1] at hfst
      cases hci : mesCompleteInfo p k true completion W (List.ofFn b) info with
      | error e => rw [hci] at hfst; cases hfst
      | ok q =>
        rw [hci] at hfst
        have hq1 : q.1 = new := Except.ok.inj hfst
        simp only
        have hbound : boundReached (some 1) (q.1.foldl setAdd []).length = true := by
          unfold boundReached
          simp only [decide_eq_true_eq]
          obtain ⟨X, hX⟩ := List.exists_mem_of_ne_nil _ e2
          exact List.length_pos_of_mem (a := X) (mem_foldl_setAdd.2 (Or.inr (hq1 ▸ hX)))
        rw [if_pos hbound]
        have hasc : ∀ X ∈ q.1.foldl setAdd [], X.Nodup := by
          intro X hX
          rcases mem_foldl_setAdd.1 hX with h | h
          · simp at h
          · exact nodup_of_lt (e3 X (hq1 ▸ h))
        rw [sortedCommittees_ok hasc]
        refine ⟨_, q.2, [], b, [], rfl, by simpa using hrun, ?_, rfl, fun _ => rfl, ?_⟩
        · rw [List.append_nil]
          unfold mesCompleteInfo at hci
          by_cases hcs : completion = .seqphragmen
          · rw [if_pos hcs] at hci
            unfold phragmenPhaseInfo at hci
            simp only [if_true] at hci
            cases hr' : seqphragmenResolute p k (List.zipWith (fun (v : Voter) b => -b / v.weight) p.voters (List.ofFn b)) W with
            | error e => rw [hr'] at hci; cases hci
            | ok t => rw [hr'] at hci; cases hci; rfl
          · rw [if_neg hcs, e1] at hci
            cases hci; rfl
        · right
          rw [List.append_nil]
          refine ⟨hl, hdone, ?_⟩
          unfold mesCompleteInfo at hci
          by_cases hcs : completion = .seqphragmen
          · rw [if_pos hcs] at hci ⊢
            have hw : ApproversAtLeastOne p := by
              rcases hcomp with h | ⟨_, h⟩ | h
              · rw [h] at hcs; cases hcs
              · exact h
              · rw [h] at hcs; cases hcs
            have hb := (C36_budgets p hp r hr W b hrun.run).1
            obtain ⟨V', U, x, infos, g1, g2, g3, g4, g5⟩ := phragLoop_protocol hp hn hne hw k hk W _ (phragmen_start_le hp hb W.length)
              (k - W.length) W W (List.Perm.refl _) _ [] .start (by omega)
            unfold phragmenPhaseInfo at hci
            simp only [if_true] at hci
            unfold seqphragmenResolute at hci
            rw [startLoad_eq, g1] at hci
            cases hci
            refine ⟨U, x, g3, by simp [g4]; omega, rfl, ?_⟩
            intro num tieText
            exact g5 num tieText
          · rw [if_neg hcs] at hci ⊢
            rw [e1] at hci
            cases hci
            exact hinfo
    · -- purchase
      rw [if_pos (by simpa using List.length_pos_of_ne_nil hqn), if_pos trivial, hsucc]
      have hstep : RunFirst (MESBest p) (mesUpd p) [] (budgetOf p r) (W ++ [c]) (mesUpd p W b c) := .step hrun hc hmin
      have hround := fun num => mesRound_ok num hn hne W.length hc.1 (mesTied_lt (p := p) (W := W) (b := b)) (mesUpd p W b c) (price p b c)
      by_cases h0 : (W ++ [c]).length = k
      · unfold expandLoop
        simp only [h0, decide_true, if_true]
        have : (setAdd ([] : List (List ℕ)) (sortNat (W ++ [c]))).length = 1 := rfl
        rw [if_pos (by rw [this])]
        refine ⟨_, _, [c], mesUpd p W b c, mesRecord p (List.ofFn b) minQ, rfl, hstep, rfl, by rw [hrec]; rfl, ?_, Or.inl ⟨h0, hinfo⟩⟩
        intro num
        rw [hrec]
        unfold mesRoundsMsgs mesProtocol
        rw [hround num]
        rfl
      · unfold expandLoop
        simp only [h0, decide_false, Bool.false_eq_true, if_false]
        unfold expandLoop
        simp only [List.nil_append, List.append_nil]
        rw [if_neg (by simp [boundReached])]
        obtain ⟨w, info', U, b', R, g1, g2, g3, g4, g5, g6⟩ := ih (W ++ [c]) (mesUpd p W b c) (by simp; omega) (by
          simp at h0 ⊢; omega) hstep fuel (by omega)
          { info with rounds := info.rounds ++ mesRecord p (List.ofFn b) minQ } hinfo
        refine ⟨w, info', c :: U, b', mesRecord p (List.ofFn b) minQ ++ R, g1, by simpa using g2, by rw [g3]; simp, by
          rw [hrec]; simp [g4], ?_, by simpa using g6⟩
        intro num
        rw [hrec]
        simp only [List.singleton_append]
        unfold mesRoundsMsgs mesProtocol
        rw [hround num]
        have := g5 num
        rw [List.length_append, List.length_singleton] at this
        rw [this]
        rfl

end Abc
