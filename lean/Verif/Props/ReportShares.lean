import Verif.Lemmas.ReportShares
import Verif.Props.ReportPhragmen
import Verif.Props.EqualSharesAxioms

/-!
# C88: the protocol of the Method of Equal Shares
-/

namespace Abc
open Spec Classical

/-- A longer run passes through the shorter one. -/
theorem runFirst_passes {σ : Type} {Best : List ℕ → σ → ℕ → Prop} {upd : List ℕ → σ → ℕ → σ} {W₀ : List ℕ} {s₀ : σ} {V W : List ℕ} {s t : σ}
    (hV : RunFirst Best upd W₀ s₀ V s) (hW : RunFirst Best upd W₀ s₀ W t) (hl : V.length < W.length) : ∃ c, Best V s c := by
  induction hW with
  | start => have := hV.run.length; omega
  | @step W t c hW hb hm ih =>
    rw [List.length_append, List.length_singleton] at hl
    rcases Nat.eq_or_lt_of_le (Nat.le_of_lt_succ hl) with h | h
    · obtain ⟨rfl, rfl⟩ := hV.unique hW h
      exact ⟨c, hb⟩
    · exact ih h

theorem mesFirst_unique {p : Profile} (hp : p.WF) {k : ℕ} {r : ℚ} {V W : List ℕ} {s t : VoterMap p}
    (hV : RunFirst (MESBest p) (mesUpd p) [] (budgetOf p r) V s) (hW : RunFirst (MESBest p) (mesUpd p) [] (budgetOf p r) W t)
    (hV' : V.length = k ∨ (V.length < k ∧ MESDone p V s)) (hW' : W.length = k ∨ (W.length < k ∧ MESDone p W t)) : V = W ∧ s = t := by
  have key : ∀ {V W : List ℕ} {s t : VoterMap p}, RunFirst (MESBest p) (mesUpd p) [] (budgetOf p r) V s →
      RunFirst (MESBest p) (mesUpd p) [] (budgetOf p r) W t → (V.length = k ∨ (V.length < k ∧ MESDone p V s)) → W.length ≤ k →
      W.length ≤ V.length := by
    intro V W s t hV hW h1 h2
    by_contra hlt
    push Not at hlt
    rcases h1 with h1 | ⟨_, h1⟩
    · omega
    · obtain ⟨c, hc, hcV, q, hq, _⟩ := runFirst_passes hV hW hlt
      exact h1 c hc hcV ((exists_price_iff hp s c).1 ⟨q, hq⟩)
  refine hV.unique hW (Nat.le_antisymm (key hW hV hW' ?_) (key hV hW hV' ?_)) <;> omega

theorem mesWinner_lt {p : Profile} {k : ℕ} {completion : Completion} (hc : CompletionOk p completion) {r : ℚ} {A : Finset ℕ}
    (h : MESWinner p k completion r A) : ∀ c ∈ A, c < p.numCand := by
  obtain ⟨W, b, h1, h2⟩ := h
  obtain ⟨hWn, hWm⟩ := mrun_nodup h1
  rcases h2 with ⟨-, rfl⟩ | ⟨-, -, h2⟩
  · intro c hc; exact hWm c (by simpa using hc)
  · rcases hc with rfl | ⟨rfl, -⟩ | rfl
    · have h2 : A = W.toFinset := h2
      rw [h2]
      intro c hc; exact hWm c (by simpa using hc)
    · obtain ⟨V, x, h3, -, rfl⟩ := h2
      intro c hc
      exact (h3.nodup (m := p.numCand) (fun _ _ _ _ h => ⟨h.1, h.2.1⟩) hWn hWm).2 c (by simpa using hc)
    · intro c hc
      exact Finset.mem_range.1 (h2.1.1 hc)

theorem phase2_ok (num : ℚ → Name) {p : Profile} (hne : p.voters ≠ []) (k : ℕ) (W U : List ℕ) (b : VoterMap p) {rounds : List PhragInfo}
    (h : ∀ num tieText, phragRoundsMsgs num p tieText W.length rounds =
        .ok ((phragProtocol p k W (startLoads p b) U).flatMap (LoadRound.lines num p tieText))) :
    phase2Msgs num p W.length (some (List.ofFn (startLoads p b))) rounds = .ok (phase2 num p k W b U) := by
  have hl : (List.ofFn (startLoads p b)) ≠ [] := by
    intro h0
    have := congrArg List.length h0
    rw [List.length_ofFn] at this
    exact hne (List.length_eq_zero_iff.1 this)
  have h1 := loadsText_ok num hne [] (load := List.ofFn (startLoads p b)) (by simp)
  rw [List.nil_append, List.nil_append] at h1
  unfold phase2
  cases hs : List.ofFn (startLoads p b) with
  | nil => exact absurd hs hl
  | cons x xs =>
    rw [hs] at h1
    unfold phase2Msgs
    dsimp only [bind, Except.bind]
    rw [h1, h num phase2TieText]
    rfl

theorem mesReport_ok (num : ℚ → Name) {env : Env} {alg : String} (hex : ExactAlg env alg) {p : Profile} (hn : Named p) (rid : String)
    (resolute : Bool) {cs : List (List ℕ)} (hcs : ∀ W ∈ cs, ∀ c ∈ W, c < p.numCand) (hcne : cs ≠ []) (d : MesDetails) {body : List Msg}
    (hb : mesBodyMsgs num p resolute d = .ok body) : mesReport num rid alg p resolute (cs, d) = .ok
      (heading rid :: Remark.all.msgs resolute ++ [fractionsAlgorithm alg] ++ body ++ [winners p cs]) := by
  unfold mesReport
  rw [headMsgs_ok, algorithmMsg_exact hex]
  dsimp only [bind, Except.bind]
  rw [hb, committeesMsg_ok hn hcs hcne]

/-- **C88** Equal Shares with `resolute=True` (and any completion but "increment"): the output is the heading, the protocol of the
purchases of the run that always buys the affordable candidate with the smallest index, then, if the committee is completed by
seq-Phragmén, the protocol of the completion, and the winning committee. -/
theorem C88_mes_protocol (env : Env) (num : ℚ → Name) (float : Except Err (List (List ℕ) × MesDetails)) (p : Profile) (hp : p.WF)
    (hn : Named p) (completion : Completion) (hc : CompletionOk p completion) (a : Args) (rid alg : String)
    (hid : completion.ruleId = .ok rid) (hal : prologue env rid p a = .ok alg) (hex : ExactAlg env alg) (hr : a.resolute = true) :
    ∃ X W b ending, RunFirst (MESBest p) (mesUpd p) [] (budgetOf p (a.k / total p)) W b ∧ X.Pairwise (· < ·) ∧
      computeEqualSharesVerbose env num float completion p a = .ok
        ([heading rid, fractionsAlgorithm alg] ++ phase1 num p (a.k / total p) W ++ ending ++ [winners p [X]], [X]) ∧
      ((W.length = a.k ∧ X = sortNat W ∧ ending = []) ∨
       (W.length < a.k ∧ MESDone p W b ∧ completion ≠ .seqphragmen ∧ Completed p a.k completion W b X.toFinset ∧ ending = []) ∨
       (W.length < a.k ∧ MESDone p W b ∧ completion = .seqphragmen ∧
         ∃ U x, RunFirst (PhragBest p) (phragUpd p) W (startLoads p b) (W ++ U) x ∧ (W ++ U).length = a.k ∧ X = sortNat (W ++ U) ∧
           ending = phase2 num p a.k W b U)) := by
  have hv := validCall_of_prologue hal
  have ht := total_pos hp hv.voters
  have hr0 : 0 ≤ (a.k : ℚ) / total p := by positivity
  obtain ⟨X, V, b, h1, h2, h3, h4⟩ := equalShares_resolute hp hv.voters a.k hv.le hv.pos completion hc (a.k / total p) hr0 a.maxNum none
    (startBudget_none p a.k)
  obtain ⟨w, info, W, b', R, g1, g2, g3, g4, g5, g6⟩ := mesLoopInfo_resolute hp hn hv.voters a.k hv.le completion hc (a.k / total p) hr0 a.k
    [] (budgetOf p (a.k / total p)) (by simp) (by have := hv.pos; simpa using (by omega : 0 < a.k)) .start (dfsFuel p a.k) (by
      unfold dfsFuel
      exact (Nat.lt_pow_self (by have := hv.pos; have := hv.le; omega)).le) {} rfl
  rw [List.nil_append] at g2 g6
  rw [List.length_nil] at g5
  have gR : info.rounds = R := by rw [g3]; rfl
  have hlenW : W.length = a.k ∨ (W.length < a.k ∧ MESDone p W b') := by
    rcases g6 with ⟨h, _⟩ | ⟨h, h', _⟩
    · exact Or.inl h
    · exact Or.inr ⟨h, h'⟩
  have hlenV : V.length = a.k ∨ (V.length < a.k ∧ MESDone p V b) := by
    rcases h4 with ⟨h, _⟩ | ⟨h, h', _⟩
    · exact Or.inl h
    · exact Or.inr ⟨h, h'⟩
  obtain ⟨rfl, rfl⟩ := mesFirst_unique hp g2 h3 hlenW hlenV
  have hfst := mesLoopInfo_fst p a.k true completion (some 1) (dfsFuel p a.k) [([], List.ofFn (budgetOf p (a.k / total p)))] [] {}
  rw [g1] at hfst
  have hsort : sortedCommittees w = .ok [X] := by
    unfold equalSharesAlgorithm at h1
    rw [startBudget_none] at h1
    simp only [if_true, ← hfst, bind, Except.bind, Except.map] at h1
    exact h1
  have hWn := (mrun_nodup g2.run).1
  have hXlt : ∀ c ∈ X, c < p.numCand := by
    intro c hcX
    refine mesWinner_lt (k := a.k) hc (A := X.toFinset) (r := a.k / total p) ⟨W, b', g2.run, ?_⟩ c (by simpa using hcX)
    rcases h4 with h4 | ⟨h4, h5, h6⟩
    · exact Or.inl h4
    · exact Or.inr ⟨h4, h5, h6.completed⟩
  have hncomp : completion ≠ .increment := by rcases hc with rfl | ⟨rfl, -⟩ | rfl <;> simp
  -- the texts
  have hbody : ∀ ending, phase2Msgs num p W.length info.startLoad info.phragmen = .ok ending →
      mesBodyMsgs num p true (.phases (startBudget p a.k none) info) = .ok (phase1 num p (a.k / total p) W ++ ending) := by
    intro ending he
    unfold mesBodyMsgs
    simp only [if_true]
    rw [startBudget_none]
    have hs := loadsText_ok num hv.voters "  ".toList (load := List.ofFn (budgetOf p (a.k / total p))) (by simp)
    have e : "  ".toList ++ "(".toList = "  (".toList := rfl
    rw [e] at hs
    dsimp only [bind, Except.bind]
    rw [hs]
    dsimp only
    rw [gR, g5 num, g4, he]
    rfl
  have hout : ∀ ending, phase2Msgs num p W.length info.startLoad info.phragmen = .ok ending →
      computeEqualSharesVerbose env num float completion p a = .ok
        ([heading rid, fractionsAlgorithm alg] ++ phase1 num p (a.k / total p) W ++ ending ++ [winners p [X]], [X]) := by
    intro ending he
    unfold computeEqualSharesVerbose mesDetails
    rw [hid]
    simp only [bind, Except.bind, hal]
    rw [if_neg hncomp, withFractions_exact hex, hr]
    unfold equalSharesInfo
    rw [startBudget_none]
    simp only [if_true, bind, Except.bind, g1, hsort]
    have hb := hbody ending he
    rw [startBudget_none] at hb
    rw [mesReport_ok num hex hn rid true (by simpa using hXlt) (by simp) _ hb]
    dsimp only
    rw [sortedCommittees_of_sorted h2]
    have e1 : Remark.all.msgs true = [] := rfl
    rw [e1]
    simp only [List.cons_append, List.nil_append, List.append_assoc]
  rcases g6 with ⟨hk, hsl⟩ | ⟨hk, hdone, hend⟩
  · refine ⟨X, W, b', [], g2, h2, hout [] (by rw [hsl]; rfl), Or.inl ⟨hk, ?_, rfl⟩⟩
    refine eq_of_lt_toFinset h2 (sortNat_lt hWn) ?_
    rw [sortNat_toFinset]
    rcases h4 with ⟨-, h⟩ | ⟨h, -, -⟩
    · exact h.symm
    · omega
  · have h6 : CompletedR p a.k true completion W b' X.toFinset := by
      rcases h4 with ⟨h, -⟩ | ⟨_, _, h⟩
      · omega
      · exact h
    by_cases hcs : completion = .seqphragmen
    · rw [if_pos hcs] at hend
      obtain ⟨U, x, e1, e2, e3, e4⟩ := hend
      refine ⟨X, W, b', phase2 num p a.k W b' U, g2, h2, hout _ ?_, Or.inr (Or.inr ⟨hk, hdone, hcs, U, x, e1, e2, ?_, rfl⟩)⟩
      · rw [e3]
        exact phase2_ok num hv.voters a.k W U b' e4
      · unfold CompletedR at h6
        rw [if_pos ⟨rfl, hcs⟩] at h6
        obtain ⟨V', x', f1, f2, f3⟩ := h6
        obtain ⟨rfl, _⟩ := RunFirst.unique e1 f1 (e2.trans f2.symm)
        refine eq_of_lt_toFinset h2 (sortNat_lt ?_) ?_
        · exact (e1.run.nodup (m := p.numCand) (fun _ _ _ _ h => ⟨h.1, h.2.1⟩) hWn (mrun_nodup g2.run).2).1
        · rw [sortNat_toFinset, f3]
    · rw [if_neg hcs] at hend
      exact ⟨X, W, b', [], g2, h2, hout [] (by rw [hend]; rfl), Or.inr (Or.inl ⟨hk, hdone, hcs, h6.completed, rfl⟩)⟩

/-- **C88** Equal Shares with `resolute=False`: only the heading, the remark and the winning committees are printed. -/
theorem C88_mes_irresolute (env : Env) (num : ℚ → Name) (float : Except Err (List (List ℕ) × MesDetails))
    (float' : Except Err (List (List ℕ))) (p : Profile) (hp : p.WF) (hn : Named p) (completion : Completion)
    (hc : CompletionOk p completion) (a : Args) (rid alg : String) (hid : completion.ruleId = .ok rid)
    (hal : prologue env rid p a = .ok alg) (hex : ExactAlg env alg) (hr : a.resolute = false) :
    ∃ cs, computeEqualShares env float' completion p a = .ok cs ∧ computeEqualSharesVerbose env num float completion p a = .ok
      ([heading rid, infoMsg "Computing all possible winning committees for any tiebreaking order".toList,
        infoMsg " (aka parallel universes tiebreaking) (resolute=False)\n".toList, fractionsAlgorithm alg, winners p cs], cs) := by
  have hv := validCall_of_prologue hal
  have ht := total_pos hp hv.voters
  have hr0 : 0 ≤ (a.k : ℚ) / total p := by positivity
  have hans := C38_equal_shares env float' p hp completion hc a rid alg hid hal hex
  have hwin : ∃ A, MESWinner p a.k completion (a.k / total p) A := by
    obtain ⟨X, V, b, _, _, h3, h4⟩ := equalShares_resolute hp hv.voters a.k hv.le hv.pos completion hc (a.k / total p) hr0 a.maxNum none
      (startBudget_none p a.k)
    refine ⟨X.toFinset, V, b, h3.run, ?_⟩
    rcases h4 with h4 | ⟨h4, h5, h6⟩
    · exact Or.inl h4
    · exact Or.inr ⟨h4, h5, h6.completed⟩
  obtain ⟨cs, c0, hcs, hget⟩ := answers_get hans hwin hv.max
  have hlt := answers_lt hans (m := p.numCand) (fun A hA => mesWinner_lt hc hA) hcs
  have hcne : cs ≠ [] := by rintro rfl; cases hget
  refine ⟨cs, hcs, ?_⟩
  have hncomp : completion ≠ .increment := by rcases hc with rfl | ⟨rfl, -⟩ | rfl <;> simp
  have h := hcs
  rw [computeEqualShares_eq hc hid hal hex, hr] at h
  unfold equalSharesAlgorithm at h
  simp only [Bool.false_eq_true, if_false] at h
  rw [← mesLoopInfo_fst p a.k false completion a.maxNum (dfsFuel p a.k) [([], startBudget p a.k none)] [] {}] at h
  cases hm : mesLoopInfo p a.k false completion a.maxNum (dfsFuel p a.k) [([], startBudget p a.k none)] [] {} with
  | error e => rw [hm] at h; cases h
  | ok r =>
    rw [hm] at h
    simp only [bind, Except.bind, Except.map] at h
    cases hs : sortedCommittees r.1 with
    | error e => rw [hs] at h; cases h
    | ok ds =>
      rw [hs] at h
      dsimp only at h
      rw [sortedCommittees_idem hs] at h
      obtain rfl := Except.ok.inj h
      unfold computeEqualSharesVerbose mesDetails
      rw [hid]
      simp only [bind, Except.bind, hal]
      rw [if_neg hncomp, withFractions_exact hex, hr]
      unfold equalSharesInfo
      simp only [Bool.false_eq_true, if_false, bind, Except.bind, hm, hs]
      rw [mesReport_ok num hex hn rid false hlt hcne (.phases (startBudget p a.k none) r.2) (body := []) rfl]
      dsimp only
      rw [sortedCommittees_idem hs]
      rfl

theorem incrementLoopInfo_spec {p : Profile} (hp : p.WF) (hne : p.voters ≠ []) (hw : ApproversAtLeastOne p) (k : ℕ)
    (hk : k ≤ p.numCand) (hk1 : 1 ≤ k) (hap : k ≤ p.approvedCandidates.length) (n : ℕ) (s : ℕ) (hs : 1 ≤ s)
    (hN : (k : ℚ) * total p ≤ (s + n : ℕ)) :
    ∃ inc W, s ≤ inc ∧ FirstOutcome p k (inc / total p) W ∧ W.length = k ∧
      incrementLoopInfo p k (List.range' s (n + 1)) = .ok ([sortNat W], .increment inc) ∧
      ∀ j, s ≤ j → j < inc → ∃ V, FirstOutcome p k (j / total p) V ∧ V.length < k := by
  have ht := total_pos hp hne
  have step := incrementStep hp hne k hk hk1
  induction n generalizing s with
  | zero =>
    obtain ⟨X, W, h1, h2, rfl, hWn⟩ := step s hs
    have hlen : W.length = k := by
      obtain ⟨b, hrun, h3⟩ := h2
      rcases h3 with h3 | ⟨h3, h4⟩
      · exact h3
      · have := enough_budget hp hw k (s / total p) (by rw [le_div_iff₀ ht]; simpa using hN) hap hrun.run h4
        omega
    refine ⟨s, W, le_rfl, h2, hlen, ?_, fun j h1 h2 => by omega⟩
    simp only [List.range'_succ, List.range'_zero]
    unfold incrementLoopInfo
    rw [h1]
    simp [bind, Except.bind, sortNat_length, hlen]
  | succ n ih =>
    obtain ⟨X, W, h1, h2, rfl, hWn⟩ := step s hs
    rw [List.range'_succ]
    unfold incrementLoopInfo
    rw [h1]
    simp only [bind, Except.bind]
    by_cases hlen : W.length = k
    · refine ⟨s, W, le_rfl, h2, hlen, ?_, fun j h1 h2 => by omega⟩
      simp [sortNat_length, hlen]
    · have hlt : W.length < k := by
        obtain ⟨b, -, h3⟩ := h2
        rcases h3 with h3 | ⟨h3, -⟩
        · exact absurd h3 hlen
        · exact h3
      obtain ⟨inc, V, g1, g2, g3, g4, g5⟩ := ih (s + 1) (by omega) (by
        have : s + 1 + n = s + (n + 1) := by omega
        rw [this]; exact hN)
      refine ⟨inc, V, by omega, g2, g3, ?_, ?_⟩
      · simp [sortNat_length, hlen]
        exact g4
      · intro j hj1 hj2
        rcases Nat.eq_or_lt_of_le hj1 with rfl | hj
        · exact ⟨W, h2, hlt⟩
        · exact g5 j hj hj2

/-- **C88** Equal Shares with completion by increments: the virtual committee size that is printed is the smallest one, starting with the
committee size, for which `k` candidates are bought; if fewer than `k` candidates are approved, this is said instead. -/
theorem C88_increment (env : Env) (num : ℚ → Name) (float : Except Err (List (List ℕ) × MesDetails)) (float' : Except Err (List (List ℕ)))
    (p : Profile) (hp : p.WF) (hn : Named p) (hw : ApproversAtLeastOne p) (a : Args) (alg : String)
    (hal : prologue env "equal-shares-with-increment-completion" p a = .ok alg) (hex : ExactAlg env alg) :
    ∃ X, computeEqualShares env float' .increment p a = .ok [X] ∧
      ((p.approvedCandidates.length < a.k ∧ computeEqualSharesVerbose env num float .increment p a = .ok
          ([heading "equal-shares-with-increment-completion", fractionsAlgorithm alg,
            detailsMsg ("There are fewer candidates approved by at least one voter than".toList ++
              " the desired committee size. Thus Equal Shares returns all approved candidates".toList ++
              " and fills the committee with non-approved candidates.".toList), winners p [X]], [X])) ∨
       (a.k ≤ p.approvedCandidates.length ∧ ∃ inc, a.k ≤ inc ∧
          (∃ W, FirstOutcome p a.k (inc / total p) W ∧ W.length = a.k ∧ X = sortNat W) ∧
          (∀ j, a.k ≤ j → j < inc → ∃ V, FirstOutcome p a.k (j / total p) V ∧ V.length < a.k) ∧
          computeEqualSharesVerbose env num float .increment p a = .ok
          ([heading "equal-shares-with-increment-completion", fractionsAlgorithm alg,
            detailsMsg "Incrementing starting budget of voters to fill the committee.".toList,
            detailsMsg ("Successful for a (virtual) committee size of ".toList ++ strNat inc ++ ".".toList), winners p [X]], [X]))) := by
  have hv := validCall_of_prologue hal
  have hr : a.resolute = true := by
    obtain ⟨ri, h1, -, -, -, -, -, h, -⟩ := (C19_prologue_ok_iff _ _ _ _ _).1 hal
    have : ruleInfo env "equal-shares-with-increment-completion" = .ok ⟨fractionAlgorithms, [true]⟩ := by
      unfold ruleInfo
      rfl
    rw [this] at h1
    obtain rfl := Except.ok.inj h1
    simpa using h
  have h39 := C39_increment env float' p hp hw a alg hal hex
  have e1 : Remark.all.msgs true = [] := rfl
  have hid : Completion.ruleId .increment = .ok "equal-shares-with-increment-completion" := rfl
  have fin : ∀ X d body, X.Pairwise (· < ·) → (∀ c ∈ X, c < p.numCand) → mesBodyMsgs num p true d = .ok body →
      mesDetails env alg float .increment p a = .ok ([X], d) → computeEqualSharesVerbose env num float .increment p a = .ok
        ([heading "equal-shares-with-increment-completion", fractionsAlgorithm alg] ++ body ++ [winners p [X]], [X]) := by
    intro X d body hX hXlt hb hd
    unfold computeEqualSharesVerbose
    rw [hid]
    simp only [bind, Except.bind, hal, hd, hr]
    rw [mesReport_ok num hex hn _ true (by simpa using hXlt) (by simp) d hb]
    dsimp only
    rw [sortedCommittees_of_sorted hX, e1]
    simp only [List.cons_append, List.nil_append, List.append_assoc]
  rcases Nat.lt_or_ge p.approvedCandidates.length a.k with hlt | hge
  · have hv' : ValidCall p { a with resolute := true, max := none } := ⟨hv.pos, hv.le, hv.voters, by simp, by simp⟩
    have hans := separableAlgorithm_answers .av p hp { a with resolute := true, max := none } hv'
    change ReturnsOne (separableAlgorithm .av p a.k true none) (SepOpt .av p a.k) at hans
    obtain ⟨X, f1, f2, f3⟩ := hans
    refine ⟨X, ?_, Or.inl ⟨hlt, ?_⟩⟩
    · unfold computeEqualShares equalSharesIncrement
      rw [hid]
      simp only [bind, Except.bind, hal, if_true]
      rw [if_pos hlt, f1]
      dsimp only
      rw [sortedCommittees_of_sorted f2]
    · refine fin X .tooFew _ f2 (fun c hc => Finset.mem_range.1 (f3.1.1 (by simpa using hc))) rfl ?_
      unfold mesDetails
      rw [if_pos rfl, if_pos hlt, f1]
      rfl
  · obtain ⟨N, hrange, hNq⟩ := incrementRange_eq hp hw a.k hv.pos hge
    obtain ⟨inc, W, g1, g2, g3, g4, g5⟩ := incrementLoopInfo_spec hp hv.voters hw a.k hv.le hv.pos hge N a.k hv.pos hNq
    obtain ⟨inc', W', k1, k2, k3, k4, k5⟩ := h39.2 hge
    have hinc : inc' = inc := by
      have huniq : ∀ {r : ℚ} {V W : List ℕ}, FirstOutcome p a.k r V → FirstOutcome p a.k r W → V = W := by
        rintro r V W ⟨s, hV, hV'⟩ ⟨t, hW, hW'⟩
        exact (mesFirst_unique hp hV hW hV' hW').1
      rcases Nat.lt_trichotomy inc' inc with h | h | h
      · obtain ⟨V, hV, hVl⟩ := g5 inc' k1 h
        rw [huniq hV k2] at hVl
        omega
      · exact h
      · obtain ⟨V, hV, hVl⟩ := k5 inc g1 h
        rw [huniq hV g2] at hVl
        omega
    subst hinc
    obtain ⟨b, hrun, hend⟩ := k2
    obtain ⟨b', hrun', hend'⟩ := g2
    obtain ⟨rfl, rfl⟩ := mesFirst_unique hp hrun hrun' hend hend'
    have hWn := mrun_nodup hrun.run
    refine ⟨sortNat W', k4, Or.inr ⟨hge, inc', g1, ⟨W', ⟨b, hrun, hend⟩, k3, rfl⟩, g5, ?_⟩⟩
    refine fin (sortNat W') (.increment inc') _ (sortNat_lt hWn.1) (fun c hc => hWn.2 c ((sortNat_perm W').mem_iff.1 hc)) rfl ?_
    unfold mesDetails
    rw [if_pos rfl, if_neg (by omega), withFractions_exact hex, hrange, g4]

/-- **C88** The texts can always be computed and do not change the result. -/
theorem C88_mes_result (env : Env) (num : ℚ → Name) (float : Except Err (List (List ℕ) × MesDetails)) (float' : Except Err (List (List ℕ)))
    (p : Profile) (hp : p.WF) (hn : Named p) (completion : Completion)
    (hc : CompletionOk p completion ∨ (completion = .increment ∧ ApproversAtLeastOne p)) (a : Args) (rid alg : String)
    (hid : completion.ruleId = .ok rid) (hal : prologue env rid p a = .ok alg) (hex : ExactAlg env alg) :
    (computeEqualSharesVerbose env num float completion p a).map Prod.snd = computeEqualShares env float' completion p a := by
  rcases hc with hc | ⟨rfl, hw⟩
  · cases hr : a.resolute with
    | true =>
      obtain ⟨X, W, b, ending, h1, h2, h3, h4⟩ := C88_mes_protocol env num float p hp hn completion hc a rid alg hid hal hex hr
      obtain ⟨Y, V, c, g1, g2, g3, g4⟩ := C38_equal_shares_resolute env float' p hp completion hc a rid alg hid hal hex hr
      have hlenV : V.length = a.k ∨ (V.length < a.k ∧ MESDone p V c) := by
        rcases g4 with ⟨h, _⟩ | ⟨h, h', _⟩
        · exact Or.inl h
        · exact Or.inr ⟨h, h'⟩
      have hlenW : W.length = a.k ∨ (W.length < a.k ∧ MESDone p W b) := by
        rcases h4 with ⟨h, _⟩ | ⟨h, h', _⟩ | ⟨h, h', _⟩
        · exact Or.inl h
        · exact Or.inr ⟨h, h'⟩
        · exact Or.inr ⟨h, h'⟩
      -- the committee of the verbose call is that of the silent one: both are computed by the same loop
      rw [h3, g1]
      refine congrArg (fun Z => Except.ok [Z]) ?_
      have hv := validCall_of_prologue hal
      unfold computeEqualSharesVerbose mesDetails at h3
      rw [hid] at h3
      have hncomp : completion ≠ .increment := by rcases hc with rfl | ⟨rfl, -⟩ | rfl <;> simp
      simp only [bind, Except.bind, hal] at h3
      rw [if_neg hncomp, withFractions_exact hex, hr] at h3
      rw [computeEqualShares_eq hc hid hal hex, hr] at g1
      unfold equalSharesAlgorithm at g1
      unfold equalSharesInfo at h3
      simp only [if_true] at g1 h3
      rw [← mesLoopInfo_fst p a.k true completion (some 1) (dfsFuel p a.k) [([], startBudget p a.k none)] [] {}] at g1
      cases hm : mesLoopInfo p a.k true completion (some 1) (dfsFuel p a.k) [([], startBudget p a.k none)] [] {} with
      | error e => rw [hm] at g1; cases g1
      | ok r =>
        rw [hm] at g1 h3
        simp only [bind, Except.bind, Except.map] at g1 h3
        cases hs : sortedCommittees r.1 with
        | error e => rw [hs] at g1; cases g1
        | ok ds =>
          rw [hs] at g1 h3
          dsimp only at g1 h3
          cases hrep : mesReport num rid alg p true (ds, .phases (startBudget p a.k none) r.2) with
          | error e => rw [hrep] at h3; cases h3
          | ok m =>
            rw [hrep] at h3
            dsimp only at h3
            rw [g1] at h3
            dsimp only at h3
            exact (List.head_eq_of_cons_eq (congrArg Prod.snd (Except.ok.inj h3))).symm
    | false =>
      obtain ⟨cs, h1, h2⟩ := C88_mes_irresolute env num float float' p hp hn completion hc a rid alg hid hal hex hr
      rw [h1, h2]
      rfl
  · obtain rfl : rid = "equal-shares-with-increment-completion" := (Except.ok.inj hid).symm
    obtain ⟨X, h1, ⟨_, h2⟩ | ⟨_, inc, _, _, _, h2⟩⟩ := C88_increment env num float float' p hp hn hw a alg hal hex
    · rw [h1, h2]; rfl
    · rw [h1, h2]; rfl

/-- **C88 (finding)** The output calls the loads with which the second phase starts "budget spent".  They are not: they are minus the
remaining budget per unit of weight, so none of them is positive, while the budget spent is never negative. -/
theorem C88_starting_loads (p : Profile) (hp : p.WF) (r : ℚ) (hr : 0 ≤ r) (W : List ℕ) (b : VoterMap p)
    (h : Run (MESBest p) (mesUpd p) [] (budgetOf p r) W b) (i : Fin p.voters.length) :
    startLoads p b i ≤ 0 ∧ 0 ≤ budgetOf p r i - b i ∧
      startLoads p b i = (budgetOf p r i - b i) / (p.voters.get i).weight - r := by
  have hb := C36_budgets p hp r hr W b h
  have hw := weight_pos hp i
  have hle : b i ≤ budgetOf p r i := by
    clear hb
    induction h with
    | start => exact le_rfl
    | @step W b c hrun hbest ih =>
      refine le_trans ?_ ih
      have h0 := (C36_budgets p hp r hr W b hrun).1 i
      unfold mesUpd
      split
      · obtain ⟨q, hq, _⟩ := hbest.2.2
        have hq0 : 0 ≤ price p b c := by 
          rw [price_eq hq]
          by_contra hneg
          push Not at hneg
          have h1 : payments p b c q ≤ 0 := Finset.sum_nonpos fun j _ =>
            (min_le_right _ _).trans (mul_nonpos_of_nonpos_of_nonneg hneg.le (weight_pos hp j).le)
          have h2 : payments p b c q = 1 := hq.1
          linarith
        have : 0 ≤ min (b i) (price p b c * (p.voters.get i).weight) := le_min h0 (by positivity)
        linarith
      · exact le_rfl
  refine ⟨?_, by linarith, ?_⟩
  · exact div_nonpos_of_nonpos_of_nonneg (by have := hb.1 i; linarith) hw.le
  · unfold startLoads budgetOf
    field_simp
    ring

/-- Non-vacuity: a call with ties in both phases (note the "budget spent"), and one with increments. -/
def reportShares : Profile := ⟨3, [⟨[0, 1], 1⟩, ⟨[1, 0], 1⟩, ⟨[2], 1⟩], ["a".toList, "b".toList, "c".toList]⟩

def showFraction (q : ℚ) : Name := (if q < 0 then "-".toList else []) ++ strNat q.num.natAbs ++ "/".toList ++ strNat q.den

example : reportShares.WF ∧ Named reportShares ∧ ApproversAtLeastOne reportShares ∧
    prologue exampleEnv "equal-shares" reportShares { committeesize := 2, algorithm := "standard-fractions", resolute := true }
      = .ok "standard-fractions" ∧
    ((computeEqualSharesVerbose exampleEnv showFraction (.ok ([], .tooFew)) .seqphragmen reportShares
      { committeesize := 2, algorithm := "standard-fractions", resolute := true }).map
        (fun r => (r.1.drop 2).map (fun m => String.ofList (m.indent ++ m.text)))) =
      .ok ["Phase 1:\n", "starting budget:", "  (2/3, 2/3, 2/3)\n",
        "adding candidate number 1: a", " with maxmimum cost per voter q = 1/2", " remaining budget:", "  (1/6, 1/6, 2/3)",
        " tie broken in favor of a,", " candidates {a, b} are tied", " (all would impose a maximum cost of 1/2).", "",
        "Phase 2 (seq-Phragmén):\n", "starting loads (= budget spent):", "  (-1/6, -1/6, -2/3)\n",
        "adding candidate number 2: b", " maximum load increased to 1/3", " load distribution:", "  (1/3, 1/3, -2/3)",
        " tie broken in favor of b,", " candidates {b, c} are tied", " (for any of those, the new maximum load would be 1/3).", "",
        "1 winning committee:\n {a, b}\n"] := by
  exact ⟨by constructor <;> simp [reportShares], rfl, approversAtLeastOne_of_weights (by decide +kernel), by decide +kernel, by decide +kernel⟩

example : prologue exampleEnv "equal-shares-with-increment-completion" reportShares
      { committeesize := 2, algorithm := "standard-fractions", resolute := true } = .ok "standard-fractions" ∧
    ((computeEqualSharesVerbose exampleEnv showFraction (.ok ([], .tooFew)) .increment reportShares
      { committeesize := 2, algorithm := "standard-fractions", resolute := true }).map
        (fun r => (r.1.drop 2).map (fun m => String.ofList (m.indent ++ m.text)))) =
      .ok ["Incrementing starting budget of voters to fill the committee.", "Successful for a (virtual) committee size of 3.",
        "1 winning committee:\n {a, b}\n"] := by
  exact ⟨by decide +kernel, by decide +kernel⟩

end Abc
