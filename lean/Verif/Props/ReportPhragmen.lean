import Verif.Lemmas.ReportPhragmen

/-!
# C87: the protocol of seq-Phragmén
-/

namespace Abc
open Spec Classical

theorem algorithmMsg_exact {env : Env} {alg : String} (h : ExactAlg env alg) : algorithmMsg alg = .ok (fractionsAlgorithm alg) := by
  rcases h with rfl | ⟨rfl, _⟩
  · simp [algorithmMsg, algorithmName, fractionsAlgorithm, bind, Except.bind]
  · simp [algorithmMsg, algorithmName, fractionsAlgorithm, bind, Except.bind]

theorem phragLoadLine_ok (num : ℚ → Name) {p : Profile} (hn : Named p) (hne : p.voters ≠ []) {W : List ℕ} (hW : ∀ c ∈ W, c < p.numCand)
    (x : VoterMap p) : phragLoadLine num p (W, List.ofFn x) = .ok (loadLine num p W (List.ofFn x)) := by
  unfold phragLoadLine loadLine
  dsimp only
  rw [setText_ok hn hW]
  have h := loadsText_ok num hne (setText p.candNames W ++ ": ".toList) (load := List.ofFn x) (by simp)
  have e : setText p.candNames W ++ ": (".toList = setText p.candNames W ++ ": ".toList ++ "(".toList := by
    rw [List.append_assoc]; rfl
  dsimp only [bind, Except.bind]
  rw [e, h]

theorem seqphragmenReport_ok (num : ℚ → Name) {env : Env} {alg : String} (hex : ExactAlg env alg) {p : Profile} (hn : Named p)
    (hne : p.voters ≠ []) (resolute : Bool) {cs : List (List ℕ)} (hcs : ∀ W ∈ cs, ∀ c ∈ W, c < p.numCand) (hcne : cs ≠ [])
    (infos : List PhragInfo) {pairs : List (List ℕ × VoterMap p)} (hpairs : ∀ e ∈ pairs, ∀ c ∈ e.1, c < p.numCand) {rounds : List Msg}
    (hrounds : phragRoundsMsgs num p phragTieText 0 (if resolute then infos else []) = .ok rounds) :
    seqphragmenReport num alg p resolute (cs, infos, pairs.map (fun e => (e.1, List.ofFn e.2))) = .ok
      (heading "seqphragmen" :: Remark.all.msgs resolute ++ [fractionsAlgorithm alg] ++ rounds ++ [winners p cs,
        detailsMsg (if resolute ∨ cs.length = 1 then "corresponding load distribution:".toList
          else "corresponding load distributions:".toList)] ++ pairs.map (fun e => loadLine num p e.1 (List.ofFn e.2))) := by
  have hls : (pairs.map (fun e => (e.1, List.ofFn e.2))).mapM (phragLoadLine num p) =
      .ok (pairs.map (fun e => loadLine num p e.1 (List.ofFn e.2))) := by
    have : pairs.mapM (fun e => phragLoadLine num p (e.1, List.ofFn e.2)) =
        .ok (pairs.map (fun e => loadLine num p e.1 (List.ofFn e.2))) :=
      mapM_ok_of fun e he => phragLoadLine_ok num hn hne (hpairs e he) _
    rw [List.mapM_map]
    exact this
  unfold seqphragmenReport
  rw [headMsgs_ok, algorithmMsg_exact hex]
  dsimp only
  rw [hrounds, committeesMsg_ok hn hcs hcne, hls]
  rfl

theorem prunFirst_nodup {p : Profile} {W : List ℕ} {x : VoterMap p} (h : PRun p [] (fun _ => 0) W x) :
    W.Nodup ∧ ∀ c ∈ W, c < p.numCand := h.nodup (m := p.numCand) (fun _ _ _ _ hb => ⟨hb.1, hb.2.1⟩) (by simp) (by simp)

/-- **C87** seq-Phragmén with `resolute=True`: the output is the heading, the protocol of the run that always elects the smallest possible
candidate, the winning committee and its loads. -/
theorem C87_phragmen_protocol (env : Env) (num : ℚ → Name) (float : Except Err PhragDetails) (p : Profile) (hp : p.WF) (hn : Named p)
    (hw : ApproversAtLeastOne p) (a : Args) (alg : String) (hal : prologue env "seqphragmen" p a = .ok alg) (hex : ExactAlg env alg)
    (hr : a.resolute = true) :
    ∃ W x, RunFirst (PhragBest p) (phragUpd p) [] (fun _ => 0) W x ∧ W.length = a.k ∧
      computeSeqphragmenVerbose env num float p a = .ok
        ([heading "seqphragmen", fractionsAlgorithm alg] ++
          (phragProtocol p a.k [] (fun _ => 0) W).flatMap (LoadRound.lines num p "(for all those new maximum load = ".toList) ++
          [winners p [sortNat W], detailsMsg "corresponding load distribution:".toList, loadLine num p (sortNat W) (List.ofFn x)],
        [sortNat W]) := by
  have hv := validCall_of_prologue hal
  obtain ⟨V, U, x, infos, g1, g2, g3, g4, g5⟩ := phragLoop_protocol hp hn hv.voters hw a.k hv.le [] (fun _ => 0) (by simp) a.k [] []
    (List.Perm.refl _) (fun _ => 0) [] .start (by simp)
  rw [List.nil_append] at g1 g2 g3
  have hnd := prunFirst_nodup g3.run
  refine ⟨U, x, g3, g4, ?_⟩
  unfold computeSeqphragmenVerbose
  rw [hal]
  simp only [bind, Except.bind]
  rw [withFractions_exact hex, hr, if_pos rfl]
  unfold seqphragmenResoluteInfo
  rw [zeroLoad_eq]
  simp only [bind, Except.bind, g1]
  have hVne : a.k ≠ 0 := by have := hv.pos; omega
  -- the committee is sorted
  have hVs : V = sortNat U := by
    have : ∀ (n : ℕ) (V W : List ℕ) (x : List ℚ) (i : List PhragInfo) r, n ≠ 0 → seqphragmenLoop p a.k n V x i = .ok r →
        r.1 = sortNat r.1 := by
      intro n
      induction n with
      | zero => intro _ _ _ _ _ h; exact absurd rfl h
      | succ n ih =>
        intro V W x i r _ h
        unfold seqphragmenLoop at h
        cases hg : pyGet (tiedMin (newMaxload p a.k V x)) 0 with
        | error e => simp only [hg, bind, Except.bind] at h; cases h
        | ok c =>
          simp only [hg, bind, Except.bind] at h
          by_cases h0 : n = 0
          · subst h0
            unfold seqphragmenLoop at h
            cases h
            exact sortNat_eq_of_perm (sortNat_perm _).symm
          · exact ih _ W _ _ _ h0 h
    have h1 := this a.k [] [] _ [] _ hVne g1
    dsimp only at h1
    rw [h1, sortNat_eq_of_perm g2]
  subst hVs
  have hlt : ∀ c ∈ sortNat U, c < p.numCand := fun c hc => hnd.2 c ((sortNat_perm U).mem_iff.1 hc)
  have hrep := seqphragmenReport_ok num hex hn hv.voters true (cs := [sortNat U]) (by simpa using hlt) (by simp) infos
    (pairs := [(sortNat U, x)]) (by simpa using hlt) (g5 num phragTieText)
  simp only [List.map_cons, List.map_nil] at hrep
  rw [hrep, sortedCommittees_of_sorted (sortNat_lt hnd.1)]
  have e1 : Remark.all.msgs true = [] := rfl
  rw [e1, if_pos (Or.inl (by first | trivial | rfl))]
  simp only [List.cons_append, List.nil_append, List.append_assoc]
  rfl

/-- **C87** seq-Phragmén with `resolute=False`: the output names the committees that are returned and, for each of them, the loads after a
run that elects it. -/
theorem C87_phragmen_irresolute (env : Env) (num : ℚ → Name) (float : Except Err PhragDetails) (float' : Except Err (List (List ℕ)))
    (p : Profile) (hp : p.WF) (hn : Named p) (hw : ApproversAtLeastOne p) (a : Args) (alg : String)
    (hal : prologue env "seqphragmen" p a = .ok alg) (hex : ExactAlg env alg) (hr : a.resolute = false) :
    ∃ cs, computeSeqphragmen env float' p a = .ok cs ∧ ∃ pairs : List (List ℕ × VoterMap p),
      (pairs.map Prod.fst).Perm cs ∧
      (∀ e ∈ pairs, ∃ W, Run (PhragBest p) (phragUpd p) [] (fun _ => 0) W e.2 ∧ W.length = a.k ∧ e.1 = sortNat W) ∧
      computeSeqphragmenVerbose env num float p a = .ok
        ([heading "seqphragmen", infoMsg "Computing all possible winning committees for any tiebreaking order".toList,
          infoMsg " (aka parallel universes tiebreaking) (resolute=False)\n".toList, fractionsAlgorithm alg, winners p cs,
          detailsMsg (if cs.length = 1 then "corresponding load distribution:".toList else "corresponding load distributions:".toList)] ++
          pairs.map (fun e => loadLine num p e.1 (List.ofFn e.2)), cs) := by
  have hv := validCall_of_prologue hal
  have hans := C33_seqphragmen env float' p hp hw a alg hal hex
  have hwin : ∃ A, RunWinner (PhragBest p) (phragUpd p) (fun _ => 0) a.k A := by
    obtain ⟨V, W, x, info, g1, g2, g3, g4⟩ := seqphragmenLoop_spec hp hw a.k hv.le [] (fun _ => 0) (by simp) a.k [] [] (List.Perm.refl _)
      (fun _ => 0) [] .start (by simp)
    exact ⟨_, W, x, g3.run, by simpa using g4, rfl⟩
  obtain ⟨cs, c0, hcs, hget⟩ := answers_get hans hwin hv.max
  have hlt := answers_lt hans (m := p.numCand) (by
    rintro A ⟨W, x, hW, _, rfl⟩ c hc
    exact (prunFirst_nodup hW).2 c (by simpa using hc)) hcs
  have hcne : cs ≠ [] := by rintro rfl; cases hget
  refine ⟨cs, hcs, ?_⟩
  have hc := hcs
  unfold computeSeqphragmen at hc
  rw [hal] at hc
  simp only [bind, Except.bind] at hc
  rw [withFractions_exact hex, hr, if_neg (by simp)] at hc
  unfold seqphragmenIrresolute at hc
  have hkeys := universesD_keys (full := fun n : List ℕ × List ℚ => decide (n.1.length = a.k)) (out := fun n => sortNat n.1)
    (val := Prod.snd) (succs := fun n => .ok (seqphragmenSuccs p a.k n)) (max := a.maxNum) (dfsFuel p a.k) [([], zeroLoad p)] []
  rw [List.map_nil] at hkeys
  rw [hkeys] at hc
  cases hd : universesD (fun n : List ℕ × List ℚ => decide (n.1.length = a.k)) (fun n => sortNat n.1) Prod.snd
      (fun n => .ok (seqphragmenSuccs p a.k n)) a.maxNum (dfsFuel p a.k) [([], zeroLoad p)] [] with
  | error e => rw [hd] at hc; cases hc
  | ok d =>
    rw [hd] at hc
    simp only [Except.map, bind, Except.bind] at hc
    cases hs : sortedCommittees (d.map Prod.fst) with
    | error e => rw [hs] at hc; cases hc
    | ok ds =>
      rw [hs] at hc
      dsimp only at hc
      rw [sortedCommittees_idem hs] at hc
      obtain rfl := Except.ok.inj hc
      -- the entries of the dictionary
      have hsucc := phragmen_succSpec hp hw a.k hv.le [] (fun _ => 0) (by simp)
      have hinv := universesD_inv (full := fun n : List ℕ × List ℚ => decide (n.1.length = a.k)) (out := fun n => sortNat n.1)
        (val := Prod.snd) (succs := fun n => .ok (seqphragmenSuccs p a.k n)) (max := a.maxNum)
        (I := fun n => ∃ W x, PRun p [] (fun _ => 0) W x ∧ W.length < a.k ∧ n = (W, List.ofFn x))
        (Q := fun e => ∃ W x, PRun p [] (fun _ => 0) W x ∧ W.length = a.k ∧ e = (sortNat W, List.ofFn x)) (by
          rintro n ns ⟨W, x, h1, h2, rfl⟩ hns m hm
          obtain ⟨cands, e, _, _, _, hcm⟩ := hsucc W x h1 h2
          dsimp only at e
          obtain rfl := Except.ok.inj (hns.symm.trans e)
          obtain ⟨c, hc, rfl⟩ := List.mem_map.1 hm
          have hstep := Run.step h1 ((hcm c).1 hc)
          by_cases hf : (W ++ [c]).length = a.k
          · rw [if_pos (by simpa using hf)]; exact ⟨_, _, hstep, hf, rfl⟩
          · rw [if_neg (by simpa using hf)]
            refine ⟨_, _, hstep, ?_, rfl⟩
            simp at hf ⊢; omega) (dfsFuel p a.k) [([], zeroLoad p)] [] (by
          intro n hn
          rw [List.mem_singleton] at hn
          subst hn
          exact ⟨[], _, .start, by have := hv.pos; simpa using (by omega : 0 < a.k), by rw [zeroLoad_eq]⟩) (by simp) hd
      obtain ⟨pairs, hp1, hp2⟩ : ∃ pairs : List (List ℕ × VoterMap p), d = pairs.map (fun e => (e.1, List.ofFn e.2)) ∧
          ∀ e ∈ pairs, ∃ W, PRun p [] (fun _ => 0) W e.2 ∧ W.length = a.k ∧ e.1 = sortNat W := by
        clear hd hs hkeys
        induction d with
        | nil => exact ⟨[], rfl, by simp⟩
        | cons e d ih =>
          obtain ⟨l, h1, h2⟩ := ih (fun e he => hinv e (by simp [he]))
          obtain ⟨W, x, g1, g2, g3⟩ := hinv e (by simp)
          refine ⟨(sortNat W, x) :: l, by rw [h1, g3]; rfl, ?_⟩
          intro e he
          rcases List.mem_cons.1 he with rfl | he
          · exact ⟨W, g1, g2, rfl⟩
          · exact h2 e he
      have hfst : d.map Prod.fst = pairs.map Prod.fst := by rw [hp1, List.map_map]; rfl
      have hkeyslt : ∀ W ∈ d.map Prod.fst, W.Pairwise (· < ·) ∧ ∀ c ∈ W, c < p.numCand := by
        intro W hW
        rw [hfst] at hW
        obtain ⟨e, he, rfl⟩ := List.mem_map.1 hW
        obtain ⟨V, h1, _, h3⟩ := hp2 e he
        have hV := prunFirst_nodup h1
        rw [h3]
        exact ⟨sortNat_lt hV.1, fun c hc => hV.2 c ((sortNat_perm V).mem_iff.1 hc)⟩
      refine ⟨pairs, ?_, hp2, ?_⟩
      · rw [← hfst]
        rw [sortedCommittees_ok fun W hW => nodup_of_lt (hkeyslt W hW).1] at hs
        have := Except.ok.inj hs
        rw [← this]
        have hid : (d.map Prod.fst).map sortNat = d.map Prod.fst := by
          conv_rhs => rw [← List.map_id (d.map Prod.fst)]
          exact List.map_congr_left fun W hW => sortNat_of_lt (hkeyslt W hW).1
        rw [hid]
        exact (List.perm_insertionSort _ _).symm
      · unfold computeSeqphragmenVerbose
        rw [hal]
        simp only [bind, Except.bind]
        rw [withFractions_exact hex, hr, if_neg (by simp)]
        unfold seqphragmenIrresoluteInfo
        simp only [bind, Except.bind, hd, hs]
        have hrep := seqphragmenReport_ok num hex hn hv.voters false hlt hcne [] (pairs := pairs) (fun e he =>
          (hkeyslt e.1 (by rw [hfst]; exact List.mem_map_of_mem he)).2) (rounds := []) rfl
        rw [← hp1] at hrep
        rw [hrep, sortedCommittees_idem hs]
        have e1 : Remark.all.msgs false = [infoMsg "Computing all possible winning committees for any tiebreaking order".toList,
          infoMsg " (aka parallel universes tiebreaking) (resolute=False)\n".toList] := rfl
        have e2 : (false = true ∨ ds.length = 1) = (ds.length = 1) := by simp
        rw [e1]
        simp only [e2, List.cons_append, List.nil_append, List.append_assoc]

/-- **C87** The texts can always be computed and do not change the result. -/
theorem C87_phragmen_result (env : Env) (num : ℚ → Name) (float : Except Err PhragDetails) (float' : Except Err (List (List ℕ)))
    (p : Profile) (hp : p.WF) (hn : Named p) (hw : ApproversAtLeastOne p) (a : Args) (alg : String)
    (hal : prologue env "seqphragmen" p a = .ok alg) (hex : ExactAlg env alg) :
    (computeSeqphragmenVerbose env num float p a).map Prod.snd = computeSeqphragmen env float' p a := by
  cases hr : a.resolute with
  | true =>
    obtain ⟨W, x, h1, h2, h3⟩ := C87_phragmen_protocol env num float p hp hn hw a alg hal hex hr
    obtain ⟨V, y, g1, g2, g3⟩ := C33_seqphragmen_resolute env float' p hp hw a alg hal hex hr
    obtain ⟨rfl, _⟩ := h1.unique g1 (h2.trans g2.symm)
    rw [h3, g3]
    rfl
  | false =>
    obtain ⟨cs, h1, pairs, _, _, h4⟩ := C87_phragmen_irresolute env num float float' p hp hn hw a alg hal hex hr
    rw [h1, h4]
    rfl

/-- The rounds of a protocol. -/
theorem phragProtocol_mem {p : Profile} {k : ℕ} {W₀ : List ℕ} {x₀ : VoterMap p} {W U : List ℕ} {x y : VoterMap p}
    (h0 : PRun p W₀ x₀ W x) (h : PRun p W₀ x₀ (W ++ U) y) : ∀ r ∈ phragProtocol p k W x U, ∃ V z, PRun p W₀ x₀ V z ∧
      PhragBest p V z r.cand ∧ r.number = V.length + 1 ∧ r.loads = List.ofFn (phragUpd p V z r.cand) ∧ r.tied = phragTied p V z ∧
      r.maxLoad = if (backers p r.cand).Nonempty then newLoad p z r.cand else (k : ℚ) + 1 := by
  -- a run is determined by the order of election
  have det : ∀ {V : List ℕ} {s t : VoterMap p}, PRun p W₀ x₀ V s → PRun p W₀ x₀ V t → s = t := by
    intro V s t hs
    induction hs generalizing t with
    | start => intro ht; exact ((run_zero_iff.1 ⟨ht, rfl⟩).2).symm
    | @step V s c hs hb ih =>
      intro ht
      obtain ⟨t', h1, _, rfl⟩ := (run_snoc_iff hs.length).1 ht
      rw [ih h1]
  have pre : ∀ {U V : List ℕ} {y : VoterMap p}, W₀.length ≤ V.length → PRun p W₀ x₀ (V ++ U) y → ∃ z, PRun p W₀ x₀ V z := by
    intro U
    induction U using List.reverseRecOn with
    | nil => intro V y _ h; exact ⟨y, by simpa using h⟩
    | append_singleton U c ih =>
      intro V y hl h
      rw [← List.append_assoc] at h
      obtain ⟨s, h1, _, _⟩ := (run_snoc_iff (by simp; omega)).1 h
      exact ih hl h1
  induction U generalizing W x with
  | nil => simp [phragProtocol]
  | cons c U ih =>
    have h' : PRun p W₀ x₀ ((W ++ [c]) ++ U) y := by simpa using h
    have hl : W₀.length ≤ (W ++ [c]).length := by have := h0.length; simp; omega
    obtain ⟨z, hz⟩ := pre hl h'
    obtain ⟨s, h1, h2, h3⟩ := (run_snoc_iff h0.length).1 hz
    obtain rfl := det h0 h1
    subst h3
    intro r hr
    unfold phragProtocol at hr
    rcases List.mem_cons.1 hr with rfl | hr
    · exact ⟨W, x, h0, h2, rfl, rfl, rfl, rfl⟩
    · exact ih hz h' r hr

/-- **C87** What the protocol says about the maximum load: after a candidate with supporters it is the largest of the loads printed.
(Finding: for a candidate without supporters "maximum load increased to k+1" is printed although no load changes and all are smaller.) -/
theorem C87_max_load (p : Profile) (hp : p.WF) (hw : ApproversAtLeastOne p) (k : ℕ) (W : List ℕ) (x : VoterMap p) (hk : W.length ≤ k)
    (h : Run (PhragBest p) (phragUpd p) [] (fun _ => 0) W x) : ∀ r ∈ phragProtocol p k [] (fun _ => 0) W,
      ((backers p r.cand).Nonempty → r.maxLoad ∈ r.loads ∧ ∀ l ∈ r.loads, l ≤ r.maxLoad) ∧
      (¬ (backers p r.cand).Nonempty → r.maxLoad = k + 1 ∧ ∀ l ∈ r.loads, l < r.maxLoad) := by
  intro r hr
  obtain ⟨V, z, h1, h2, h3, h4, h5, h6⟩ := phragProtocol_mem (W₀ := []) (W := []) .start (by simpa using h) r hr
  have hin : ∀ l ∈ r.loads, ∃ i, l = phragUpd p V z r.cand i := by
    intro l hl
    rw [h4, List.mem_ofFn] at hl
    obtain ⟨i, rfl⟩ := hl
    exact ⟨i, rfl⟩
  constructor
  · intro hb
    rw [if_pos hb] at h6
    rw [h6]
    constructor
    · rw [h4, List.mem_ofFn]
      obtain ⟨i, hi⟩ := hb
      exact ⟨i, by unfold phragUpd; rw [if_pos hi]⟩
    · intro l hl
      obtain ⟨i, rfl⟩ := hin l hl
      unfold phragUpd
      split
      · exact le_rfl
      · exact load_le_newLoad hp h1 _ h2.1 h2.2.1 hb i
  · intro hb
    rw [if_neg hb] at h6
    refine ⟨h6, ?_⟩
    intro l hl
    obtain ⟨i, rfl⟩ := hin l hl
    rw [h6]
    unfold phragUpd
    rw [if_neg (fun hi => hb ⟨i, hi⟩)]
    have hbd := prun_bound hp hw (by simp) h1 i
    have hVk : V.length ≤ k := by
      have : ∀ (W U : List ℕ) (y : VoterMap p) r, r ∈ phragProtocol p k W y U → r.number ≤ W.length + U.length := by
        intro W U
        induction U generalizing W with
        | nil => intro y r hr; simp [phragProtocol] at hr
        | cons c U ih =>
          intro y r hr
          unfold phragProtocol at hr
          rcases List.mem_cons.1 hr with rfl | hr
          · simp
          · have := ih _ _ r hr
            simp at this ⊢
            omega
      have := this [] W _ r hr
      simp at this
      omega
    have : (V.length : ℚ) ≤ k := by exact_mod_cast hVk
    linarith

/-- Non-vacuity: a resolute call with a tie, and the finding with a candidate nobody approves. -/
example : ApproversAtLeastOne ⟨3, [⟨[0, 1], 1⟩, ⟨[1, 0], 2⟩], ["a".toList, "b".toList, "c".toList]⟩ ∧
    prologue exampleEnv "seqphragmen" ⟨3, [⟨[0, 1], 1⟩, ⟨[1, 0], 2⟩], ["a".toList, "b".toList, "c".toList]⟩
      { committeesize := 3, algorithm := "standard-fractions", resolute := true } = .ok "standard-fractions" ∧
    ((computeSeqphragmenVerbose exampleEnv (fun q => strNat q.num.toNat ++ "/".toList ++ strNat q.den) (.ok ([], [], []))
      ⟨3, [⟨[0, 1], 1⟩, ⟨[1, 0], 2⟩], ["a".toList, "b".toList, "c".toList]⟩
      { committeesize := 3, algorithm := "standard-fractions", resolute := true }).map
        (fun r => r.1.map (fun m => String.ofList (m.indent ++ m.text)))) =
      .ok ["-----------------------------------------\nPhragmén's Sequential Rule (seq-Phragmén)\n-----------------------------------------\n",
        "Algorithm: Standard algorithm (using standard Python fractions)\n",
        "adding candidate number 1: a", " maximum load increased to 1/3", " load distribution:", "  (1/3, 1/3)",
        " tie broken in favor of a,", " candidates {a, b} are tied", " (for all those new maximum load = 1/3).", "",
        "adding candidate number 2: b", " maximum load increased to 2/3", " load distribution:", "  (2/3, 2/3)", "",
        "adding candidate number 3: c", " maximum load increased to 4/1", " load distribution:", "  (2/3, 2/3)", "",
        "1 winning committee:\n {a, b, c}\n", "corresponding load distribution:", "{a, b, c}: (2/3, 2/3)\n"] := by
  exact ⟨approversAtLeastOne_of_weights (by decide +kernel), by decide +kernel, by decide +kernel⟩

end Abc
