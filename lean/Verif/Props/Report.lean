import Verif.Lemmas.Report

/-!
# C85: the protocols of the sequential rules
-/

namespace Abc
open Spec

/-! ## Sequential Thiele methods -/

/-- The information recorded while `U` is added to `W`. -/
def seqInfos (f : ℕ → ℚ) (p : Profile) : List ℕ → List ℕ → List SeqInfo
  | _, [] => []
  | W, c :: U => ⟨c, tiedMax (marginalAdd f p W), listMax (marginalAdd f p W)⟩ :: seqInfos f p (W ++ [c]) U

theorem seqThieleLoop_infos {f : ℕ → ℚ} {p : Profile} {n : ℕ} {W : List ℕ} {info : List SeqInfo} {V : List ℕ} {info' : List SeqInfo}
    (h : seqThieleLoop f p n W info = .ok (V, info')) : ∃ U, V = W ++ U ∧ info' = info ++ seqInfos f p W U := by
  induction n generalizing W info with
  | zero =>
    unfold seqThieleLoop at h
    cases h
    exact ⟨[], by simp, by simp [seqInfos]⟩
  | succ n ih =>
    unfold seqThieleLoop at h
    dsimp only at h
    cases hg : pyGet (tiedMax (marginalAdd f p W)) 0 with
    | error e => rw [hg] at h; cases h
    | ok c =>
      rw [hg] at h
      obtain ⟨U, h1, h2⟩ := ih h
      exact ⟨c :: U, by rw [h1]; simp, by rw [h2]; simp [seqInfos]⟩

theorem Spec.SeqRun.of_append {f : ℕ → ℚ} {p : Profile} {W U : List ℕ} (h : SeqRun f p (W ++ U)) : SeqRun f p W := by
  induction U using List.reverseRecOn with
  | nil => simpa using h
  | append_singleton U c ih =>
    rw [← List.append_assoc] at h
    exact ih (seqRun_snoc_iff.1 h).1

theorem Spec.SeqRun.length_le {f : ℕ → ℚ} {p : Profile} {W : List ℕ} (h : SeqRun f p W) : W.length ≤ p.numCand := by
  have := h.nodup
  have h2 : W.toFinset ⊆ Finset.range p.numCand := fun c hc => Finset.mem_range.2 (this.2 c (by simpa using hc))
  have := Finset.card_le_card h2
  rwa [List.toFinset_card_of_nodup h.nodup.1, Finset.card_range] at this

theorem tiedMax_bestAdditions {f : ℕ → ℚ} (hf : ∀ i, 0 ≤ f i) {p : Profile} (hp : p.WF) {W : List ℕ} (hl : W.length < p.numCand) :
    tiedMax (marginalAdd f p W) = bestAdditions f p W := by
  have h : ∀ c, c ∈ tiedMax (marginalAdd f p W) ↔ c ∈ bestAdditions f p W := by
    intro c
    rw [mem_tiedMax_marginalAdd f hf p hp W hl]
    simp [bestAdditions]
  refine List.Perm.eq_of_pairwise (le := (· < ·)) (fun a b _ _ h1 h2 => absurd (lt_trans h1 h2) (lt_irrefl _)) (tiedMax_lt _) ?_ ?_
  · exact List.Pairwise.filter _ List.pairwise_lt_range
  · refine (List.perm_ext_iff_of_nodup (nodup_of_lt (tiedMax_lt _)) ?_).2 h
    exact List.Nodup.filter _ List.nodup_range

theorem seqRoundsMsgs_ok (num : ℚ → Name) {f : ℕ → ℚ} (hf : ∀ i, 0 ≤ f i) {p : Profile} (hp : p.WF) (hn : Named p) {W U : List ℕ}
    (h : SeqRun f p (W ++ U)) :
    seqRoundsMsgs num f p W.length W (seqInfos f p W U) = .ok ((addProtocol f p W U).flatMap (Round.added num p)) := by
  induction U generalizing W with
  | nil => rfl
  | cons c U ih =>
    have h' : SeqRun f p ((W ++ [c]) ++ U) := by simpa using h
    have hs := seqRun_snoc_iff.1 h'.of_append
    have hl : W.length < p.numCand := by have := h'.of_append.length_le; simp at this; omega
    have htied := tiedMax_bestAdditions hf hp hl
    have hmem : c ∈ tiedMax (marginalAdd f p W) := (mem_tiedMax_marginalAdd f hf p hp W hl c).2 hs.2
    have hmax : listMax (marginalAdd f p W) = gain f p W.toFinset c := by
      unfold tiedMax at hmem
      simp only [List.mem_filter, decide_eq_true_eq] at hmem
      rw [← hmem.2, marginalAdd_gain f p hp W c hs.2.1 hs.2.2.1]
    have ih' := ih h'
    rw [List.length_append, List.length_singleton] at ih'
    unfold seqInfos seqRoundsMsgs addProtocol
    dsimp only
    rw [ih']
    have hround : seqRoundMsgs num p W.length ⟨c, tiedMax (marginalAdd f p W), listMax (marginalAdd f p W)⟩
        (thieleScore f p (W ++ [c])) = .ok (Round.added num p
        { number := W.length + 1, cand := c, change := gain f p W.toFinset c, total := score f p (insert c W.toFinset),
          tied := bestAdditions f p W }) := by
      unfold seqRoundMsgs Round.added
      dsimp only
      rw [nameOf_ok hn hs.2.1, htied, hmax, thieleScore_eq]
      have hset : (W ++ [c]).toFinset = insert c W.toFinset := by ext; simp [or_comm]
      rw [hset]
      dsimp only [bind, Except.bind]
      by_cases ht : (bestAdditions f p W).length > 1
      · rw [if_pos ht, if_pos ht, setText_ok hn (by intro d hd; simp [bestAdditions] at hd; exact hd.1)]
      · rw [if_neg ht, if_neg ht]
    rw [hround]
    rfl

/-- The score lines printed at the end. -/
def Spec.scoreLines (num : ℚ → Name) (sid : String) (f : ℕ → ℚ) (p : Profile) (cs : List (List ℕ)) : List Msg :=
  detailsMsg (upper sid ++ "-score of winning committee(s):".toList) ::
    cs.map (fun W => detailsMsg (setText p.candNames W ++ ": ".toList ++ num (score f p W.toFinset)) " ".toList) ++ [detailsMsg "\n".toList]

theorem scoreLines_ok (num : ℚ → Name) (f : ℕ → ℚ) {p : Profile} (hn : Named p) {cs : List (List ℕ)}
    (h : ∀ W ∈ cs, ∀ c ∈ W, c < p.numCand) : cs.mapM (scoreLine num f p) =
      .ok (cs.map (fun W => detailsMsg (setText p.candNames W ++ ": ".toList ++ num (score f p W.toFinset)) " ".toList)) := by
  refine mapM_ok_of fun W hW => ?_
  unfold scoreLine
  rw [setText_ok hn (h W hW), thieleScore_eq]
  rfl

/-- The part of the output that explains how the committees were found. -/
def Spec.seqDetails (num : ℚ → Name) (f : ℕ → ℚ) (p : Profile) (run : Option (List ℕ)) : List Msg :=
  standardAlgorithm :: match run with
    | some W => detailsMsg ("starting with the empty committee (score = ".toList ++ num (score f p ∅) ++ ")\n".toList) ::
        (addProtocol f p [] W).flatMap (Round.added num p)
    | none => []

theorem seqThieleReport_ok (num : ℚ → Name) (verbosity : ℤ) {f : ℕ → ℚ} (hf : ∀ i, 0 ≤ f i) (sid : String) {p : Profile} (hp : p.WF)
    (hn : Named p) (resolute : Bool) {cs : List (List ℕ)} (hne : cs ≠ []) (h : ∀ W ∈ cs, ∀ c ∈ W, c < p.numCand) (W : List ℕ)
    (hW : SeqRun f p W) :
    seqThieleReport num verbosity f sid "standard" p resolute cs (seqInfos f p [] W) =
      .ok (heading ("seq" ++ sid) :: Remark.all.msgs resolute ++
        (if verbosity ≤ 15 then seqDetails num f p (if resolute then some W else none) else []) ++ [winners p cs] ++
        (if verbosity ≤ 15 then scoreLines num sid f p cs else [])) := by
  have hr := seqRoundsMsgs_ok num hf hp hn (W := []) (U := W) (by simpa using hW)
  unfold seqThieleReport
  rw [headMsgs_ok, committeesMsg_ok hn h hne, algorithmMsg_standard, scoreLines_ok num f hn h]
  have h0 : thieleScore f p [] = score f p ∅ := by rw [thieleScore_eq]; rfl
  rw [h0]
  have hr' : seqRoundsMsgs num f p 0 [] (seqInfos f p [] W) = .ok ((addProtocol f p [] W).flatMap (Round.added num p)) := hr
  rw [hr']
  have hlev : Level.details.value = 15 := rfl
  rw [hlev]
  dsimp only [bind, Except.bind]
  by_cases hv : verbosity ≤ 15
  · cases resolute <;> simp [hv, seqDetails, scoreLines]
  · simp [hv]

/-- Everything about a call with valid parameters. -/
theorem seqVerbose_ok (env : Env) (num : ℚ → Name) (verbosity : ℤ) (sid : String) (s : ScoreId) (p : Profile) (hp : p.WF) (hn : Named p)
    (a : Args) (hal : prologue env ("seq" ++ sid) p a = .ok "standard") (hsid : env.scoreId sid = .ok s)
    (hf : ∀ i, 0 ≤ marginalFct s i) :
    ∃ cs W, SeqRunFirst (marginalFct s) p W ∧ W.length = a.k ∧ (a.resolute = true → cs = [sortNat W]) ∧
      computeSeqThieleMethod env sid p a = .ok cs ∧
      computeSeqThieleVerbose env num verbosity sid p a =
        .ok (heading ("seq" ++ sid) :: Remark.all.msgs a.resolute ++
        (if verbosity ≤ 15 then seqDetails num (marginalFct s) p (if a.resolute then some W else none) else []) ++ [winners p cs] ++
        (if verbosity ≤ 15 then scoreLines num sid (marginalFct s) p cs else []), cs) := by
  have hv := validCall_of_prologue hal
  have hans := C27_seqThiele env sid s p hp a hal hsid hf
  have hwin : ∃ A, SeqThieleWinner (marginalFct s) p a.k A := by
    obtain ⟨V, info, g1, g2, g3, -⟩ := seqThieleLoop_spec (marginalFct s) hf p hp a.k [] [] .nil (by simpa using hv.le)
    exact ⟨_, V, g2.seqRun, by simpa using g3, rfl⟩
  obtain ⟨cs, c0, hcs, hget⟩ := answers_get hans hwin hv.max
  have hlt := answers_lt hans (m := p.numCand) (by
    rintro A ⟨W, hW, _, rfl⟩ c hc
    exact hW.nodup.2 c (by simpa using hc)) hcs
  have hne : cs ≠ [] := by rintro rfl; cases hget
  obtain ⟨V, info, g1, g2, g3, -⟩ := seqThieleLoop_spec (marginalFct s) hf p hp a.k [] [] .nil (by simpa using hv.le)
  obtain ⟨V, hVU, rfl⟩ := seqThieleLoop_infos g1
  rw [List.nil_append] at hVU
  obtain rfl := hVU
  have hVn := g2.seqRun.nodup.1
  refine ⟨cs, V, g2, by simpa using g3, ?_, hcs, ?_⟩
  · intro hr
    obtain ⟨W, w1, w2, w3⟩ := C27_seqThiele_resolute env sid s p hp a hal hsid hf hr
    have : W = V := w1.unique g2 (by rw [w2, g3]; simp)
    rw [hcs, this] at w3
    exact Except.ok.inj w3
  · have hrep := fun is => seqThieleReport_ok num verbosity hf sid hp hn a.resolute hne hlt is
    cases hr : a.resolute with
    | true =>
      have hc := hcs
      unfold computeSeqThieleMethod at hc
      unfold computeSeqThieleVerbose
      rw [hal, hsid, hr] at hc ⊢
      unfold seqThieleResolute at hc ⊢
      simp only [bind, Except.bind, if_true, g1, List.nil_append, sortedCommittees_one hVn] at hc ⊢
      rw [sortedCommittees_of_sorted (sortNat_lt hVn)] at hc ⊢
      obtain rfl := Except.ok.inj hc
      have := hrep V g2.seqRun
      rw [hr] at this
      rw [this]
      simp
    | false =>
      have hc := hcs
      unfold computeSeqThieleMethod at hc
      unfold computeSeqThieleVerbose
      rw [hal, hsid, hr] at hc ⊢
      simp only [bind, Except.bind, if_true, Bool.false_eq_true, if_false] at hc ⊢
      cases hi : seqThieleIrresolute (marginalFct s) p a.k a.maxNum with
      | error e => rw [hi] at hc; cases hc
      | ok ds =>
        rw [hi] at hc
        have hidem : sortedCommittees ds = .ok ds := by
          unfold seqThieleIrresolute at hi
          cases hu : universes (fun c => decide (c.length = a.k)) sortNat (fun c => .ok (seqThieleSuccs (marginalFct s) p c)) a.maxNum
            (dfsFuel p a.k) [[]] [] with
          | error e => rw [hu] at hi; cases hi
          | ok w =>
            rw [hu] at hi
            exact sortedCommittees_idem hi
        dsimp only at hc ⊢
        rw [hidem] at hc ⊢
        obtain rfl := Except.ok.inj hc
        have := hrep [] .nil
        rw [hr] at this
        simp only [seqInfos] at this
        rw [this]
        simp

/-- **C85** A sequential Thiele rule with `resolute=True`: the output is the heading, the protocol of the rounds of the run that always adds
the smallest candidate of maximal gain, the winning committee and its score. -/
theorem C85_seq_protocol (env : Env) (num : ℚ → Name) (verbosity : ℤ) (hv : verbosity ≤ 15) (sid : String) (s : ScoreId) (p : Profile)
    (hp : p.WF) (hn : Named p) (a : Args) (hal : prologue env ("seq" ++ sid) p a = .ok "standard") (hsid : env.scoreId sid = .ok s)
    (hf : ∀ i, 0 ≤ marginalFct s i) (hr : a.resolute = true) :
    ∃ W, SeqRunFirst (marginalFct s) p W ∧ W.length = a.k ∧
      computeSeqThieleVerbose env num verbosity sid p a = .ok
        ([heading ("seq" ++ sid), standardAlgorithm,
          detailsMsg ("starting with the empty committee (score = ".toList ++ num (score (marginalFct s) p ∅) ++ ")\n".toList)] ++
          (addProtocol (marginalFct s) p [] W).flatMap (Round.added num p) ++
          [winners p [sortNat W]] ++ scoreLines num sid (marginalFct s) p [sortNat W], [sortNat W]) := by
  obtain ⟨cs, W, h1, h2, h3, _, h5⟩ := seqVerbose_ok env num verbosity sid s p hp hn a hal hsid hf
  refine ⟨W, h1, h2, ?_⟩
  rw [h5, h3 hr]
  simp [hr, hv, seqDetails, Remark.msgs]

/-- **C85** with `resolute=False`: heading, remark, winning committees and the score of each of them. -/
theorem C85_seq_irresolute (env : Env) (num : ℚ → Name) (verbosity : ℤ) (hv : verbosity ≤ 15) (sid : String) (s : ScoreId) (p : Profile)
    (hp : p.WF) (hn : Named p) (a : Args) (hal : prologue env ("seq" ++ sid) p a = .ok "standard") (hsid : env.scoreId sid = .ok s)
    (hf : ∀ i, 0 ≤ marginalFct s i) (hr : a.resolute = false) :
    ∃ cs, computeSeqThieleMethod env sid p a = .ok cs ∧ computeSeqThieleVerbose env num verbosity sid p a = .ok
        ([heading ("seq" ++ sid), infoMsg "Computing all possible winning committees for any tiebreaking order".toList,
          infoMsg " (aka parallel universes tiebreaking) (resolute=False)\n".toList, standardAlgorithm, winners p cs] ++
          scoreLines num sid (marginalFct s) p cs, cs) := by
  obtain ⟨cs, W, _, _, _, h4, h5⟩ := seqVerbose_ok env num verbosity sid s p hp hn a hal hsid hf
  refine ⟨cs, h4, ?_⟩
  rw [h5]
  simp [hr, hv, seqDetails, Remark.msgs]

/-- **C85** Whatever the verbosity: the texts can be computed without an exception, the result is the one of the rule, and the messages
that are important enough to be printed are the same as at verbosity DEBUG. -/
theorem C85_seq_result (env : Env) (num : ℚ → Name) (verbosity : ℤ) (sid : String) (p : Profile) (hp : p.WF) (hn : Named p) (a : Args)
    (hf : ∀ s, env.scoreId sid = .ok s → ∀ i, 0 ≤ marginalFct s i) :
    (computeSeqThieleVerbose env num verbosity sid p a).map Prod.snd = computeSeqThieleMethod env sid p a ∧
      (computeSeqThieleVerbose env num verbosity sid p a).map (fun r => visibleAt verbosity r.1) =
        (computeSeqThieleVerbose env num 10 sid p a).map (fun r => visibleAt verbosity r.1) := by
  cases hsid : env.scoreId sid with
  | error e => unfold computeSeqThieleVerbose computeSeqThieleMethod; rw [hsid]; exact ⟨rfl, rfl⟩
  | ok s =>
    cases hal : prologue env ("seq" ++ sid) p a with
    | error e => unfold computeSeqThieleVerbose computeSeqThieleMethod; rw [hsid, hal]; exact ⟨rfl, rfl⟩
    | ok alg =>
      by_cases h : alg = "standard"
      · subst h
        obtain ⟨cs, W, h1, h2, h3, h4, h5⟩ := seqVerbose_ok env num verbosity sid s p hp hn a hal hsid (hf s hsid)
        obtain ⟨cs', W', g1, g2, g3, g4, g5⟩ := seqVerbose_ok env num 10 sid s p hp hn a hal hsid (hf s hsid)
        obtain rfl : cs = cs' := Except.ok.inj (h4.symm.trans g4)
        obtain rfl : W = W' := h1.unique g1 (h2.trans g2.symm)
        rw [h5, g5, h4]
        refine ⟨rfl, ?_⟩
        show Except.ok _ = Except.ok _
        congr 1
        by_cases hv : verbosity ≤ 15
        · simp [hv]
        · have hd : ∀ t i, ¬ verbosity ≤ (detailsMsg t i).level.value := fun t i => hv
          have k1 : visibleAt verbosity (seqDetails num (marginalFct s) p (if a.resolute then some W else none)) = [] := by
            refine List.filter_eq_nil_iff.2 fun m hm => ?_
            rw [decide_eq_true_eq]
            have : m.level = .details := by
              unfold seqDetails at hm
              rcases List.mem_cons.1 hm with rfl | hm
              · rfl
              · cases hr : a.resolute with
                | false => simp [hr] at hm
                | true =>
                  simp only [hr, if_true, List.mem_cons, List.mem_flatMap] at hm
                  rcases hm with rfl | ⟨r, _, hm⟩
                  · rfl
                  · unfold Round.added at hm
                    simp only [List.mem_append, List.mem_cons, List.not_mem_nil, or_false] at hm
                    rcases hm with (hm | hm) | rfl
                    · rcases hm with rfl | rfl <;> rfl
                    · split at hm
                      · simp only [List.mem_cons, List.not_mem_nil, or_false] at hm
                        rcases hm with rfl | rfl | rfl <;> rfl
                      · cases hm
                    · rfl
            rw [this]; exact hv
          have k2 : visibleAt verbosity (scoreLines num sid (marginalFct s) p cs) = [] := by
            refine List.filter_eq_nil_iff.2 fun m hm => ?_
            rw [decide_eq_true_eq]
            have : m.level = .details := by
              unfold scoreLines at hm
              simp only [List.mem_append, List.mem_cons, List.mem_map, List.not_mem_nil, or_false] at hm
              rcases hm with (rfl | ⟨W, _, rfl⟩) | rfl <;> rfl
            rw [this]; exact hv
          unfold visibleAt at k1 k2 ⊢
          simp only [hv, if_false, show ((10 : ℤ) ≤ 15) = True from by simp, if_true, List.filter_append, List.append_nil, k1, k2]
      · unfold computeSeqThieleVerbose computeSeqThieleMethod
        rw [hsid, hal]
        simp only [bind, Except.bind, h, if_false]
        exact ⟨rfl, trivial⟩

/-- **C85** (finding) If the verbosity is above DETAILS, no message of level DETAILS reaches a logger either: the protocol is only written
to the log if it is also printed. -/
theorem C85_seq_log (env : Env) (num : ℚ → Name) (verbosity : ℤ) (hv : 15 < verbosity) (sid : String) (s : ScoreId) (p : Profile)
    (hp : p.WF) (hn : Named p) (a : Args) (hal : prologue env ("seq" ++ sid) p a = .ok "standard") (hsid : env.scoreId sid = .ok s)
    (hf : ∀ i, 0 ≤ marginalFct s i) : ∃ msgs cs, computeSeqThieleVerbose env num verbosity sid p a = .ok (msgs, cs) ∧
      ∀ m ∈ msgs, m.level = .info := by
  obtain ⟨cs, W, _, _, _, h4, h5⟩ := seqVerbose_ok env num verbosity sid s p hp hn a hal hsid hf
  refine ⟨_, _, h5, ?_⟩
  rw [if_neg (by omega), if_neg (by omega)]
  intro m hm
  simp only [List.append_nil, List.mem_append, List.mem_cons, List.not_mem_nil, or_false] at hm
  rcases hm with (rfl | hm) | rfl
  · rfl
  · unfold Remark.msgs at hm
    cases hr : a.resolute with
    | true => simp [hr] at hm
    | false =>
      simp [hr] at hm
      rcases hm with rfl | rfl <;> rfl
  · rfl

/-- Non-vacuity. -/
example : Named ⟨3, [⟨[0, 1], 1⟩, ⟨[1, 2], 1⟩], ["a".toList, "b".toList, "c".toList]⟩ := rfl

example :
    prologue exampleEnv ("seq" ++ "pav") ⟨3, [⟨[0, 1], 1⟩, ⟨[1, 2], 1⟩], ["a".toList, "b".toList, "c".toList]⟩ { committeesize := 2, resolute := true }
      = .ok "standard" ∧ exampleEnv.scoreId "pav" = .ok .pav ∧ bestAdditions (marginalFct .pav) ⟨3, [⟨[0, 1], 1⟩, ⟨[1, 2], 1⟩], []⟩ [1] = [0, 2] := by
  decide +kernel

/-! ## Reverse sequential Thiele methods -/

/-- The information recorded while `U` is removed from `W`. -/
def revInfos (f : ℕ → ℚ) (p : Profile) : List ℕ → List ℕ → List SeqInfo
  | _, [] => []
  | W, c :: U => ⟨c, (tiedMin (marginalRemove f p W)).dropLast, listMin (marginalRemove f p W)⟩ :: revInfos f p (W.erase c) U

theorem revseqInfoLoop_spec (f : ℕ → ℚ) (p : Profile) (hp : p.WF) (n : ℕ) (W : List ℕ) (hW : W.Pairwise (· < ·))
    (hlt : ∀ c ∈ W, c < p.numCand) (hlen : n ≤ W.length) (is : List SeqInfo) :
    ∃ U V, revseqInfoLoop f p n W is = .ok (V, is ++ revInfos f p W U) ∧ revseqLoop f p n W = .ok V ∧ RemovalOrder f p W.toFinset U ∧
      U.length = n ∧ V.toFinset = W.toFinset \ U.toFinset ∧ (∀ c ∈ V, c < p.numCand) := by
  induction n generalizing W is with
  | zero => exact ⟨[], W, by simp [revseqInfoLoop, revInfos], rfl, .nil, rfl, by simp, hlt⟩
  | succ n ih =>
    have hn := nodup_of_lt hW
    have hne : W ≠ [] := by rintro rfl; simp at hlen
    have hmne : marginalRemove f p W ≠ [] := by
      intro h
      have := congrArg List.length h
      rw [marginalRemove_length] at this
      have := hp.pos
      simp at *
      omega
    unfold revseqLoop revseqInfoLoop
    simp only
    cases hl : (tiedMin (marginalRemove f p W)).getLast? with
    | none => rw [List.getLast?_eq_none_iff] at hl; exact absurd hl (tiedMin_ne_nil hmne)
    | some c =>
      obtain ⟨h1, h2⟩ := le_getLast_of_lt (tiedMin_lt _) hl
      obtain ⟨h3, h4⟩ := (mem_tiedMin_marginalRemove f p hp W hlt hne c).1 h1
      simp only
      rw [if_neg (by simpa using h3), if_neg (by simpa using h3)]
      have hlen' : (W.erase c).length = W.length - 1 := List.length_erase_of_mem h3
      obtain ⟨U, V, g1, g2, g3, g4, g5, g6⟩ := ih (W.erase c) (hW.sublist List.erase_sublist)
        (fun d hd => hlt d (List.mem_of_mem_erase hd)) (by omega)
        (is ++ [⟨c, (tiedMin (marginalRemove f p W)).dropLast, listMin (marginalRemove f p W)⟩])
      rw [toFinset_erase hn] at g3 g5
      refine ⟨c :: U, V, ?_, g2, .cons (List.mem_toFinset.2 h3) (fun d hd => h4 d (List.mem_toFinset.1 hd)) ?_ g3, by simp [g4], ?_, g6⟩
      · rw [g1]; simp [revInfos]
      · intro d hd hcd
        rw [List.mem_toFinset] at hd
        refine lt_of_le_of_ne (h4 d hd) ?_
        intro he
        have : d ∈ tiedMin (marginalRemove f p W) := by
          rw [mem_tiedMin_marginalRemove f p hp W hlt hne]
          exact ⟨hd, fun e he' => he ▸ h4 e he'⟩
        have := h2 d this
        omega
      · rw [g5]; ext x; simp; tauto

theorem tiedMin_bestRemovals {f : ℕ → ℚ} {p : Profile} (hp : p.WF) {W : List ℕ} (hlt : ∀ c ∈ W, c < p.numCand) (hne : W ≠ []) :
    tiedMin (marginalRemove f p W) = bestRemovals f p W.toFinset := by
  have h : ∀ c, c ∈ tiedMin (marginalRemove f p W) ↔ c ∈ bestRemovals f p W.toFinset := by
    intro c
    rw [mem_tiedMin_marginalRemove f p hp W hlt hne]
    simp only [bestRemovals, List.mem_filter, List.mem_range, decide_eq_true_eq, List.mem_toFinset]
    exact ⟨fun h => ⟨hlt c h.1, h⟩, fun h => h.2⟩
  refine List.Perm.eq_of_pairwise (le := (· < ·)) (fun a b _ _ h1 h2 => absurd (lt_trans h1 h2) (lt_irrefl _)) (tiedMin_lt _) ?_ ?_
  · exact List.Pairwise.filter _ List.pairwise_lt_range
  · refine (List.perm_ext_iff_of_nodup (nodup_of_lt (tiedMin_lt _)) ?_).2 h
    exact List.Nodup.filter _ List.nodup_range

theorem dropLast_eq_filter {l : List ℕ} (h : l.Pairwise (· < ·)) {c : ℕ} (hl : l.getLast? = some c) :
    l.dropLast = l.filter (fun d => decide (d ≠ c)) := by
  obtain ⟨m, rfl⟩ := List.getLast?_eq_some_iff.1 hl
  rw [List.dropLast_concat, List.filter_append]
  have hm : m.filter (fun d => decide (d ≠ c)) = m := by
    refine List.filter_eq_self.2 fun d hd => ?_
    rw [List.pairwise_append] at h
    have := h.2.2 d hd c (by simp)
    simp; omega
  rw [hm]; simp

theorem getLast?_bestRemovals {f : ℕ → ℚ} {p : Profile} {A : Finset ℕ} {c : ℕ} (hc : c < p.numCand) (h1 : c ∈ A)
    (h2 : ∀ d ∈ A, loss f p A c ≤ loss f p A d) (h3 : ∀ d ∈ A, c < d → loss f p A c < loss f p A d) :
    (bestRemovals f p A).getLast? = some c := by
  have hmem : c ∈ bestRemovals f p A := by simp [bestRemovals, hc, h1]; exact h2
  have hne : bestRemovals f p A ≠ [] := List.ne_nil_of_mem hmem
  have hasc : (bestRemovals f p A).Pairwise (· < ·) := List.Pairwise.filter _ List.pairwise_lt_range
  cases hl : (bestRemovals f p A).getLast? with
  | none => rw [List.getLast?_eq_none_iff] at hl; exact absurd hl hne
  | some e =>
    obtain ⟨k1, k2⟩ := le_getLast_of_lt hasc hl
    simp only [bestRemovals, List.mem_filter, List.mem_range, decide_eq_true_eq] at k1
    have hle := k2 c hmem
    rcases Nat.lt_or_ge c e with hlt | hge
    · have a1 := h3 e k1.2.1 hlt
      have a2 := k1.2.2 c h1
      linarith
    · rw [le_antisymm hge hle]

theorem revRoundsMsgs_ok (num : ℚ → Name) {f : ℕ → ℚ} {p : Profile} (hp : p.WF) (hn : Named p) {W U : List ℕ} (hW : W.Pairwise (· < ·))
    (hlt : ∀ c ∈ W, c < p.numCand) (h : RemovalOrder f p W.toFinset U) :
    revRoundsMsgs num f p W (revInfos f p W U) = .ok ((removeProtocol f p W.toFinset U).flatMap (Round.removed num p)) := by
  induction U generalizing W with
  | nil => rfl
  | cons c U ih =>
    cases h with
    | cons h1 h2 h3 h4 =>
      have hnd := nodup_of_lt hW
      have hcW : c ∈ W := by simpa using h1
      have hne : W ≠ [] := List.ne_nil_of_mem hcW
      rw [← toFinset_erase hnd] at h4
      have ih' := ih (hW.sublist List.erase_sublist) (fun d hd => hlt d (List.mem_of_mem_erase hd)) h4
      have htied := tiedMin_bestRemovals (f := f) hp hlt hne
      have hlast := getLast?_bestRemovals (f := f) (hlt c hcW) h1 h2 h3
      have hmin : listMin (marginalRemove f p W) = loss f p W.toFinset c := by
        have hmem : c ∈ tiedMin (marginalRemove f p W) :=
          (mem_tiedMin_marginalRemove f p hp W hlt hne c).2 ⟨hcW, fun d hd => h2 d (by simpa using hd)⟩
        unfold tiedMin at hmem
        simp only [List.mem_filter, decide_eq_true_eq] at hmem
        rw [← hmem.2, marginalRemove_loss f p hp W c (hlt c hcW) hcW]
      have hdrop : (tiedMin (marginalRemove f p W)).dropLast = (bestRemovals f p W.toFinset).filter (fun d => decide (d ≠ c)) := by
        rw [htied]
        exact dropLast_eq_filter (List.Pairwise.filter _ List.pairwise_lt_range) hlast
      unfold revInfos revRoundsMsgs removeProtocol
      dsimp only
      rw [if_neg (by simpa using hcW), ih', toFinset_erase hnd]
      have hround : revRoundMsgs num p (W.erase c).length
          ⟨c, (tiedMin (marginalRemove f p W)).dropLast, listMin (marginalRemove f p W)⟩ (thieleScore f p (W.erase c)) =
          .ok (Round.removed num p ⟨p.numCand - (W.toFinset.erase c).card, c, loss f p W.toFinset c, score f p (W.toFinset.erase c),
            (bestRemovals f p W.toFinset).filter (fun d => decide (d ≠ c))⟩) := by
        unfold revRoundMsgs Round.removed
        dsimp only
        rw [nameOf_ok hn (hlt c hcW), hdrop, hmin, thieleScore_eq, toFinset_erase hnd, ← toFinset_erase hnd,
          List.toFinset_card_of_nodup (hnd.erase c)]
        dsimp only [bind, Except.bind]
        by_cases ht : ((bestRemovals f p W.toFinset).filter (fun d => decide (d ≠ c))).length > 1
        · rw [if_pos ht, if_pos ht, setText_ok hn (by
            intro d hd
            rw [List.mem_filter] at hd
            have := hd.1
            simp [bestRemovals] at this
            exact this.1)]
        · rw [if_neg ht, if_neg ht]
      rw [hround]
      rfl

theorem revseqIrr_ok (f : ℕ → ℚ) {p : Profile} (hp : p.WF) {ord : List ℕ → ℕ → List ℕ} (hord : Listing ord) {k : ℕ} (hk : k ≤ p.numCand)
    {max : Option ℕ} (hmax : ∀ n, max = some n → 1 ≤ n) :
    ∃ cs, revseqThieleIrresolute f p ord k max = .ok cs ∧ cs ≠ [] ∧ ∀ W ∈ cs, ∀ c ∈ W, c < p.numCand := by
  have hlev := revseqLevels_spec f p hp ord hord (p.numCand - k) k [p.candidates]
    (by rw [show k + (p.numCand - k) = p.numCand by omega]; exact revLevel_start _ p) (by omega)
  obtain ⟨out, h1, h2, h3, h4⟩ := C07_sortedCommittees_perm_sorted _ hlev.nodup
  have hcand : p.candidates.Pairwise (· < ·) := pairwise_lt_range _
  obtain ⟨V, g1, g2, g3, g4⟩ := revseqLoop_spec f p hp (p.numCand - k) p.candidates hcand
    (by
      have : p.candidates.toFinset = Finset.range p.numCand := by ext x; simp [Profile.candidates]
      rw [this]; exact .all)
    (by simp [Profile.candidates])
  have hcard : V.toFinset.card = k := by
    rw [toFinset_card_of_lt g2, g4]
    simp only [Profile.candidates, List.length_range]
    omega
  have hout : ∀ A, (∃ W ∈ out, W.toFinset = A) ↔ RevRun f p A ∧ A.card = k := by
    intro A
    rw [← hlev.exact A]
    have := h2.mem_iff (a := A)
    simpa using this
  have hne : out ≠ [] := by
    obtain ⟨W, hW, _⟩ := (hout V.toFinset).2 ⟨g3.revRun, hcard⟩
    exact List.ne_nil_of_mem hW
  have hlt : ∀ W ∈ out, ∀ c ∈ W, c < p.numCand := by
    intro W hW c hc
    have := ((hout W.toFinset).1 ⟨W, hW, rfl⟩).1.subset (List.mem_toFinset.2 hc)
    simpa using this
  refine ⟨truncate max out, ?_, ?_, ?_⟩
  · unfold revseqThieleIrresolute
    rw [h1]
    rfl
  · cases max with
    | none => exact hne
    | some n =>
      have := hmax n rfl
      unfold truncate
      intro h
      rcases List.take_eq_nil_iff.1 h with h | h
      · omega
      · exact hne h
  · cases max with
    | none => exact hlt
    | some n => exact fun W hW => hlt W (List.mem_of_mem_take hW)

/-- The scores printed at the end of a reverse sequential rule; the text says "PAV-score" for every score function. -/
def Spec.revScores (num : ℚ → Name) (f : ℕ → ℚ) (p : Profile) (resolute : Bool) (cs : List (List ℕ)) : Msg :=
  detailsMsg ("PAV-score of winning committee:".toList ++ (if ¬ resolute ∧ cs.length ≠ 1 then "\n".toList else []) ++
    (cs.map (fun W => " ".toList ++ num (score f p W.toFinset))).flatten ++ "\n".toList)

theorem revseqReport_ok (num : ℚ → Name) (f : ℕ → ℚ) (sid : String) {p : Profile} (hp : p.WF) (hn : Named p) (resolute : Bool)
    {cs : List (List ℕ)} (hne : cs ≠ []) (hlt : ∀ W ∈ cs, ∀ c ∈ W, c < p.numCand) {U : List ℕ}
    (hU : RemovalOrder f p (Finset.range p.numCand) U) :
    revseqReport num f sid "standard" p resolute cs (revInfos f p p.candidates U) =
      .ok (heading ("revseq" ++ sid) :: Remark.all.msgs resolute ++ [standardAlgorithm] ++
        (if resolute then
          detailsMsg ("full committee (".toList ++ strNat p.numCand ++ " candidates) has a total score of ".toList ++
            num (score f p (Finset.range p.numCand)) ++ "\n".toList) ::
          (removeProtocol f p (Finset.range p.numCand) U).flatMap (Round.removed num p) else []) ++
        [winners p cs, revScores num f p resolute cs]) := by
  have hset : p.candidates.toFinset = Finset.range p.numCand := by ext x; simp [Profile.candidates]
  have hr := revRoundsMsgs_ok num hp hn (f := f) (W := p.candidates) (U := U) (pairwise_lt_range _)
    (by intro c hc; simpa [Profile.candidates] using hc) (by rw [hset]; exact hU)
  unfold revseqReport
  rw [headMsgs_ok, committeesMsg_ok hn hlt hne, algorithmMsg_standard, hr, hset, thieleScore_eq, hset]
  have hlen : p.candidates.length = p.numCand := by simp [Profile.candidates]
  have hsc : cs.map (fun W => " ".toList ++ num (thieleScore f p W)) = cs.map (fun W => " ".toList ++ num (score f p W.toFinset)) :=
    List.map_congr_left fun W _ => by rw [thieleScore_eq]
  rw [hlen, hsc]
  cases resolute <;> rfl

theorem revVerbose_ok (env : Env) (num : ℚ → Name) (sid : String) (s : ScoreId) (ord : List ℕ → ℕ → List ℕ) (hord : Listing ord)
    (p : Profile) (hp : p.WF) (hn : Named p) (a : Args) (hal : prologue env ("revseq" ++ sid) p a = .ok "standard")
    (hsid : env.scoreId sid = .ok s) :
    ∃ cs U, RemovalOrder (marginalFct s) p (Finset.range p.numCand) U ∧ U.length = p.numCand - a.k ∧
      (a.resolute = true → ∃ W, cs = [W] ∧ W.Pairwise (· < ·) ∧ W.toFinset = Finset.range p.numCand \ U.toFinset) ∧
      computeRevseqThieleMethod env sid ord p a = .ok cs ∧
      computeRevseqThieleVerbose env num sid ord p a = .ok
        (heading ("revseq" ++ sid) :: Remark.all.msgs a.resolute ++ [standardAlgorithm] ++
        (if a.resolute then
          detailsMsg ("full committee (".toList ++ strNat p.numCand ++ " candidates) has a total score of ".toList ++
            num (score (marginalFct s) p (Finset.range p.numCand)) ++ "\n".toList) ::
          (removeProtocol (marginalFct s) p (Finset.range p.numCand) U).flatMap (Round.removed num p) else []) ++
        [winners p cs, revScores num (marginalFct s) p a.resolute cs], cs) := by
  have hv := validCall_of_prologue hal
  have hset : p.candidates.toFinset = Finset.range p.numCand := by ext x; simp [Profile.candidates]
  obtain ⟨U, V, g1, g2, g3, g4, g5, g6⟩ := revseqInfoLoop_spec (marginalFct s) p hp (p.numCand - a.k) p.candidates (pairwise_lt_range _)
    (by intro c hc; simpa [Profile.candidates] using hc) (by simp [Profile.candidates]) []
  obtain ⟨V', k1, k2, -, -⟩ := revseqLoop_spec (marginalFct s) p hp (p.numCand - a.k) p.candidates (pairwise_lt_range _)
    (by rw [hset]; exact .all) (by simp [Profile.candidates])
  obtain rfl : V = V' := Except.ok.inj (g2.symm.trans k1)
  rw [hset] at g3 g5
  rw [List.nil_append] at g1
  cases hr : a.resolute with
  | true =>
    refine ⟨[V], U, g3, g4, fun _ => ⟨V, rfl, k2, g5⟩, ?_, ?_⟩
    · unfold computeRevseqThieleMethod revseqThieleResolute
      rw [hal, hsid, hr]
      simp only [bind, Except.bind, if_true, g2]
      exact sortedCommittees_of_sorted k2
    · unfold computeRevseqThieleVerbose
      rw [hal, hsid, hr]
      simp only [bind, Except.bind, if_true, g1, sortedCommittees_of_sorted k2]
      rw [revseqReport_ok num _ sid hp hn true (by simp) (by simpa using g6) g3]
      simp
  | false =>
    obtain ⟨cs, c1, c2, c3⟩ := revseqIrr_ok (marginalFct s) hp hord hv.le (max := a.maxNum) (by
      intro n hn
      unfold Args.maxNum at hn
      cases hm : a.max with
      | none => rw [hm] at hn; cases hn
      | some m =>
        have := hv.max m hm
        rw [hm] at hn
        simp at hn
        omega)
    refine ⟨cs, U, g3, g4, fun h => absurd h (by simp), ?_, ?_⟩
    · unfold computeRevseqThieleMethod
      rw [hal, hsid, hr]
      simp [bind, Except.bind, c1]
    · unfold computeRevseqThieleVerbose
      rw [hal, hsid, hr]
      have := revseqReport_ok num (marginalFct s) sid hp hn false c2 c3 (U := []) .nil
      simp only [revInfos] at this
      simp only [bind, Except.bind, if_true, Bool.false_eq_true, if_false, c1]
      rw [this]
      simp

/-- **C85** A reverse sequential Thiele rule with `resolute=True`: heading, total score, the protocol of the removals (always the largest
candidate of minimal loss), the winning committee (the candidates never removed) and its score. -/
theorem C85_revseq_protocol (env : Env) (num : ℚ → Name) (sid : String) (s : ScoreId) (ord : List ℕ → ℕ → List ℕ) (hord : Listing ord)
    (p : Profile) (hp : p.WF) (hn : Named p) (a : Args) (hal : prologue env ("revseq" ++ sid) p a = .ok "standard")
    (hsid : env.scoreId sid = .ok s) (hr : a.resolute = true) :
    ∃ U W, RemovalOrder (marginalFct s) p (Finset.range p.numCand) U ∧ U.length = p.numCand - a.k ∧
      W.Pairwise (· < ·) ∧ W.toFinset = Finset.range p.numCand \ U.toFinset ∧
      computeRevseqThieleVerbose env num sid ord p a = .ok
        ([heading ("revseq" ++ sid), standardAlgorithm,
          detailsMsg ("full committee (".toList ++ strNat p.numCand ++ " candidates) has a total score of ".toList ++
            num (score (marginalFct s) p (Finset.range p.numCand)) ++ "\n".toList)] ++
          (removeProtocol (marginalFct s) p (Finset.range p.numCand) U).flatMap (Round.removed num p) ++
          [winners p [W], revScores num (marginalFct s) p true [W]], [W]) := by
  obtain ⟨cs, U, h1, h2, h3, _, h5⟩ := revVerbose_ok env num sid s ord hord p hp hn a hal hsid
  obtain ⟨W, rfl, w1, w2⟩ := h3 hr
  refine ⟨U, W, h1, h2, w1, w2, ?_⟩
  rw [h5]
  simp [hr, Remark.msgs]

/-- **C85** The texts of a reverse sequential rule never raise an exception and do not change the result. -/
theorem C85_revseq_result (env : Env) (num : ℚ → Name) (sid : String) (ord : List ℕ → ℕ → List ℕ) (hord : Listing ord) (p : Profile)
    (hp : p.WF) (hn : Named p) (a : Args) :
    (computeRevseqThieleVerbose env num sid ord p a).map Prod.snd = computeRevseqThieleMethod env sid ord p a := by
  cases hsid : env.scoreId sid with
  | error e => unfold computeRevseqThieleVerbose computeRevseqThieleMethod; rw [hsid]; rfl
  | ok s =>
    cases hal : prologue env ("revseq" ++ sid) p a with
    | error e => unfold computeRevseqThieleVerbose computeRevseqThieleMethod; rw [hsid, hal]; rfl
    | ok alg =>
      by_cases h : alg = "standard"
      · subst h
        obtain ⟨cs, U, _, _, _, h4, h5⟩ := revVerbose_ok env num sid s ord hord p hp hn a hal hsid
        rw [h5, h4]; rfl
      · unfold computeRevseqThieleVerbose computeRevseqThieleMethod
        rw [hsid, hal]
        simp only [bind, Except.bind, h, if_false]
        rfl

/-- **C85** (finding) If exactly two candidates can be removed with minimal loss, the protocol does not mention the tie: the removed
candidate is not counted among the tied ones. -/
theorem C85_revseq_two_way_tie (num : ℚ → Name) (f : ℕ → ℚ) (p : Profile) (A : Finset ℕ) (c : ℕ) (U : List ℕ)
    (hc : c ∈ bestRemovals f p A) (h2 : (bestRemovals f p A).length = 2) :
    ∃ r rs, removeProtocol f p A (c :: U) = r :: rs ∧ (Round.removed num p r).length = 3 := by
  refine ⟨_, _, rfl, ?_⟩
  have hnd : (bestRemovals f p A).Nodup := List.Nodup.filter _ List.nodup_range
  have hlen : ((bestRemovals f p A).filter (fun d => decide (d ≠ c))).length = 1 := by
    have := hnd.erase_eq_filter c
    have h3 := List.length_erase_of_mem hc
    rw [h2, this] at h3
    simpa [bne_iff_ne, Bool.beq_eq_decide_eq, bne] using h3
  unfold Round.removed
  dsimp only
  rw [if_neg (by omega)]
  rfl

/-- Non-vacuity: two tied candidates (voters {0} and {1}). -/
example : bestRemovals (marginalFct .pav) ⟨2, [⟨[0], 1⟩, ⟨[1], 1⟩], []⟩ (Finset.range 2) = [0, 1] ∧
    prologue exampleEnv ("revseq" ++ "pav") ⟨2, [⟨[0], 1⟩, ⟨[1], 1⟩], ["a".toList, "b".toList]⟩ { committeesize := 1, resolute := true }
      = .ok "standard" := by decide +kernel

end Abc
