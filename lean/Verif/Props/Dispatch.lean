import Verif.Spec.Dispatch
import Verif.Props.ILPMonroe
import Verif.Props.ILPLexminimaxav
import Verif.Props.Leximax
import Verif.Props.MaximinSupport
import Verif.Props.GreedyMonroe
import Verif.Props.BranchAndBound
import Verif.Props.Separable
import Verif.Props.SeqThiele

/-!
# C29, C30, C31: the public entry point `abcrules.compute`
-/

namespace Abc

open Spec

theorem compute_none {w : World} {ruleId : String} {p : Profile} {a : Args} {alg : String}
    (hal : prologue w.env ruleId p a = .ok alg) :
    compute w ruleId p a.committeesize none a.kw = w.run ruleId p a := by
  obtain ⟨ri, h, -⟩ := (C19_prologue_ok_iff w.env ruleId p a alg).1 hal
  unfold compute
  rw [h]
  simp only [bind, Except.bind]
  rw [show w.computeFct ruleId p a.committeesize a.kw = w.run ruleId p a from rfl]
  cases w.run ruleId p a <;> rfl

theorem kw_args (a : Args) (alg : String) (r : Bool) : a.kw.args a.committeesize alg r = a := rfl

theorem scoreId_cases {env : Env} {sid : String} {s : ScoreId} (h : env.scoreId sid = .ok s) :
    (sid = "pav" ∧ s = .pav) ∨ (sid = "slav" ∧ s = .slav) ∨ (sid = "cc" ∧ s = .cc) ∨ (sid = "av" ∧ s = .av) ∨
    (sid.toList.take 4 = "geom".toList ∧ ∃ b, env.parseFraction (sid.toList.drop 4) = some b ∧ s = .geom b) ∨ (sid.toList.take 7 = "atleast".toList ∧ ∃ l, s = .atleast l) := by
  unfold Env.scoreId getScoreId at h
  split at h
  · left; exact ⟨String.toList_inj.1 (by assumption), by simpa using h.symm⟩
  split at h
  · right; left; exact ⟨String.toList_inj.1 (by assumption), by simpa using h.symm⟩
  split at h
  · right; right; left; exact ⟨String.toList_inj.1 (by assumption), by simpa using h.symm⟩
  split at h
  · right; right; right; left; exact ⟨String.toList_inj.1 (by assumption), by simpa using h.symm⟩
  split at h
  · right; right; right; right; left
    refine ⟨by assumption, ?_⟩
    split at h
    · exact ⟨_, by assumption, by simpa using h.symm⟩
    · simp at h
  split at h
  · right; right; right; right; right
    refine ⟨by assumption, ?_⟩
    split at h
    · exact ⟨_, by simpa using h.symm⟩
    · simp at h
  · simp at h

theorem scoreId_geom {env : Env} {sid : String} {b : ℚ} (h4 : sid.toList.take 4 = "geom".toList)
    (hb : env.parseFraction (sid.toList.drop 4) = some b) : env.scoreId sid = .ok (.geom b) := by
  have hne : ∀ t : List Char, t.take 4 ≠ "geom".toList → sid.toList ≠ t := fun t ht e => ht (e ▸ h4)
  unfold Env.scoreId getScoreId
  rw [if_neg (hne _ (by decide)), if_neg (hne _ (by decide)), if_neg (hne _ (by decide)), if_neg (hne _ (by decide)), if_pos h4, hb]

/-- Dispatch of `geom…`. -/
theorem run_geom (w : World) (p : Profile) (a : Args) {rid : String} (h : rid.toList.take 4 = "geom".toList) :
    w.run rid p a = w.thiele rid p a := by
  have hne : ∀ t : String, t.toList.take 4 ≠ "geom".toList → (rid = t) = False :=
    fun t ht => eq_false (fun e => ht (e ▸ h))
  unfold World.run
  dsimp only
  simp only [hne "av" (by decide), hne "sav" (by decide), hne "pav" (by decide), hne "slav" (by decide), hne "cc" (by decide),
    hne "lexcc" (by decide), hne "seqpav" (by decide), hne "revseqpav" (by decide), hne "seqslav" (by decide),
    hne "seqcc" (by decide), hne "seqphragmen" (by decide), hne "minimaxphragmen" (by decide),
    hne "leximaxphragmen" (by decide), hne "maximin-support" (by decide), hne "monroe" (by decide),
    hne "greedy-monroe" (by decide), hne "minimaxav" (by decide), hne "lexminimaxav" (by decide),
    hne "rule-x" (by decide), hne "equal-shares" (by decide),
    hne "equal-shares-with-seqphragmen-completion" (by decide), hne "equal-shares-with-av-completion" (by decide),
    hne "equal-shares-with-increment-completion" (by decide), hne "rule-x-without-phragmen-phase" (by decide),
    hne "equal-shares-without-phragmen-phase" (by decide), hne "equal-shares-without-completion" (by decide),
    hne "phragmen-enestroem" (by decide), hne "consensus-rule" (by decide), hne "trivial" (by decide),
    hne "rsd" (by decide), hne "eph" (by decide), or_self, if_false]
  rw [if_pos h]

/-- Dispatch of the sequential Thiele methods. -/
theorem run_seq (w : World) (p : Profile) (a : Args) {sid : String} {s : ScoreId}
    (h : w.env.scoreId sid = .ok s) :
    w.run ("seq" ++ sid) p a = computeSeqThieleMethod w.env sid p a := by
  have main : ∀ x, sid.toList.take 2 = x → (x ≠ ['p', 'a'] ∧ x ≠ ['s', 'l'] ∧ x ≠ ['c', 'c'] ∧ x ≠ ['p', 'h']) →
      w.run ("seq" ++ sid) p a = computeSeqThieleMethod w.env sid p a := by
    intro x hx hne
    have hl : ("seq" ++ sid).toList = 's' :: 'e' :: 'q' :: sid.toList := by simp
    have h3 : ("seq" ++ sid).toList.take 3 = ['s', 'e', 'q'] := by simp [hl]
    have h5 : ("seq" ++ sid).toList.take 5 = 's' :: 'e' :: 'q' :: x := by simp [hl, hx]
    have hd : String.ofList (("seq" ++ sid).toList.drop 3) = sid := by simp [hl]
    generalize "seq" ++ sid = rid at *
    have hn : ∀ t : String, t.toList.take 5 ≠ 's' :: 'e' :: 'q' :: x → (rid = t) = False :=
      fun t ht => eq_false (fun e => ht (e ▸ h5))
    have hn3 : ∀ t : String, t.toList.take 3 ≠ ['s', 'e', 'q'] → (rid = t) = False :=
      fun t ht => eq_false (fun e => ht (e ▸ h3))
    unfold World.run
    dsimp only
    have e1 : (rid = "seqpav") = False := hn _ (by simpa using Ne.symm hne.1)
    have e2 : (rid = "seqslav") = False := hn _ (by simpa using Ne.symm hne.2.1)
    have e3 : (rid = "seqcc") = False := hn _ (by simpa using Ne.symm hne.2.2.1)
    have e4 : (rid = "seqphragmen") = False := hn _ (by simpa using Ne.symm hne.2.2.2)
    simp only [e1, e2, e3, e4, hn3 "av" (by decide), hn3 "sav" (by decide), hn3 "pav" (by decide), hn3 "slav" (by decide), hn3 "cc" (by decide),
      hn3 "lexcc" (by decide), hn3 "revseqpav" (by decide), hn3 "minimaxphragmen" (by decide),
      hn3 "leximaxphragmen" (by decide), hn3 "maximin-support" (by decide), hn3 "monroe" (by decide),
      hn3 "greedy-monroe" (by decide), hn3 "minimaxav" (by decide), hn3 "lexminimaxav" (by decide),
      hn3 "rule-x" (by decide), hn3 "equal-shares" (by decide),
      hn3 "equal-shares-with-seqphragmen-completion" (by decide), hn3 "equal-shares-with-av-completion" (by decide),
      hn3 "equal-shares-with-increment-completion" (by decide), hn3 "rule-x-without-phragmen-phase" (by decide),
      hn3 "equal-shares-without-phragmen-phase" (by decide), hn3 "equal-shares-without-completion" (by decide),
      hn3 "phragmen-enestroem" (by decide), hn3 "consensus-rule" (by decide), hn3 "trivial" (by decide),
      hn3 "rsd" (by decide), hn3 "eph" (by decide), or_self, if_false]
    rw [if_neg, if_pos (show rid.toList.take 3 = "seq".toList from h3), hd]
    intro h4
    have := congrArg (List.take 3) h4
    rw [List.take_take] at this
    rw [show min 3 4 = 3 from rfl, h3] at this
    exact absurd this (by decide)
  rcases scoreId_cases h with ⟨rfl, -⟩ | ⟨rfl, -⟩ | ⟨rfl, -⟩ | ⟨rfl, -⟩ | ⟨hg, -⟩ | ⟨hg, -⟩
  · rfl
  · rfl
  · rfl
  · exact main _ rfl (by decide)
  · have := congrArg (List.take 2) hg
    rw [List.take_take] at this
    exact main _ this (by decide)
  · have := congrArg (List.take 2) hg
    rw [List.take_take] at this
    exact main _ this (by decide)

/-- Dispatch of the reverse sequential Thiele methods. -/
theorem run_revseq (w : World) (p : Profile) (a : Args) {sid : String} {s : ScoreId}
    (h : w.env.scoreId sid = .ok s) :
    w.run ("revseq" ++ sid) p a = computeRevseqThieleMethod w.env sid w.revOrd p a := by
  by_cases hp' : sid = "pav"
  · subst hp'; rfl
  have hl : ("revseq" ++ sid).toList = 'r' :: 'e' :: 'v' :: 's' :: 'e' :: 'q' :: sid.toList := by simp
  have h3 : ("revseq" ++ sid).toList.take 3 = ['r', 'e', 'v'] := by simp [hl]
  have hd : String.ofList (("revseq" ++ sid).toList.drop 6) = sid := by simp [hl]
  have hnp : ("revseq" ++ sid = "revseqpav") = False := by
    refine eq_false fun e => hp' ?_
    have := congrArg String.toList e
    rw [hl] at this
    rw [← String.toList_inj]
    simpa using this
  generalize "revseq" ++ sid = rid at *
  have hn3 : ∀ t : String, t.toList.take 3 ≠ ['r', 'e', 'v'] → (rid = t) = False :=
    fun t ht => eq_false (fun e => ht (e ▸ h3))
  unfold World.run
  dsimp only
  simp only [hnp, hn3 "av" (by decide), hn3 "sav" (by decide), hn3 "pav" (by decide), hn3 "slav" (by decide), hn3 "cc" (by decide),
    hn3 "lexcc" (by decide), hn3 "seqpav" (by decide), hn3 "seqslav" (by decide), hn3 "seqcc" (by decide),
    hn3 "seqphragmen" (by decide), hn3 "minimaxphragmen" (by decide), hn3 "leximaxphragmen" (by decide),
    hn3 "maximin-support" (by decide), hn3 "monroe" (by decide), hn3 "greedy-monroe" (by decide),
    hn3 "minimaxav" (by decide), hn3 "lexminimaxav" (by decide), hn3 "rule-x" (by decide),
    hn3 "equal-shares" (by decide), hn3 "equal-shares-with-seqphragmen-completion" (by decide),
    hn3 "equal-shares-with-av-completion" (by decide), hn3 "equal-shares-with-increment-completion" (by decide),
    hn3 "rule-x-without-phragmen-phase" (by decide), hn3 "equal-shares-without-phragmen-phase" (by decide),
    hn3 "equal-shares-without-completion" (by decide), hn3 "phragmen-enestroem" (by decide),
    hn3 "consensus-rule" (by decide), hn3 "trivial" (by decide), hn3 "rsd" (by decide), hn3 "eph" (by decide), or_self, if_false]
  rw [if_neg, if_neg, hd]
  · rw [h3]; decide
  · intro h4
    have := congrArg (List.take 3) h4
    rw [List.take_take] at this
    rw [show min 3 4 = 3 from rfl, h3] at this
    exact absurd this (by decide)

theorem standard_of {env : Env} {rid : String} {p : Profile} {a : Args} {alg : String} (h : prologue env rid p a = .ok alg)
    {l : List Bool} (hri : ruleInfo env rid = .ok ⟨["standard"], l⟩) : prologue env rid p a = .ok "standard" := by
  have := prologue_alg_mem h hri
  rw [List.mem_singleton] at this
  rw [h, this]

/-- The rule ids listed explicitly in `Rule.__init__`. -/
def ruleLiterals : List String := ["av", "sav", "pav", "slav", "cc", "lexcc", "seqpav", "revseqpav", "seqslav", "seqcc", "seqphragmen",
  "minimaxphragmen", "leximaxphragmen", "maximin-support", "monroe", "greedy-monroe", "minimaxav", "lexminimaxav",
  "rule-x", "equal-shares", "equal-shares-with-seqphragmen-completion", "equal-shares-with-av-completion",
  "equal-shares-with-increment-completion", "rule-x-without-phragmen-phase",
  "equal-shares-without-phragmen-phase", "equal-shares-without-completion", "phragmen-enestroem",
  "consensus-rule", "trivial", "rsd", "eph"]

theorem ruleInfoBase_error {rid : String} (hn : ∀ t ∈ ruleLiterals, rid ≠ t) (hg : rid.toList.take 4 ≠ "geom".toList) :
    ruleInfoBase rid = .error .unknownRuleID := by
  have hne : ∀ t : String, t ∈ ruleLiterals → (rid = t) = False := fun t ht => eq_false (hn t ht)
  unfold ruleInfoBase
  simp only [hne "av" (by decide), hne "sav" (by decide), hne "pav" (by decide), hne "slav" (by decide), hne "cc" (by
    decide), hne "lexcc" (by decide), hne "seqpav" (by decide), hne "revseqpav" (by decide), hne "seqslav" (by
    decide), hne "seqcc" (by decide), hne "seqphragmen" (by decide), hne "minimaxphragmen" (by decide), hne
    "leximaxphragmen" (by decide), hne "maximin-support" (by decide), hne "monroe" (by decide), hne "greedy-monroe"
    (by decide), hne "minimaxav" (by decide), hne "lexminimaxav" (by decide), hne "rule-x" (by decide), hne
    "equal-shares" (by decide), hne "equal-shares-with-seqphragmen-completion" (by decide), hne
    "equal-shares-with-av-completion" (by decide), hne "equal-shares-with-increment-completion" (by decide), hne
    "rule-x-without-phragmen-phase" (by decide), hne "equal-shares-without-phragmen-phase" (by decide), hne
    "equal-shares-without-completion" (by decide), hne "phragmen-enestroem" (by decide), hne "consensus-rule" (by
    decide), hne "trivial" (by decide), hne "rsd" (by decide), hne "eph" (by decide),
    or_self, if_false]
  rw [if_neg hg]

theorem ruleInfoBase_geom {rid : String} (hg : rid.toList.take 4 = "geom".toList) :
    ruleInfoBase rid = .ok ⟨thieleAlgorithms, resOpt⟩ := by
  have hne : ∀ t : String, t.toList.take 4 ≠ "geom".toList → (rid = t) = False :=
    fun t ht => eq_false (fun e => ht (e ▸ hg))
  unfold ruleInfoBase
  simp only [hne "av" (by decide), hne "sav" (by decide), hne "pav" (by decide), hne "slav" (by decide), hne "cc" (by
    decide), hne "lexcc" (by decide), hne "seqpav" (by decide), hne "revseqpav" (by decide), hne "seqslav" (by
    decide), hne "seqcc" (by decide), hne "seqphragmen" (by decide), hne "minimaxphragmen" (by decide), hne
    "leximaxphragmen" (by decide), hne "maximin-support" (by decide), hne "monroe" (by decide), hne "greedy-monroe"
    (by decide), hne "minimaxav" (by decide), hne "lexminimaxav" (by decide), hne "rule-x" (by decide), hne
    "equal-shares" (by decide), hne "equal-shares-with-seqphragmen-completion" (by decide), hne
    "equal-shares-with-av-completion" (by decide), hne "equal-shares-with-increment-completion" (by decide), hne
    "rule-x-without-phragmen-phase" (by decide), hne "equal-shares-without-phragmen-phase" (by decide), hne
    "equal-shares-without-completion" (by decide), hne "phragmen-enestroem" (by decide), hne "consensus-rule" (by
    decide), hne "trivial" (by decide), hne "rsd" (by decide), hne "eph" (by decide),
    or_self, if_false]
  rw [if_pos hg]

theorem ruleInfo_seq {env : Env} {pre sid : String} {ri : RuleInfo} (hpre : pre = "seq" ∨ pre = "revseq") {s : ScoreId}
    (hs : env.scoreId sid = .ok s) (h : ruleInfo env (pre ++ sid) = .ok ri) : ri = ⟨["standard"], resSeq⟩ := by
  have hb : ∀ r, ruleInfoBase (pre ++ sid) = .ok r → r = ⟨["standard"], resSeq⟩ := by
    intro r hr
    have main : ∀ x : List Char, x.length ≤ 10 → (pre ++ sid).toList.take x.length = x →
        (∀ t ∈ ruleLiterals, t.toList.take x.length ≠ x) → x.take 4 ≠ "geom".toList → 4 ≤ x.length → False := by
      intro x _ hx hn hg h4
      have := ruleInfoBase_error (rid := pre ++ sid) (fun t ht e => hn t ht (e ▸ hx)) (by
        intro e
        apply hg
        rw [← hx, List.take_take, min_eq_left h4, e])
      rw [this] at hr
      simp at hr
    rcases hpre with rfl | rfl <;>
      rcases scoreId_cases hs with ⟨rfl, -⟩ | ⟨rfl, -⟩ | ⟨rfl, -⟩ | ⟨rfl, -⟩ | ⟨hg, -⟩ | ⟨hg, -⟩
    all_goals first
      | exact (Except.ok.inj hr).symm
      | exact absurd (hr.symm.trans (show ruleInfoBase _ = .error .unknownRuleID from rfl)) (by simp)
      | skip
    · exact (main "seqgeom".toList (by decide) (by simp [hg]) (by decide) (by decide) (by decide)).elim
    · exact (main "seqatleast".toList (by decide) (by simp [hg]) (by decide) (by decide) (by decide)).elim
    · exact (main "revseqgeom".toList (by decide) (by simp [hg]) (by decide) (by decide) (by decide)).elim
    · exact (main "revseqatl".toList (by decide) (by
        have := congrArg (List.take 3) hg
        rw [List.take_take] at this
        simpa using this) (by decide) (by decide) (by decide)).elim
  unfold ruleInfo at h
  cases hbase : ruleInfoBase (pre ++ sid) with
  | ok r =>
    rw [hbase] at h
    exact hb _ (hbase.trans h)
  | error e =>
    rw [hbase] at h
    dsimp only at h
    have key : ∀ o : Option (List Char), (match o with
        | none => .error .unknownRuleID
        | some scorefctId =>
          match getScoreId env.parseFraction env.parseInt scorefctId with
          | .error .unknownScoreFunction => .error .unknownRuleID
          | .error e => .error e
          | .ok _ => do
            let _ ← ruleInfoBase (String.ofList scorefctId)
            .ok ⟨["standard"], resSeq⟩ : Except Err RuleInfo) = .ok ri → ri = ⟨["standard"], resSeq⟩ := by
      intro o ho
      cases o with
      | none => simp at ho
      | some x =>
        dsimp only at ho
        split at ho
        · simp at ho
        · simp at ho
        · simp only [bind, Except.bind] at ho
          split at ho
          · simp at ho
          · simpa using ho.symm
    exact key _ h

theorem prologue_alias {env : Env} {r r' : String} (h : ruleInfo env r = ruleInfo env r') (p : Profile) (a : Args) :
    prologue env r p a = prologue env r' p a := by
  unfold prologue; rw [h]

theorem unitWeights_iff {p : Profile} : p.hasUnitWeights = true ↔ ∀ v ∈ p.voters, v.weight = 1 := by
  unfold Profile.hasUnitWeights
  simp

/-- **C31** `compute(rule_id, …)` answers every valid call with the winning committees of the rule. -/
theorem C31_compute (w : World) (hw : w.Exact) (p : Profile) (hp : p.WF) (a : Args) (ruleId alg : String)
    (hal : prologue w.env ruleId p a = .ok alg) {S : Finset ℕ → Prop} (hS : Elects w p a.k alg ruleId S) :
    Answers a (compute w ruleId p a.committeesize none a.kw) S := by
  rw [compute_none hal]
  cases hS with
  | av => exact C20_separable_optimal w.env .av p hp a (standard_of hal rfl)
  | sav => exact C20_separable_optimal w.env .sav p hp a (standard_of hal rfl)
  | @thiele _ s hs hok hcp =>
    have hd : w.run ruleId p a
        = computeThieleMethod w.env ruleId (thieleSolver w.solve ruleId (marginalFct s) p a) p a := by
      have : w.run ruleId p a = w.thiele ruleId p a := by
        rcases scoreId_cases hs with ⟨rfl, -⟩ | ⟨rfl, -⟩ | ⟨rfl, -⟩ | ⟨rfl, rfl⟩ | ⟨hg, -⟩ | ⟨-, l, rfl⟩
        · rfl
        · rfl
        · rfl
        · simp at hok
        · exact run_geom w p _ hg
        · simp at hok
      rw [this]
      unfold World.thiele
      rw [hs]
    rw [hd]
    have hri : ruleId = "cc" ∨ ruleInfo w.env ruleId = .ok ⟨thieleAlgorithms, resOpt⟩ := by
      rcases scoreId_cases hs with ⟨rfl, -⟩ | ⟨rfl, -⟩ | ⟨rfl, -⟩ | ⟨rfl, rfl⟩ | ⟨hg, -⟩ | ⟨-, l, rfl⟩
      · right; rfl
      · right; rfl
      · left; rfl
      · simp at hok
      · right
        unfold ruleInfo
        rw [ruleInfoBase_geom hg]
      · simp at hok
    have hin : alg ∈ thieleAlgorithms ∨ (alg = "ortools-cp" ∧ ruleId = "cc" ∧ s = .cc) := by
      rcases hri with rfl | hri
      · have hm := prologue_alg_mem hal (ri := ⟨_, _⟩) rfl
        simp only [List.mem_cons, List.not_mem_nil, or_false] at hm
        by_cases hc : alg = "ortools-cp"
        · right
          refine ⟨hc, rfl, ?_⟩
          have : w.env.scoreId "cc" = .ok .cc := rfl
          rw [this] at hs
          exact (Except.ok.inj hs).symm
        · left
          simp only [thieleAlgorithms, List.mem_cons, List.not_mem_nil, or_false]
          tauto
      · exact Or.inl (prologue_alg_mem hal hri)
    by_cases hgen : s = .pav ∨ s = .slav ∨ s = .cc ∨ ∃ b, 1 < b ∧ s = .geom b
    · refine C62_compute_thiele w.env ruleId s w.solve p hp a alg hal hs (hw.solve alg) hgen ?_
      rcases hin with h | ⟨h1, h2, h3⟩
      · exact Or.inl h
      · refine Or.inr ⟨h1, h2, h3, fun v hv => ?_⟩
        obtain ⟨n, hn⟩ := hcp h1 v hv
        exact ⟨n, by rw [hn]; norm_cast⟩
    · rcases hok with h | h | h | ⟨b, rfl, hb⟩
      · exact absurd (Or.inl h) hgen
      · exact absurd (Or.inr (Or.inl h)) hgen
      · exact absurd (Or.inr (Or.inr (Or.inl h))) hgen
      · rcases hb with hb | ⟨rfl, hb⟩ | ⟨rfl, hb⟩
        · exact absurd (Or.inr (Or.inr (Or.inr ⟨b, hb, rfl⟩))) hgen
        · exact C22_bnb_optimal w.env ruleId _ _ p hp a hal hs hb
        · refine C21_bruteforce_optimal w.env ruleId _ _ p hp a hal hs (fun i => ?_)
          simp only [marginalFct]
          split
          · exact le_refl _
          · positivity
  | lexcc hg => exact C62_compute_lexcc w.env w.solve p hp a alg hal (hw.solve alg) hg
  | @seqThiele sid s hs hf =>
    rw [run_seq w p _ hs]
    obtain ⟨ri, h, -⟩ := (C19_prologue_ok_iff _ _ p a alg).1 hal
    exact C27_seqThiele w.env sid s p hp a (standard_of hal ((ruleInfo_seq (Or.inl rfl) hs h) ▸ h)) hs hf
  | @revseqThiele sid s hs =>
    rw [run_revseq w p _ hs]
    obtain ⟨ri, h, -⟩ := (C19_prologue_ok_iff _ _ p a alg).1 hal
    exact C28_revseq_exact w.env sid s w.revOrd hw.listing hw.canonical p hp a
      (standard_of hal ((ruleInfo_seq (Or.inr rfl) hs h) ▸ h)) hs
  | seqphragmen h1 h2 => exact C33_seqphragmen w.env _ p hp h1 a alg hal h2
  | minimaxphragmen h1 h2 h3 => exact C67_compute_minimaxphragmen w.env w.solve p hp h1 h2 a alg hal (hw.solve alg) h3
  | minimaxphragmenTol h1 h3 => exact C67_compute_minimaxphragmen_rational w.env w.solve p hp h1 a alg hal (hw.solve alg) h3
  | leximaxphragmen h1 h3 => exact C70_compute_leximaxphragmen w.env w.solve p hp h1 a alg hal (hw.solve alg) h3
  | maximinSupport h1 h2 => exact C68_compute_maximin_support w.env w.solve w.iter hw.iter p hp h1 a h2 alg hal (hw.solve alg)
  | maximinSupportTol => exact C68_compute_maximin_support_tol w.env w.solve w.iter hw.iter p hp a alg hal (hw.solve alg)
  | monroe hu =>
    exact (C62_compute_monroe w.env w.matching hw.matching w.minCost hw.minCost w.solve p a alg hal (hw.solve alg)).1
      (unitWeights_iff.2 hu)
  | greedyMonroe hu =>
    have hst := standard_of hal rfl
    obtain ⟨W, Ds, C, full, -, h2, h3, -, h4, h5, h6, h7, -⟩ := (C32_greedy_monroe w.env w.matching hw.matching w.minCost hw.minCost
      (w.iter p.candidates) p (hw.iter _) a hst).1 (unitWeights_iff.2 hu)
    have hr : a.resolute = true := by
      obtain ⟨ri, h, -, -, -, -, -, hres, -⟩ := (C19_prologue_ok_iff _ _ p a alg).1 hal
      obtain rfl := Except.ok.inj (show Except.ok _ = Except.ok ri from h)
      simpa using hres
    unfold Answers
    rw [hr]
    exact ⟨C, h2, h6, W, Ds, h3, h4, h7.symm⟩
  | minimaxav => exact C62_compute_minimaxav w.env w.solve p hp a alg hal (hw.solve alg)
  | lexminimaxav hu =>
    have := C62_compute_lexminimaxav w.env w.solve p hp a alg hal (hw.solve alg)
    rw [if_pos hu] at this
    exact this
  | @equalShares _ hid h1 h2 =>
    have hal' : prologue w.env "equal-shares" p a = .ok alg := by
      rw [← hal]
      refine prologue_alias ?_ p a
      simp only [List.mem_cons, List.not_mem_nil, or_false] at hid
      rcases hid with rfl | rfl | rfl <;> rfl
    have := C38_equal_shares w.env (w.float ruleId p a) p hp .seqphragmen (Or.inr (Or.inl ⟨rfl, h1⟩)) a _ alg rfl hal' h2
    simp only [List.mem_cons, List.not_mem_nil, or_false] at hid
    rcases hid with rfl | rfl | rfl <;> exact this
  | equalSharesAv h => exact C38_equal_shares w.env _ p hp .av (Or.inr (Or.inr rfl)) a _ alg rfl hal h
  | equalSharesIncrement h1 h2 =>
    have h := C39_increment w.env (w.float "equal-shares-with-increment-completion" p a) p hp h1 a alg hal h2
    have hr : a.resolute = true := by
      obtain ⟨ri, h, -, -, -, -, -, hres, -⟩ := (C19_prologue_ok_iff _ _ p a alg).1 hal
      obtain rfl := Except.ok.inj (show Except.ok _ = Except.ok ri from h)
      simpa using hres
    unfold Answers
    rw [hr]
    rcases lt_or_ge (approvedSet p).card a.k with hlt | hge
    · obtain ⟨W, e1, e2, e3⟩ := h.1 (by rw [← approvedSet_card]; exact hlt)
      exact ⟨W, e1, e2, Or.inl ⟨hlt, e3⟩⟩
    · obtain ⟨inc, W, e1, e2, e3, e4, e5⟩ := h.2 (by rw [← approvedSet_card]; exact hge)
      have hWn : W.Nodup := by
        obtain ⟨b, hb, -⟩ := e2
        exact (hb.run.nodup (m := p.numCand) (fun _ _ _ _ h => ⟨h.1, h.2.1⟩) (by simp) (by simp)).1
      exact ⟨sortNat W, e4, sortNat_lt hWn, Or.inr ⟨hge, inc, W, e1, e2, e3, (List.toFinset_eq_of_perm _ _ (sortNat_perm W)).symm, e5⟩⟩
  | @equalSharesNone _ hid h2 =>
    have hal' : prologue w.env "equal-shares-without-completion" p a = .ok alg := by
      rw [← hal]
      refine prologue_alias ?_ p a
      simp only [List.mem_cons, List.not_mem_nil, or_false] at hid
      rcases hid with rfl | rfl | rfl <;> rfl
    have := C38_equal_shares w.env (w.float ruleId p a) p hp .none (Or.inl rfl) a _ alg rfl hal' h2
    simp only [List.mem_cons, List.not_mem_nil, or_false] at hid
    rcases hid with rfl | rfl | rfl <;> exact this
  | enestroem h => exact (C40_enestroem w.env _ p hp a alg hal h).1
  | consensus h => exact (C41_consensus w.env _ p a alg hal h).1
  | trivial => exact (C42_trivial w.env p a (standard_of hal rfl)).1
  | rsd hu =>
    obtain ⟨W, As, h1, h2, h3, h4, h5⟩ := (C43_rsd w.env w.shuffle hw.shuffle w.sample hw.sample p hp a (standard_of hal rfl)).1
      (unitWeights_iff.2 hu)
    have hr : a.resolute = true := by
      obtain ⟨ri, h, -, -, -, -, -, hres, -⟩ := (C19_prologue_ok_iff _ _ p a alg).1 hal
      obtain rfl := Except.ok.inj (show Except.ok _ = Except.ok ri from h)
      simpa using hres
    unfold Answers
    rw [hr]
    exact ⟨W, h1, h2, h3, As, h4, h5⟩
  | eph h2 h => exact C44_eph w.env _ p _ (hw.iter _) a alg hal h h2

/-- The ids of Equal Shares without completion. -/
def withoutCompletion : List String :=
  ["rule-x-without-phragmen-phase", "equal-shares-without-phragmen-phase", "equal-shares-without-completion"]

theorem isCommittee_of_run {σ : Type} {Best : List ℕ → σ → ℕ → Prop} {upd : List ℕ → σ → ℕ → σ} {s₀ : σ} {k : ℕ} {p : Profile}
    (hB : ∀ W s c, Best W s c → c < p.numCand ∧ c ∉ W) {A : Finset ℕ} (h : RunWinner Best upd s₀ k A) : IsCommittee p k A := by
  obtain ⟨W, s, h1, h2, rfl⟩ := h
  obtain ⟨h3, h4⟩ := h1.nodup (m := p.numCand) (fun W s c _ h => hB W s c h) (by simp) (by simp)
  exact ⟨fun c hc => Finset.mem_range.2 (h4 c (List.mem_toFinset.1 hc)), by rw [List.toFinset_card_of_nodup h3, h2]⟩

theorem mesWinner_valid {p : Profile} {k : ℕ} {completion : Completion} {r : ℚ} {A : Finset ℕ}
    (h : MESWinner p k completion r A) : A ⊆ Finset.range p.numCand ∧ A.card ≤ k ∧ (completion ≠ .none → A.card = k) := by
  obtain ⟨W, b, h1, h2⟩ := h
  obtain ⟨h3, h4⟩ := h1.nodup (m := p.numCand) (fun W s c _ h => ⟨h.1, h.2.1⟩) (by simp) (by simp)
  have hsub : W.toFinset ⊆ Finset.range p.numCand := fun c hc => Finset.mem_range.2 (h4 c (List.mem_toFinset.1 hc))
  have hcard : W.toFinset.card = W.length := List.toFinset_card_of_nodup h3
  rcases h2 with ⟨h5, rfl⟩ | ⟨h5, -, h6⟩
  · exact ⟨hsub, by omega, fun _ => by omega⟩
  · cases completion with
    | none =>
      obtain rfl := h6
      exact ⟨hsub, by omega, fun h => absurd rfl h⟩
    | seqphragmen =>
      obtain ⟨V, x, h7, h8, rfl⟩ := h6
      obtain ⟨h9, h10⟩ := h7.nodup (m := p.numCand) (fun W s c _ h => ⟨h.1, h.2.1⟩) h3 h4
      have : V.toFinset.card = V.length := List.toFinset_card_of_nodup h9
      exact ⟨fun c hc => Finset.mem_range.2 (h10 c (List.mem_toFinset.1 hc)), by omega, fun _ => by omega⟩
    | av => exact ⟨h6.1.1, h6.1.2.le, fun _ => h6.1.2⟩
    | increment => exact h6.elim
    | other _ => exact h6.elim

theorem ephWinner_valid {p : Profile} {k : ℕ} {R A : Finset ℕ} (h : EPHWinner p k R A) : A ⊆ R ∧ A.card = k := by
  induction h with
  | stop _ _ _ h1 h2 => exact ⟨h1, h2⟩
  | next _ _ _ ih => exact ⟨ih.1.trans Finset.sdiff_subset, ih.2⟩

theorem revRun_subset {f : ℕ → ℚ} {p : Profile} {A : Finset ℕ} (h : RevRun f p A) : A ⊆ Finset.range p.numCand := by
  induction h with
  | all => exact subset_refl _
  | remove _ _ _ ih => exact (Finset.erase_subset _ _).trans ih

/-- Every winning committee is a set of candidates of the right size. -/
theorem elects_valid {w : World} {p : Profile} {k : ℕ} {alg ruleId : String} {S : Finset ℕ → Prop}
    (hS : Elects w p k alg ruleId S) {A : Finset ℕ} (hA : S A) :
    A ⊆ Finset.range p.numCand ∧ A.card ≤ k ∧ (ruleId ∉ withoutCompletion → A.card = k) := by
  have of : IsCommittee p k A → A ⊆ Finset.range p.numCand ∧ A.card ≤ k ∧ (ruleId ∉ withoutCompletion → A.card = k) :=
    fun h => ⟨h.1, h.2.le, fun _ => h.2⟩
  cases hS with
  | av => exact of hA.1
  | sav => exact of hA.1
  | thiele _ _ _ => exact of hA.1
  | lexcc _ => exact of hA.1
  | seqThiele _ _ =>
    obtain ⟨W, h1, h2, rfl⟩ := hA
    obtain ⟨h3, h4⟩ := h1.nodup
    exact of ⟨fun c hc => Finset.mem_range.2 (h4 c (List.mem_toFinset.1 hc)), by rw [List.toFinset_card_of_nodup h3, h2]⟩
  | revseqThiele _ => exact of ⟨revRun_subset hA.1, hA.2⟩
  | seqphragmen _ _ => exact of (isCommittee_of_run (fun _ _ _ h => ⟨h.1, h.2.1⟩) hA)
  | minimaxphragmen _ _ _ => exact of hA.1.1
  | minimaxphragmenTol _ _ => exact of hA.1.1
  | leximaxphragmen _ _ => obtain ⟨_, _, _, _, _, _, h, _⟩ := hA; exact of h
  | maximinSupport _ _ => exact of (isCommittee_of_run (fun _ _ _ h => ⟨h.1, h.2.1⟩) hA)
  | maximinSupportTol => exact of (isCommittee_of_run (fun _ _ _ h => ⟨h.1, h.2.1⟩) hA)
  | monroe _ => exact of hA.1
  | greedyMonroe _ => exact of (isCommittee_of_run (fun _ _ _ h => ⟨h.1, h.2.1⟩) hA)
  | minimaxav => exact of hA.1
  | lexminimaxav _ => exact of hA.1
  | equalShares _ _ _ =>
    obtain ⟨h1, h2, h3⟩ := mesWinner_valid hA
    exact ⟨h1, h2, fun _ => h3 (by simp)⟩
  | equalSharesAv _ =>
    obtain ⟨h1, h2, h3⟩ := mesWinner_valid hA
    exact ⟨h1, h2, fun _ => h3 (by simp)⟩
  | equalSharesIncrement _ _ =>
    rcases hA with ⟨_, h, _⟩ | ⟨_, inc, W, _, ⟨b, h1, _⟩, h2, rfl, _⟩
    · exact of h.1
    · obtain ⟨h3, h4⟩ := h1.run.nodup (m := p.numCand) (fun W s c _ h => ⟨h.1, h.2.1⟩) (by simp) (by simp)
      exact of ⟨fun c hc => Finset.mem_range.2 (h4 c (List.mem_toFinset.1 hc)), by rw [List.toFinset_card_of_nodup h3, h2]⟩
  | equalSharesNone hid _ =>
    obtain ⟨h1, h2, h3⟩ := mesWinner_valid hA
    exact ⟨h1, h2, fun h => absurd hid h⟩
  | enestroem _ => exact of (isCommittee_of_run (fun _ _ _ h => ⟨h.1, h.2.1⟩) hA)
  | consensus _ => exact of (isCommittee_of_run (fun _ _ _ h => ⟨h.1, h.2.1⟩) hA)
  | trivial => exact of hA
  | rsd _ => exact of hA.1
  | eph _ _ => exact of ⟨(ephWinner_valid hA).1, (ephWinner_valid hA).2⟩

/-- The documented rules: id, algorithms (fastest first), values of `resolute` (default first). -/
def ruleTable : List (String × List String × List Bool) :=
  let opt := [false, true]
  let seq := [true, false]
  let std := ["standard"]
  let thiele := ["gurobi", "mip-gurobi", "mip-cbc", "branch-and-bound", "brute-force"]
  let frac := ["float-fractions", "gmpy2-fractions", "standard-fractions"]
  [("av", std, opt), ("sav", std, opt), ("pav", thiele, opt), ("slav", thiele, opt),
    ("cc", ["gurobi", "mip-gurobi", "ortools-cp", "branch-and-bound", "brute-force", "mip-cbc"], opt),
    ("lexcc", ["gurobi", "brute-force"], opt), ("seqpav", std, seq), ("revseqpav", std, seq), ("seqslav", std, seq),
    ("seqcc", std, seq), ("seqphragmen", frac, seq), ("minimaxphragmen", ["gurobi", "mip-gurobi", "mip-cbc"], opt),
    ("leximaxphragmen", ["gurobi"], opt), ("maximin-support", ["gurobi", "mip-gurobi", "mip-cbc"], seq),
    ("monroe", ["gurobi", "mip-gurobi", "mip-cbc", "ortools-cp", "brute-force"], opt), ("greedy-monroe", std, [true]),
    ("minimaxav", ["gurobi", "mip-gurobi", "ortools-cp", "mip-cbc", "brute-force"], opt),
    ("lexminimaxav", ["gurobi", "brute-force"], opt), ("rule-x", frac, seq), ("equal-shares", frac, seq),
    ("equal-shares-with-seqphragmen-completion", frac, seq), ("equal-shares-with-av-completion", frac, seq),
    ("equal-shares-with-increment-completion", frac, [true]), ("rule-x-without-phragmen-phase", frac, seq),
    ("equal-shares-without-phragmen-phase", frac, seq), ("equal-shares-without-completion", frac, seq),
    ("phragmen-enestroem", frac, seq), ("consensus-rule", frac, seq), ("trivial", std, opt), ("rsd", std, [true]),
    ("eph", frac, opt)]

/-- **C19** The rule table: `Rule(rule_id)` succeeds exactly for the ids in the table, for the ids starting with `geom` and for
`seq`/`revseq` followed by `pav`, `slav`, `cc`, `av` or a `geom` id whose base is a fraction, with the algorithms and `resolute`
values listed. -/
theorem C19_rule_table (env : Env) (ruleId : String) (ri : RuleInfo) :
    ruleInfo env ruleId = .ok ri ↔
      (ruleId, ri.algorithms, ri.resoluteValues) ∈ ruleTable ∨
      (ruleId.toList.take 4 = "geom".toList ∧
        ri = ⟨["gurobi", "mip-gurobi", "mip-cbc", "branch-and-bound", "brute-force"], [false, true]⟩) ∨
      (∃ pre sid, (pre = "seq" ∨ pre = "revseq") ∧ ruleId = pre ++ sid ∧
        (sid = "pav" ∨ sid = "slav" ∨ sid = "cc" ∨ sid = "av" ∨
          (sid.toList.take 4 = "geom".toList ∧ ∃ b, env.parseFraction (sid.toList.drop 4) = some b)) ∧
        ri = ⟨["standard"], [true, false]⟩) := by
  have htab : ∀ t ∈ ruleTable, ruleInfoBase t.1 = .ok ⟨t.2.1, t.2.2⟩ := by decide +kernel
  have hids : ∀ t ∈ ruleLiterals, t ∈ ruleTable.map Prod.fst := by decide +kernel
  by_cases hg : ruleId.toList.take 4 = "geom".toList
  · have h1 : ruleInfo env ruleId = .ok ⟨thieleAlgorithms, resOpt⟩ := by
      unfold ruleInfo
      rw [ruleInfoBase_geom hg]
    rw [h1]
    constructor
    · intro h
      obtain rfl := Except.ok.inj h
      exact Or.inr (Or.inl ⟨hg, rfl⟩)
    · rintro (h | ⟨-, rfl⟩ | ⟨pre, sid, hpre, rfl, -⟩)
      · have := htab _ h
        dsimp only at this
        rw [ruleInfoBase_geom hg] at this
        rw [Except.ok.inj this]
      · rfl
      · exfalso
        rcases hpre with rfl | rfl <;> simp at hg
  by_cases hm : ruleId ∈ ruleLiterals
  · obtain ⟨t, ht, hte⟩ := List.mem_map.1 (hids _ hm)
    have hb := htab t ht
    rw [hte] at hb
    have h1 : ruleInfo env ruleId = .ok ⟨t.2.1, t.2.2⟩ := by
      unfold ruleInfo
      rw [hb]
    rw [h1]
    constructor
    · intro h
      obtain rfl := Except.ok.inj h
      left
      rw [← hte]
      exact ht
    · rintro (h | ⟨h, -⟩ | ⟨pre, sid, hpre, rfl, hsid, rfl⟩)
      · have := htab _ h
        dsimp only at this
        rw [hb] at this
        rw [Except.ok.inj this]
      · exact absurd h hg
      · congr 1
        obtain ⟨s, hs⟩ : ∃ s, env.scoreId sid = .ok s := by
          rcases hsid with rfl | rfl | rfl | rfl | ⟨h4, b, hb⟩
          · exact ⟨_, rfl⟩
          · exact ⟨_, rfl⟩
          · exact ⟨_, rfl⟩
          · exact ⟨_, rfl⟩
          · exact ⟨.geom b, scoreId_geom h4 hb⟩
        exact ruleInfo_seq hpre hs h1
  · have hbase : ruleInfoBase ruleId = .error .unknownRuleID := ruleInfoBase_error (fun t ht e => hm (e ▸ ht)) hg
    have hatl : ∀ sid : String, sid.toList.take 7 = "atleast".toList → ruleInfoBase sid = .error .unknownRuleID := by
      intro sid h7
      refine ruleInfoBase_error (fun t ht e => ?_) (fun h4 => ?_)
      · have : ∀ t ∈ ruleLiterals, t.toList.take 7 ≠ "atleast".toList := by decide +kernel
        exact this t ht (e ▸ h7)
      · have := congrArg (List.take 4) h7
        rw [List.take_take, show min 4 7 = 4 from rfl, h4] at this
        exact absurd this (by decide)
    have hgo : ∀ (pre sid : String), (pre = "seq" ∨ pre = "revseq") → ruleId = pre ++ sid →
        ruleInfo env ruleId = (match getScoreId env.parseFraction env.parseInt sid.toList with
          | .error .unknownScoreFunction => .error .unknownRuleID
          | .error e => .error e
          | .ok _ => do
            let _ ← ruleInfoBase sid
            .ok ⟨["standard"], resSeq⟩) := by
      intro pre sid hpre he
      unfold ruleInfo
      rw [hbase]
      dsimp only
      rcases hpre with rfl | rfl
      · have hl : ruleId.toList = 's' :: 'e' :: 'q' :: sid.toList := by simp [he]
        simp only [hl, List.take_succ_cons, List.take_zero, List.drop_succ_cons, List.drop_zero]
        rw [if_pos (show ['s', 'e', 'q'] = "seq".toList from rfl)]
        simp only [String.ofList_toList]
        rcases getScoreId env.parseFraction env.parseInt sid.toList with e | s
        · cases e <;> rfl
        · rfl
      · have hl : ruleId.toList = 'r' :: 'e' :: 'v' :: 's' :: 'e' :: 'q' :: sid.toList := by simp [he]
        simp only [hl, List.take_succ_cons, List.take_zero, List.drop_succ_cons, List.drop_zero]
        rw [if_neg (by decide), if_pos (show ['r', 'e', 'v', 's', 'e', 'q'] = "revseq".toList from rfl)]
        simp only [String.ofList_toList]
        rcases getScoreId env.parseFraction env.parseInt sid.toList with e | s
        · cases e <;> rfl
        · rfl
    have hno : (¬ ∃ pre sid, (pre = "seq" ∨ pre = "revseq") ∧ ruleId = pre ++ sid) → ruleInfo env ruleId = .error .unknownRuleID := by
      intro hno
      unfold ruleInfo
      rw [hbase]
      dsimp only
      rw [if_neg, if_neg]
      · intro h
        refine hno ⟨"revseq", String.ofList (ruleId.toList.drop 6), Or.inr rfl, ?_⟩
        have h' := List.take_append_drop 6 ruleId.toList
        rw [h] at h'
        rw [← String.toList_inj, String.toList_append]
        simpa using h'.symm
      · intro h
        refine hno ⟨"seq", String.ofList (ruleId.toList.drop 3), Or.inl rfl, ?_⟩
        have h' := List.take_append_drop 3 ruleId.toList
        rw [h] at h'
        rw [← String.toList_inj, String.toList_append]
        simpa using h'.symm
    constructor
    · intro h
      right; right
      by_cases hex : ∃ pre sid, (pre = "seq" ∨ pre = "revseq") ∧ ruleId = pre ++ sid
      · obtain ⟨pre, sid, hpre, he⟩ := hex
        refine ⟨pre, sid, hpre, he, ?_⟩
        rw [hgo pre sid hpre he] at h
        split at h
        · simp at h
        · simp at h
        · rename_i s hs
          simp only [bind, Except.bind] at h
          split at h
          · simp at h
          · rename_i ri' hri'
            refine ⟨?_, (Except.ok.inj h).symm⟩
            rcases scoreId_cases (env := env) (sid := sid) hs with ⟨h, -⟩ | ⟨h, -⟩ | ⟨h, -⟩ | ⟨h, -⟩ | ⟨h, b, hb, -⟩ | ⟨h, -⟩
            · exact Or.inl h
            · exact Or.inr (Or.inl h)
            · exact Or.inr (Or.inr (Or.inl h))
            · exact Or.inr (Or.inr (Or.inr (Or.inl h)))
            · exact Or.inr (Or.inr (Or.inr (Or.inr ⟨h, b, hb⟩)))
            · rw [hatl sid h] at hri'
              simp at hri'
      · rw [hno hex] at h
        simp at h
    · rintro (h | ⟨h, -⟩ | ⟨pre, sid, hpre, he, hsid, rfl⟩)
      · exfalso
        have : ∀ t ∈ ruleTable, t.1 ∈ ruleLiterals := by decide +kernel
        exact hm (this _ h)
      · exact absurd h hg
      · rw [hgo pre sid hpre he]
        rcases hsid with rfl | rfl | rfl | rfl | ⟨h4, b, hb⟩
        · rfl
        · rfl
        · rfl
        · rfl
        · have : getScoreId env.parseFraction env.parseInt sid.toList = .ok (.geom b) := scoreId_geom h4 hb
          rw [this, ruleInfoBase_geom h4]
          rfl

/-- **C19** Every rule accepts `resolute=True`. -/
theorem C19_resolute_supported {env : Env} {ruleId : String} {ri : RuleInfo} (h : ruleInfo env ruleId = .ok ri) :
    true ∈ ri.resoluteValues := by
  rcases (C19_rule_table env ruleId ri).1 h with h | ⟨-, rfl⟩ | ⟨_, _, _, _, _, rfl⟩
  · have : ∀ t ∈ ruleTable, true ∈ t.2.2 := by decide +kernel
    exact this _ h
  · simp
  · simp

theorem prologue_resolute {env : Env} {ruleId : String} {p : Profile} {a : Args} {alg : String}
    (h : prologue env ruleId p a = .ok alg) : prologue env ruleId p { a with resolute := true, max := none } = .ok alg := by
  rw [C19_prologue_ok_iff] at h ⊢
  obtain ⟨ri, h1, h2, h3, h4, h5, h6, -, -, -⟩ := h
  exact ⟨ri, h1, h2, h3, h4, h5, h6, C19_resolute_supported h1, by simp, by simp⟩

theorem asc_unique {V W : List ℕ} (hV : V.Pairwise (· < ·)) (hW : W.Pairwise (· < ·)) (h : V.toFinset = W.toFinset) : V = W := by
  have hp : V.Perm W := by
    rw [List.perm_ext_iff_of_nodup (hV.imp fun h => h.ne) (hW.imp fun h => h.ne)]
    intro x
    rw [← List.mem_toFinset, h, List.mem_toFinset]
  exact List.Perm.eq_of_pairwise' (r := (· < ·)) hV hW hp

/-- There is a winning committee. -/
theorem elects_nonempty {w : World} (hw : w.Exact) {p : Profile} (hp : p.WF) {a : Args} {ruleId alg : String}
    (hal : prologue w.env ruleId p a = .ok alg) {S : Finset ℕ → Prop} (hS : Elects w p a.k alg ruleId S) : ∃ A, S A := by
  obtain ⟨W, -, -, h⟩ := C31_compute w hw p hp { a with resolute := true, max := none } ruleId alg (prologue_resolute hal) hS
  exact ⟨_, h⟩

/-- **C31** Whenever the parameters are valid, `compute` returns a non-empty list of different committees in canonical order, each
of them a list of `committeesize` different candidates of the profile (at most `committeesize` for Equal Shares without
completion); at most `max_num_of_committees` of them, exactly one if `resolute`. -/
theorem C31_valid (w : World) (hw : w.Exact) (p : Profile) (hp : p.WF) (a : Args) (ruleId alg : String)
    (hal : prologue w.env ruleId p a = .ok alg) {S : Finset ℕ → Prop} (hS : Elects w p a.k alg ruleId S) :
    ∃ cs, compute w ruleId p a.committeesize none a.kw = .ok cs ∧ cs ≠ [] ∧ Canonical cs ∧
      (∀ W ∈ cs, (∀ c ∈ W, c < p.numCand) ∧ W.Nodup ∧ (W.length : ℤ) ≤ a.committeesize ∧
        (ruleId ∉ withoutCompletion → (W.length : ℤ) = a.committeesize)) ∧
      (a.resolute = true → cs.length = 1) ∧ ∀ n, a.max = some n → (cs.length : ℤ) ≤ n := by
  have hv := validCall_of_prologue hal
  have hkz : (a.k : ℤ) = a.committeesize := by
    have := hv.pos
    unfold Args.k at this ⊢
    omega
  obtain ⟨A₀, hA₀⟩ := elects_nonempty hw hp hal hS
  have h := C31_compute w hw p hp a ruleId alg hal hS
  have key : ∀ W : List ℕ, W.Pairwise (· < ·) → S W.toFinset → (∀ c ∈ W, c < p.numCand) ∧ W.Nodup ∧
      (W.length : ℤ) ≤ a.committeesize ∧ (ruleId ∉ withoutCompletion → (W.length : ℤ) = a.committeesize) := by
    intro W hW hSW
    obtain ⟨h1, h2, h3⟩ := elects_valid hS hSW
    have hn : W.Nodup := hW.imp fun h => h.ne
    rw [List.toFinset_card_of_nodup hn] at h2 h3
    exact ⟨fun c hc => Finset.mem_range.1 (h1 (List.mem_toFinset.2 hc)), hn, by omega, fun h => by rw [h3 h, hkz]⟩
  unfold Answers at h
  cases hr : a.resolute with
  | true =>
    rw [hr] at h
    obtain ⟨W, h1, h2, h3⟩ := h
    refine ⟨[W], h1, by simp, canonical_singleton h2, ?_, by simp, fun n hn => ?_⟩
    · intro V hV
      rw [List.mem_singleton] at hV
      subst hV
      exact key V h2 h3
    · have := hv.excl hr
      rw [this] at hn
      simp at hn
  | false =>
    rw [hr] at h
    cases hm : a.max with
    | none =>
      rw [hm] at h
      obtain ⟨cs, h1, h2, h3⟩ := h
      refine ⟨cs, h1, ?_, h2, fun W hW => key W (h2.asc W hW) ((h3 _).1 ⟨W, hW, rfl⟩), by simp, by simp⟩
      rintro rfl
      obtain ⟨W, hW, -⟩ := (h3 A₀).2 hA₀
      simp at hW
    | some n =>
      rw [hm] at h
      obtain ⟨cs, h1, h2, h3, F, h4, h5⟩ := h
      have hn := hv.max n hm
      refine ⟨cs, h1, ?_, h2, fun W hW => key W (h2.asc W hW) (h3 W hW), by simp, fun m hm' => ?_⟩
      · rintro rfl
        have : 0 < F.card := Finset.card_pos.2 ⟨A₀, (h4 A₀).2 hA₀⟩
        simp only [List.length_nil] at h5
        omega
      · obtain rfl := Option.some.inj hm'
        omega

/-- **C29** With `resolute=True` exactly one committee is returned, and it is one of those returned with `resolute=False` —
whatever algorithms run in the two calls and however solvers, set iteration and random numbers behave in them. -/
theorem C29_resolute_mem (w w' : World) (hw : w.Exact) (hw' : w'.Exact) (p : Profile) (hp : p.WF) (a b : Args)
    (ha : a.resolute = true) (hb : b.resolute = false) (hbm : b.max = none)
    (ruleId alg alg' : String) (hal : prologue w.env ruleId p a = .ok alg) (hal' : prologue w'.env ruleId p b = .ok alg')
    {S : Finset ℕ → Prop} (hS : Elects w p a.k alg ruleId S) (hS' : Elects w' p b.k alg' ruleId S) :
    ∃ W cs, compute w ruleId p a.committeesize none a.kw = .ok [W] ∧
      compute w' ruleId p b.committeesize none b.kw = .ok cs ∧ W ∈ cs := by
  have h := C31_compute w hw p hp a ruleId alg hal hS
  have h' := C31_compute w' hw' p hp b ruleId alg' hal' hS'
  unfold Answers at h h'
  rw [ha] at h
  rw [hb, hbm] at h'
  obtain ⟨W, h1, h2, h3⟩ := h
  obtain ⟨cs, h4, h5, h6⟩ := h'
  obtain ⟨V, hV, e⟩ := (h6 _).2 h3
  exact ⟨W, cs, h1, h4, by rw [← asc_unique (h5.asc V hV) h2 e]; exact hV⟩

/-- **C30** `max_num_of_committees=r` returns `min(r, number of winning committees)` different committees, all among those returned
without the bound. -/
theorem C30_max_num (w w' : World) (hw : w.Exact) (hw' : w'.Exact) (p : Profile) (hp : p.WF) (a b : Args) (r : ℤ)
    (ha : a.resolute = false) (ham : a.max = some r) (hb : b.resolute = false) (hbm : b.max = none)
    (ruleId alg alg' : String) (hal : prologue w.env ruleId p a = .ok alg) (hal' : prologue w'.env ruleId p b = .ok alg')
    {S : Finset ℕ → Prop} (hS : Elects w p a.k alg ruleId S) (hS' : Elects w' p b.k alg' ruleId S) :
    ∃ cs all, compute w ruleId p a.committeesize none a.kw = .ok cs ∧
      compute w' ruleId p b.committeesize none b.kw = .ok all ∧ (cs.length : ℤ) = min r all.length ∧ cs.Nodup ∧
      ∀ W ∈ cs, W ∈ all := by
  have h := C31_compute w hw p hp a ruleId alg hal hS
  have h' := C31_compute w' hw' p hp b ruleId alg' hal' hS'
  have hr := (validCall_of_prologue hal).max r ham
  unfold Answers at h h'
  rw [ha, ham] at h
  rw [hb, hbm] at h'
  obtain ⟨cs, h1, h2, h3, F, h7, h8⟩ := h
  obtain ⟨all, h4, h5, h6⟩ := h'
  have hinj : (all.map List.toFinset).Nodup := by
    refine List.Nodup.map_on ?_ h5.nodup
    intro V hV W hW e
    exact asc_unique (h5.asc V hV) (h5.asc W hW) e
  have hF : F = (all.map List.toFinset).toFinset := by
    ext A
    rw [h7, ← h6]
    simp
  have hFc : F.card = all.length := by
    rw [hF, List.toFinset_card_of_nodup hinj, List.length_map]
  refine ⟨cs, all, h1, h4, ?_, h2.nodup, fun W hW => ?_⟩
  · rw [h8, hFc]; omega
  · obtain ⟨V, hV, e⟩ := (h6 _).2 (h3 W hW)
    rw [← asc_unique (h5.asc V hV) (h2.asc W hW) e]; exact hV

/-- **C31** Default arguments: leaving out `resolute` is the same as passing the first value `Rule(rule_id).resolute_values[0]`, and
leaving out `algorithm` the same as passing `"fastest"` (`"standard"` for `trivial` and `rsd`, `"float-fractions"` for `eph`). -/
theorem C31_defaults (w : World) (ruleId : String) (ri : RuleInfo) (hri : ruleInfo w.env ruleId = .ok ri) (p : Profile) (k : ℤ)
    (result : Option (List (List ℕ))) (kw : Kwargs) :
    ∃ r, ri.resoluteValues.head? = some r ∧
      compute w ruleId p k result kw = compute w ruleId p k result ⟨some (kw.algorithm.getD
        (if ruleId = "trivial" ∨ ruleId = "rsd" then "standard" else if ruleId = "eph" then "float-fractions" else "fastest")),
        some (kw.resolute.getD r), kw.max⟩ := by
  have hd : ri.resoluteValues.head? = some (signatureDefaults ruleId).2 ∧ (signatureDefaults ruleId).1 =
      (if ruleId = "trivial" ∨ ruleId = "rsd" then "standard" else if ruleId = "eph" then "float-fractions" else "fastest") := by
    rcases (C19_rule_table w.env ruleId ri).1 hri with h | ⟨hg, rfl⟩ | ⟨pre, sid, hpre, rfl, -, rfl⟩
    · have : ∀ t ∈ ruleTable, t.2.2.head? = some (signatureDefaults t.1).2 ∧ (signatureDefaults t.1).1 =
          (if t.1 = "trivial" ∨ t.1 = "rsd" then "standard" else if t.1 = "eph" then "float-fractions" else "fastest") := by
        decide +kernel
      exact this _ h
    · have hne : ∀ t : String, t.toList.take 4 ≠ "geom".toList → (ruleId = t) = False := fun t ht => eq_false (fun e => ht (e ▸ hg))
      unfold signatureDefaults
      simp only [hne "trivial" (by decide), hne "rsd" (by decide), hne "eph" (by decide), if_false, hg, or_true, if_true, or_self]
      simp
    · have hx : (pre ++ sid).toList.take 3 = "seq".toList ∨ (pre ++ sid).toList.take 3 = "rev".toList := by
        rcases hpre with rfl | rfl <;> simp
      generalize pre ++ sid = rid at *
      have hn : ∀ t : String, t.toList.take 3 ≠ "seq".toList ∧ t.toList.take 3 ≠ "rev".toList → (rid = t) = False := by
        refine fun t h => eq_false fun e => ?_
        rw [← e] at h
        exact hx.elim h.1 h.2
      have hg : (rid.toList.take 4 = "geom".toList) = False := by
        refine eq_false fun h4 => ?_
        have := congrArg (List.take 3) h4
        rw [List.take_take, show min 3 4 = 3 from rfl] at this
        rcases hx with h | h <;> rw [h] at this <;> exact absurd this (by decide)
      unfold signatureDefaults
      simp only [hn "trivial" (by decide), hn "rsd" (by decide), hn "eph" (by decide), hn "av" (by decide), hn "sav" (by decide),
        hn "pav" (by decide), hn "slav" (by decide), hn "cc" (by decide), hn "lexcc" (by decide), hn "minimaxphragmen" (by decide),
        hn "leximaxphragmen" (by decide), hn "monroe" (by decide), hn "minimaxav" (by decide), hn "lexminimaxav" (by decide), hg, or_self, if_false]
      simp
  refine ⟨_, hd.1, ?_⟩
  unfold compute
  rw [hri, ← hd.2]
  have hpy : pyGet ri.resoluteValues 0 = .ok (signatureDefaults ruleId).2 := by
    cases hl : ri.resoluteValues with
    | nil => rw [hl] at hd; simp at hd
    | cons r' l =>
      rw [hl] at hd
      obtain rfl := Option.some.inj hd.1
      rfl
  simp only [bind, Except.bind, Option.getD_some, hpy]
  rfl

/-- **C31** `result`: the comparison with expected committees never changes the outcome.  The call returns what it returns without
`result`, provided this is confirmed by `result` (as sets of committees for `resolute=False`; contained in `result` for
`resolute=True`); otherwise it raises. -/
theorem C31_result (w : World) (ruleId : String) (p : Profile) (a : Args) (expected cs : List (List ℕ)) :
    compute w ruleId p a.committeesize (some expected) a.kw = .ok cs ↔
      compute w ruleId p a.committeesize none a.kw = .ok cs ∧
        (if a.resolute then ∃ W, cs = [W] ∧ W ∈ expected else ∀ W, W ∈ cs ↔ W ∈ expected) := by
  unfold compute
  cases hri : ruleInfo w.env ruleId with
  | error e => simp [bind, Except.bind]
  | ok ri =>
    have hpy : ∃ r, pyGet ri.resoluteValues 0 = .ok r := by
      have := C19_resolute_supported hri
      cases hl : ri.resoluteValues with
      | nil => rw [hl] at this; simp at this
      | cons r l => exact ⟨r, rfl⟩
    obtain ⟨r, hr⟩ := hpy
    cases hc : w.computeFct ruleId p a.committeesize a.kw with
    | error e => simp [bind, Except.bind]
    | ok ds =>
      simp only [bind, Except.bind, hr, show a.kw.resolute.getD r = a.resolute from rfl]
      cases hres : a.resolute with
      | true =>
        have := C12_verify_resolute ds expected
        cases hv : verifyExpected ds expected true with
        | error e =>
          rw [hv] at this
          simp only [reduceCtorEq, false_iff] at this
          constructor
          · intro h; simp at h
          · rintro ⟨h1, h2⟩
            obtain rfl := Except.ok.inj h1
            exact absurd h2 this
        | ok u =>
          rw [hv] at this
          have := this.1 rfl
          constructor
          · intro h
            obtain rfl := Except.ok.inj h
            exact ⟨rfl, this⟩
          · exact fun h => h.1
      | false =>
        have := C12_verify_irresolute ds expected
        cases hv : verifyExpected ds expected false with
        | error e =>
          rw [hv] at this
          simp only [reduceCtorEq, false_iff] at this
          constructor
          · intro h; simp at h
          · rintro ⟨h1, h2⟩
            obtain rfl := Except.ok.inj h1
            exact absurd h2 this
        | ok u =>
          rw [hv] at this
          have := this.1 rfl
          constructor
          · intro h
            obtain rfl := Except.ok.inj h
            exact ⟨rfl, this⟩
          · exact fun h => h.1

/-- **C12** `compute(result=...)` returns iff the computation without `result` returns and the result matches. -/
theorem C12_compute_result (w : World) (ruleId : String) (p : Profile) (a : Args) (expected cs : List (List ℕ)) :
    compute w ruleId p a.committeesize (some expected) a.kw = .ok cs ↔
      compute w ruleId p a.committeesize none a.kw = .ok cs ∧
        (if a.resolute then ∃ W, cs = [W] ∧ W ∈ expected else ∀ W, W ∈ cs ↔ W ∈ expected) :=
  C31_result w ruleId p a expected cs

theorem reject_thiele {w : World} {sid : String} {p : Profile} {a : Args} {e : Err} (h : prologue w.env sid p a = .error e) :
    w.thiele sid p a = .error e := by
  unfold World.thiele
  split <;> exact C19_compute_fails w.env p a e _ sid h

theorem reject_seq {env : Env} {sid : String} {s : ScoreId} (hs : env.scoreId sid = .ok s) {p : Profile} {a : Args} {e : Err}
    (h : prologue env ("seq" ++ sid) p a = .error e) : computeSeqThieleMethod env sid p a = .error e := by
  unfold computeSeqThieleMethod
  rw [hs, h]
  rfl

theorem reject_revseq {env : Env} {sid : String} {s : ScoreId} (hs : env.scoreId sid = .ok s) {ord : List ℕ → ℕ → List ℕ} {p : Profile}
    {a : Args} {e : Err} (h : prologue env ("revseq" ++ sid) p a = .error e) :
    computeRevseqThieleMethod env sid ord p a = .error e := by
  unfold computeRevseqThieleMethod
  rw [hs, h]
  rfl

theorem reject_equalShares {env : Env} {float : Except Err (List (List ℕ))} {c : Completion} {rid : String} (hc : c.ruleId = .ok rid)
    {p : Profile} {a : Args} {e : Err} (h : prologue env rid p a = .error e) :
    computeEqualShares env float c p a = .error e := by
  unfold computeEqualShares
  rw [hc]
  simp only [bind, Except.bind]
  rw [h]

/-- **C19** Whatever the rule: if the validation fails, `compute` raises the same error (and returns nothing). -/
theorem C19_compute_rejects (w : World) (ruleId : String) (p : Profile) (a : Args) (result : Option (List (List ℕ))) (e : Err)
    (h : prologue w.env ruleId p a = .error e) : compute w ruleId p a.committeesize result a.kw = .error e := by
  unfold compute
  cases hri : ruleInfo w.env ruleId with
  | error e' =>
    unfold prologue at h
    rw [hri] at h
    simp only [bind, Except.bind] at h ⊢
    rw [← Except.error.inj h]
  | ok ri =>
    have hrun : w.run ruleId p a = .error e := by
      rcases (C19_rule_table w.env ruleId ri).1 hri with ht | ⟨hg, rfl⟩ | ⟨pre, sid, hpre, rfl, hsid, rfl⟩
      · have hids : ∀ t ∈ ruleTable, t.1 ∈ ruleLiterals := by decide +kernel
        have hm := hids _ ht
        clear ht
        simp only [ruleLiterals, List.mem_cons, List.not_mem_nil, or_false] at hm
        rcases hm with h'|h'|h'|h'|h'|h'|h'|h'|h'|h'|h'|h'|h'|h'|h'|h'|h'|h'|h'|h'|h'|h'|h'|h'|h'|h'|h'|h'|h'|h'|h'
        · subst h'
          change computeSeparable w.env .av p a = _
          unfold computeSeparable
          rw [show prologue w.env (SepRule.av).id p a = _ from h]
          rfl
        · subst h'
          change computeSeparable w.env .sav p a = _
          unfold computeSeparable
          rw [show prologue w.env (SepRule.sav).id p a = _ from h]
          rfl
        · subst h'
          exact reject_thiele h
        · subst h'
          exact reject_thiele h
        · subst h'
          exact reject_thiele h
        · subst h'
          change computeLexcc w.env (lexccSolver w.solve p a) p a = _
          unfold computeLexcc
          rw [h]
          rfl
        · subst h'
          exact reject_seq (sid := "pav") rfl h
        · subst h'
          exact reject_revseq (sid := "pav") rfl h
        · subst h'
          exact reject_seq (sid := "slav") rfl h
        · subst h'
          exact reject_seq (sid := "cc") rfl h
        · subst h'
          change computeSeqphragmen w.env _ p a = _
          unfold computeSeqphragmen
          rw [h]
          rfl
        · subst h'
          change computeMinimaxphragmen w.env w.solve p a = _
          unfold computeMinimaxphragmen
          rw [h]
          rfl
        · subst h'
          change computeLeximaxphragmen w.env w.solve p a = _
          unfold computeLeximaxphragmen
          rw [h]
          rfl
        · subst h'
          change computeMaximinSupport w.env w.solve w.iter p a = _
          unfold computeMaximinSupport
          rw [h]
          rfl
        · subst h'
          change computeMonroe w.env w.matching w.minCost (monroeSolver w.solve w.matching w.minCost p a) p a = _
          unfold computeMonroe
          rw [h]
          rfl
        · subst h'
          change computeGreedyMonroe w.env w.matching w.minCost (w.iter p.candidates) p a = _
          unfold computeGreedyMonroe computeGreedyMonroeFull
          rw [h]
          rfl
        · subst h'
          change computeMinimaxav w.env (minimaxavSolver w.solve p a) p a = _
          unfold computeMinimaxav
          rw [h]
          rfl
        · subst h'
          change computeLexminimaxav w.env (lexminimaxavSolver w.solve p a) p a = _
          unfold computeLexminimaxav
          rw [h]
          rfl
        · subst h'
          exact reject_equalShares (c := .seqphragmen) rfl ((prologue_alias (r' := "equal-shares") rfl p a).symm.trans h)
        · subst h'
          exact reject_equalShares (c := .seqphragmen) rfl ((prologue_alias (r' := "equal-shares") rfl p a).symm.trans h)
        · subst h'
          exact reject_equalShares (c := .seqphragmen) rfl ((prologue_alias (r' := "equal-shares") rfl p a).symm.trans h)
        · subst h'
          exact reject_equalShares (c := .av) rfl h
        · subst h'
          exact reject_equalShares (c := .increment) rfl h
        · subst h'
          exact reject_equalShares (c := .none) rfl ((prologue_alias (r' := "equal-shares-without-completion") rfl p a).symm.trans h)
        · subst h'
          exact reject_equalShares (c := .none) rfl ((prologue_alias (r' := "equal-shares-without-completion") rfl p a).symm.trans h)
        · subst h'
          exact reject_equalShares (c := .none) rfl ((prologue_alias (r' := "equal-shares-without-completion") rfl p a).symm.trans h)
        · subst h'
          change computeEnestroem w.env _ p a = _
          unfold computeEnestroem
          rw [h]
          rfl
        · subst h'
          change computeConsensus w.env _ p a = _
          unfold computeConsensus
          rw [h]
          rfl
        · subst h'
          change computeTrivial w.env p a = _
          unfold computeTrivial
          rw [h]
          rfl
        · subst h'
          change computeRsd w.env w.shuffle w.sample p a = _
          unfold computeRsd
          rw [h]
          rfl
        · subst h'
          change computeEph w.env _ _ p a = _
          unfold computeEph
          rw [h]
          rfl
      · rw [run_geom w p a hg]
        exact reject_thiele h
      · obtain ⟨s, hs⟩ : ∃ s, w.env.scoreId sid = .ok s := by
          rcases hsid with rfl | rfl | rfl | rfl | ⟨h4, b, hb⟩
          · exact ⟨_, rfl⟩
          · exact ⟨_, rfl⟩
          · exact ⟨_, rfl⟩
          · exact ⟨_, rfl⟩
          · exact ⟨.geom b, scoreId_geom h4 hb⟩
        rcases hpre with rfl | rfl
        · rw [run_seq w p a hs]; exact reject_seq hs h
        · rw [run_revseq w p a hs]; exact reject_revseq hs h
    simp only [bind, Except.bind, show w.computeFct ruleId p a.committeesize a.kw = w.run ruleId p a from rfl, hrun]

/-- **C19** Conversely a call of `compute` that returns passed the validation. -/
theorem C19_compute_ok_valid (w : World) (ruleId : String) (p : Profile) (a : Args) (result : Option (List (List ℕ))) (cs : List (List ℕ))
    (h : compute w ruleId p a.committeesize result a.kw = .ok cs) :
    (∃ alg, prologue w.env ruleId p a = .ok alg) ∧ ValidCall p a := by
  cases hpr : prologue w.env ruleId p a with
  | error e =>
    rw [C19_compute_rejects w ruleId p a result e hpr] at h
    simp at h
  | ok alg => exact ⟨⟨alg, rfl⟩, validCall_of_prologue hpr⟩

/-- **C19** (finding) The code means to reject `seqav` and `revseqav` (abcrules.py:320-321 compares the wrong variable with `"av"`), but
they are accepted. -/
theorem C19_seqav_accepted (env : Env) :
    ruleInfo env "seqav" = .ok ⟨["standard"], [true, false]⟩ ∧ ruleInfo env "revseqav" = .ok ⟨["standard"], [true, false]⟩ :=
  ⟨rfl, rfl⟩

/-- **C31** If fewer than `committeesize` candidates are approved, minimax-Phragmén and leximax-Phragmén return valid committees
too, whatever the weights and the solver (but `max_num_of_committees` is ignored, see `C67_few_ignores_max`). -/
theorem C31_few (w : World) (p : Profile) (hp : p.WF) (a : Args) (ruleId alg : String)
    (hid : ruleId = "minimaxphragmen" ∨ ruleId = "leximaxphragmen") (hal : prologue w.env ruleId p a = .ok alg)
    (hfew : (approvedSet p).card < a.k) :
    ∃ cs, compute w ruleId p a.committeesize none a.kw = .ok cs ∧ cs ≠ [] ∧ (cs.map List.toFinset).Nodup ∧
      (∀ W ∈ cs, (∀ c ∈ W, c < p.numCand) ∧ W.Nodup ∧ W.length = a.k) ∧ (a.resolute = true → cs.length = 1) := by
  have hv := validCall_of_prologue hal
  rw [compute_none hal]
  obtain ⟨A, hA, hsub⟩ : ∃ A, IsCommittee p a.k A ∧ approvedSet p ⊆ A := by
    obtain ⟨A, h1, h2, h3⟩ := Finset.exists_subsuperset_card_eq (s := approvedSet p) (t := Finset.range p.numCand) (n := a.k)
      (approvedSet_lt hp) hfew.le (by simpa using hv.le)
    exact ⟨A, ⟨h2, h3⟩, h1⟩
  have fin : ∀ cs : List (List ℕ), (∀ W ∈ cs, W.Nodup ∧ IsCommittee p a.k W.toFinset) → (cs.map List.toFinset).Nodup →
      (a.resolute = true → cs.length = 1) → (a.resolute = false → ∃ W ∈ cs, W.toFinset = A) →
      cs ≠ [] ∧ (cs.map List.toFinset).Nodup ∧
      (∀ W ∈ cs, (∀ c ∈ W, c < p.numCand) ∧ W.Nodup ∧ W.length = a.k) ∧ (a.resolute = true → cs.length = 1) := by
    intro cs h1 h2 h3 h4
    refine ⟨?_, h2, fun W hW => ⟨fun c hc => ?_, (h1 W hW).1, ?_⟩, h3⟩
    · rintro rfl
      cases hr : a.resolute with
      | true => simpa using h3 hr
      | false => simpa using h4 hr
    · exact Finset.mem_range.1 ((h1 W hW).2.1 (List.mem_toFinset.2 hc))
    · rw [← List.toFinset_card_of_nodup (h1 W hW).1]; exact (h1 W hW).2.2
  rcases hid with rfl | rfl
  · obtain ⟨cs, h1, h2, h3, h4, h5⟩ := C67_compute_minimaxphragmen_few w.env w.solve p hp a alg hal hfew
    refine ⟨cs, h1, fin cs (fun W hW => ⟨(h2 W hW).1, (h2 W hW).2.1.1⟩) h3 h4 (fun hr => (h5 hr A).1 ?_)⟩
    refine ⟨⟨hA, Or.inr hsub⟩, fun B t hB ⟨y, hy, _⟩ => ?_⟩
    have := Finset.card_le_card hy.subset
    rw [hB.2] at this
    omega
  · obtain ⟨cs, h1, h2, h3, h4, h5⟩ := C70_compute_leximaxphragmen_few w.env w.solve p hp a alg hal hfew
    exact ⟨cs, h1, fin cs (fun W hW => ⟨(h2 W hW).1, (h2 W hW).2.1⟩) h3 h4 (fun hr => (h5 hr A).1 ⟨hA, hsub⟩)⟩

/-- There is a world as required by the theorems (so they are not vacuous). -/
theorem exists_ascending_world (env : Env) : ∃ w : World, w.env = env ∧ w.Exact ∧ ∀ l, w.iter l = l := by
  obtain ⟨solve, h1⟩ := exists_exactSolver
  obtain ⟨matching, h2⟩ := exists_exactMatching
  obtain ⟨minCost, h3⟩ := exists_exactMinCost
  refine ⟨⟨env, fun _ => solve, matching, minCost, id, fun W c => sortNat (W.erase c), id, fun l n => l.take n, fun _ _ _ => .ok []⟩, rfl,
    ⟨fun _ => h1, h2, h3, fun l => List.Perm.refl _, fun W c _ _ => sortNat_perm _, fun W c W' c' _ _ _ _ h => sortNat_eq_of_perm h,
    fun l => List.Perm.refl _, ?_⟩, fun _ => rfl⟩
  intro l n hl hn
  refine ⟨by simp [hn], hl.sublist (List.take_sublist n l), fun x hx => List.mem_of_mem_take hx⟩

theorem exists_exact_world (env : Env) : ∃ w : World, w.env = env ∧ w.Exact := by
  obtain ⟨w, h1, h2, -⟩ := exists_ascending_world env
  exact ⟨w, h1, h2⟩

example (w : World) (hw : w.env = exampleEnv) :
    prologue w.env "pav" exampleProfile { committeesize := 2, resolute := false, max := some 1 } = .ok "branch-and-bound" ∧
    Elects w exampleProfile 2 "branch-and-bound" "pav" (ThieleOpt (marginalFct .pav) exampleProfile 2) :=
  ⟨by rw [hw]; decide +kernel, .thiele rfl (Or.inl rfl) (by simp)⟩

example (w : World) (hw : w.env = exampleEnv) :
    prologue w.env "rule-x" exampleProfile { committeesize := 2, algorithm := "standard-fractions", resolute := true }
      = .ok "standard-fractions" ∧
    Elects w exampleProfile 2 "standard-fractions" "rule-x" (MESWinner exampleProfile 2 .seqphragmen (2 / total exampleProfile)) :=
  ⟨by rw [hw]; decide +kernel,
    .equalShares (by simp) (approversAtLeastOne_of_weights (by decide +kernel)) (Or.inl rfl)⟩

end Abc
