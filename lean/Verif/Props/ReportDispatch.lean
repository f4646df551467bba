import Verif.Spec.ReportDispatch
import Verif.Lemmas.ReportDispatch
import Verif.Props.Report
import Verif.Props.ReportSeparable
import Verif.Props.ReportPhragmen
import Verif.Props.ReportShares
import Verif.Props.ReportMonroe
import Verif.Props.ReportOptimal
import Verif.Props.ReportMaximin
import Verif.Props.Output

/-!
# C92: what every rule prints at verbosity INFO
-/

namespace Abc
open Spec

/-! ## Messages of level DETAILS -/

theorem visibleAt_append (v : ℤ) (l m : List Msg) : visibleAt v (l ++ m) = visibleAt v l ++ visibleAt v m := List.filter_append _ _

theorem visibleAt_details {l : List Msg} (h : ∀ m ∈ l, m.level = .details) : visibleAt 20 l = [] := by
  unfold visibleAt
  rw [List.filter_eq_nil_iff]
  intro m hm
  rw [h m hm]
  decide

theorem visibleAt_info {l : List Msg} (h : ∀ m ∈ l, m.level = .info) : visibleAt 20 l = l := by
  unfold visibleAt
  rw [List.filter_eq_self]
  intro m hm
  rw [h m hm]
  decide

theorem visibleAt_cons_details (x y : Name) (l : List Msg) : visibleAt 20 (detailsMsg x y :: l) = visibleAt 20 l := by
  rw [← List.singleton_append, visibleAt_append, visibleAt_details (by simp [detailsMsg]), List.nil_append]

theorem visibleAt_cons_info {m : Msg} (h : m.level = .info) (l : List Msg) : visibleAt 20 (m :: l) = m :: visibleAt 20 l := by
  rw [← List.singleton_append, visibleAt_append, visibleAt_info (by simpa using h), List.singleton_append]

theorem visibleAt_flatMap {α : Type} (l : List α) (f : α → List Msg) (h : ∀ x m, m ∈ f x → m.level = .details) :
    visibleAt 20 (l.flatMap f) = [] :=
  visibleAt_details fun m hm => by
    obtain ⟨x, _, hx⟩ := List.mem_flatMap.1 hm
    exact h x m hx

theorem visibleAt_map {α : Type} (l : List α) (f : α → Msg) (h : ∀ x, (f x).level = .details) : visibleAt 20 (l.map f) = [] :=
  visibleAt_details fun m hm => by
    obtain ⟨x, _, rfl⟩ := List.mem_map.1 hm
    exact h x

theorem lines_details {a b c : List Msg} {q : Prop} [Decidable q] (ha : ∀ m ∈ a, m.level = .details) (hb : ∀ m ∈ b, m.level = .details)
    (hc : ∀ m ∈ c, m.level = .details) : ∀ m ∈ a ++ (if q then b else []) ++ c, m.level = .details := by
  intro m hm
  rcases List.mem_append.1 hm with hm | hm
  · rcases List.mem_append.1 hm with hm | hm
    · exact ha m hm
    · split at hm
      · exact hb m hm
      · simp at hm
  · exact hc m hm

theorem added_details (num : ℚ → Name) (p : Profile) (r : Round) : ∀ m ∈ Round.added num p r, m.level = .details :=
  lines_details (by simp [detailsMsg]) (by simp [detailsMsg]) (by simp [detailsMsg])

theorem removed_details (num : ℚ → Name) (p : Profile) (r : Round) : ∀ m ∈ Round.removed num p r, m.level = .details :=
  lines_details (by simp [detailsMsg]) (by simp [detailsMsg]) (by simp [detailsMsg])

theorem loadRound_details (num : ℚ → Name) (p : Profile) (t : Name) (r : LoadRound) : ∀ m ∈ LoadRound.lines num p t r, m.level = .details :=
  lines_details (by simp [detailsMsg]) (by simp [detailsMsg]) (by simp [detailsMsg])

theorem purchase_details (num : ℚ → Name) (p : Profile) (r : Purchase) : ∀ m ∈ Purchase.lines num p r, m.level = .details :=
  lines_details (by simp [detailsMsg]) (by simp [detailsMsg]) (by simp [detailsMsg])

theorem support_details (num : ℚ → Name) (p : Profile) (r : SupportRound) : ∀ m ∈ SupportRound.lines num p r, m.level = .details :=
  lines_details (by simp [detailsMsg]) (by simp [detailsMsg]) (by simp [detailsMsg])

theorem visibleAt_heading (rid : String) (l : List Msg) : visibleAt 20 (heading rid :: l) = heading rid :: visibleAt 20 l :=
  visibleAt_cons_info rfl l

theorem visibleAt_winners (p : Profile) (cs : List (List ℕ)) (l : List Msg) :
    visibleAt 20 (winners p cs :: l) = winners p cs :: visibleAt 20 l := visibleAt_cons_info rfl l

theorem visibleAt_one (b : Bool) : visibleAt 20 (oneRemark b) = oneRemark b :=
  visibleAt_info (by cases b <;> simp [oneRemark, infoMsg])

theorem visibleAt_all (b : Bool) : visibleAt 20 (allRemark b) = allRemark b :=
  visibleAt_info (by cases b <;> simp [allRemark, infoMsg])

theorem visibleAt_standard (l : List Msg) : visibleAt 20 (standardAlgorithm :: l) = visibleAt 20 l := visibleAt_cons_details _ _ l
theorem visibleAt_line (alg : String) (l : List Msg) : visibleAt 20 (algorithmLine alg :: l) = visibleAt 20 l := visibleAt_cons_details _ _ l
theorem visibleAt_fractions (alg : String) (l : List Msg) : visibleAt 20 (fractionsAlgorithm alg :: l) = visibleAt 20 l :=
  visibleAt_cons_details _ _ l
theorem visibleAt_nil : visibleAt 20 [] = [] := rfl

theorem visibleAt_phase1 (num : ℚ → Name) (p : Profile) (r : ℚ) (W : List ℕ) : visibleAt 20 (phase1 num p r W) = [] := by
  unfold phase1
  rw [visibleAt_append, visibleAt_flatMap _ _ (purchase_details num p), visibleAt_details (by simp [detailsMsg])]
  rfl

theorem visibleAt_phase2 (num : ℚ → Name) (p : Profile) (k : ℕ) (W : List ℕ) (b : VoterMap p) (U : List ℕ) :
    visibleAt 20 (phase2 num p k W b U) = [] := by
  unfold phase2
  rw [visibleAt_append, visibleAt_flatMap _ _ (loadRound_details num p _), visibleAt_details (by simp [detailsMsg])]
  rfl

theorem remarkFor_one {rid : String} (h : rid ∈ optimisationRules) (b : Bool) : remarkFor rid b = oneRemark b := by
  unfold remarkFor
  rw [if_neg, if_pos (Or.inl h)]
  rintro rfl
  exact absurd h (by decide)

theorem remarkFor_geom {rid : String} (h : rid.toList.take 4 = "geom".toList) (b : Bool) : remarkFor rid b = oneRemark b := by
  unfold remarkFor
  rw [if_neg, if_pos (Or.inr ⟨rid.toList.drop 4, by rw [← h]; exact List.take_append_drop 4 _⟩)]
  rintro rfl
  exact absurd h (by decide)

theorem remarkFor_all {rid : String} (x : List Char) (h : rid.toList.take 3 = x) (hx : x = ['s', 'e', 'q'] ∨ x = ['r', 'e', 'v']) (b : Bool) :
    remarkFor rid b = allRemark b := by
  have hne : ∀ s : String, s.toList.take 3 ≠ ['s', 'e', 'q'] → s.toList.take 3 ≠ ['r', 'e', 'v'] → rid ≠ s := by
    rintro s h1 h2 rfl
    rcases hx with rfl | rfl
    · exact h1 h
    · exact h2 h
  unfold remarkFor
  rw [if_neg (hne _ (by decide) (by decide)), if_neg]
  rintro (h' | h')
  · have : ∀ s ∈ optimisationRules, s.toList.take 3 ≠ ['s', 'e', 'q'] ∧ s.toList.take 3 ≠ ['r', 'e', 'v'] := by decide
    exact hne _ (this _ h').1 (this _ h').2 rfl
  · obtain ⟨t, ht⟩ := h'
    rw [← ht] at h
    rcases hx with rfl | rfl
    · simp at h
    · simp at h

/-- What a call that works as it should prints at verbosity INFO. -/
structure Spec.PrintsInfo (p : Profile) (warned : List Msg → Prop) (ruleId : String) (resolute : Bool) (verbose : Except Err (List Msg × List (List ℕ)))
    (silent : Except Err (List (List ℕ))) : Prop where
  result : verbose.map Prod.snd = silent
  text : ∃ msgs cs order ws, verbose = .ok (msgs, cs) ∧ warned ws ∧ (order.map List.toFinset).Perm (cs.map List.toFinset) ∧
    (ruleId ∉ ["trivial", "rsd", "eph"] → order = cs) ∧
    visibleAt 20 msgs = ws ++ (heading ruleId :: remarkFor ruleId resolute ++ [winners p order])

theorem printsInfo_of {p : Profile} {warned : List Msg → Prop} (hwarn : warned []) {ruleId : String} {resolute : Bool} {verbose : Except Err (List Msg × List (List ℕ))}
    {silent : Except Err (List (List ℕ))} {msgs : List Msg} {cs : List (List ℕ)} (h1 : verbose = .ok (msgs, cs)) (h2 : silent = .ok cs)
    (h3 : visibleAt 20 msgs = heading ruleId :: remarkFor ruleId resolute ++ [winners p cs]) :
    PrintsInfo p warned ruleId resolute verbose silent :=
  ⟨by rw [h1, h2]; rfl, msgs, cs, cs, [], h1, hwarn, List.Perm.refl _, fun _ => rfl, h3⟩

theorem printsInfo_sorted {p : Profile} {warned : List Msg → Prop} (hwarn : warned []) {ruleId : String} {resolute : Bool} {verbose : Except Err (List Msg × List (List ℕ))}
    {silent : Except Err (List (List ℕ))} {msgs : List Msg} {cs order : List (List ℕ)} (hid : ruleId ∈ ["trivial", "rsd", "eph"])
    (h1 : verbose = .ok (msgs, cs)) (h2 : silent = .ok cs) (hs : sortedCommittees order = .ok cs)
    (h3 : visibleAt 20 msgs = heading ruleId :: remarkFor ruleId resolute ++ [winners p order]) :
    PrintsInfo p warned ruleId resolute verbose silent := by
  refine ⟨by rw [h1, h2]; rfl, msgs, cs, order, [], h1, hwarn, ?_, fun h => absurd hid h, h3⟩
  have hnd : ∀ W ∈ order, W.Nodup := by
    intro W hW
    by_contra hn
    unfold sortedCommittees at hs
    rw [mapM_mkSet_error hW hn] at hs
    cases hs
  rw [sortedCommittees_ok hnd] at hs
  rw [← Except.ok.inj hs]
  have h := (List.perm_insertionSort (fun a b => strLe (strKey a) (strKey b)) (order.map sortNat)).map List.toFinset
  refine List.Perm.trans ?_ h.symm
  rw [List.map_map]
  refine List.Perm.of_eq (List.map_congr_left fun W _ => ?_)
  exact (List.toFinset_eq_of_perm _ _ (sortNat_perm W)).symm

/-- The messages that remain above verbosity DETAILS, resp. INFO. -/
theorem visibleAt_between {v : ℤ} (h1 : 15 < v) (h2 : v ≤ 20) (l : List Msg) : visibleAt v l = visibleAt 20 l := by
  unfold visibleAt
  refine List.filter_congr fun m _ => ?_
  cases m.level <;> rw [decide_eq_decide] <;> simp only [Level.value] <;> omega

theorem prologue_resolute_true {env : Env} {ruleId : String} {p : Profile} {a : Args} {alg : String} (hal : prologue env ruleId p a = .ok alg)
    {l : List String} (h : ruleInfo env ruleId = .ok ⟨l, [true]⟩) : a.resolute = true := by
  obtain ⟨ri, h', -, -, -, -, -, hres, -⟩ := (C19_prologue_ok_iff _ _ p a alg).1 hal
  rw [h] at h'
  obtain rfl := Except.ok.inj h'
  simpa using hres

theorem mesPrintsInfo {warned : List Msg → Prop} (hwarn : warned []) (env : Env) (num : ℚ → Name) (float : Except Err (List (List ℕ) × MesDetails)) (float' : Except Err (List (List ℕ)))
    (p : Profile) (hp : p.WF) (hn : Named p) (completion : Completion) (hc : CompletionOk p completion) (a : Args) (rid alg : String)
    (hid : completion.ruleId = .ok rid) (hal : prologue env rid p a = .ok alg) (hex : ExactAlg env alg) (ruleId : String)
    (hh : heading ruleId = heading rid) (hrem : ∀ b, remarkFor ruleId b = allRemark b) :
    PrintsInfo p warned ruleId a.resolute (computeEqualSharesVerbose env num float completion p a) (computeEqualShares env float' completion p a) := by
  have hres := C88_mes_result env num float float' p hp hn completion (Or.inl hc) a rid alg hid hal hex
  cases hr : a.resolute with
  | true =>
    obtain ⟨X, W, b, ending, h1, h2, h3, h4⟩ := C88_mes_protocol env num float p hp hn completion hc a rid alg hid hal hex hr
    rw [h3] at hres
    refine printsInfo_of hwarn h3 hres.symm ?_
    have hend : visibleAt 20 ending = [] := by
      rcases h4 with ⟨_, _, rfl⟩ | ⟨_, _, _, _, rfl⟩ | ⟨_, _, _, U, x, _, _, _, rfl⟩
      · rfl
      · rfl
      · exact visibleAt_phase2 _ _ _ _ _ _
    simp only [visibleAt_append, visibleAt_heading, visibleAt_fractions, visibleAt_phase1, hend, visibleAt_winners, visibleAt_nil, hh, hrem]
    rfl
  | false =>
    obtain ⟨cs, h1, h2⟩ := C88_mes_irresolute env num float float' p hp hn completion hc a rid alg hid hal hex hr
    refine printsInfo_of hwarn h2 h1 ?_
    rw [visibleAt_heading, visibleAt_cons_info rfl, visibleAt_cons_info rfl, visibleAt_fractions, visibleAt_winners, visibleAt_nil, hh, hrem]
    rfl

theorem maximinPrintsInfo {warned : List Msg → Prop} (hwarn : warned []) (env : Env) (num : ℚ → Name) (solve : String → Program → SolveResult) (iter : List ℕ → List ℕ)
    (hit : ∀ l, (iter l).Perm l) (p : Profile) (hp : p.WF) (hn : Named p) (a : Args) (alg : String)
    (hal : prologue env "maximin-support" p a = .ok alg) (hs : ExactSolver (solve alg)) :
    PrintsInfo p warned "maximin-support" a.resolute (computeMaximinSupportVerbose env num solve iter p a)
      (computeMaximinSupport env solve iter p a) := by
  cases hr : a.resolute with
  | true =>
    obtain ⟨rs, W, _, _, h1, h2⟩ := C91_maximin_protocol env num solve iter hit p hp hn a alg hal hs hr
    refine printsInfo_of hwarn h1 h2 ?_
    simp only [visibleAt_append, visibleAt_heading, visibleAt_line, visibleAt_cons_details, visibleAt_winners, visibleAt_nil,
      visibleAt_flatMap _ _ (support_details num p)]
    rfl
  | false =>
    obtain ⟨cs, h1, h2⟩ := C91_maximin_irresolute env num solve iter hit p hp hn a alg hal hs hr
    refine printsInfo_of hwarn h2 h1 ?_
    simp only [visibleAt_append, visibleAt_heading, visibleAt_line, visibleAt_winners, visibleAt_nil, visibleAt_all]
    rfl

theorem seqVerbose_above (env : Env) (num : ℚ → Name) (sid : String) (p : Profile) (a : Args) {u v : ℤ} (hu : 15 < u) (hv : 15 < v) :
    computeSeqThieleVerbose env num u sid p a = computeSeqThieleVerbose env num v sid p a := by
  have : ∀ f alg p res cs infos, seqThieleReport num u f sid alg p res cs infos = seqThieleReport num v f sid alg p res cs infos := by
    intro f alg p res cs infos
    unfold seqThieleReport
    have h1 : ¬ u ≤ Level.details.value := not_le.2 hu
    have h2 : ¬ v ≤ Level.details.value := not_le.2 hv
    simp only [if_neg h1, if_neg h2]
  unfold computeSeqThieleVerbose
  simp only [this]

theorem warnedFor_none {env : Env} {num : ℚ → Name} {ruleId alg : String} {k : ℕ} (h : solverTitle alg = none) :
    WarnedFor env num ruleId alg k [] := by
  by_cases hs : ∃ s, env.scoreId ruleId = .ok s
  · obtain ⟨s, hs⟩ := hs
    exact Or.inl ⟨s, hs, Or.inr ⟨Or.inl h, rfl⟩⟩
  · exact Or.inr ⟨fun s hs' => hs ⟨s, hs'⟩, rfl⟩

theorem warnedFor_error {env : Env} {num : ℚ → Name} {ruleId alg : String} {k : ℕ} {e : Err} (h : env.scoreId ruleId = .error e) :
    WarnedFor env num ruleId alg k [] := Or.inr ⟨fun s hs => (by rw [h] at hs; cases hs), rfl⟩

theorem warnedFor_level {env : Env} {num : ℚ → Name} {ruleId alg : String} {k : ℕ} {ws : List Msg} (h : WarnedFor env num ruleId alg k ws) :
    ∀ m ∈ ws, m.level = .warning := by
  rcases h with ⟨s, _, h⟩ | ⟨_, rfl⟩
  · exact warned_level h
  · simp

theorem visibleAt_warnings {ws : List Msg} (h : ∀ m ∈ ws, m.level = .warning) {v : ℤ} (hv : v ≤ 30) : visibleAt v ws = ws := by
  unfold visibleAt
  rw [List.filter_eq_self]
  intro m hm
  rw [h m hm]
  exact decide_eq_true hv

/-- **C92** Whatever rule is computed, with valid parameters: printing raises no exception and does not change the result, and at
verbosity INFO exactly three things are printed: the heading with the name of the rule, the remark on `resolute`, and the winning
committees (in the order in which they are returned, except for the trivial rule, RSD and EPH); before them the warning that the scores
are too small for the ILP solver, if they are. -/
theorem C92_prints (w : World) (hw : w.Exact) (t : Texts) (p : Profile) (hp : p.WF)
    (hn : Named p) (a : Args) (ruleId alg : String)
    (hal : prologue w.env ruleId p a = .ok alg) {S : Finset ℕ → Prop} (hS : Elects w p a.k alg ruleId S) :
    PrintsInfo p (WarnedFor w.env t.num ruleId alg a.k) ruleId a.resolute (w.runVerbose t ruleId p a) (compute w ruleId p a.committeesize none a.kw) := by
  have hv := validCall_of_prologue hal
  obtain ⟨cs, hcs, hne, -, hmem, -⟩ := C31_valid w hw p hp a ruleId alg hal hS
  have hlt : ∀ W ∈ cs, ∀ c ∈ W, c < p.numCand := fun W hW => (hmem W hW).1
  rw [compute_none hal] at hcs ⊢
  cases hS with
  | av =>
    have hwarn : WarnedFor w.env t.num "av" alg a.k [] := by rw [show alg = "standard" from Except.ok.inj (hal.symm.trans (standard_of hal rfl))]; exact warnedFor_none rfl
    obtain ⟨i, ds, _, h2, h3⟩ := C86_report w.env t.num .av p hp hn a (standard_of hal rfl)
    refine printsInfo_of hwarn h3 h2 ?_
    rw [remarkFor_one (by decide)]
    unfold sepText
    simp only [List.cons_append, List.append_assoc, visibleAt_append, visibleAt_heading, visibleAt_one, visibleAt_standard, visibleAt_winners,
      visibleAt_cons_details, visibleAt_nil, List.nil_append]
    split <;> split <;> rfl
  | sav =>
    have hwarn : WarnedFor w.env t.num "sav" alg a.k [] := warnedFor_error (e := .unknownScoreFunction) rfl
    obtain ⟨i, ds, _, h2, h3⟩ := C86_report w.env t.num .sav p hp hn a (standard_of hal rfl)
    refine printsInfo_of hwarn h3 h2 ?_
    rw [remarkFor_one (by decide)]
    unfold sepText
    simp only [List.cons_append, List.append_assoc, visibleAt_append, visibleAt_heading, visibleAt_one, visibleAt_standard, visibleAt_winners,
      visibleAt_cons_details, visibleAt_nil, List.nil_append]
    split <;> split <;> rfl
  | @thiele _ s hs hok hcp =>
    have hrem : remarkFor ruleId a.resolute = oneRemark a.resolute ∧ w.run ruleId p a = w.thiele ruleId p a ∧
        w.runVerbose t ruleId p a = w.thieleVerbose t ruleId p a := by
      rcases scoreId_cases hs with ⟨rfl, -⟩ | ⟨rfl, -⟩ | ⟨rfl, -⟩ | ⟨rfl, rfl⟩ | ⟨hg, -⟩ | ⟨-, l, rfl⟩
      · exact ⟨remarkFor_one (by decide) _, rfl, rfl⟩
      · exact ⟨remarkFor_one (by decide) _, rfl, rfl⟩
      · exact ⟨remarkFor_one (by decide) _, rfl, rfl⟩
      · simp at hok
      · exact ⟨remarkFor_geom hg _, run_geom w p a hg, runVerbose_geom w t p a hg⟩
      · simp at hok
    obtain ⟨hrem, h1, h2⟩ := hrem
    rw [h1] at hcs ⊢
    rw [h2]
    unfold World.thiele at hcs ⊢
    unfold World.thieleVerbose
    rw [hs] at hcs ⊢
    dsimp only at hcs ⊢
    obtain ⟨c, hget⟩ : ∃ c, pyGet cs 0 = .ok c := by
      cases cs with
      | nil => exact absurd rfl hne
      | cons c _ => exact ⟨c, rfl⟩
    have hpos : 0 < marginalFct s 1 := by
      rcases hok with rfl | rfl | rfl | ⟨b, rfl, -⟩ <;> norm_num [marginalFct]
    obtain ⟨ws, hws, hwarn⟩ := thieleWarnings_ok t.num ruleId alg (marginalFct s) a.k hv.pos hpos (prologue_title hal)
    have e : computeThieleVerbose w.env t.num ruleId (thieleSolver w.solve ruleId (marginalFct s) p a) p a = .ok
        (ws ++ (heading ruleId :: oneRemark a.resolute ++ [algorithmLine alg, detailsMsg ("Optimal ".toList ++ upper ruleId ++ "-score: ".toList ++
          t.num (thieleScore (marginalFct s) p c) ++ "\n".toList), winners p cs]), cs) := by
      unfold computeThieleVerbose thieleReport
      simp only [bind, Except.bind, hal, hs, hws, hcs, headMsgs_ok, algorithmMsg_titles (prologue_title hal), hget, committeesMsg_ok hn hlt hne,
        remark_one]
    refine ⟨by rw [e, hcs]; rfl, _, cs, cs, ws, e, Or.inl ⟨s, hs, hwarn⟩, List.Perm.refl _, fun _ => rfl, ?_⟩
    rw [hrem, visibleAt_append, visibleAt_warnings (warned_level hwarn) (by norm_num)]
    simp only [List.cons_append, visibleAt_append, visibleAt_heading, visibleAt_one, visibleAt_line, visibleAt_winners,
      visibleAt_cons_details, visibleAt_nil]
  | lexcc hg =>
    have hwarn : WarnedFor w.env t.num "lexcc" alg a.k [] := warnedFor_error (e := .unknownScoreFunction) rfl
    obtain ⟨ds, vec, h1, _, h3⟩ := C90_lexcc_report w.env t.num w.solve p hp hn a alg hal (hw.solve alg) hg
    refine printsInfo_of hwarn h3 h1 ?_
    rw [remarkFor_one (by decide)]
    simp only [List.cons_append, visibleAt_append, visibleAt_heading, visibleAt_one, visibleAt_line, visibleAt_winners,
      visibleAt_cons_details, visibleAt_nil]
    rw [visibleAt_map _ _ (fun _ => rfl)]
    simp only [List.append_nil]
  | @seqThiele sid s hs hf =>
    have hst : prologue w.env ("seq" ++ sid) p a = .ok "standard" := by
      obtain ⟨ri, h, -⟩ := (C19_prologue_ok_iff _ _ p a alg).1 hal
      exact standard_of hal ((ruleInfo_seq (Or.inl rfl) hs h) ▸ h)
    have hwarn : WarnedFor w.env t.num ("seq" ++ sid) alg a.k [] := by
      rw [Except.ok.inj (hal.symm.trans hst)]
      exact warnedFor_none rfl
    rw [run_seq w p _ hs] at hcs ⊢
    rw [runVerbose_seq w t p a hs]
    have hf' : ∀ s', w.env.scoreId sid = .ok s' → ∀ i, 0 ≤ marginalFct s' i := by
      intro s' hs'
      rw [hs] at hs'
      obtain rfl := Except.ok.inj hs'
      exact hf
    have hrem : remarkFor ("seq" ++ sid) a.resolute = allRemark a.resolute :=
      remarkFor_all _ (by simp) (Or.inl rfl) _
    have key : ∀ v ≤ 15, ∃ m, computeSeqThieleVerbose w.env t.num v sid p a = .ok (m, cs) ∧
        visibleAt 20 m = heading ("seq" ++ sid) :: allRemark a.resolute ++ [winners p cs] := by
      intro v hv15
      cases hr : a.resolute with
      | true =>
        obtain ⟨W, _, _, h3⟩ := C85_seq_protocol w.env t.num v hv15 sid s p hp hn a hst hs hf hr
        have h4 := (C85_seq_result w.env t.num v sid p hp hn a hf').1
        rw [h3, hcs] at h4
        have h5 : [sortNat W] = cs := Except.ok.inj h4
        rw [h5] at h3
        refine ⟨_, h3, ?_⟩
        unfold scoreLines
        simp only [List.cons_append, List.append_assoc, visibleAt_append, visibleAt_heading, visibleAt_standard, visibleAt_winners,
          visibleAt_cons_details, visibleAt_nil, visibleAt_flatMap _ _ (added_details t.num p), List.nil_append]
        rw [visibleAt_map _ _ (fun _ => rfl)]
        rfl
      | false =>
        obtain ⟨ds, h3, h4⟩ := C85_seq_irresolute w.env t.num v hv15 sid s p hp hn a hst hs hf hr
        rw [hcs] at h3
        obtain rfl := Except.ok.inj h3
        refine ⟨_, h4, ?_⟩
        unfold scoreLines
        simp only [List.cons_append, List.append_assoc, visibleAt_append, visibleAt_heading, visibleAt_standard, visibleAt_winners,
          visibleAt_cons_details, visibleAt_nil, List.nil_append]
        rw [visibleAt_cons_info rfl, visibleAt_cons_info rfl, visibleAt_standard, visibleAt_winners, visibleAt_cons_details, visibleAt_append,
          visibleAt_map _ _ (fun _ => rfl), visibleAt_cons_details]
        rfl
    rcases le_or_gt t.verbosity 15 with hle | hgt
    · obtain ⟨m, h1, h2⟩ := key _ hle
      exact printsInfo_of hwarn h1 hcs (by rw [h2, hrem])
    · -- the report does not depend on how far the verbosity is above DETAILS
      rw [seqVerbose_above w.env t.num sid p a hgt (by norm_num : (15 : ℤ) < 20)]
      obtain ⟨hres, hvis⟩ := C85_seq_result w.env t.num 20 sid p hp hn a hf'
      obtain ⟨m10, h10, hv10⟩ := key 10 (by norm_num)
      cases hvb : computeSeqThieleVerbose w.env t.num 20 sid p a with
      | error e => rw [hvb, hcs] at hres; cases hres
      | ok r =>
        rw [hvb, hcs] at hres
        have hr2 : r.2 = cs := Except.ok.inj hres
        rw [hvb, h10] at hvis
        have hvis' : visibleAt 20 r.1 = visibleAt 20 m10 := Except.ok.inj hvis
        obtain ⟨r1, r2⟩ := r
        dsimp only at hr2 hvis'
        subst hr2
        exact printsInfo_of hwarn rfl hcs (by rw [hvis', hv10, hrem])
  | @revseqThiele sid s hs =>
    have hst : prologue w.env ("revseq" ++ sid) p a = .ok "standard" := by
      obtain ⟨ri, h, -⟩ := (C19_prologue_ok_iff _ _ p a alg).1 hal
      exact standard_of hal ((ruleInfo_seq (Or.inr rfl) hs h) ▸ h)
    have hwarn : WarnedFor w.env t.num ("revseq" ++ sid) alg a.k [] := by
      rw [Except.ok.inj (hal.symm.trans hst)]
      exact warnedFor_none rfl
    rw [run_revseq w p _ hs] at hcs ⊢
    rw [runVerbose_revseq w t p a hs]
    have hrem : remarkFor ("revseq" ++ sid) a.resolute = allRemark a.resolute :=
      remarkFor_all _ (by simp) (Or.inr rfl) _
    obtain ⟨ds, U, _, _, _, h4, h5⟩ := revVerbose_ok w.env t.num sid s w.revOrd hw.listing p hp hn a hst hs
    refine printsInfo_of hwarn h5 h4 ?_
    rw [hrem, remark_all]
    unfold revScores
    simp only [List.cons_append, List.append_assoc, visibleAt_append, visibleAt_heading, visibleAt_standard, visibleAt_winners,
      visibleAt_cons_details, visibleAt_nil, visibleAt_all]
    split
    · rw [visibleAt_cons_details, visibleAt_flatMap _ _ (removed_details t.num p)]; rfl
    · rfl
  | seqphragmen h1 h2 =>
    have hwarn : WarnedFor w.env t.num "seqphragmen" alg a.k [] := warnedFor_error (e := .unknownScoreFunction) rfl
    cases hr : a.resolute with
    | true =>
      have hres := C87_phragmen_result w.env t.num t.phragmen (w.float "seqphragmen" p a) p hp hn h1 a alg hal h2
      obtain ⟨W, x, _, _, h3⟩ := C87_phragmen_protocol w.env t.num t.phragmen p hp hn h1 a alg hal h2 hr
      rw [h3] at hres
      refine printsInfo_of hwarn h3 hres.symm ?_
      rw [remarkFor_all _ rfl (Or.inl (by decide))]
      unfold loadLine
      simp only [List.cons_append, List.append_assoc, visibleAt_append, visibleAt_heading, visibleAt_fractions, visibleAt_winners,
        visibleAt_cons_details, visibleAt_nil, visibleAt_flatMap _ _ (loadRound_details t.num p _), List.nil_append]
      rfl
    | false =>
      obtain ⟨ds, h3, pairs, _, _, h4⟩ := C87_phragmen_irresolute w.env t.num t.phragmen (w.float "seqphragmen" p a) p hp hn h1 a alg hal h2 hr
      refine printsInfo_of hwarn h4 h3 ?_
      rw [remarkFor_all _ rfl (Or.inl (by decide))]
      rw [visibleAt_append, visibleAt_map _ _ (fun _ => rfl), visibleAt_heading, visibleAt_cons_info rfl, visibleAt_cons_info rfl,
        visibleAt_fractions, visibleAt_winners, visibleAt_cons_details]
      rfl
  | minimaxphragmen h1 h2 h3 =>
    have hwarn : WarnedFor w.env t.num "minimaxphragmen" alg a.k [] := warnedFor_error (e := .unknownScoreFunction) rfl
    refine printsInfo_of hwarn ((C90_plain_report w.env w.solve (w.float "" p a) p hn a alg cs hne hlt).1 hal hcs) hcs ?_
    rw [remarkFor_one (by decide)]
    simp only [List.cons_append, visibleAt_append, visibleAt_heading, visibleAt_one, visibleAt_line, visibleAt_winners, visibleAt_nil]
  | minimaxphragmenTol h1 h3 =>
    have hwarn : WarnedFor w.env t.num "minimaxphragmen" alg a.k [] := warnedFor_error (e := .unknownScoreFunction) rfl
    refine printsInfo_of hwarn ((C90_plain_report w.env w.solve (w.float "" p a) p hn a alg cs hne hlt).1 hal hcs) hcs ?_
    rw [remarkFor_one (by decide)]
    simp only [List.cons_append, visibleAt_append, visibleAt_heading, visibleAt_one, visibleAt_line, visibleAt_winners, visibleAt_nil]
  | leximaxphragmen h1 h3 =>
    have hwarn : WarnedFor w.env t.num "leximaxphragmen" alg a.k [] := warnedFor_error (e := .unknownScoreFunction) rfl
    refine printsInfo_of hwarn ((C90_plain_report w.env w.solve (w.float "" p a) p hn a alg cs hne hlt).2.1 hal false hcs) hcs ?_
    rw [remarkFor_one (by decide)]
    simp only [List.cons_append, visibleAt_append, visibleAt_heading, visibleAt_one, visibleAt_line, visibleAt_winners, visibleAt_nil,
      Bool.not_false, Bool.and_true]
  | maximinSupport h1 h2 =>
    have hwarn : WarnedFor w.env t.num "maximin-support" alg a.k [] := warnedFor_error (e := .unknownScoreFunction) rfl
    exact maximinPrintsInfo hwarn w.env t.num w.solve w.iter hw.iter p hp hn a alg hal (hw.solve alg)
  | maximinSupportTol =>
    have hwarn : WarnedFor w.env t.num "maximin-support" alg a.k [] := warnedFor_error (e := .unknownScoreFunction) rfl
    exact maximinPrintsInfo hwarn w.env t.num w.solve w.iter hw.iter p hp hn a alg hal (hw.solve alg)
  | monroe hu =>
    have hwarn : WarnedFor w.env t.num "monroe" alg a.k [] := warnedFor_error (e := .unknownScoreFunction) rfl
    obtain ⟨ds, m, h1, _, h3⟩ := C90_monroe_report w.env w.matching hw.matching w.minCost hw.minCost w.solve p hn a alg hal (hw.solve alg)
      (unitWeights_iff.2 hu)
    refine printsInfo_of hwarn h3 h1 ?_
    rw [remarkFor_one (by decide)]
    simp only [List.cons_append, visibleAt_append, visibleAt_heading, visibleAt_one, visibleAt_line, visibleAt_winners,
      visibleAt_cons_details, visibleAt_nil]
  | greedyMonroe hu =>
    have hwarn : WarnedFor w.env t.num "greedy-monroe" alg a.k [] := warnedFor_error (e := .unknownScoreFunction) rfl
    have hst := standard_of hal rfl
    have hres := C89_greedy_monroe_result w.env w.matching hw.matching w.minCost hw.minCost (w.iter p.candidates) p hn (hw.iter _) a hst
    obtain ⟨W, Ds, φ, m, _, _, _, _, _, _, _, h8⟩ := C89_greedy_monroe_report w.env w.matching hw.matching w.minCost hw.minCost
      (w.iter p.candidates) p hn (hw.iter _) a hst (unitWeights_iff.2 hu)
    rw [h8] at hres
    have hr := prologue_resolute_true hal rfl
    refine printsInfo_of hwarn h8 hres.symm ?_
    have hass : ∀ s m, visibleAt 20 (assignmentRemarks s m) = [] := fun s m => visibleAt_details (by
      unfold assignmentRemarks
      split <;> simp [detailsMsg])
    simp only [List.cons_append, List.append_assoc, visibleAt_append, visibleAt_heading, visibleAt_standard, visibleAt_winners,
      visibleAt_cons_details, visibleAt_nil, List.nil_append, hass]
    rw [hr]
    rfl
  | minimaxav =>
    have hwarn : WarnedFor w.env t.num "minimaxav" alg a.k [] := warnedFor_error (e := .unknownScoreFunction) rfl
    obtain ⟨ds, d, h1, _, _, h4⟩ := C90_minimaxav_report w.env w.solve p hp hn a alg hal (hw.solve alg)
    refine printsInfo_of hwarn h4 h1 ?_
    rw [remarkFor_one (by decide)]
    simp only [List.cons_append, visibleAt_append, visibleAt_heading, visibleAt_one, visibleAt_line, visibleAt_winners,
      visibleAt_cons_details, visibleAt_nil]
  | lexminimaxav hu =>
    have hwarn : WarnedFor w.env t.num "lexminimaxav" alg a.k [] := warnedFor_error (e := .unknownScoreFunction) rfl
    obtain ⟨ds, d, h1, _, _, h4⟩ := C90_lexminimaxav_report w.env w.solve p hp hn a alg hal (hw.solve alg) hu
    refine printsInfo_of hwarn h4 h1 ?_
    rw [remarkFor_one (by decide)]
    simp only [List.cons_append, visibleAt_append, visibleAt_heading, visibleAt_one, visibleAt_line, visibleAt_winners,
      visibleAt_cons_details, visibleAt_nil]
  | @equalShares _ hid h1 h2 =>
    have hwarn : WarnedFor w.env t.num ruleId alg a.k [] := by
      simp only [List.mem_cons, List.not_mem_nil, or_false] at hid
      rcases hid with rfl | rfl | rfl <;> exact warnedFor_error (e := .unknownScoreFunction) rfl
    have hal' : prologue w.env "equal-shares" p a = .ok alg := by
      rw [← hal]
      refine prologue_alias ?_ p a
      simp only [List.mem_cons, List.not_mem_nil, or_false] at hid
      rcases hid with rfl | rfl | rfl <;> rfl
    have hh : heading ruleId = heading "equal-shares" ∧ ∀ b, remarkFor ruleId b = allRemark b := by
      simp only [List.mem_cons, List.not_mem_nil, or_false] at hid
      rcases hid with rfl | rfl | rfl
      · exact ⟨rfl, fun b => by cases b <;> rfl⟩
      · exact ⟨rfl, fun b => by cases b <;> rfl⟩
      · exact ⟨rfl, fun b => by cases b <;> rfl⟩
    have := mesPrintsInfo hwarn w.env t.num t.shares (w.float ruleId p a) p hp hn .seqphragmen (Or.inr (Or.inl ⟨rfl, h1⟩)) a _ alg rfl hal' h2
      ruleId hh.1 hh.2
    simp only [List.mem_cons, List.not_mem_nil, or_false] at hid
    rcases hid with rfl | rfl | rfl <;> exact this
  | equalSharesAv h =>
    have hwarn : WarnedFor w.env t.num "equal-shares-with-av-completion" alg a.k [] := warnedFor_error (e := .unknownScoreFunction) rfl
    exact mesPrintsInfo hwarn w.env t.num t.shares (w.float _ p a) p hp hn .av (Or.inr (Or.inr rfl)) a _ alg rfl hal h _ rfl (fun b => by cases b <;> rfl)
  | equalSharesIncrement h1 h2 =>
    have hwarn : WarnedFor w.env t.num "equal-shares-with-increment-completion" alg a.k [] := warnedFor_error (e := .unknownScoreFunction) rfl
    have hr := prologue_resolute_true hal rfl
    obtain ⟨X, e1, ⟨_, e2⟩ | ⟨_, inc, _, _, _, e2⟩⟩ := C88_increment w.env t.num t.shares (w.float _ p a) p hp hn h1 a alg hal h2
    · refine printsInfo_of hwarn e2 e1 ?_
      rw [hr]
      simp only [visibleAt_heading, visibleAt_fractions, visibleAt_winners, visibleAt_cons_details, visibleAt_nil]
      rfl
    · refine printsInfo_of hwarn e2 e1 ?_
      rw [hr]
      simp only [visibleAt_heading, visibleAt_fractions, visibleAt_winners, visibleAt_cons_details, visibleAt_nil]
      rfl
  | @equalSharesNone _ hid h2 =>
    have hwarn : WarnedFor w.env t.num ruleId alg a.k [] := by
      simp only [List.mem_cons, List.not_mem_nil, or_false] at hid
      rcases hid with rfl | rfl | rfl <;> exact warnedFor_error (e := .unknownScoreFunction) rfl
    have hal' : prologue w.env "equal-shares-without-completion" p a = .ok alg := by
      rw [← hal]
      refine prologue_alias ?_ p a
      simp only [List.mem_cons, List.not_mem_nil, or_false] at hid
      rcases hid with rfl | rfl | rfl <;> rfl
    have hh : heading ruleId = heading "equal-shares-without-completion" ∧ ∀ b, remarkFor ruleId b = allRemark b := by
      simp only [List.mem_cons, List.not_mem_nil, or_false] at hid
      rcases hid with rfl | rfl | rfl
      · exact ⟨rfl, fun b => by cases b <;> rfl⟩
      · exact ⟨rfl, fun b => by cases b <;> rfl⟩
      · exact ⟨rfl, fun b => by cases b <;> rfl⟩
    have := mesPrintsInfo hwarn w.env t.num t.shares (w.float ruleId p a) p hp hn .none (Or.inl rfl) a _ alg rfl hal' h2 ruleId hh.1 hh.2
    simp only [List.mem_cons, List.not_mem_nil, or_false] at hid
    rcases hid with rfl | rfl | rfl <;> exact this
  | enestroem h =>
    have hwarn : WarnedFor w.env t.num "phragmen-enestroem" alg a.k [] := warnedFor_error (e := .unknownScoreFunction) rfl
    refine printsInfo_of hwarn ((C90_plain_report w.env w.solve (w.float "phragmen-enestroem" p a) p hn a alg cs hne hlt).2.2.1 hal hcs) hcs ?_
    simp only [List.cons_append, visibleAt_append, visibleAt_heading, visibleAt_all, visibleAt_line, visibleAt_winners, visibleAt_nil]
    cases a.resolute <;> rfl
  | consensus h =>
    have hwarn : WarnedFor w.env t.num "consensus-rule" alg a.k [] := warnedFor_error (e := .unknownScoreFunction) rfl
    refine printsInfo_of hwarn ((C90_plain_report w.env w.solve (w.float "consensus-rule" p a) p hn a alg cs hne hlt).2.2.2 hal hcs) hcs ?_
    simp only [List.cons_append, visibleAt_append, visibleAt_heading, visibleAt_all, visibleAt_line, visibleAt_winners, visibleAt_nil]
    cases a.resolute <;> rfl
  | trivial =>
    have hwarn : WarnedFor w.env t.num "trivial" alg a.k [] := warnedFor_error (e := .unknownScoreFunction) rfl
    obtain ⟨ord, h1, h2⟩ := (C90_sorted_report w.env w.shuffle w.sample (w.float "eph" p a) (w.iter p.candidates) p hn a alg cs hne hlt).1 hal hcs
    refine printsInfo_sorted hwarn (by decide) h2 hcs h1 ?_
    rw [remarkFor_one (by decide)]
    simp only [List.cons_append, visibleAt_append, visibleAt_heading, visibleAt_one, visibleAt_line, visibleAt_winners, visibleAt_nil]
  | rsd hu =>
    have hwarn : WarnedFor w.env t.num "rsd" alg a.k [] := warnedFor_error (e := .unknownScoreFunction) rfl
    obtain ⟨ord, h1, h2⟩ := (C90_sorted_report w.env w.shuffle w.sample (w.float "eph" p a) (w.iter p.candidates) p hn a alg cs hne hlt).2.1 hal hcs
    refine printsInfo_sorted hwarn (by decide) h2 hcs h1 ?_
    simp only [visibleAt_heading, visibleAt_line, visibleAt_winners, visibleAt_nil]
    rfl
  | eph h2 h =>
    have hwarn : WarnedFor w.env t.num "eph" alg a.k [] := warnedFor_error (e := .unknownScoreFunction) rfl
    obtain ⟨ord, h1, h2⟩ := (C90_sorted_report w.env w.shuffle w.sample (w.float "eph" p a) (w.iter p.candidates) p hn a alg cs hne hlt).2.2 hal hcs
    refine printsInfo_sorted hwarn (by decide) h2 hcs h1 ?_
    rw [remarkFor_one (by decide)]
    simp only [List.cons_append, visibleAt_append, visibleAt_heading, visibleAt_one, visibleAt_line, visibleAt_winners, visibleAt_nil]

theorem visible_prints (v : ℤ) (msgs : List Msg) : visible v (msgs.map OutputOp.print) = visibleAt v msgs := by
  induction msgs with
  | nil => rfl
  | cons m ms ih =>
    rw [List.map_cons]
    unfold visible visibleAt
    rw [List.filter_cons, ih]
    unfold visibleAt
    by_cases h : v ≤ m.level.value <;> simp [h]

theorem remarkFor_info (rid : String) (b : Bool) : ∀ m ∈ remarkFor rid b, m.level = .info := by
  unfold remarkFor oneRemark allRemark
  intro m hm
  split at hm
  · simp at hm
  · split at hm <;> cases b <;> simp at hm
    · rw [hm]; rfl
    · rcases hm with rfl | rfl <;> rfl

/-- **C92** What appears on the terminal: at verbosity INFO the warning (if any), the heading, the remark on `resolute` and the winning
committees are appended to what has been printed before; at the default verbosity WARNING the warning (if any); above, nothing.  (At verbosity DETAILS and below the protocols of
C85 to C91 are printed in addition.) -/
theorem C92_terminal (w : World) (hw : w.Exact) (t : Texts) (p : Profile) (hp : p.WF) (hn : Named p) (a : Args) (ruleId alg : String)
    (hal : prologue w.env ruleId p a = .ok alg) {S : Finset ℕ → Prop} (hS : Elects w p a.k alg ruleId S) (fill : Name → Name → Name)
    (o : Output) (ho : o.verbosity = t.verbosity) :
    ∃ msgs cs order ws, w.runVerbose t ruleId p a = .ok (msgs, cs) ∧ compute w ruleId p a.committeesize none a.kw = .ok cs ∧
      WarnedFor w.env t.num ruleId alg a.k ws ∧ (order.map List.toFinset).Perm (cs.map List.toFinset) ∧ (ruleId ∉ ["trivial", "rsd", "eph"] → order = cs) ∧
      (15 < o.verbosity → o.verbosity ≤ 20 → (o.run fill (msgs.map OutputOp.print)).printed =
        o.printed ++ (ws ++ (heading ruleId :: remarkFor ruleId a.resolute ++ [winners p order])).map (shown fill)) ∧
      (20 < o.verbosity → o.verbosity ≤ 30 → (o.run fill (msgs.map OutputOp.print)).printed = o.printed ++ ws.map (shown fill)) ∧
      (30 < o.verbosity → (o.run fill (msgs.map OutputOp.print)).printed = o.printed) ∧
      (o.run fill (msgs.map OutputOp.print)).verbosity = o.verbosity := by
  obtain ⟨hres, msgs, cs, order, ws, h1, hwarn, h2, h3, h4⟩ := C92_prints w hw t p hp hn a ruleId alg hal hS
  rw [h1] at hres
  have hlev := warnedFor_level hwarn
  have hinfo : ∀ m ∈ heading ruleId :: remarkFor ruleId a.resolute ++ [winners p order], m.level = .info := by
    intro m hin
    rcases List.mem_append.1 hin with hin | hin
    · rcases List.mem_cons.1 hin with rfl | hin
      · rfl
      · exact remarkFor_info _ _ m hin
    · rw [List.mem_singleton.1 hin]; rfl
  have hup : 20 < o.verbosity → visibleAt o.verbosity msgs = visibleAt o.verbosity ws := by
    intro hu
    have e : visibleAt o.verbosity msgs = visibleAt o.verbosity (visibleAt 20 msgs) := by
      unfold visibleAt
      rw [List.filter_filter]
      refine List.filter_congr fun m _ => ?_
      rw [← Bool.decide_and, decide_eq_decide]
      omega
    rw [e, h4, visibleAt_append]
    have : visibleAt o.verbosity (heading ruleId :: remarkFor ruleId a.resolute ++ [winners p order]) = [] := by
      unfold visibleAt
      rw [List.filter_eq_nil_iff]
      intro m hm hlev'
      have := of_decide_eq_true hlev'
      rw [hinfo m hm] at this
      simp only [Level.value] at this
      omega
    rw [this, List.append_nil]
  obtain ⟨g1, g2⟩ := C65_printed fill o (msgs.map OutputOp.print)
  refine ⟨msgs, cs, order, ws, h1, hres.symm, hwarn, h2, h3, fun hl hu => ?_, fun hu hu' => ?_, fun hu => ?_, ?_⟩
  · rw [g1, visible_prints, visibleAt_between hl hu, h4]
  · rw [g1, visible_prints, hup hu, visibleAt_warnings hlev hu']
  · rw [g1, visible_prints, hup (by omega)]
    have : visibleAt o.verbosity ws = [] := by
      unfold visibleAt
      rw [List.filter_eq_nil_iff]
      intro m hm hl
      have := of_decide_eq_true hl
      rw [hlev m hm] at this
      simp only [Level.value] at this
      omega
    rw [this]; simp
  · rw [g2]
    clear g1 g2 h1 h4 hres hup
    induction msgs with
    | nil => rfl
    | cons m ms ih => exact ih

/-- Non-vacuity: a world that keeps its promises, a valid call of `compute` for seq-PAV at verbosity INFO. -/
example : ∃ w : World, w.Exact ∧ ∃ msgs cs, w.runVerbose ⟨fun q => strNat q.num.toNat, 20, .error .keyError, .error .keyError⟩ "seqpav"
    ⟨3, [⟨[0, 1], 1⟩, ⟨[1, 2], 1⟩, ⟨[0], 1⟩], ["a".toList, "b".toList, "c".toList]⟩ { committeesize := 2, algorithm := "fastest", resolute := false }
      = .ok (msgs, cs) ∧ (Output.run (fun _ t => t) { verbosity := 20 } (msgs.map OutputOp.print)).printed =
        (heading "seqpav" :: allRemark false ++ [winners ⟨3, [⟨[0, 1], 1⟩, ⟨[1, 2], 1⟩, ⟨[0], 1⟩], ["a".toList, "b".toList, "c".toList]⟩ cs]).map
          (shown (fun _ t => t)) := by
  obtain ⟨w, hwe, hw⟩ := exists_exact_world exampleEnv
  refine ⟨w, hw, ?_⟩
  have hp : Profile.WF ⟨3, [⟨[0, 1], 1⟩, ⟨[1, 2], 1⟩, ⟨[0], 1⟩], ["a".toList, "b".toList, "c".toList]⟩ :=
    ⟨by decide, by decide, by decide, by decide +kernel⟩
  obtain ⟨msgs, cs, order, ws, h1, -, hwarn, -, h3, h4, -, -⟩ := C92_terminal w hw
    ⟨fun q => strNat q.num.toNat, 20, .error .keyError, .error .keyError⟩ _ hp rfl
    { committeesize := 2, algorithm := "fastest", resolute := false } "seqpav" "standard" (by rw [hwe]; decide +kernel)
    (Elects.seqThiele (sid := "pav") (s := .pav) rfl (fun i => by
      simp only [marginalFct]
      split
      · exact le_refl _
      · positivity)) (fun _ t => t) { verbosity := 20 } rfl
  refine ⟨msgs, cs, h1, ?_⟩
  have hws : ws = [] := by
    rcases hwarn with ⟨s, hs, _⟩ | ⟨_, h⟩
    · cases hs
    · exact h
  rw [h4 (by decide) (by decide), h3 (by decide), hws]
  rfl

end Abc
