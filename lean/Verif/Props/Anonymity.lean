import Verif.Props.ElectorateShares
import Verif.Props.GreedyMonroe
import Verif.Props.Preferences

/-!
# C49: anonymity, and C50 for the conversions of weights
-/

namespace Abc
open Spec

theorem perm_equiv {α : Type} {l l' : List α} (h : l.Perm l') :
    ∃ σ : Fin l.length ≃ Fin l'.length, ∀ i, l'.get (σ i) = l.get i := by
  induction h with
  | nil => exact ⟨Equiv.refl _, fun _ => rfl⟩
  | @cons x l l' _ ih =>
    obtain ⟨σ, hσ⟩ := ih
    refine ⟨((finSuccEquiv l.length).trans σ.optionCongr).trans (finSuccEquiv l'.length).symm, ?_⟩
    intro i
    refine Fin.cases ?_ (fun j => ?_) i
    · simp
    · simpa using hσ j
  | swap x y l =>
    refine ⟨Equiv.swap (⟨0, by simp⟩) (⟨1, by simp⟩), ?_⟩
    rintro ⟨i, hi⟩
    match i, hi with
    | 0, _ => simp
    | 1, _ => simp
    | i + 2, hi =>
      rw [Equiv.swap_apply_of_ne_of_ne] <;> simp [Fin.ext_iff]
  | trans _ _ ih1 ih2 =>
    obtain ⟨σ, hσ⟩ := ih1
    obtain ⟨τ, hτ⟩ := ih2
    exact ⟨σ.trans τ, fun i => by rw [Equiv.trans_apply, hτ, hσ]⟩

theorem answers_ok {a : Args} {r : Except Err (List (List ℕ))} {S : Finset ℕ → Prop} (h : Answers a r S) : ∃ cs, r = .ok cs := by
  unfold Answers at h
  split at h
  · obtain ⟨W, e, -⟩ := h; exact ⟨_, e⟩
  · obtain ⟨cs, e, -⟩ := h; exact ⟨_, e⟩
  · obtain ⟨cs, e, -⟩ := h; exact ⟨_, e⟩

/-- Reordering the voters gives the same electorate. -/
theorem sameElectorate_of_perm {p p' : Profile} (hn : p.numCand = p'.numCand) (h : p.voters.Perm p'.voters) : SameElectorate p p' :=
  ⟨hn, fun A => by
    unfold electorate
    exact ((h.filter _).map _).sum_eq⟩

theorem wf_of_perm {p p' : Profile} (hp : p.WF) (hn : p.numCand = p'.numCand) (h : p.voters.Perm p'.voters) : p'.WF where
  pos := hn ▸ hp.pos
  nodup v hv := hp.nodup v (h.mem_iff.2 hv)
  lt v hv := hn ▸ hp.lt v (h.mem_iff.2 hv)
  weight v hv := hp.weight v (h.mem_iff.2 hv)

section
variable {p p' : Profile} (hn : p.numCand = p'.numCand) (h : p.voters.Perm p'.voters)
include hn h

omit hn in
theorem hasUnitWeights_perm : p.hasUnitWeights = p'.hasUnitWeights := by
  rw [Bool.eq_iff_iff]
  unfold Profile.hasUnitWeights
  simp only [List.all_eq_true, h.mem_iff]

theorem prologue_perm (hp : p.WF) (env : Env) (rid : String) (a : Args) : prologue env rid p a = prologue env rid p' a :=
  prologue_congr hp (wf_of_perm hp hn h) (sameElectorate_of_perm hn h) env rid a

/-- C49 for the rules whose result depends only on the weight of every approval set (C50): reordering the voters does not change
the result. -/
theorem C49_anonymity (hp : p.WF) (env : Env) (a : Args) :
    (∀ sid solver solver' alg, prologue env sid p a = .ok alg → (alg = "brute-force" ∨ alg = "branch-and-bound") →
      computeThieleMethod env sid solver p a = computeThieleMethod env sid solver' p' a) ∧
    (∀ sid, computeSeqThieleMethod env sid p a = computeSeqThieleMethod env sid p' a) ∧
    (∀ sid ord, computeRevseqThieleMethod env sid ord p a = computeRevseqThieleMethod env sid ord p' a) ∧
    (∀ r, computeSeparable env r p a = computeSeparable env r p' a) ∧
    (∀ solver solver', prologue env "lexcc" p a = .ok "brute-force" →
      computeLexcc env solver p a = computeLexcc env solver' p' a) ∧
    (∀ solver solver', prologue env "minimaxav" p a = .ok "brute-force" →
      computeMinimaxav env solver p a = computeMinimaxav env solver' p' a) ∧
    computeTrivial env p a = computeTrivial env p' a ∧
    (∀ float float' alg, prologue env "seqphragmen" p a = .ok alg → ExactAlg env alg →
      computeSeqphragmen env float p a = computeSeqphragmen env float' p' a) ∧
    (∀ float float' alg, prologue env "phragmen-enestroem" p a = .ok alg → ExactAlg env alg →
      computeEnestroem env float p a = computeEnestroem env float' p' a) ∧
    (∀ float float' alg, prologue env "consensus-rule" p a = .ok alg → ExactAlg env alg →
      computeConsensus env float p a = computeConsensus env float' p' a) ∧
    (∀ float float' completion rid alg, Completion.ruleId completion = .ok rid → prologue env rid p a = .ok alg → ExactAlg env alg →
      computeEqualShares env float completion p a = computeEqualShares env float' completion p' a) ∧
    (∀ float float' iter alg, prologue env "eph" p a = .ok alg → ExactAlg env alg →
      computeEph env float iter p a = computeEph env float' iter p' a) := by
  have hp' := wf_of_perm hp hn h
  have hs := sameElectorate_of_perm hn h
  exact ⟨fun sid solver solver' alg => C50_thiele hp hp' hs env sid solver solver' a alg,
    fun sid => C50_seqThiele hp hp' hs env sid a, fun sid ord => C50_revseqThiele hp hp' hs env sid ord a,
    fun r => C50_separable hp hp' hs env r a, fun s s' => C50_lexcc hp hp' hs env s s' a,
    fun s s' => C50_minimaxav hp hp' hs env s s' a, C50_trivial hp hp' hs env a,
    fun f f' alg => C50_seqphragmen hp hp' hs env f f' a alg, fun f f' alg => C50_enestroem hp hp' hs env f f' a alg,
    fun f f' alg => C50_consensus hp hp' hs env f f' a alg,
    fun f f' c rid alg => C50_equal_shares hp hp' hs env f f' c a rid alg,
    fun f f' iter alg => C50_eph hp hp' hs env f f' iter a alg⟩

/-- C49 for lexicographic Minimax AV (brute force). -/
theorem C49_lexminimaxav (hp : p.WF) (env : Env) (solver solver' : Solver) (a : Args)
    (hal : prologue env "lexminimaxav" p a = .ok "brute-force") :
    computeLexminimaxav env solver p a = computeLexminimaxav env solver' p' a := by
  have hal' := hal
  rw [prologue_perm hn h hp] at hal'
  have hs : lexminimaxavStep p = lexminimaxavStep p' := by
    funext st W
    have : sortNatDesc (p.voters.map (fun v => hamming v.approved W)) = sortNatDesc (p'.voters.map (fun v => hamming v.approved W)) := by
      unfold sortNatDesc
      refine List.Perm.eq_of_pairwise (le := (· ≥ ·)) ?_ (List.pairwise_insertionSort _ _) (List.pairwise_insertionSort _ _) ?_
      · intro a b _ _ h1 h2
        omega
      · exact (List.perm_insertionSort _ _).trans ((h.map _).trans (List.perm_insertionSort _ _).symm)
    unfold lexminimaxavStep
    rw [this]
  unfold computeLexminimaxav lexminimaxavBruteforce
  rw [hal, hal', hasUnitWeights_perm h, hs, h.length_eq, hn, candidates_congr (sameElectorate_of_perm hn h)]
  simp only [bind, Except.bind, if_true]

omit hn in
theorem isMonroeScore_perm {W : Finset ℕ} {m : ℕ} (hm : IsMonroeScore p W m) : IsMonroeScore p' W m := by
  have key : ∀ {q q' : Profile}, q.voters.Perm q'.voters → ∀ φ, Balanced q W φ → ∃ ψ, Balanced q' W ψ ∧ represented q' ψ = represented q φ := by
    intro q q' hq φ hφ
    obtain ⟨σ, hσ⟩ := perm_equiv hq
    have hcard : ∀ (P : Fin q.voters.length → Prop) [DecidablePred P],
        (Finset.univ.filter (fun i => P (σ.symm i))).card = (Finset.univ.filter P).card := by
      intro P _
      refine Finset.card_bij' (fun i _ => σ.symm i) (fun i _ => σ i) ?_ ?_ ?_ ?_ <;> simp
    refine ⟨φ ∘ σ.symm, ⟨fun i => hφ.1 _, fun c hc => ?_⟩, ?_⟩
    · have h2 := hcard (fun i => φ i = c)
      have h1 := hφ.2 c hc
      have h3 : (Finset.univ.filter (fun i => (φ ∘ σ.symm) i = c)).card = (Finset.univ.filter (fun i => φ i = c)).card := h2
      have hl : q'.voters.length = q.voters.length := hq.length_eq.symm
      constructor
      · rw [h3]; calc _ = q.voters.length / W.card := by rw [hl]
          _ ≤ _ := h1.1
      · rw [h3]; calc _ ≤ _ := h1.2
          _ = _ := by rw [hl]
    · unfold represented
      rw [← hcard (fun i => φ i ∈ appr q i)]
      congr 1
      ext i
      have : appr q (σ.symm i) = appr q' i := by
        unfold appr
        rw [← hσ, Equiv.apply_symm_apply]
      simp [this]
  obtain ⟨⟨φ, hφ, e⟩, hmax⟩ := hm
  obtain ⟨ψ, hψ, e'⟩ := key h φ hφ
  refine ⟨⟨ψ, hψ, e'.trans e⟩, ?_⟩
  intro χ hχ
  obtain ⟨χ', hχ', e''⟩ := key h.symm χ hχ
  rw [← e'']
  exact hmax χ' hχ'

/-- C49 for Monroe (brute force); the matching and flow algorithms may even be different ones. -/
theorem C49_monroe (hp : p.WF) (env : Env) (matching matching' : List MEdge → List MEdge) (hmat : ExactMatching matching)
    (hmat' : ExactMatching matching') (minCost minCost' : FlowNet → Except Err ℕ) (hmin : ExactMinCost minCost)
    (hmin' : ExactMinCost minCost') (solver solver' : Solver) (a : Args) (hal : prologue env "monroe" p a = .ok "brute-force") :
    computeMonroe env matching minCost solver p a = computeMonroe env matching' minCost' solver' p' a := by
  have hal' := hal
  rw [prologue_perm hn h hp] at hal'
  have hs : ∀ W : List ℕ, W.Nodup → monroescore matching minCost p W = monroescore matching' minCost' p' W := by
    intro W hW
    by_cases h0 : W = []
    · subst h0; rfl
    · obtain ⟨m, e, hm⟩ := C17_monroescore matching hmat minCost hmin p W hW h0
      obtain ⟨m', e', hm'⟩ := C17_monroescore matching' hmat' minCost' hmin' p' W hW h0
      have h1 := isMonroeScore_perm h hm
      have : m = m' := by
        obtain ⟨⟨φ, hφ, e1⟩, hmax⟩ := h1
        obtain ⟨⟨φ', hφ', e1'⟩, hmax'⟩ := hm'
        have := hmax φ' hφ'
        have := hmax' φ hφ
        omega
      rw [e, e', this]
  have hfold : ∀ (l : List (List ℕ)) st, (∀ W ∈ l, W.Nodup) → l.foldlM (monroeStep (monroescore matching minCost p)) st =
      l.foldlM (monroeStep (monroescore matching' minCost' p')) st := by
    intro l
    induction l with
    | nil => intro st _; rfl
    | cons W l ih =>
      intro st hl
      simp only [List.foldlM_cons]
      have : monroeStep (monroescore matching minCost p) st W = monroeStep (monroescore matching' minCost' p') st W := by
        unfold monroeStep
        rw [hs W (hl W (by simp))]
      rw [this]
      congr 1
      funext st'
      exact ih st' (fun V hV => hl V (by simp [hV]))
  have hc := candidates_congr (sameElectorate_of_perm hn h)
  have hb : monroeBruteforce matching minCost p a.k a.resolute a.maxNum = monroeBruteforce matching' minCost' p' a.k a.resolute a.maxNum := by
    unfold monroeBruteforce
    rw [hc, hfold _ _ (fun W hW => nodup_of_lt (combinations_lt hW))]
  have hu := hasUnitWeights_perm h
  obtain ⟨a1, a2⟩ := C26_monroe_optimal env matching hmat minCost hmin solver p a hal
  obtain ⟨b1, b2⟩ := C26_monroe_optimal env matching' hmat' minCost' hmin' solver' p' a hal'
  cases hup : p.hasUnitWeights with
  | false => rw [a2 hup, b2 (hu ▸ hup)]
  | true =>
    have hr := answers_ok (a1 hup)
    have hr' := answers_ok (b1 (hu ▸ hup))
    obtain ⟨o, e⟩ := hr
    obtain ⟨o', e'⟩ := hr'
    rw [e, e']
    unfold computeMonroe at e e'
    rw [hal, hup] at e
    rw [hal', ← hu, hup, ← hb] at e'
    simp only [bind, Except.bind, not_true_eq_false, if_false, if_true] at e e'
    cases hm : monroeBruteforce matching minCost p a.k a.resolute a.maxNum with
    | error x => rw [hm] at e; simp at e
    | ok cs =>
      rw [hm] at e e'
      simp only at e e'
      cases hg : pyGet cs 0 with
      | error x => rw [hg] at e; simp at e
      | ok c =>
        rw [hg] at e e'
        simp only at e e'
        cases h1 : monroescore matching minCost p c with
        | error x => rw [h1] at e; simp at e
        | ok z =>
          cases h2 : monroescore matching' minCost' p' c with
          | error x => rw [h2] at e'; simp at e'
          | ok z' =>
            rw [h1] at e
            rw [h2] at e'
            rw [← e, ← e']

end

/-! ## The conversions of weights -/

/-- C50: `convert_to_unit_weights` (integer weights) does not change the electorate: by the theorems `C50_…`, no result changes. -/
theorem C50_convert_to_unit_weights (p : Profile) (hp : p.WF) (hint : ∀ v ∈ p.voters, v.weight.den = 1) :
    SameElectorate p (p.convertToUnitWeights).1 ∧ (p.convertToUnitWeights).1.WF := by
  obtain ⟨-, h1, h2, h3, -⟩ := C03_convert_to_unit_weights p hp hint
  refine ⟨⟨h3.symm, fun A => (h2 A).symm⟩, ?_⟩
  obtain ⟨out, ho⟩ := (unitVoters_ok_iff p.voters).2 hint
  have hmem : ∀ v ∈ (p.convertToUnitWeights).1.voters, ∃ w ∈ p.voters, v.approved = w.approved := by
    intro v hv
    unfold Profile.convertToUnitWeights at hv
    rw [ho] at hv
    exact (unitVoters_mem ho v hv).2
  refine ⟨h3 ▸ hp.pos, ?_, ?_, ?_⟩
  · intro v hv
    obtain ⟨w, hw, e⟩ := hmem v hv
    rw [e]
    exact hp.nodup w hw
  · intro v hv
    obtain ⟨w, hw, e⟩ := hmem v hv
    rw [e, h3]
    exact hp.lt w hw
  · intro v hv
    rw [h1 v hv]
    exact one_pos

/-- C50: `convert_to_weighted` does not change the electorate: by the theorems `C50_…`, no result changes. -/
theorem C50_convert_to_weighted (p : Profile) (hp : p.WF) (iter : List (List ℕ) → List (List ℕ)) (hiter : ∀ l, (iter l).Perm l) :
    SameElectorate p (p.convertToWeighted iter) ∧ (p.convertToWeighted iter).WF := by
  obtain ⟨-, h2, h3, -⟩ := C04_convert_to_weighted p hp iter hiter
  have hmem : ∀ v ∈ (p.convertToWeighted iter).voters, ∃ w ∈ p.voters, v.approved = sortNat w.approved := by
    intro v hv
    have hvot : (p.convertToWeighted iter).voters = (iter ((p.voters.map (fun v => sortNat v.approved)).foldl setAdd [])).map
      (fun a => ⟨a, weightOfApprovalSet p.voters a⟩) := rfl
    rw [hvot, List.mem_map] at hv
    obtain ⟨a, ha, rfl⟩ := hv
    rw [(hiter _).mem_iff, mem_foldl_setAdd] at ha
    simp only [List.not_mem_nil, false_or, List.mem_map] at ha
    obtain ⟨w, hw, e⟩ := ha
    exact ⟨w, hw, e.symm⟩
  have hwt : ∀ v ∈ (p.convertToWeighted iter).voters, 0 < v.weight := by
    intro v hv
    have hvot : (p.convertToWeighted iter).voters = (iter ((p.voters.map (fun v => sortNat v.approved)).foldl setAdd [])).map
      (fun a => ⟨a, weightOfApprovalSet p.voters a⟩) := rfl
    rw [hvot, List.mem_map] at hv
    obtain ⟨a, ha, rfl⟩ := hv
    rw [(hiter _).mem_iff, mem_foldl_setAdd] at ha
    simp only [List.not_mem_nil, false_or, List.mem_map] at ha
    obtain ⟨w, hw, e⟩ := ha
    simp only
    rw [weightOfApprovalSet_eq]
    refine List.sum_pos (M := ℚ) _ ?_ ?_
    · intro x hx
      simp only [List.mem_map, List.mem_filter] at hx
      obtain ⟨u, ⟨hu, -⟩, rfl⟩ := hx
      exact hp.weight u hu
    · intro hnil
      rw [List.map_eq_nil_iff, List.filter_eq_nil_iff] at hnil
      exact hnil w hw (by simp [e])
  refine ⟨⟨h3.symm, fun A => (h2 A).symm⟩, h3 ▸ hp.pos, ?_, ?_, hwt⟩
  · intro v hv
    obtain ⟨w, hw, e⟩ := hmem v hv
    rw [e]
    exact nodup_of_lt (sortNat_lt (hp.nodup w hw))
  · intro v hv c hc
    obtain ⟨w, hw, e⟩ := hmem v hv
    rw [h3]
    refine hp.lt w hw c ?_
    rw [e] at hc
    unfold sortNat at hc
    simpa using hc

/-! ## Non-vacuity; a rule that is not anonymous -/

/-- two voters for {0,1} and one for {2} -/
def twoOne : Profile := ⟨3, [⟨[0, 1], 1⟩, ⟨[2], 1⟩, ⟨[1, 0], 1⟩], []⟩
/-- the same with weights -/
def twoOneW : Profile := ⟨3, [⟨[0, 1], 2⟩, ⟨[2], 1⟩], []⟩

example : SameElectorate twoOne twoOneW := by
  refine ⟨rfl, fun A => ?_⟩
  have h1 : ({1, 0} : Finset ℕ) = {0, 1} := by decide
  simp only [electorate, twoOne, twoOneW, Voter.A, List.filter_cons, List.toFinset_cons, List.toFinset_nil, insert_empty_eq, h1]
  by_cases ha : ({0, 1} : Finset ℕ) = A <;> by_cases hb : ({2} : Finset ℕ) = A <;> simp [ha, hb] <;> norm_num

example : twoOne.voters.Perm [⟨[2], 1⟩, ⟨[0, 1], 1⟩, ⟨[1, 0], 1⟩] := by decide +kernel
example : computeSeqphragmen exampleEnv (.ok []) twoOne { committeesize := 2, resolute := false } = .ok [[0, 1], [0, 2], [1, 2]] := by
  decide +kernel
example : computeSeqphragmen exampleEnv (.ok []) twoOneW { committeesize := 2, resolute := false } = .ok [[0, 1], [0, 2], [1, 2]] := by
  decide +kernel

/-- the voters of `gmOrder2` in another order -/
def gmOrder1 : Profile := ⟨3, [⟨[0, 1], 1⟩, ⟨[0, 2], 1⟩, ⟨[0, 1], 1⟩, ⟨[2], 1⟩], []⟩
def gmOrder2 : Profile := ⟨3, [⟨[0, 1], 1⟩, ⟨[0, 1], 1⟩, ⟨[0, 2], 1⟩, ⟨[2], 1⟩], []⟩

/-- Greedy Monroe is not anonymous: if a candidate has more supporters than its district has seats, the first ones in the order of
the profile are taken. -/
theorem C49_greedy_monroe_not_anonymous : gmOrder1.voters.Perm gmOrder2.voters ∧ ∀ matching minCost,
    computeGreedyMonroe exampleEnv matching minCost [0, 1, 2] gmOrder1 { committeesize := 2, resolute := true } = .ok [[0, 1]] ∧
    computeGreedyMonroe exampleEnv matching minCost [0, 1, 2] gmOrder2 { committeesize := 2, resolute := true } = .ok [[0, 2]] := by
  refine ⟨by decide +kernel, fun matching minCost => ⟨?_, ?_⟩⟩
  · have h1 : prologue exampleEnv "greedy-monroe" gmOrder1 { committeesize := 2, resolute := true } = .ok "standard" := by decide +kernel
    have h2 : greedyMonroeAlgorithm gmOrder1 2 [0, 1, 2] = .ok ([[0, 1]], [(0, [0, 1]), (1, [2])], [3]) := by decide +kernel
    have h3 : ∃ z, monroescore matching minCost gmOrder1 [0, 1] = .ok z := ⟨_, rfl⟩
    obtain ⟨z, h3⟩ := h3
    have h4 : gmOrder1.hasUnitWeights = true := by decide +kernel
    have h5 : sortedCommittees [[0, 1]] = .ok [[0, 1]] := by decide +kernel
    have h6 : ∃ s, gmComplete gmOrder1.voters.length 2 0 [(0, [0, 1]), (1, [2])] [3] = .ok s := ⟨_, rfl⟩
    obtain ⟨s, h6⟩ := h6
    have h7 : pyGet [([0, 1] : List ℕ)] 0 = .ok [0, 1] := rfl
    unfold computeGreedyMonroe computeGreedyMonroeFull
    rw [h1]
    simp [bind, Except.bind, h4, Args.k, h2, h3, h5, h6, h7]
  · have h1 : prologue exampleEnv "greedy-monroe" gmOrder2 { committeesize := 2, resolute := true } = .ok "standard" := by decide +kernel
    have h2 : greedyMonroeAlgorithm gmOrder2 2 [0, 1, 2] = .ok ([[0, 2]], [(0, [0, 1]), (2, [2, 3])], []) := by decide +kernel
    have h3 : ∃ z, monroescore matching minCost gmOrder2 [0, 2] = .ok z := ⟨_, rfl⟩
    obtain ⟨z, h3⟩ := h3
    have h4 : gmOrder2.hasUnitWeights = true := by decide +kernel
    have h5 : sortedCommittees [[0, 2]] = .ok [[0, 2]] := by decide +kernel
    have h6 : ∃ s, gmComplete gmOrder2.voters.length 2 0 [(0, [0, 1]), (2, [2, 3])] [] = .ok s := ⟨_, rfl⟩
    obtain ⟨s, h6⟩ := h6
    have h7 : pyGet [([0, 2] : List ℕ)] 0 = .ok [0, 2] := rfl
    unfold computeGreedyMonroe computeGreedyMonroeFull
    rw [h1]
    simp [bind, Except.bind, h4, Args.k, h2, h3, h5, h6, h7]

end Abc
