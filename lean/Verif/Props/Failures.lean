import Verif.Lemmas.Failures

/-!
# C81: a solver that gives up never leads to a wrong answer
-/

namespace Abc

open Spec

/-- What a rule elects does not depend on the solvers. -/
theorem elects_solve {w : World} {p : Profile} {k : ℕ} {alg ruleId : String} {S : Finset ℕ → Prop} (s : String → Program → SolveResult)
    (h : Elects w p k alg ruleId S) : Elects { w with solve := s } p k alg ruleId S := by
  cases h with
  | av => exact .av
  | sav => exact .sav
  | thiele h1 h2 h3 => exact .thiele h1 h2 h3
  | lexcc h => exact .lexcc h
  | seqThiele h1 h2 => exact .seqThiele h1 h2
  | revseqThiele h1 => exact .revseqThiele h1
  | seqphragmen h1 h2 => exact .seqphragmen h1 h2
  | minimaxphragmen h1 h2 h3 => exact .minimaxphragmen h1 h2 h3
  | minimaxphragmenTol h1 h2 => exact .minimaxphragmenTol h1 h2
  | leximaxphragmen h1 h2 => exact .leximaxphragmen h1 h2
  | maximinSupport h1 h2 => exact .maximinSupport h1 h2
  | maximinSupportTol => exact .maximinSupportTol
  | monroe h => exact .monroe h
  | greedyMonroe h => exact .greedyMonroe h
  | minimaxav => exact .minimaxav
  | lexminimaxav h => exact .lexminimaxav h
  | equalShares h1 h2 h3 => exact .equalShares h1 h2 h3
  | equalSharesAv h => exact .equalSharesAv h
  | equalSharesIncrement h1 h2 => exact .equalSharesIncrement h1 h2
  | equalSharesNone h1 h2 => exact .equalSharesNone h1 h2
  | enestroem h => exact .enestroem h
  | consensus h => exact .consensus h
  | trivial => exact .trivial
  | rsd h => exact .rsd h
  | eph h1 h2 => exact .eph h1 h2

/-- **C81** Whatever the solvers do - they may give up on any program at any time - `compute` either raises an exception or returns
what the rule elects: with `resolute=True` one winning committee, with `resolute=False` all of them (`max_num_of_committees` of them),
never a part of the list and never a committee that does not win. -/
theorem C81_compute (w : World) (hw : w.Sound) (p : Profile) (hp : p.WF) (a : Args) (ruleId alg : String)
    (hal : prologue w.env ruleId p a = .ok alg) {S : Finset ℕ → Prop} (hS : Elects w p a.k alg ruleId S)
    {result : Option (List (List ℕ))} {cs : List (List ℕ)}
    (hc : compute w ruleId p a.committeesize result a.kw = .ok cs) : Answers a (.ok cs) S := by
  choose s h1 h2 using fun alg => exists_answering (hw.solve alg)
  have h3 := C31_compute { w with solve := s } (hw.rest s h2) p hp a ruleId alg hal (elects_solve s hS)
  have h4 : compute w ruleId p a.committeesize none a.kw = .ok cs := by
    cases result with
    | none => exact hc
    | some e =>
      unfold compute at hc ⊢
      cases hr : ruleInfo w.env ruleId with
      | error e => rw [hr] at hc; cases hc
      | ok ri =>
        cases hf : w.computeFct ruleId p a.committeesize a.kw with
        | error e => rw [hr, hf] at hc; cases hc
        | ok cs' =>
          rw [hr, hf] at hc
          simp only [bind, Except.bind] at hc ⊢
          cases hg : pyGet ri.resoluteValues 0 with
          | error e => rw [hg] at hc; cases hc
          | ok first =>
            rw [hg] at hc
            simp only at hc
            cases hv : verifyExpected cs' e (a.kw.resolute.getD first) with
            | error e => rw [hv] at hc; cases hc
            | ok u => rw [hv] at hc; exact hc
  rwa [compute_mono w h1 ruleId p a.committeesize none a.kw cs h4] at h3

/-- **C81** Two installations whose solvers differ (and give up on different programs) never disagree: if both calls return, they return
the same list of all winning committees. -/
theorem C81_agree (w : World) (hw : w.Sound) (s : String → Program → SolveResult) (hs : ∀ alg, SoundSolver (s alg)) (p : Profile) (hp : p.WF)
    (a : Args) (ha : a.resolute = false) (ham : a.max = none) (ruleId alg : String) (hal : prologue w.env ruleId p a = .ok alg)
    {S : Finset ℕ → Prop} (hS : Elects w p a.k alg ruleId S) {cs cs' : List (List ℕ)}
    (hc : compute w ruleId p a.committeesize none a.kw = .ok cs)
    (hc' : compute { w with solve := s } ruleId p a.committeesize none a.kw = .ok cs') : cs = cs' := by
  have h1 := C81_compute w hw p hp a ruleId alg hal hS hc
  have h2 := C81_compute { w with solve := s } ⟨hs, hw.rest⟩ p hp a ruleId alg hal (elects_solve s hS) hc'
  unfold Answers at h1 h2
  rw [ha, ham] at h1 h2
  exact Except.ok.inj (Returns.unique (S := S) h1 h2)

section
variable {solve : Program → SolveResult} {solveMax : MaxProgram → SolveResult} (hs : SoundSolver solve) (hm : SoundMaxSolver solveMax)
  (ap : List ℕ) {p : Profile} (hp : p.WF) {W : List ℕ} (hW : W.Nodup) (hlt : ∀ c ∈ W, c < p.numCand) {algorithm : String}
  (ha : algorithm = "fastest" ∨ algorithm = "gurobi")

include hs hm hp hW hlt ha

/-- **C81** The same for `check`: if it answers, the answer is right. -/
theorem C81_check (hv : p.voters ≠ []) (hne : W ≠ []) {name : String} (hn : name ∈ propertyNames) {b : Bool}
    (hb : check solve solveMax ap name p (W.map Int.ofNat) none algorithm = .ok b) :
    b = true ↔ Satisfies name p W.toFinset (total p / W.length) := by
  obtain ⟨s, h1, h2⟩ := exists_answering hs
  obtain ⟨m, h3, h4⟩ := exists_answeringMax hm
  obtain ⟨b', h5, h6⟩ := C60_check h2 h4 ap hp hW hlt ha hv hne hn
  have := check_mono h1 h3 ap name p (W.map Int.ofNat) none algorithm b hb
  rw [this] at h5
  rwa [Except.ok.inj h5]

/-- **C81** The same with a quota. -/
theorem C81_check_quota (quota : Option ℚ) (hq : 0 < quotaValue p W.length quota) {name : String}
    (hn : name ∈ ["jr", "pjr", "ejr", "fjr", "core"]) {b : Bool}
    (hb : check solve solveMax ap name p (W.map Int.ofNat) quota algorithm = .ok b) :
    b = true ↔ Satisfies name p W.toFinset (quotaValue p W.length quota) := by
  obtain ⟨s, h1, h2⟩ := exists_answering hs
  obtain ⟨m, h3, h4⟩ := exists_answeringMax hm
  obtain ⟨b', h5, h6⟩ := C60_check_quota h2 ap hp hW hlt ha quota hq hn
  have := check_mono h1 h3 ap name p (W.map Int.ofNat) quota algorithm b hb
  rw [this] at h5
  rwa [Except.ok.inj h5]

end

/-! ### Giving up is reported -/

/-- **C81** A check with Gurobi raises `RuntimeError` if Gurobi gives up. -/
theorem C81_check_raises {solve : Program → SolveResult} {solveMax : MaxProgram → SolveResult} (hs : ∀ P, solve P = .other)
    (hm : ∀ P, solveMax P = .other) (ap : List ℕ) {p : Profile} (hp : p.WF) (hv : p.voters ≠ []) {W : List ℕ} (hW : W.Nodup)
    (hlt : ∀ c ∈ W, c < p.numCand) (hne : W ≠ []) {algorithm : String} (ha : algorithm = "fastest" ∨ algorithm = "gurobi") {name : String}
    (hn : name ∈ ["pareto", "pjr", "ejr", "fjr", "core"] ∨
      name ∈ ["priceability", "stable-priceability"] ∧ W.length ≤ (approvedSet p).card) :
    check solve solveMax ap name p (W.map Int.ofNat) none algorithm = .error .runtimeError := by
  have hl : W.length ≠ 0 := by simpa using hne
  have hk : (0 : ℚ) < W.length := by exact_mod_cast List.length_pos_iff.2 hne
  have hq : quotaOf p (W.map Int.ofNat) none = .ok (total p / W.length) := by
    unfold quotaOf
    simp only [List.length_map, if_neg hl, totalWeight_eq]
  obtain ⟨b, hb, -⟩ := ellUpperBound_spec p hp (total p / W.length) (div_pos (total_pos hp hv) hk)
  have hsc : ∀ {ω : Type} (P : Program) (info : (IVar → ℚ) → ω), solveCheck solve P info = .error .runtimeError := by
    intro ω P info
    unfold solveCheck
    rw [hs]
  have hc := candidateSet_ofNat hW hlt
  have hpr : W.length ≤ (approvedSet p).card → ∀ stable,
      checkPriceability solve solveMax p (W.map Int.ofNat) algorithm stable = .error .runtimeError := by
    intro h stable
    unfold checkPriceability checkPriceabilityGurobi
    rw [hc]
    have h1 : (p.candidates.filter (fun c => p.voters.any (fun v => decide (c ∈ v.approved)))).length = (approvedSet p).card := by
      unfold Profile.candidates
      rw [← List.toFinset_card_of_nodup (List.nodup_range.filter _)]
      congr 1
      ext c
      unfold approvedSet
      simp only [List.mem_toFinset, List.mem_filter, List.mem_range, List.any_eq_true, decide_eq_true_iff, Finset.mem_biUnion,
        Finset.mem_univ, true_and]
      constructor
      · rintro ⟨-, v, hv, hc⟩
        obtain ⟨i, rfl⟩ := List.mem_iff_get.1 hv
        exact ⟨i, mem_appr.2 hc⟩
      · rintro ⟨i, hi⟩
        exact ⟨appr_lt hp hi, _, List.get_mem _ i, mem_appr.1 hi⟩
    have h2 : (sortNat W).length = W.length := (sortNat_perm W).length_eq
    simp only [bind, Except.bind, if_pos ha, h1, h2, if_neg (not_lt.2 h), hs, hm]
    cases stable <;> rfl
  simp only [List.mem_cons, List.not_mem_nil, or_false] at hn
  rcases hn with (rfl | rfl | rfl | rfl | rfl) | ⟨rfl | rfl, h⟩
  · rw [check_pareto]
    unfold checkParetoOptimality checkParetoGurobi
    rw [hc]
    simp only [bind, Except.bind, byAlgorithm_gurobi ha, hsc]
  · change checkWith _ p _ none = _
    unfold checkWith checkPJRGurobi
    rw [hc, hq]
    simp only [bind, Except.bind, byAlgorithm_gurobi ha, hb, hsc]
  · change checkWith _ p _ none = _
    unfold checkWith checkEJRGurobi
    rw [hc, hq]
    simp only [bind, Except.bind, byAlgorithm_gurobi ha, hb, hsc]
  · change checkWith _ p _ none = _
    unfold checkWith checkFJRGurobi
    rw [hc, hq]
    simp only [bind, Except.bind, byAlgorithm_gurobi ha, hb, hsc]
  · change checkWith _ p _ none = _
    unfold checkWith checkCoreGurobi
    rw [hc, hq]
    simp only [bind, Except.bind, byAlgorithm_gurobi ha, hsc]
  · exact hpr h false
  · exact hpr h true

/-- The call does not return. -/
def Fails {α : Type} (x : Except Err α) : Prop := ∃ e, x = .error e

theorem Fails.bind {α β : Type} {x : Except Err α} (h : Fails x) (f : α → Except Err β) : Fails (x >>= f) := by
  obtain ⟨e, rfl⟩ := h
  exact ⟨e, rfl⟩

theorem Fails.bind_right {α β : Type} (x : Except Err α) {f : α → Except Err β} (h : ∀ a, x = .ok a → Fails (f a)) : Fails (x >>= f) := by
  cases x with
  | error e => exact ⟨e, rfl⟩
  | ok a => exact h a rfl

theorem Fails.ite {α : Type} {c : Prop} [Decidable c] {x y : Except Err α} (h : c → Fails x) (h' : ¬ c → Fails y) :
    Fails (if c then x else y) := by
  split
  · exact h (by assumption)
  · exact h' (by assumption)

theorem Fails.error {α : Type} (e : Err) : Fails (.error e : Except Err α) := ⟨e, rfl⟩

/-- **C81** A rule computed with an ILP solver raises an exception if the solver gives up on the first program. -/
theorem C81_compute_raises (w : World) (hw : ∀ alg P, w.solve alg P = .other) (p : Profile) (a : Args) (ruleId alg : String)
    (hal : prologue w.env ruleId p a = .ok alg)
    (hr : ruleId ∈ ["pav", "slav", "cc", "lexcc", "monroe", "minimaxav", "lexminimaxav"] ∨
      ruleId ∈ ["minimaxphragmen", "leximaxphragmen"] ∧ a.k ≤ p.approvedCandidates.length)
    (halg : alg ≠ "brute-force" ∧ alg ≠ "branch-and-bound") :
    ∃ e, compute w ruleId p a.committeesize none a.kw = .error e := by
  have ho : ∀ alg thr score k resolute max P, Fails (optimizeRule (w.solve alg) thr score p k resolute max P) := by
    intro alg thr score k resolute max P
    unfold optimizeRule optLoop
    rw [hw]
    exact Fails.error _
  rw [compute_none hal]
  have thiele : ∀ sid s, prologue w.env sid p a = .ok alg → w.env.scoreId sid = .ok s → Fails (w.thiele sid p a) := by
    intro sid s h1 h2
    unfold World.thiele computeThieleMethod
    rw [h2]
    refine Fails.bind_right _ fun alg' h => ?_
    rw [h1] at h
    obtain rfl := Except.ok.inj h
    refine Fails.bind_right _ fun s' _ => ?_
    dsimp only
    rw [if_neg halg.2, if_neg halg.1]
    refine Fails.bind ?_ _
    unfold thieleSolver ilpThiele ortoolsCC
    exact Fails.ite (fun _ => Fails.ite (fun _ => Fails.error _) fun _ => Fails.bind_right _ fun _ _ => Fails.bind (ho _ _ _ _ _ _ _) _)
      fun _ => Fails.ite (fun _ => Fails.ite (fun _ => Fails.error _) fun _ => Fails.bind (ho _ _ _ _ _ _ _) _) fun _ => Fails.error _
  simp only [List.mem_cons, List.not_mem_nil, or_false] at hr
  have hmm : ∀ alg thr k resolute max, Fails (ilpMinimaxav (w.solve alg) thr p k resolute max) :=
    fun _ _ _ _ _ => Fails.bind (ho _ _ _ _ _ _ _) _
  rcases hr with (rfl | rfl | rfl | rfl | rfl | rfl | rfl) | ⟨rfl | rfl, hk⟩
  · exact thiele _ .pav hal rfl
  · exact thiele _ .slav hal rfl
  · exact thiele _ .cc hal rfl
  all_goals unfold World.run
  · change Fails (computeLexcc w.env (lexccSolver w.solve p a) p a)
    unfold computeLexcc
    refine Fails.bind_right _ fun alg' h => ?_
    rw [hal] at h
    obtain rfl := Except.ok.inj h
    rw [if_neg halg.1]
    unfold lexccSolver gurobiLexcc
    exact Fails.ite (fun _ => Fails.bind (Fails.bind_right _ fun _ _ => Fails.bind (ho _ _ _ _ _ _ _) _) _) fun _ => Fails.error _
  · change Fails (computeMonroe w.env w.matching w.minCost (monroeSolver w.solve w.matching w.minCost p a) p a)
    unfold computeMonroe
    refine Fails.bind_right _ fun alg' h => ?_
    rw [hal] at h
    obtain rfl := Except.ok.inj h
    refine Fails.ite (fun _ => Fails.error _) fun _ => ?_
    dsimp only
    rw [if_neg halg.1]
    refine Fails.bind ?_ _
    unfold monroeSolver
    have := fun thr score P => Fails.bind (ho alg thr score a.k a.resolute a.maxNum P) (fun r => sortedCommittees r.1)
    exact Fails.ite (fun _ => this _ _ _) fun _ => Fails.ite (fun _ => this _ _ _) fun _ => Fails.ite (fun _ => this _ _ _)
      fun _ => Fails.error _
  · change Fails (computeMinimaxav w.env (minimaxavSolver w.solve p a) p a)
    unfold computeMinimaxav
    refine Fails.bind_right _ fun alg' h => ?_
    rw [hal] at h
    obtain rfl := Except.ok.inj h
    dsimp only
    rw [if_neg halg.1]
    refine Fails.bind ?_ _
    unfold minimaxavSolver
    exact Fails.ite (fun _ => hmm _ _ _ _ _) fun _ => Fails.ite (fun _ => hmm _ _ _ _ _) fun _ => Fails.ite (fun _ => hmm _ _ _ _ _)
      fun _ => Fails.error _
  · change Fails (computeLexminimaxav w.env (lexminimaxavSolver w.solve p a) p a)
    unfold computeLexminimaxav
    refine Fails.bind_right _ fun alg' h => ?_
    rw [hal] at h
    obtain rfl := Except.ok.inj h
    refine Fails.ite (fun _ => Fails.error _) fun _ => ?_
    rw [if_neg halg.1]
    unfold lexminimaxavSolver gurobiLexminimaxav
    exact Fails.ite (fun _ => Fails.bind (hmm _ _ _ _ _) _) fun _ => Fails.error _
  · change Fails (computeMinimaxphragmen w.env w.solve p a)
    unfold computeMinimaxphragmen ilpMinimaxphragmen
    refine Fails.bind_right _ fun alg' h => ?_
    have := fun alg => Fails.ite (c := p.approvedCandidates.length < a.k) (x := .ok (tooFewApproved p a.k a.resolute))
      (fun h => absurd hk (not_le.2 h))
      fun _ => Fails.bind (ho alg thrMip none a.k a.resolute a.maxNum (minimaxphragmenProgram p a.k)) (fun r => sortedCommittees r.1)
    exact Fails.ite (fun _ => this _) fun _ => Fails.ite (fun _ => this _) fun _ => Fails.error _
  · change Fails (computeLeximaxphragmen w.env w.solve p a false)
    unfold computeLeximaxphragmen gurobiLeximaxphragmen
    refine Fails.bind_right _ fun alg' h => Fails.ite (fun _ => Fails.error _) fun _ => Fails.ite (fun _ => ?_) fun _ => Fails.error _
    exact Fails.bind (Fails.ite (fun h => absurd hk (not_le.2 h)) fun _ => Fails.bind_right _ fun _ _ => Fails.bind (ho _ _ _ _ _ _ _) _) _

/-! ### Examples -/

/-- Non-vacuity: there is a sound solver that gives up on all programs with more than `n` constraints and solves all others. -/
theorem exists_soundSolver (n : ℕ) : ∃ s, SoundSolver s ∧ (∀ P, n < P.constrs.length → s P = .other) ∧
    ∀ P, P.constrs.length ≤ n → (∃ x, OptimalSol P x) → ∃ x, s P = .optimal x := by
  classical
  refine ⟨fun P => if n < P.constrs.length then .other else if h : ∃ x, OptimalSol P x then .optimal h.choose
    else if ∃ x, Feasible P x then .other else .infeasible, fun P => ⟨fun x hx => ?_, fun h => ?_⟩, fun P hP => if_pos hP,
    fun P hP hx => ⟨hx.choose, ?_⟩⟩
  · dsimp only at hx
    split at hx
    · cases hx
    · split at hx
      · cases hx
        rename_i h
        exact h.choose_spec
      · split at hx <;> cases hx
  · dsimp only at h
    split at h
    · cases h
    · split at h
      · cases h
      · split at h
        · cases h
        · assumption
  · simp only [if_neg (not_lt.2 hP), dif_pos hx]

/-- Non-vacuity: there are worlds as required whose solvers give up on all large programs. -/
theorem exists_sound_world (env : Env) (n : ℕ) : ∃ w : World, w.env = env ∧ w.Sound ∧ ∀ alg P, n < P.constrs.length →
    w.solve alg P = .other := by
  obtain ⟨w, h1, h2⟩ := exists_exact_world env
  obtain ⟨s, h3, h4, -⟩ := exists_soundSolver n
  exact ⟨{ w with solve := fun _ => s }, h1, ⟨fun _ => h3, fun s' hs' =>
    ⟨hs', h2.matching, h2.minCost, h2.iter, h2.listing, h2.canonical, h2.shuffle, h2.sample⟩⟩, fun _ P hP => h4 P hP⟩

theorem soundSolver_other : SoundSolver (fun _ => .other) := fun P => ⟨fun x hx => by simp at hx, fun h => by simp at h⟩

theorem soundMaxSolver_other : SoundMaxSolver (fun _ => .other) := fun P => ⟨fun x hx => by simp at hx, fun h => by simp at h⟩

/-- The example environment with Gurobi. -/
def gurobiEnv : Env := { exampleEnv with available := "gurobi" :: exampleEnv.available }

/-- A call with a solver that gives up raises an exception. -/
example (w : World) (hw : w.env = gurobiEnv) (hs : ∀ alg P, w.solve alg P = .other) :
    ∃ e, compute w "pav" exampleProfile 2 none { algorithm := some "gurobi", resolute := some false } = .error e :=
  C81_compute_raises w hs exampleProfile { committeesize := 2, algorithm := "gurobi", resolute := false } "pav" "gurobi"
    (by rw [hw]; decide +kernel) (by simp) (by decide)

/-- A call that returns although the solvers give up on everything large. -/
example : ∃ (w : World) (cs : List (List ℕ)), w.Sound ∧ (∀ alg P, 0 < P.constrs.length → w.solve alg P = .other) ∧
    compute w "pav" exampleProfile 2 none { algorithm := some "brute-force", resolute := some false } = .ok cs ∧
    Answers { committeesize := 2, algorithm := "brute-force", resolute := false } (.ok cs) (ThieleOpt (marginalFct .pav) exampleProfile 2) := by
  obtain ⟨w, h1, h2, h3⟩ := exists_sound_world gurobiEnv 0
  have hal : prologue w.env "pav" exampleProfile { committeesize := 2, algorithm := "brute-force", resolute := false }
      = .ok "brute-force" := by rw [h1]; decide +kernel
  have hc : compute w "pav" exampleProfile 2 none { algorithm := some "brute-force", resolute := some false } = .ok [[1, 2]] := by
    have hb : thieleBruteforce (marginalFct .pav) exampleProfile 2 false none = .ok [[1, 2]] := by decide +kernel
    have := compute_none hal
    change compute w "pav" exampleProfile 2 none { algorithm := some "brute-force", resolute := some false } = _ at this
    rw [this]
    change w.thiele "pav" exampleProfile _ = _
    unfold World.thiele computeThieleMethod
    rw [hal]
    change (do let committees ← thieleBruteforce (marginalFct .pav) exampleProfile 2 false none
               let _ ← pyGet committees 0
               Except.ok committees) = _
    rw [hb]
    rfl
  exact ⟨w, _, h2, h3, hc, C81_compute w h2 _ exampleProfile_wf _ "pav" "brute-force" hal (.thiele rfl (Or.inl rfl) (by simp)) hc⟩

example : check (fun _ => .other) (fun _ => .other) [] "pjr" fourVoters [0, 1] none "fastest" = .error .runtimeError :=
  C81_check_raises (fun _ => rfl) (fun _ => rfl) [] (W := [0, 1]) ⟨by decide, by decide, by decide, by
    intro v hv
    simp [fourVoters] at hv
    rcases hv with rfl | rfl | rfl | rfl <;> norm_num⟩ (by decide) (by decide) (by decide) (by decide) (Or.inl rfl) (by simp)

end Abc
