import Verif.Props.Resolute
import Verif.Props.Ballots
import Verif.Props.ReportShares

/-!
# C118: with `resolute=True` only the electorate matters

For Greedy Monroe this is false, see `C49_greedy_monroe_not_anonymous`.
-/

namespace Abc

open Spec

/-- Simulation of smallest-index runs from any start. -/
theorem runFirstFrom_ballots {σ τ : Type} {Best : List ℕ → σ → ℕ → Prop} {upd : List ℕ → σ → ℕ → σ} {Best' : List ℕ → τ → ℕ → Prop}
    {upd' : List ℕ → τ → ℕ → τ} (R : σ → τ → Prop) {W₀ : List ℕ} {s₀ : σ} {t₀ : τ} (h0 : R s₀ t₀)
    (hb : ∀ W s t c, R s t → (Best W s c ↔ Best' W t c)) (hs : ∀ W s t c, R s t → Best W s c → R (upd W s c) (upd' W t c))
    {W : List ℕ} {s : σ} (h : RunFirst Best upd W₀ s₀ W s) : ∃ t, RunFirst Best' upd' W₀ t₀ W t ∧ R s t := by
  induction h with
  | start => exact ⟨t₀, .start, h0⟩
  | @step W s c _ hc hfst ih =>
    obtain ⟨t, h1, h2⟩ := ih
    exact ⟨_, .step h1 ((hb W s t c h2).1 hc) (fun d hd h => hfst d hd ((hb W s t d h2).2 h)), hs W s t c h2 hc⟩

theorem same_of_run {σ τ : Type} {Best : List ℕ → σ → ℕ → Prop} {upd : List ℕ → σ → ℕ → σ} {Best' : List ℕ → τ → ℕ → Prop}
    {upd' : List ℕ → τ → ℕ → τ} (R : σ → τ → Prop) {s₀ : σ} {t₀ : τ} (h0 : R s₀ t₀)
    (hb : ∀ W s t c, R s t → (Best W s c ↔ Best' W t c)) (hs : ∀ W s t c, R s t → Best W s c → R (upd W s c) (upd' W t c)) {k : ℕ}
    {r r' : Except Err (List (List ℕ))} (h : ∃ W x, RunFirst Best upd [] s₀ W x ∧ W.length = k ∧ r = .ok [sortNat W])
    (h' : ∃ W x, RunFirst Best' upd' [] t₀ W x ∧ W.length = k ∧ r' = .ok [sortNat W]) : SameCommittee r r' := by
  obtain ⟨W, x, h1, h2, h3⟩ := h
  obtain ⟨W', x', h1', h2', h3'⟩ := h'
  obtain ⟨y, hy, -⟩ := runFirstFrom_ballots R h0 hb hs h1
  obtain ⟨rfl, -⟩ := RunFirst.unique hy h1' (h2.trans h2'.symm)
  exact ⟨_, h3, h3'⟩

theorem same_of_least {le : List ℕ → List ℕ → Prop}
    (hle : ∀ V W : List ℕ, V.Pairwise (· < ·) → W.Pairwise (· < ·) → le V W → le W V → V = W)
    {S S' : Finset ℕ → Prop} (hS : ∀ A, S A ↔ S' A) {r r' : Except Err (List (List ℕ))} (h : ∃ W, r = .ok [W] ∧ LeastOf le S W)
    (h' : ∃ W, r' = .ok [W] ∧ LeastOf le S' W) : SameCommittee r r' := by
  obtain ⟨W, h1, h2, h3, h4⟩ := h
  obtain ⟨W', h1', h2', h3', h4'⟩ := h'
  obtain rfl := hle W W' h2 h2' (h4 W' h2' ((hS _).2 h3')) (h4' W h2 ((hS _).1 h3))
  exact ⟨W, h1, h1'⟩

section
variable {p p' : Profile} (h : SameBallots p p') (hp : p.WF) (hp' : p'.WF)
include h

theorem seqRunFirst_ballots {f : ℕ → ℚ} {W : List ℕ} (hW : SeqRunFirst f p W) : SeqRunFirst f p' W := by
  induction hW with
  | nil => exact .nil
  | snoc _ h1 h2 h3 h4 ih =>
    refine .snoc ih (h.1 ▸ h1) h2 (fun d hd hdW => ?_) (fun d hd hdW => ?_)
    · have := h3 d (h.1.symm ▸ hd) hdW
      unfold gain at this ⊢
      simpa only [score_ballots h] using this
    · have := h4 d hd hdW
      unfold gain at this ⊢
      simpa only [score_ballots h] using this

include hp hp'

theorem separableScores_ballots (r : SepRule) : separableScores r p = separableScores r p' := by
  refine List.ext_getElem ?_ fun c hc hc' => ?_
  · rw [separableScores_length, separableScores_length, h.1]
  · rw [separableScores_length] at hc
    have e := separableScores_getD r p hp c hc
    have e' := separableScores_getD r p' hp' c (h.1 ▸ hc)
    rw [List.getD_eq_getElem _ _ (by rwa [separableScores_length])] at e
    rw [List.getD_eq_getElem _ _ (by rwa [separableScores_length, ← h.1])] at e'
    rw [e, e', candScore_ballots h]

theorem separableAlgorithm_ballots (r : SepRule) (k : ℕ) (res : Bool) (m : Option ℕ) :
    separableAlgorithm r p k res m = separableAlgorithm r p' k res m := by
  unfold separableAlgorithm
  rw [separableScores_ballots h hp hp']
  unfold separableCommittees Profile.candidates
  rw [h.1]

/-- Equal Shares: the outcome with smallest-index tie-breaking. -/
theorem mesFirst_ballots {k : ℕ} {cp : Completion} (hcp : cp = .none ∨ cp = .seqphragmen) {r : ℚ}
    {X X' W W' : List ℕ} {b : VoterMap p} {b' : VoterMap p'} (hX : X.Pairwise (· < ·)) (hX' : X'.Pairwise (· < ·))
    (g : RunFirst (MESBest p) (mesUpd p) [] (budgetOf p r) W b)
    (he : (W.length = k ∧ W.toFinset = X.toFinset) ∨ (W.length < k ∧ MESDone p W b ∧ CompletedR p k true cp W b X.toFinset))
    (g' : RunFirst (MESBest p') (mesUpd p') [] (budgetOf p' r) W' b')
    (he' : (W'.length = k ∧ W'.toFinset = X'.toFinset) ∨ (W'.length < k ∧ MESDone p' W' b' ∧ CompletedR p' k true cp W' b' X'.toFinset)) :
    X' = X := by
  obtain ⟨y, h3, h4⟩ := runFirstFrom_ballots (SameBudgets p p') (budgetOf_ballots p p' r)
    (fun W _ _ c hx => mesBest_ballots h hp hp' hx W c) (fun W _ _ c hx _ => mesUpd_ballots h hp hp' hx W c) g
  obtain ⟨rfl, rfl⟩ := mesFirst_unique hp' h3 g' (he.imp And.left fun e => ⟨e.1, (mesDone_ballots h h4 W).1 e.2.1⟩)
    (he'.imp And.left fun e => ⟨e.1, e.2.1⟩)
  rcases he with ⟨e1, e2⟩ | ⟨e1, e2, e3⟩
  · rcases he' with ⟨-, e2'⟩ | ⟨e1', -, -⟩
    · exact asc_unique hX' hX (e2'.symm.trans e2)
    · omega
  · rcases he' with ⟨e1', -⟩ | ⟨-, -, e3'⟩
    · omega
    · rcases hcp with rfl | rfl
      · unfold CompletedR at e3 e3'
        rw [if_neg (by simp)] at e3 e3'
        have e3 : X.toFinset = W.toFinset := e3
        have e3' : X'.toFinset = W.toFinset := e3'
        exact asc_unique hX' hX (e3'.trans e3.symm)
      · unfold CompletedR at e3 e3'
        rw [if_pos ⟨rfl, rfl⟩] at e3 e3'
        obtain ⟨V, x, v1, v2, v3⟩ := e3
        obtain ⟨V', x', v1', v2', v3'⟩ := e3'
        have hl : SameLoads p p' (fun i => - b i / (p.voters.get i).weight) (fun i => - y i / (p'.voters.get i).weight) := by
          obtain ⟨Y, g1, g2⟩ := h4
          refine ⟨fun A => - Y A, fun i => ?_, fun i => ?_⟩
          · have := weight_pos hp i
            simp only [g1]
            field_simp
          · have := weight_pos hp' i
            simp only [g2]
            field_simp
        obtain ⟨z, hz, -⟩ := runFirstFrom_ballots (SameLoads p p') hl (fun W _ _ c hx => phragBest_ballots h hp hp' hx W c)
          (fun W _ _ c hx _ => phragUpd_ballots h hx W c) v1
        obtain ⟨rfl, -⟩ := RunFirst.unique hz v1' (v2.trans v2'.symm)
        exact asc_unique hX' hX (v3'.symm.trans v3)

end

/-- Completion by increments, if fewer than `k` candidates are approved. -/
theorem increment_eq {env : Env} {float : Except Err (List (List ℕ))} {p : Profile} {a : Args} {alg : String}
    (hal : prologue env "equal-shares-with-increment-completion" p a = .ok alg) (hlt : p.approvedCandidates.length < a.k) :
    computeEqualShares env float .increment p a = separableAlgorithm .av p a.k true none >>= sortedCommittees := by
  unfold computeEqualShares
  simp only [Completion.ruleId, bind, Except.bind, hal, if_true]
  unfold equalSharesIncrement
  rw [if_pos hlt]

/-! ### The theorems -/

section
variable {w w' : World} (hw : w.Exact) (hw' : w'.Exact) {p p' : Profile} (hp : p.WF) (hp' : p'.WF) {a a' : Args}
  (h : a.resolute = true) (h' : a'.resolute = true) (hk : a.k = a'.k) {ruleId alg alg' : String}
  (hal : prologue w.env ruleId p a = .ok alg) (hal' : prologue w'.env ruleId p' a' = .ok alg')
include hw hw' hp hp' h h' hk hal hal'

/-- **C118** `resolute=True`: the same committee is returned for two profiles in which every nonempty ballot has the same total weight. -/
theorem C118_empty_ballots (hb : SameBallots p p') (hr : ResoluteBallotRule w w' p p' a.k alg alg' ruleId) :
    SameCommittee (compute w ruleId p a.committeesize none a.kw) (compute w' ruleId p' a'.committeesize none a'.kw) := by
  cases hr with
  | av => exact same_of_least lex_antisymm (hk ▸ sepOpt_ballots hb _ _) (least_separable hp h hal .av rfl) (least_separable hp' h' hal' .av rfl)
  | sav =>
    exact same_of_least lex_antisymm (hk ▸ sepOpt_ballots hb _ _) (least_separable hp h hal .sav rfl) (least_separable hp' h' hal' .sav rfl)
  | thiele h1 h2 h3 h4 h5 =>
    exact same_of_least lex_antisymm (hk ▸ thieleOpt_ballots hb _ _) (least_thiele hp h hal hw h1 h3 h4) (least_thiele hp' h' hal' hw' h2 h3 h5)
  | thieleBranch h1 h2 h3 h4 h5 =>
    exact same_of_least key_antisymm (hk ▸ thieleOpt_ballots hb _ _) (least_branch hp h hal hw h1 h3 h4) (least_branch hp' h' hal' hw' h2 h3 h5)
  | lexcc h1 h2 =>
    exact same_of_least key_antisymm (hk ▸ lexccOpt_ballots hb _)
      (least_leading hp h hal hw (.lexcc fun g => absurd (h1.symm.trans g) (by decide)) h1 (Or.inl rfl))
      (least_leading hp' h' hal' hw' (.lexcc fun g => absurd (h2.symm.trans g) (by decide)) h2 (Or.inl rfl))
  | lexminimaxav h1 h2 h3 h4 =>
    exact same_of_least key_antisymm (hk ▸ lexminimaxav_ballots hb hp hp' h1 h2 _)
      (least_leading hp h hal hw (.lexminimaxav h1) h3 (Or.inr (Or.inr ⟨Or.inl rfl, h1⟩)))
      (least_leading hp' h' hal' hw' (.lexminimaxav h2) h4 (Or.inr (Or.inr ⟨Or.inl rfl, h2⟩)))
  | @seqThiele sid s h1 h2 h3 =>
    obtain ⟨ri, hi, -⟩ := (C19_prologue_ok_iff _ _ p a alg).1 hal
    obtain ⟨ri', hi', -⟩ := (C19_prologue_ok_iff _ _ p' a' alg').1 hal'
    obtain ⟨W, g1, g2, g3⟩ := C27_seqThiele_resolute w.env sid s p hp a
      (standard_of hal ((ruleInfo_seq (Or.inl rfl) h1 hi) ▸ hi)) h1 h3 h
    obtain ⟨W', g1', g2', g3'⟩ := C27_seqThiele_resolute w'.env sid s p' hp' a'
      (standard_of hal' ((ruleInfo_seq (Or.inl rfl) h2 hi') ▸ hi')) h2 h3 h'
    rw [compute_none hal, compute_none hal', run_seq w p _ h1, run_seq w' p' _ h2]
    obtain rfl := SeqRunFirst.unique (seqRunFirst_ballots hb g1) g1' (by rw [g2, g2', hk])
    exact ⟨_, g3, g3'⟩
  | seqphragmen h1 h2 h3 =>
    rw [compute_none hal, compute_none hal']
    have g := C33_seqphragmen_resolute w.env (w.float "seqphragmen" p a) p hp h1 a alg hal h2 h
    have g' := C33_seqphragmen_resolute w'.env (w'.float "seqphragmen" p' a') p' hp' (approvers_ballots hb hp hp' h1) a' alg' hal' h3 h'
    rw [← hk] at g'
    exact same_of_run (SameLoads p p') (sameLoads_const p p' 0) (fun W _ _ c hx => phragBest_ballots hb hp hp' hx W c)
      (fun W _ _ c hx _ => phragUpd_ballots hb hx W c) g g'
  | maximinSupport h1 h2 h3 h4 h5 =>
    rw [compute_none hal, compute_none hal']
    have g := maximin_first w.env w.solve w.iter h4 p hp h1 a h3 alg hal (hw.solve alg) h
    have g' := maximin_first w'.env w'.solve w'.iter h5 p' hp' h2 a' (by rw [← hk]; exact h3) alg' hal' (hw'.solve alg') h'
    rw [← hk] at g'
    refine same_of_run (fun _ _ => True) trivial (fun W _ _ c _ => ?_) (fun _ _ _ _ _ _ => trivial) g g'
    unfold MaximinBest
    simp only [supportAtLeast_ballots hb hp hp', hb.1]
  | trivial =>
    rw [compute_none hal, compute_none hal']
    exact ⟨_, (C42_trivial w.env p a (standard_of hal rfl)).2 h, by rw [hk]; exact (C42_trivial w'.env p' a' (standard_of hal' rfl)).2 h'⟩

/-- **C118** `resolute=True`: the same committee is returned for two profiles in which every ballot has the same total weight. -/
theorem C118_electorate (hE : SameElectorate p p') (hr : ResoluteElectorateRule w w' p p' a.k alg alg' ruleId) :
    SameCommittee (compute w ruleId p a.committeesize none a.kw) (compute w' ruleId p' a'.committeesize none a'.kw) := by
  have hb := hE.ballots
  have ht := total_electorate hE
  cases hr with
  | ballots hr => exact C118_empty_ballots hw hw' hp hp' h h' hk hal hal' hb hr
  | monroe h1 h2 h3 h4 =>
    obtain ⟨R, hR⟩ := renaming_of_electorate hE h1 h2
    obtain ⟨R', hR'⟩ := renaming_of_electorate hE.symm h2 h1
    have e : ∀ A, R.set A = A := cand_one hR
    have e' : ∀ A, R'.set A = A := cand_one hR'
    exact same_of_least key_antisymm (hk ▸ fun A => ⟨fun hA => e A ▸ hA.rename R, fun hA => e' A ▸ hA.rename R'⟩)
      (least_leading hp h hal hw (.monroe h1) h3 (Or.inr (Or.inr ⟨Or.inr rfl, h1⟩)))
      (least_leading hp' h' hal' hw' (.monroe h2) h4 (Or.inr (Or.inr ⟨Or.inr rfl, h2⟩)))
  | minimaxav h1 h2 =>
    exact same_of_least key_antisymm (hk ▸ minimaxav_electorate hE hp hp' _)
      (least_leading hp h hal hw .minimaxav h1 (Or.inr (Or.inl rfl))) (least_leading hp' h' hal' hw' .minimaxav h2 (Or.inr (Or.inl rfl)))
  | equalShares h1 h2 h3 h4 =>
    have same : ∀ {e : Env} {q : Profile} {b : Args} {x : String}, prologue e ruleId q b = .ok x → prologue e "equal-shares" q b = .ok x := by
      intro e q b x hx
      rw [← hx]
      refine prologue_alias ?_ q b
      simp only [List.mem_cons, List.not_mem_nil, or_false] at h1
      rcases h1 with rfl | rfl | rfl <;> rfl
    have run : ∀ (u : World) (q : Profile) (b : Args), u.run ruleId q b = computeEqualShares u.env (u.float ruleId q b) .seqphragmen q b := by
      intro u q b
      simp only [List.mem_cons, List.not_mem_nil, or_false] at h1
      rcases h1 with rfl | rfl | rfl <;> rfl
    obtain ⟨X, W, b, g1, g2, g3, g4⟩ := C38_equal_shares_resolute w.env (w.float ruleId p a) p hp .seqphragmen
      (Or.inr (Or.inl ⟨rfl, h2⟩)) a _ alg rfl (same hal) h3 h
    obtain ⟨X', W', b', g1', g2', g3', g4'⟩ := C38_equal_shares_resolute w'.env (w'.float ruleId p' a') p' hp' .seqphragmen
      (Or.inr (Or.inl ⟨rfl, approvers_ballots hb hp hp' h2⟩)) a' _ alg' rfl (same hal') h4 h'
    rw [compute_none hal, compute_none hal', run, run]
    rw [← hk, ← ht] at g3'
    rw [← hk] at g4'
    obtain rfl := mesFirst_ballots hb hp hp' (Or.inr rfl) g2 g2' g3 g4 g3' g4'
    exact ⟨_, g1, g1'⟩
  | equalSharesNone h1 h2 h3 =>
    have same : ∀ {e : Env} {q : Profile} {b : Args} {x : String}, prologue e ruleId q b = .ok x →
        prologue e "equal-shares-without-completion" q b = .ok x := by
      intro e q b x hx
      rw [← hx]
      refine prologue_alias ?_ q b
      simp only [List.mem_cons, List.not_mem_nil, or_false] at h1
      rcases h1 with rfl | rfl | rfl <;> rfl
    have run : ∀ (u : World) (q : Profile) (b : Args), u.run ruleId q b = computeEqualShares u.env (u.float ruleId q b) .none q b := by
      intro u q b
      simp only [List.mem_cons, List.not_mem_nil, or_false] at h1
      rcases h1 with rfl | rfl | rfl <;> rfl
    obtain ⟨X, W, b, g1, g2, g3, g4⟩ := C38_equal_shares_resolute w.env (w.float ruleId p a) p hp .none
      (Or.inl rfl) a _ alg rfl (same hal) h2 h
    obtain ⟨X', W', b', g1', g2', g3', g4'⟩ := C38_equal_shares_resolute w'.env (w'.float ruleId p' a') p' hp' .none
      (Or.inl rfl) a' _ alg' rfl (same hal') h3 h'
    rw [compute_none hal, compute_none hal', run, run]
    rw [← hk, ← ht] at g3'
    rw [← hk] at g4'
    obtain rfl := mesFirst_ballots hb hp hp' (Or.inl rfl) g2 g2' g3 g4 g3' g4'
    exact ⟨_, g1, g1'⟩
  | equalSharesIncrement h1 h2 h3 =>
    rw [compute_none hal, compute_none hal']
    have hex := C39_increment w.env (w.float "equal-shares-with-increment-completion" p a) p hp h1 a alg hal h2
    have hex' := C39_increment w'.env (w'.float "equal-shares-with-increment-completion" p' a') p' hp' (approvers_ballots hb hp hp' h1) a'
      alg' hal' h3
    rw [← hk, ← approvedSet_card, ← approvedSet_ballots hb hp hp', ← ht] at hex'
    rw [← approvedSet_card] at hex
    rcases lt_or_ge (approvedSet p).card a.k with hlt | hge
    · obtain ⟨X, e, -⟩ := hex.1 hlt
      refine ⟨X, e, ?_⟩
      have e1 := increment_eq (float := w.float "equal-shares-with-increment-completion" p a) hal (by rw [← approvedSet_card]; exact hlt)
      have e2 := increment_eq (float := w'.float "equal-shares-with-increment-completion" p' a') hal'
        (by rw [← approvedSet_card, ← approvedSet_ballots hb hp hp', ← hk]; exact hlt)
      rw [← hk, ← separableAlgorithm_ballots hb hp hp'] at e2
      exact e2.trans (e1.symm.trans e)
    · obtain ⟨inc, W, q1, q2, q3, q4, q5⟩ := hex.2 hge
      obtain ⟨inc', W', q1', q2', q3', q4', q5'⟩ := hex'.2 hge
      have uniq : ∀ {r : ℚ} {V V' : List ℕ}, FirstOutcome p a.k r V → FirstOutcome p' a.k r V' → V = V' := by
        intro r V V' hV hV'
        obtain ⟨b, g1, g2⟩ := firstOutcome_ballots hb hp hp' hV
        obtain ⟨b', g1', g2'⟩ := hV'
        exact (mesFirst_unique hp' g1 g1' g2 g2').1
      have hinc : inc = inc' := by
        rcases lt_trichotomy inc inc' with hh | hh | hh
        · obtain ⟨V, v1, v2⟩ := q5' inc q1 hh
          have := uniq q2 v1
          subst this
          omega
        · exact hh
        · obtain ⟨V, v1, v2⟩ := q5 inc' q1' hh
          have := uniq v1 q2'
          subst this
          omega
      subst hinc
      obtain rfl := uniq q2 q2'
      exact ⟨_, q4, q4'⟩
  | enestroem h1 h2 =>
    rw [compute_none hal, compute_none hal']
    have g := (C40_enestroem w.env (w.float "phragmen-enestroem" p a) p hp a alg hal h1).2 h
    have g' := (C40_enestroem w'.env (w'.float "phragmen-enestroem" p' a') p' hp' a' alg' hal' h2).2 h'
    rw [← hk, ← ht] at g'
    exact same_of_run (SameBudgets p p') ⟨fun _ => 1, fun _ => (mul_one _).symm, fun _ => (mul_one _).symm⟩
      (fun W _ _ c hx => supportBest_ballots hb hp hp' hx W c) (fun W _ _ c hx _ => enestroemUpd_ballots hb hp hp' hx (total p / a.k) W c) g g'
  | consensus h1 h2 =>
    rw [compute_none hal, compute_none hal']
    have g := (C41_consensus w.env (w.float "consensus-rule" p a) p a alg hal h1).2 h
    have g' := (C41_consensus w'.env (w'.float "consensus-rule" p' a') p' a' alg' hal' h2).2 h'
    rw [← hk] at g'
    exact same_of_run (SameBudgets p p') ⟨fun _ => 0, fun _ => (mul_zero _).symm, fun _ => (mul_zero _).symm⟩
      (fun W _ _ c hx => supportBest_ballots hb hp hp' (income_ballots hx) W c)
      (fun W _ _ c hx _ => consensusUpd_ballots hb hp hp' ht hx W c) g g'

end

/-! ### The hypotheses can be met -/

/-- Two voters with the same ballot are merged into one of weight 2 who votes last. -/
theorem merged_same : SameElectorate ⟨3, [⟨[0, 1], 1⟩, ⟨[1, 0], 1⟩, ⟨[2], 1⟩], []⟩ ⟨3, [⟨[2], 1⟩, ⟨[0, 1], 2⟩], []⟩ := by
  refine ⟨rfl, fun A => ?_⟩
  unfold electorate Voter.A
  by_cases h : A = {0, 1}
  · subst h; decide +kernel
  · by_cases h' : A = {2}
    · subst h'; decide +kernel
    · have h1 : ¬ ([0, 1] : List ℕ).toFinset = A := fun e => h (by rw [← e]; decide)
      have h2 : ¬ ([1, 0] : List ℕ).toFinset = A := fun e => h (by rw [← e]; decide)
      have h3 : ¬ ([2] : List ℕ).toFinset = A := fun e => h' (by rw [← e]; decide)
      simp only [List.filter_cons, List.filter_nil, h1, h2, h3, decide_false, Bool.false_eq_true, if_false]

example (w : World) (hw : w.env = exampleEnv) (p p' : Profile) (e : p = ⟨3, [⟨[0, 1], 1⟩, ⟨[1, 0], 1⟩, ⟨[2], 1⟩], []⟩)
    (e' : p' = ⟨3, [⟨[2], 1⟩, ⟨[0, 1], 2⟩], []⟩) :
    SameElectorate p p' ∧
    ResoluteElectorateRule w w p p' 2 "standard-fractions" "standard-fractions" "equal-shares-with-increment-completion" ∧
    prologue w.env "equal-shares-with-increment-completion" p { committeesize := 2, resolute := true } = .ok "standard-fractions" ∧
    prologue w.env "equal-shares-with-increment-completion" p' { committeesize := 2, resolute := true } = .ok "standard-fractions" ∧
    compute bothWorld "equal-shares-with-increment-completion" p 2 none {} = .ok [[0, 1]] ∧
    compute bothWorld "equal-shares-with-increment-completion" p' 2 none {} = .ok [[0, 1]] := by
  subst e e'
  refine ⟨merged_same, .equalSharesIncrement (approversAtLeastOne_of_weights (by decide +kernel)) (Or.inl rfl) (Or.inl rfl), ?_, ?_, ?_, ?_⟩
  · rw [hw]; decide +kernel
  · rw [hw]; decide +kernel
  · decide +kernel
  · decide +kernel

end Abc
