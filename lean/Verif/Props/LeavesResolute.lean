import Verif.Props.CandidateLeaves
import Verif.Props.Resolute

/-!
# C119: with `resolute=True` a losing candidate can leave
-/

namespace Abc

open Spec

theorem Spec.LoserIrrelevantOne.trans {c : ℕ} {r₁ r₂ r₃ : Except Err (List (List ℕ))} (h : LoserIrrelevantOne c r₁ r₂)
    (h' : LoserIrrelevantOne c r₂ r₃) : LoserIrrelevantOne c r₁ r₃ := by
  obtain ⟨W₁, W₂, e1, e2, g⟩ := h
  obtain ⟨W₂', W₃, e2', e3, g'⟩ := h'
  obtain rfl : W₂ = W₂' := by
    have := e2.symm.trans e2'
    injection this with this
    injection this
  exact ⟨W₁, W₃, e1, e3, fun hc => by
    have e := g' hc
    rw [e]
    exact g (e ▸ hc)⟩

/-! ### First runs -/

section
variable {σ : Type} {Best Best' : List ℕ → σ → ℕ → Prop} {upd : List ℕ → σ → ℕ → σ} {W₀ : List ℕ} {s₀ : σ} {n : ℕ}

theorem runFirst_narrow (h1 : ∀ W s c, Best W s c → Best' W s c) (h2 : ∀ W s c, c < n → Best' W s c → Best W s c)
    (h3 : ∀ W s c, Best' W s c → c < n + 1) {W : List ℕ} {s : σ} (h : RunFirst Best' upd W₀ s₀ W s) (hn : n ∉ W) :
    RunFirst Best upd W₀ s₀ W s := by
  induction h with
  | start => exact .start
  | @step V t d hr hb hf ih =>
    rw [List.mem_append, not_or, List.mem_singleton] at hn
    have := h3 _ _ _ hb
    exact .step (ih hn.1) (h2 _ _ _ (by omega) hb) fun e he g => hf e he (h1 _ _ _ g)

theorem one_of_narrow (h1 : ∀ W s c, Best W s c → Best' W s c) (h2 : ∀ W s c, c < n → Best' W s c → Best W s c)
    (h3 : ∀ W s c, Best' W s c → c < n + 1) {k : ℕ} {r r' : Except Err (List (List ℕ))}
    (h : ∃ W x, RunFirst Best upd [] s₀ W x ∧ W.length = k ∧ r = .ok [sortNat W])
    (h' : ∃ W x, RunFirst Best' upd [] s₀ W x ∧ W.length = k ∧ r' = .ok [sortNat W]) : LoserIrrelevantOne n r r' := by
  obtain ⟨W, x, g1, g2, g3⟩ := h
  obtain ⟨W', x', g1', g2', g3'⟩ := h'
  refine ⟨_, _, g3, g3', fun hc => ?_⟩
  rw [mem_sortNat] at hc
  rw [(RunFirst.unique (runFirst_narrow h1 h2 h3 g1' hc) g1 (g2'.trans g2.symm)).1]

end

/-! ### First committees -/

section
variable {p : Profile} {names : List Name}

theorem opt_one {k : ℕ} {R : Finset ℕ → Finset ℕ → Prop} (ht : ∀ A B C, R A B → R B C → R A C) :
    KeepsOne p.numCand (fun A => IsCommittee p k A ∧ ∀ B, IsCommittee p k B → R B A)
      (fun A => IsCommittee (widen p (p.numCand + 1) names) k A ∧ ∀ B, IsCommittee (widen p (p.numCand + 1) names) k B → R B A) := by
  rintro A ⟨h1, h2⟩ hc
  have hA := committee_last h1 hc
  refine ⟨⟨hA, fun B hB => h2 B (committee_widen (by omega) hB)⟩, ?_⟩
  rintro B ⟨g1, g2⟩
  exact ⟨committee_widen (by omega) g1, fun C hC => ht _ _ _ (h2 C hC) (g2 A hA)⟩

theorem monroe_one {k : ℕ} : KeepsOne p.numCand (MonroeOpt p k) (MonroeOpt (widen p (p.numCand + 1) names) k) := by
  rintro A ⟨h1, φ, h2, h3⟩ hc
  have hA := committee_last h1 hc
  refine ⟨⟨hA, φ, h2, fun B ψ hB hψ => h3 B ψ (committee_widen (by omega) hB) hψ⟩, ?_⟩
  rintro B ⟨g1, χ, g2, g3⟩
  exact ⟨committee_widen (by omega) g1, χ, g2, fun C ψ hC hψ => (h3 C ψ hC hψ).trans (g3 A φ hA h2)⟩

variable (hp : p.WF)
include hp

theorem gmBest_widen {n : ℕ} (W : List ℕ) (Ds : List (Group p)) (c : ℕ) (h : GMBest p W Ds c) : GMBest (widen p n names) W Ds c ∨ n < p.numCand := by
  by_cases hn : n < p.numCand
  · exact Or.inr hn
  refine Or.inl ⟨lt_of_lt_of_le h.1 (by simpa [widen] using hn), h.2.1, fun d hd hdW => ?_⟩
  by_cases hlt : d < p.numCand
  · exact h.2.2 d hlt hdW
  · have h0 : backers (widen p n names) d = ∅ := unapproved_iff.1 (unapproved_new hp (not_lt.1 hlt))
    rw [h0]
    simp

theorem seqFirst_narrow {f : ℕ → ℚ} (hf : ∀ i, 0 ≤ f i) {W : List ℕ} (h : SeqRunFirst f (widen p (p.numCand + 1) names) W)
    (hn : p.numCand ∉ W) : SeqRunFirst f p W := by
  induction h with
  | nil => exact .nil
  | @snoc V c _ h2 h3 h4 h5 ih =>
    rw [List.mem_append, not_or, List.mem_singleton] at hn
    have h2' : c < p.numCand + 1 := h2
    exact .snoc (ih hn.1) (by omega) h3 (fun d hd hdW => h4 d (lt_of_lt_of_le hd (by simp [widen])) hdW) (fun d hd hdW => h5 d hd hdW)

/-- Equal Shares -/
theorem first_mes_narrow {k : ℕ} {cp : Completion} (hcp : cp = .none ∨ cp = .seqphragmen) {r : ℚ} {X X' W W' : List ℕ} {b b' : VoterMap p}
    (hX : X.Pairwise (· < ·)) (hX' : X'.Pairwise (· < ·))
    (h : RunFirst (MESBest p) (mesUpd p) [] (budgetOf p r) W b)
    (he : (W.length = k ∧ W.toFinset = X.toFinset) ∨ (W.length < k ∧ MESDone p W b ∧ CompletedR p k true cp W b X.toFinset))
    (h' : RunFirst (MESBest (widen p (p.numCand + 1) names)) (mesUpd p) [] (budgetOf p r) W' b')
    (he' : (W'.length = k ∧ W'.toFinset = X'.toFinset) ∨ (W'.length < k ∧ MESDone (widen p (p.numCand + 1) names) W' b' ∧
      CompletedR (widen p (p.numCand + 1) names) k true cp W' b' X'.toFinset))
    (hc : p.numCand ∉ X') : X' = X := by
  have hn : p.numCand ≤ p.numCand + 1 := by omega
  rw [← mesBest_eq hp hn] at h'
  have hd : MESDone (widen p (p.numCand + 1) names) W' b' ↔ MESDone p W' b' := (mesDone_widen hp hn W' b').symm
  rw [hd] at he'
  have stuck : ∀ {V : List ℕ} {x : VoterMap p}, MESDone p V x → ¬ ∃ d, MESBest p V x d := by
    rintro V x hd ⟨d, d1, d2, q, hq, -⟩
    exact hd d d1 d2 ((exists_price_iff hp x d).1 ⟨q, hq⟩)
  rcases he' with ⟨g1, g2⟩ | ⟨g1, g2, g3⟩
  · rcases he with ⟨e1, e2⟩ | ⟨e1, e2, e3⟩
    · obtain ⟨rfl, -⟩ := RunFirst.unique h' h (g1.trans e1.symm)
      exact asc_unique hX' hX (g2.symm.trans e2)
    · exact absurd (RunFirst.extends h h' (by omega)) (stuck e2)
  · rcases he with ⟨e1, e2⟩ | ⟨e1, e2, e3⟩
    · exact absurd (RunFirst.extends h' h (by omega)) (stuck g2)
    · have hlen : W'.length = W.length := by
        rcases lt_trichotomy W'.length W.length with hlt | heq | hgt
        · exact absurd (RunFirst.extends h' h hlt) (stuck g2)
        · exact heq
        · exact absurd (RunFirst.extends h h' hgt) (stuck e2)
      obtain ⟨rfl, rfl⟩ := RunFirst.unique h' h hlen
      rcases hcp with rfl | rfl
      · unfold CompletedR at e3 g3
        rw [if_neg (by simp)] at e3 g3
        have e3 : X.toFinset = W'.toFinset := e3
        have g3 : X'.toFinset = W'.toFinset := g3
        exact asc_unique hX' hX (g3.trans e3.symm)
      · unfold CompletedR at e3 g3
        rw [if_pos ⟨rfl, rfl⟩] at e3 g3
        obtain ⟨V, x, v1, v2, v3⟩ := e3
        obtain ⟨V', x', v1', v2', v3'⟩ := g3
        have hcV : p.numCand ∉ V' := fun g => hc (List.mem_toFinset.1 (v3' ▸ List.mem_toFinset.2 g))
        have v1'' := runFirst_narrow (Best := PhragBest p) (Best' := PhragBest (widen p (p.numCand + 1) names)) (phragBest_widen hp hn) (phragBest_narrow hn) (fun _ _ _ h => h.1) v1' hcV
        obtain ⟨rfl, -⟩ := RunFirst.unique v1'' v1 (v2'.trans v2.symm)
        exact asc_unique hX' hX (v3'.symm.trans v3)

end

/-! ### A last candidate without approvals -/

section
variable {w : World} (hw : w.Exact) {p : Profile} {names : List Name} (hp : p.WF) {a : Args} (h : a.resolute = true)
  {ruleId alg : String} (hal : prologue w.env ruleId p a = .ok alg)
include hw hp h hal

theorem resolute_widen {w' : World} {p' : Profile} {alg' : String} (hr : ResoluteRule w w' p p' a.k alg alg' ruleId) :
    LoserIrrelevantOne p.numCand (compute w ruleId p a.committeesize none a.kw)
      (compute w ruleId (widen p (p.numCand + 1) names) a.committeesize none a.kw) := by
  have hn : p.numCand ≤ p.numCand + 1 := by omega
  have hq : (widen p (p.numCand + 1) names).WF := widen_wf hp hn
  have halq := prologue_widen (n := p.numCand + 1) (names := names) hn hal
  have lexOne : ∀ {S S' : Finset ℕ → Prop} {r r' : Except Err (List (List ℕ))}, KeepsOne p.numCand S S' →
      (∃ W, r = .ok [W] ∧ LeastOf (· ≤ ·) S W) → (∃ W, r' = .ok [W] ∧ LeastOf (· ≤ ·) S' W) → LoserIrrelevantOne p.numCand r r' := by
    rintro S S' r r' K ⟨W, g1, g2⟩ ⟨W', g1', g2'⟩
    exact ⟨W, W', g1, g1', least_one lex_antisymm g2 g2' K⟩
  have keyOne : ∀ {S S' : Finset ℕ → Prop} {r r' : Except Err (List (List ℕ))}, KeepsOne p.numCand S S' →
      (∃ W, r = .ok [W] ∧ LeastOf (fun V W => strKey V ≤ strKey W) S W) →
      (∃ W, r' = .ok [W] ∧ LeastOf (fun V W => strKey V ≤ strKey W) S' W) → LoserIrrelevantOne p.numCand r r' := by
    rintro S S' r r' K ⟨W, g1, g2⟩ ⟨W', g1', g2'⟩
    exact ⟨W, W', g1, g1', least_one key_antisymm g2 g2' K⟩
  cases hr with
  | av => exact lexOne (opt_one (R := fun B A => ∑ c ∈ B, candScore .av p c ≤ ∑ c ∈ A, candScore .av p c)
      (fun A B C h1 h2 => h1.trans h2)) (least_separable hp h hal .av rfl) (least_separable hq h halq .av rfl)
  | @thiele _ s h1 h2 h3 h4 h5 =>
    exact lexOne (opt_one (R := fun B A => score (marginalFct s) p B ≤ score (marginalFct s) p A) (fun A B C h1 h2 => h1.trans h2))
      (least_thiele hp h hal hw h1 h3 h4) (least_thiele hq h halq hw h1 h3 h4)
  | @thieleBranch _ s h1 h2 h3 h4 h5 =>
    exact keyOne (opt_one (R := fun B A => score (marginalFct s) p B ≤ score (marginalFct s) p A) (fun A B C h1 h2 => h1.trans h2))
      (least_branch hp h hal hw h1 h3 h4) (least_branch hq h halq hw h1 h3 h4)
  | lexcc h1 h2 =>
    exact keyOne (opt_one (R := fun B A => ¬ coverageVector p a.k A < coverageVector p a.k B)
      (fun A B C h1 h2 => by rw [not_lt] at h1 h2 ⊢; exact h1.trans h2))
      (least_leading hp h hal hw (.lexcc fun g => absurd (h1.symm.trans g) (by decide)) h1 (Or.inl rfl))
      (least_leading hq h halq hw (.lexcc fun g => absurd (h1.symm.trans g) (by decide)) h1 (Or.inl rfl))
  | monroe h1 h2 h3 =>
    exact keyOne monroe_one
      (least_leading hp h hal hw (.monroe h1) h2 (Or.inr (Or.inr ⟨Or.inr rfl, h1⟩)))
      (least_leading hq h halq hw (.monroe h1) h2 (Or.inr (Or.inr ⟨Or.inr rfl, h1⟩)))
  | @seqThiele sid s h1 h2 h3 =>
    obtain ⟨ri, hi, -⟩ := (C19_prologue_ok_iff _ _ p a alg).1 hal
    have hst := (ruleInfo_seq (Or.inl rfl) h1 hi) ▸ hi
    obtain ⟨W, g1, g2, g3⟩ := C27_seqThiele_resolute w.env sid s p hp a (standard_of hal hst) h1 h3 h
    obtain ⟨W', g1', g2', g3'⟩ := C27_seqThiele_resolute w.env sid s _ hq a (standard_of halq hst) h1 h3 h
    rw [compute_none hal, compute_none halq, run_seq w p _ h1, run_seq w _ _ h1]
    refine ⟨_, _, g3, g3', fun hc => ?_⟩
    rw [mem_sortNat] at hc
    rw [SeqRunFirst.unique (seqFirst_narrow hp h3 g1' hc) g1 (by rw [g2, g2'])]
  | seqphragmen h1 h2 h3 h4 =>
    rw [compute_none hal, compute_none halq]
    have g := C33_seqphragmen_resolute w.env (w.float "seqphragmen" p a) p hp h1 a alg hal h3 h
    have g' := C33_seqphragmen_resolute w.env (w.float "seqphragmen" (widen p (p.numCand + 1) names) a) _ hq h1 a alg halq h3 h
    exact one_of_narrow (Best := PhragBest p) (Best' := PhragBest (widen p (p.numCand + 1) names)) (phragBest_widen hp hn) (phragBest_narrow hn) (fun _ _ _ h => h.1) g g'
  | maximinSupport h1 h2 h3 h4 h5 =>
    rw [compute_none hal, compute_none halq]
    have g := maximin_first w.env w.solve w.iter h4 p hp h1 a h3 alg hal (hw.solve alg) h
    have g' := maximin_first w.env w.solve w.iter h4 _ hq h1 a h3 alg halq (hw.solve alg) h
    exact one_of_narrow (Best := fun W (_ : Unit) e => MaximinBest 0 p W e)
      (Best' := fun W (_ : Unit) e => MaximinBest 0 (widen p (p.numCand + 1) names) W e) (maximinBest_widen hp hn)
      (fun W s c hc h => ⟨hc, h.2.1, fun d hd => h.2.2 d (lt_of_lt_of_le hd (by simp [widen]))⟩) (fun _ _ _ h => h.1) g g'
  | greedyMonroe h1 h2 h3 =>
    rw [compute_none hal, compute_none halq]
    obtain ⟨W, Ds, C, -, -, g1, -, g2, g3, g4, g5, g6, -⟩ := (C32_greedy_monroe w.env w.matching hw.matching w.minCost hw.minCost
      (w.iter p.candidates) p (hw.iter _) a (standard_of hal rfl)).1 (unitWeights_iff.2 h1)
    obtain ⟨W', Ds', C', -, -, g1', -, g2', g3', g4', g5', g6', -⟩ := (C32_greedy_monroe w.env w.matching hw.matching w.minCost
      hw.minCost (w.iter (widen p (p.numCand + 1) names).candidates) _ (hw.iter _) a (standard_of halq rfl)).1 (unitWeights_iff.2 h1)
    refine ⟨C, C', g1, g1', fun hc => ?_⟩
    have hcW : p.numCand ∉ W' := fun g => hc (List.mem_toFinset.1 (g6' ▸ List.mem_toFinset.2 g))
    have g := runFirst_narrow (Best := GMBest p) (Best' := GMBest (widen p (p.numCand + 1) names)) (upd := gmUpd p a.k) (fun W Ds c hb => (gmBest_widen hp W Ds c hb).resolve_right (by omega))
      (fun W Ds c hc h => ⟨hc, h.2.1, fun d hd hdW => h.2.2 d (lt_of_lt_of_le hd (by simp [widen])) hdW⟩)
      (fun _ _ _ h => h.1) (g2' (h2 _)) hcW
    obtain ⟨rfl, -⟩ := RunFirst.unique g (g2 (h2 _)) (g3'.trans g3.symm)
    exact asc_unique g5' g5 (g6'.trans g6.symm)
  | enestroem h1 h2 =>
    rw [compute_none hal, compute_none halq]
    have g := (C40_enestroem w.env (w.float "phragmen-enestroem" p a) p hp a alg hal h1).2 h
    have g' := (C40_enestroem w.env (w.float "phragmen-enestroem" (widen p (p.numCand + 1) names) a) _ hq a alg halq h1).2 h
    exact one_of_narrow (Best := SupportBest p) (Best' := SupportBest (widen p (p.numCand + 1) names)) (upd := enestroemUpd p (total p / a.k)) (supportBest_leaves hp)
      (supportBest_stays (p := p)) (fun _ _ _ h => h.1) g g'
  | consensus h1 h2 =>
    rw [compute_none hal, compute_none halq]
    have g := (C41_consensus w.env (w.float "consensus-rule" p a) p a alg hal h1).2 h
    have g' := (C41_consensus w.env (w.float "consensus-rule" (widen p (p.numCand + 1) names) a) (widen p (p.numCand + 1) names) a alg halq h1).2 h
    exact one_of_narrow (Best := ConsensusBest p) (Best' := ConsensusBest (widen p (p.numCand + 1) names)) (upd := consensusUpd p) (fun W b c h => supportBest_leaves hp W (income p b) c h)
      (fun W b c hc h => supportBest_stays W (income p b) c hc h) (fun _ _ _ h => h.1) g g'
  | equalShares h1 h2 h3 h4 h5 =>
    have same : ∀ {e : Env} {q : Profile} {b : Args} {x : String}, prologue e ruleId q b = .ok x → prologue e "equal-shares" q b = .ok x := by
      intro e q b x hx
      rw [← hx]
      refine prologue_alias ?_ q b
      simp only [List.mem_cons, List.not_mem_nil, or_false] at h1
      rcases h1 with rfl | rfl | rfl <;> rfl
    have run : ∀ (u : World) (q : Profile) (b : Args), u.run ruleId q b = computeEqualShares u.env (u.float ruleId q b) .seqphragmen q b := by
      intro u q b
      simp only [List.mem_cons, List.not_mem_nil, or_false] at h1
      rcases h1 with rfl | rfl | rfl <;> rfl
    obtain ⟨X, W, b, g1, g2, g3, g4⟩ := C38_equal_shares_resolute w.env (w.float ruleId p a) p hp .seqphragmen
      (Or.inr (Or.inl ⟨rfl, h2⟩)) a _ alg rfl (same hal) h4 h
    obtain ⟨X', W', b', g1', g2', g3', g4'⟩ := C38_equal_shares_resolute w.env (w.float ruleId (widen p (p.numCand + 1) names) a) _ hq
      .seqphragmen (Or.inr (Or.inl ⟨rfl, h2⟩)) a _ alg rfl (same halq) h4 h
    rw [compute_none hal, compute_none halq, run, run]
    exact ⟨X, X', g1, g1', first_mes_narrow hp (Or.inr rfl) g2 g2' g3 g4 g3' g4'⟩
  | equalSharesNone h1 h2 h3 =>
    have same : ∀ {e : Env} {q : Profile} {b : Args} {x : String}, prologue e ruleId q b = .ok x →
        prologue e "equal-shares-without-completion" q b = .ok x := by
      intro e q b x hx
      rw [← hx]
      refine prologue_alias ?_ q b
      simp only [List.mem_cons, List.not_mem_nil, or_false] at h1
      rcases h1 with rfl | rfl | rfl <;> rfl
    have run : ∀ (u : World) (q : Profile) (b : Args), u.run ruleId q b = computeEqualShares u.env (u.float ruleId q b) .none q b := by
      intro u q b
      simp only [List.mem_cons, List.not_mem_nil, or_false] at h1
      rcases h1 with rfl | rfl | rfl <;> rfl
    obtain ⟨X, W, b, g1, g2, g3, g4⟩ := C38_equal_shares_resolute w.env (w.float ruleId p a) p hp .none
      (Or.inl rfl) a _ alg rfl (same hal) h2 h
    obtain ⟨X', W', b', g1', g2', g3', g4'⟩ := C38_equal_shares_resolute w.env (w.float ruleId (widen p (p.numCand + 1) names) a) _ hq .none
      (Or.inl rfl) a _ alg rfl (same halq) h2 h
    rw [compute_none hal, compute_none halq, run, run]
    exact ⟨X, X', g1, g1', first_mes_narrow hp (Or.inl rfl) g2 g2' g3 g4 g3' g4'⟩

end

theorem resoluteRule_widen {w w' : World} {p p' : Profile} {n k : ℕ} {names : List Name} {alg alg' ruleId : String}
    (h : ResoluteRule w w' p p' k alg alg' ruleId) : ResoluteRule w w' (widen p n names) p' k alg alg' ruleId := by
  cases h with
  | av => exact .av
  | thiele h1 h2 h3 h4 h5 => exact .thiele h1 h2 h3 h4 h5
  | thieleBranch h1 h2 h3 h4 h5 => exact .thieleBranch h1 h2 h3 h4 h5
  | lexcc h1 h2 => exact .lexcc h1 h2
  | monroe h1 h2 h3 => exact .monroe h1 h2 h3
  | seqThiele h1 h2 h3 => exact .seqThiele h1 h2 h3
  | seqphragmen h1 h2 h3 h4 => exact .seqphragmen h1 h2 h3 h4
  | maximinSupport h1 h2 h3 h4 h5 => exact .maximinSupport h1 h2 h3 h4 h5
  | greedyMonroe h1 h2 h3 => exact .greedyMonroe h1 h2 h3
  | enestroem h1 h2 => exact .enestroem h1 h2
  | consensus h1 h2 => exact .consensus h1 h2
  | equalShares h1 h2 h3 h4 h5 => exact .equalShares h1 h2 h3 h4 h5
  | equalSharesNone h1 h2 h3 => exact .equalSharesNone h1 h2 h3

/-- **C119** `resolute=True`: if the last candidate is not in the committee that is returned, the same committee is returned without this
candidate. -/
theorem C119_candidate_leaves {w w' : World} (hw : w.Exact) (hw' : w'.Exact) {p p' : Profile} (hp : p.WF) (hp' : p'.WF)
    (L : LastCandidateLeaves p' p) {a a' : Args} (h : a.resolute = true) (h' : a'.resolute = true) (hk : a'.k = a.k)
    {ruleId alg alg' : String} (hal : prologue w.env ruleId p a = .ok alg) (hal' : prologue w'.env ruleId p' a' = .ok alg')
    (hr : ResoluteRule w w' p p' a.k alg alg' ruleId) :
    LoserIrrelevantOne p.numCand (compute w ruleId p a.committeesize none a.kw) (compute w' ruleId p' a'.committeesize none a'.kw) := by
  have hn : p.numCand ≤ p.numCand + 1 := by omega
  have halq := prologue_widen (n := p.numCand + 1) (names := p'.candNames) hn hal
  exact (resolute_widen hw (names := p'.candNames) hp h hal hr).trans
    (C117_loser hw hw' (widen_wf hp hn) hp' h h' hk halq hal' (leaves_more L) (resoluteRule_widen hr))

/-! ### The hypotheses can be met -/

/-- Candidate 2 gets one vote and is not elected.  (For the existence of the world see `exists_ascending_world`.) -/
example (w : World) (hw : w.env = exampleEnv) (hit : ∀ l, w.iter l = l) (p p' : Profile)
    (e : p = ⟨2, [⟨[0, 1], 1⟩, ⟨[0, 1], 1⟩, ⟨[0], 1⟩, ⟨[1], 1⟩], []⟩)
    (e' : p' = ⟨3, [⟨[0, 1, 2], 1⟩, ⟨[0, 1], 1⟩, ⟨[0], 1⟩, ⟨[1], 1⟩], []⟩) :
    p.WF ∧ p'.WF ∧ LastCandidateLeaves p' p ∧ ResoluteRule w w p p' 2 "standard" "standard" "greedy-monroe" ∧
    prologue w.env "greedy-monroe" p { committeesize := 2, resolute := true } = .ok "standard" ∧
    prologue w.env "greedy-monroe" p' { committeesize := 2, resolute := true } = .ok "standard" ∧
    ResoluteRule w w p p' 2 "standard-fractions" "standard-fractions" "equal-shares" ∧
    prologue w.env "equal-shares" p { committeesize := 2, resolute := true } = .ok "standard-fractions" ∧
    prologue w.env "equal-shares" p' { committeesize := 2, resolute := true } = .ok "standard-fractions" ∧
    compute bothWorld "equal-shares" p' 2 none {} = .ok [[0, 1]] := by
  subst e e'
  refine ⟨⟨by decide +kernel, by decide +kernel, by decide +kernel, by decide +kernel⟩,
    ⟨by decide +kernel, by decide +kernel, by decide +kernel, by decide +kernel⟩,
    ⟨rfl, .cons ⟨rfl, by decide⟩ (.cons ⟨rfl, by decide⟩ (.cons ⟨rfl, by decide⟩ (.cons ⟨rfl, by decide⟩ .nil)))⟩,
    .greedyMonroe (by decide +kernel) hit hit, ?_, ?_, ?_, ?_, ?_, ?_⟩
  · rw [hw]; decide +kernel
  · rw [hw]; decide +kernel
  · refine .equalShares (by simp) (approversAtLeastOne_of_weights ?_) (approversAtLeastOne_of_weights ?_) (Or.inl rfl) (Or.inl rfl)
    all_goals decide +kernel
  · rw [hw]; decide +kernel
  · rw [hw]; decide +kernel
  · decide +kernel

end Abc
