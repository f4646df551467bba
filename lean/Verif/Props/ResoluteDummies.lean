import Verif.Props.LeavesResolute
import Verif.Props.ResoluteSupporters

/-!
# C121: with `resolute=True`, additional candidates whom nobody approves
-/

namespace Abc

open Spec

/-! ### Runs -/

theorem exists_free {n : ℕ} {W : List ℕ} (h : W.length < n) : ∃ d < n, d ∉ W := by
  by_contra hn
  push Not at hn
  have h1 : Finset.range n ⊆ W.toFinset := fun d hd => List.mem_toFinset.2 (hn d (Finset.mem_range.1 hd))
  have h2 := Finset.card_le_card h1
  have h3 := List.toFinset_card_le W
  rw [Finset.card_range] at h2
  omega

section
variable {σ : Type} {Best : List ℕ → σ → ℕ → Prop} {upd : List ℕ → σ → ℕ → σ} {W₀ : List ℕ} {s₀ : σ} {n : ℕ}

/-- A last candidate `n` who is only as good as every other remaining candidate is not elected. -/
theorem runFirst_old (h1 : ∀ W s d, Best W s n → d < n → d ∉ W → Best W s d) (h2 : ∀ W s c, Best W s c → c < n + 1) {W : List ℕ}
    {s : σ} (h : RunFirst Best upd W₀ s₀ W s) (h₀ : ∀ c ∈ W₀, c < n) (hl : W.length ≤ n) : ∀ c ∈ W, c < n := by
  induction h with
  | start => exact h₀
  | @step V t c hr hb hf ih =>
    rw [List.length_append, List.length_singleton] at hl
    intro e he
    rw [List.mem_append, List.mem_singleton] at he
    rcases he with he | rfl
    · exact ih (by omega) e he
    · by_contra hlt
      have := h2 _ _ _ hb
      obtain rfl : e = n := by omega
      obtain ⟨d, hd, hdV⟩ := exists_free (n := e) (W := V) (by omega)
      exact hf d hd (h1 _ _ d hb hd hdV)

theorem seqFirst_old {f : ℕ → ℚ} {q : Profile} (hn : q.numCand = n + 1)
    (h1 : ∀ (W : List ℕ) d, d < n → d ∉ W → gain f q W.toFinset n ≤ gain f q W.toFinset d) {W : List ℕ}
    (h : SeqRunFirst f q W) (hl : W.length ≤ n) : ∀ c ∈ W, c < n := by
  induction h with
  | nil => simp
  | @snoc V c hr g1 g2 g3 g4 ih =>
    rw [List.length_append, List.length_singleton] at hl
    intro e he
    rw [List.mem_append, List.mem_singleton] at he
    rcases he with he | rfl
    · exact ih (by omega) e he
    · by_contra hlt
      obtain rfl : e = n := by omega
      obtain ⟨d, hd, hdV⟩ := exists_free (n := e) (W := V) (by omega)
      exact absurd (g4 d hd hdV) (not_lt.2 (h1 V d hd hdV))

end

/-! ### Lexicographic order -/

/-- Replacing the last member of a committee by a smaller number gives a committee that precedes it. -/
theorem exists_earlier {n d : ℕ} (hd : d < n) : ∀ {l : List ℕ}, (l ++ [n]).Pairwise (· < ·) → d ∉ l →
    ∃ V : List ℕ, V.Pairwise (· < ·) ∧ V.toFinset = insert d l.toFinset ∧ V < l ++ [n]
  | [], _, _ => ⟨[d], by simp, by simp, by simpa using List.Lex.rel hd⟩
  | x :: l, h, hl => by
    rw [List.mem_cons, not_or] at hl
    rw [List.cons_append, List.pairwise_cons] at h
    by_cases hx : d < x
    · refine ⟨d :: x :: l, ?_, by ext; simp, by rw [List.cons_append]; exact List.Lex.rel hx⟩
      rw [List.pairwise_cons, List.pairwise_cons]
      refine ⟨?_, fun e he => h.1 e (List.mem_append_left _ he), (List.pairwise_append.1 h.2).1⟩
      intro e he
      rcases List.mem_cons.1 he with rfl | he
      · exact hx
      · exact hx.trans (h.1 e (List.mem_append_left _ he))
    · obtain ⟨V, h1, h2, h3⟩ := exists_earlier hd h.2 hl.2
      refine ⟨x :: V, ?_, by rw [List.toFinset_cons, h2, List.toFinset_cons, Finset.insert_comm],
        by rw [List.cons_append]; exact List.Lex.cons h3⟩
      rw [List.pairwise_cons]
      refine ⟨fun e he => ?_, h1⟩
      have : e ∈ insert d l.toFinset := h2 ▸ List.mem_toFinset.2 he
      rcases Finset.mem_insert.1 this with rfl | h4
      · omega
      · exact h.1 e (List.mem_append_left _ (List.mem_toFinset.1 h4))

theorem least_old {n k : ℕ} {S : Finset ℕ → Prop} (hS : ∀ A, S A → (∀ c ∈ A, c < n + 1) ∧ A.card = k) (hk : k ≤ n)
    (hrep : ∀ A d, S A → n ∈ A → d < n → d ∉ A → S (insert d (A.erase n))) {W : List ℕ} (h : LeastOf (· ≤ ·) S W) : n ∉ W := by
  intro hn
  obtain ⟨h1, h2, h3⟩ := h
  obtain ⟨g1, g2⟩ := hS _ h2
  have hnd : W.Nodup := nodup_of_lt h1
  obtain ⟨l, x, rfl⟩ : ∃ l x, W = l ++ [x] :=
    ⟨W.dropLast, W.getLast (List.ne_nil_of_mem hn), (List.dropLast_append_getLast _).symm⟩
  obtain ⟨p1, -, p3⟩ := List.pairwise_append.1 h1
  have hx : x = n := by
    have hx1 := g1 x (by simp)
    rcases List.mem_append.1 hn with h | h
    · have := p3 n h x (by simp)
      omega
    · exact (List.mem_singleton.1 h).symm
  subst hx
  have hxl : x ∉ l := fun h => lt_irrefl _ (p3 x h x (by simp))
  have hlen : l.length < x := by
    rw [List.toFinset_card_of_nodup hnd, List.length_append, List.length_singleton] at g2
    omega
  obtain ⟨d, hd, hdl⟩ := exists_free hlen
  obtain ⟨V, v1, v2, v3⟩ := exists_earlier hd h1 hdl
  have he : (l ++ [x]).toFinset.erase x = l.toFinset := by
    ext c
    simp only [Finset.mem_erase, List.mem_toFinset, List.mem_append, List.mem_singleton]
    constructor
    · rintro ⟨h1, h2⟩
      exact h2.resolve_right h1
    · intro h
      exact ⟨fun e => hxl (e ▸ h), Or.inl h⟩
  have := hrep _ d h2 (by simp) hd (by
    rw [List.mem_toFinset, List.mem_append, not_or, List.mem_singleton]
    exact ⟨hdl, by omega⟩)
  rw [he, ← v2] at this
  exact absurd (h3 V v1 this) (not_le.2 v3)

/-! ### The rules -/

section
variable {p : Profile} {names : List Name}

theorem committee_replace {k n d : ℕ} {A : Finset ℕ} {q : Profile} (h : IsCommittee q k A) (hn : n ∈ A) (hd : d ∉ A)
    (hq : d < q.numCand) : IsCommittee q k (insert d (A.erase n)) := by
  refine ⟨fun c hc => ?_, ?_⟩
  · rcases Finset.mem_insert.1 hc with rfl | hc
    · exact Finset.mem_range.2 hq
    · exact h.1 (Finset.mem_of_mem_erase hc)
  · rw [Finset.card_insert_of_notMem fun g => hd (Finset.mem_of_mem_erase g), Finset.card_erase_of_mem hn, h.2]
    have : 0 < A.card := Finset.card_pos.2 ⟨n, hn⟩
    have := h.2
    omega

theorem thiele_replace {f : ℕ → ℚ} (hf : ∀ i, 0 ≤ f i) {q : Profile} (hq : q.WF) {n : ℕ} (hu : Unapproved q n) {k d : ℕ} {A : Finset ℕ}
    (h : ThieleOpt f q k A) (hn : n ∈ A) (hd : d ∉ A) (hlt : d < q.numCand) : ThieleOpt f q k (insert d (A.erase n)) := by
  refine ⟨committee_replace h.1 hn hd hlt, fun B hB => (h.2 B hB).trans ?_⟩
  have h1 : loss f q A n = 0 := by rw [loss_eq_gain f hn, gain_new f hu]
  have h2 := gain_nonneg f hf q hq (A.erase n) d
  unfold loss at h1
  unfold gain at h2
  linarith

theorem sep_replace {r : SepRule} {q : Profile} (hq : q.WF) {n : ℕ} (hu : candScore r q n = 0) (h0 : ∀ d, 0 ≤ candScore r q d) {k d : ℕ}
    {A : Finset ℕ} (h : SepOpt r q k A) (hn : n ∈ A) (hd : d ∉ A) (hlt : d < q.numCand) : SepOpt r q k (insert d (A.erase n)) := by
  refine ⟨committee_replace h.1 hn hd hlt, fun B hB => (h.2 B hB).trans ?_⟩
  rw [Finset.sum_insert fun g => hd (Finset.mem_of_mem_erase g), ← Finset.add_sum_erase _ _ hn, hu]
  have := h0 d
  linarith

theorem candScore_nonneg (r : SepRule) {q : Profile} (hq : q.WF) (d : ℕ) : 0 ≤ candScore r q d := by
  refine List.sum_nonneg fun x hx => ?_
  obtain ⟨v, hv, rfl⟩ := List.mem_map.1 hx
  have := (hq.weight v hv).le
  cases r with
  | av =>
    show (0 : ℚ) ≤ if d ∈ v.A then v.weight else 0
    split <;> simp [this]
  | sav =>
    show (0 : ℚ) ≤ if d ∈ v.A then v.weight / v.A.card else 0
    split
    · positivity
    · exact le_rfl

theorem candScore_new (r : SepRule) {q : Profile} {n : ℕ} (hu : Unapproved q n) : candScore r q n = 0 := by
  refine List.sum_eq_zero fun x hx => ?_
  obtain ⟨v, hv, rfl⟩ := List.mem_map.1 hx
  cases r with
  | av => exact if_neg (hu v hv)
  | sav => exact if_neg (hu v hv)

theorem support_none {q : Profile} {n : ℕ} (hb : backers q n = ∅) (b : VoterMap q) : support q b n = 0 :=
  Finset.sum_eq_zero fun i hi => by
    have := (Finset.mem_filter.1 hi).1
    rw [hb] at this
    exact absurd this (Finset.notMem_empty _)

theorem support_nonneg (q : Profile) (b : VoterMap q) (d : ℕ) : 0 ≤ support q b d :=
  Finset.sum_nonneg fun _ hi => (Finset.mem_filter.1 hi).2.le

theorem support_old {q : Profile} {n : ℕ} (hb : backers q n = ∅) (W : List ℕ) (b : VoterMap q) (d : ℕ) (g : SupportBest q W b n)
    (hd : d < n) (hdW : d ∉ W) : SupportBest q W b d :=
  ⟨hd.trans g.1, hdW, fun e he heW => (g.2.2 e he heW).trans (by rw [support_none hb]; exact support_nonneg q b d)⟩

theorem consensus_old {q : Profile} {n : ℕ} (hb : backers q n = ∅) (W : List ℕ) (b : VoterMap q) (d : ℕ) (g : ConsensusBest q W b n)
    (hd : d < n) (hdW : d ∉ W) : ConsensusBest q W b d := support_old hb W (income q b) d g hd hdW

theorem phrag_old {q : Profile} {n : ℕ} (hb : backers q n = ∅) (W : List ℕ) (x : VoterMap q) (d : ℕ) (g : PhragBest q W x n)
    (hd : d < n) (hdW : d ∉ W) : PhragBest q W x d := by
  refine ⟨hd.trans g.1, hdW, Or.inr ?_⟩
  rcases g.2.2 with ⟨g1, -⟩ | g1
  · rw [hb] at g1
    exact absurd g1 (by simp)
  · exact g1

theorem gm_old {q : Profile} {n : ℕ} (hb : backers q n = ∅) (W : List ℕ) (Ds : List (Group q)) (d : ℕ) (g : GMBest q W Ds n)
    (hd : d < n) (hdW : d ∉ W) : GMBest q W Ds d :=
  ⟨hd.trans g.1, hdW, fun e he heW => (g.2.2 e he heW).trans (by rw [hb]; simp)⟩

theorem maximin_old {q : Profile} (hq : q.WF) {n : ℕ} (hb : backers q n = ∅) (W : List ℕ) (d : ℕ) (g : MaximinBest 0 q W n)
    (hd : d < n) (hdW : d ∉ W) : MaximinBest 0 q W d := by
  refine ⟨hd.trans g.1, hdW, fun e he heW t ht => ?_⟩
  obtain ⟨f, f1, f2, f3, f4⟩ := g.2.2 e he heW t ht
  have h0 := f4 n (Finset.mem_insert_self _ _)
  have hz : ∀ i, f i n = 0 := by
    intro i
    by_contra hne
    have : i ∈ backers q n := Finset.mem_filter.2 ⟨Finset.mem_univ i, f2 i _ hne⟩
    rw [hb] at this
    exact absurd this (Finset.notMem_empty _)
  simp only [hz, Finset.sum_const_zero] at h0
  exact ⟨fun _ _ => 0, fun _ _ => le_rfl, fun _ _ h => absurd rfl h, fun i => by simpa using (hq.weight _ (List.get_mem _ i)).le,
    fun c _ => by simpa using h0⟩

theorem mes_old (hp : p.WF) {k : ℕ} (hk : k ≤ p.numCand) {r : ℚ} {cp : Completion} {X W : List ℕ} {b : VoterMap p}
    (hcp : cp = .none ∨ cp = .seqphragmen)
    (hrun : RunFirst (MESBest (widen p (p.numCand + 1) names)) (mesUpd p) [] (budgetOf p r) W b)
    (hend : (W.length = k ∧ W.toFinset = X.toFinset) ∨ (W.length < k ∧ MESDone (widen p (p.numCand + 1) names) W b ∧
      CompletedR (widen p (p.numCand + 1) names) k true cp W b X.toFinset)) : p.numCand ∉ X := by
  intro hm
  have hn : p.numCand ≤ p.numCand + 1 := by omega
  have hb : backers (widen p (p.numCand + 1) names) p.numCand = ∅ := unapproved_iff.1 (unapproved_new hp le_rfl)
  rw [← mesBest_eq hp hn] at hrun
  have hW : ∀ {V : List ℕ} {x : VoterMap p}, RunFirst (MESBest p) (mesUpd p) [] (budgetOf p r) V x → ∀ c ∈ V, c < p.numCand := by
    intro V x hV
    induction hV with
    | start => simp
    | step _ hb _ ih =>
      intro c hc
      rcases List.mem_append.1 hc with hc | hc
      · exact ih c hc
      · rw [List.mem_singleton] at hc
        exact hc ▸ hb.1
  have hX := List.mem_toFinset.2 hm
  rcases hend with ⟨-, g⟩ | ⟨hl, -, g⟩
  · rw [← g, List.mem_toFinset] at hX
    exact lt_irrefl _ (hW hrun _ hX)
  · rcases hcp with rfl | rfl
    · unfold CompletedR at g
      rw [if_neg (by simp)] at g
      have g : X.toFinset = W.toFinset := g
      rw [g, List.mem_toFinset] at hX
      exact lt_irrefl _ (hW hrun _ hX)
    · unfold CompletedR at g
      rw [if_pos ⟨rfl, rfl⟩] at g
      obtain ⟨V, x, v1, v2, v3⟩ := g
      rw [← v3, List.mem_toFinset] at hX
      exact lt_irrefl _ (runFirst_old (phrag_old hb) (fun _ _ _ h => h.1) v1 (hW hrun) (v2.le.trans hk) _ hX)

end

section
variable {w : World} (hw : w.Exact) {p : Profile} {names : List Name} (hp : p.WF) {a : Args} (h : a.resolute = true)
  {ruleId alg : String} (hal : prologue w.env ruleId p a = .ok alg)
include hw hp h hal

/-- A further candidate at the end whom nobody approves changes nothing. -/
theorem resolute_dummy (hr : ResoluteDummyRule w p a.k alg ruleId) :
    SameCommittee (compute w ruleId p a.committeesize none a.kw) (compute w ruleId (widen p (p.numCand + 1) names) a.committeesize none a.kw) := by
  have hn : p.numCand ≤ p.numCand + 1 := by omega
  have hq : (widen p (p.numCand + 1) names).WF := widen_wf hp hn
  have halq := prologue_widen (n := p.numCand + 1) (names := names) hn hal
  have hu : Unapproved (widen p (p.numCand + 1) names) p.numCand := unapproved_new hp le_rfl
  have hb : backers (widen p (p.numCand + 1) names) p.numCand = ∅ := unapproved_iff.1 hu
  have hk : a.k ≤ p.numCand := (validCall_of_prologue hal).le
  have old : LoserIrrelevantOne p.numCand (compute w ruleId p a.committeesize none a.kw)
      (compute w ruleId (widen p (p.numCand + 1) names) a.committeesize none a.kw) →
      (∃ W', compute w ruleId (widen p (p.numCand + 1) names) a.committeesize none a.kw = .ok [W'] ∧ p.numCand ∉ W') →
      SameCommittee (compute w ruleId p a.committeesize none a.kw)
        (compute w ruleId (widen p (p.numCand + 1) names) a.committeesize none a.kw) := by
    rintro ⟨W, W', e1, e2, g⟩ ⟨V, e3, g3⟩
    obtain rfl : W' = V := by
      have := e2.symm.trans e3
      injection this with this
      injection this
    exact ⟨W, e1, by rw [e2, g g3]⟩
  have lexOld : ∀ {S : Finset ℕ → Prop} {r : Except Err (List (List ℕ))},
      (∀ A, S A → IsCommittee (widen p (p.numCand + 1) names) a.k A) →
      (∀ A d, S A → p.numCand ∈ A → d < p.numCand → d ∉ A → S (insert d (A.erase p.numCand))) →
      (∃ W, r = .ok [W] ∧ LeastOf (· ≤ ·) S W) → ∃ W, r = .ok [W] ∧ p.numCand ∉ W := by
    rintro S r h1 h2 ⟨W, e, hW⟩
    exact ⟨W, e, least_old (fun A hA => ⟨fun c hc => Finset.mem_range.1 ((h1 A hA).1 hc), (h1 A hA).2⟩) hk h2 hW⟩
  have sepOld : ∀ r : SepRule, ruleId = r.id →
      SameCommittee (compute w ruleId p a.committeesize none a.kw)
        (compute w ruleId (widen p (p.numCand + 1) names) a.committeesize none a.kw) := by
    intro r hid
    have hl' := least_separable hq h halq r hid
    refine old ?_ (lexOld (fun A hA => hA.1) (fun A d hA g1 g2 g3 => sep_replace hq (candScore_new r hu) (candScore_nonneg r hq) hA g1 g3
      (by simpa [widen] using Nat.lt_succ_of_lt g2)) hl')
    obtain ⟨W, e1, e2⟩ := least_separable hp h hal r hid
    obtain ⟨W', e1', e2'⟩ := hl'
    exact ⟨W, W', e1, e1', least_one lex_antisymm e2 e2'
      (opt_one (R := fun B A => ∑ c ∈ B, candScore r p c ≤ ∑ c ∈ A, candScore r p c) (fun A B C h1 h2 => h1.trans h2))⟩
  have keyOld : (hc : a.k ≤ (approvedSet p).card) → DummyRule w p a.k alg ruleId →
      ∃ W', compute w ruleId (widen p (p.numCand + 1) names) a.committeesize none a.kw = .ok [W'] ∧ p.numCand ∉ W' := by
    intro hc hd
    obtain ⟨S, g1, -, g3⟩ := C111_unapproved_candidates w hw p (widen p (p.numCand + 1) names) hp ⟨rfl, hn⟩ a hal hc hd
    unfold Answers at g3
    rw [h] at g3
    obtain ⟨W', e1, e2, e3⟩ := g3
    exact ⟨W', e1, fun hm => absurd ((elects_valid g1 e3).1 (List.mem_toFinset.2 hm)) (by simp)⟩
  have runOld : ∀ {σ : Type} {Best : List ℕ → σ → ℕ → Prop} {upd : List ℕ → σ → ℕ → σ} {s₀ : σ} {r : Except Err (List (List ℕ))},
      (∀ W s d, Best W s p.numCand → d < p.numCand → d ∉ W → Best W s d) → (∀ W s c, Best W s c → c < p.numCand + 1) →
      (∃ W x, RunFirst Best upd [] s₀ W x ∧ W.length = a.k ∧ r = .ok [sortNat W]) → ∃ W, r = .ok [W] ∧ p.numCand ∉ W := by
    rintro σ Best upd s₀ r h1 h2 ⟨W, x, e1, e2, e3⟩
    refine ⟨_, e3, fun hm => ?_⟩
    rw [mem_sortNat] at hm
    exact lt_irrefl _ (runFirst_old h1 h2 e1 (by simp) (e2.le.trans hk) _ hm)
  cases hr with
  | av => exact sepOld .av rfl
  | sav => exact sepOld .sav rfl
  | @thiele _ s h1 h2 h3 =>
    have hf : ∀ i, 0 ≤ marginalFct s i := marginalFct_nonneg s (by
      rintro b rfl
      rcases h2 with h | h | h | ⟨b', h, hb'⟩ <;> cases h
      exact hb')
    exact old (resolute_widen hw hp h hal (.thiele (w' := w) (p' := p) (alg' := alg) h1 h1 h2 h3 h3))
      (lexOld (fun A hA => hA.1) (fun A d hA g1 g2 g3 => thiele_replace hf hq hu hA g1 g3 (Nat.lt_succ_of_lt g2))
        (least_thiele hq h halq hw h1 h2 h3))
  | @thieleBranch _ s h1 h2 h3 h4 =>
    refine old (resolute_widen hw hp h hal (.thieleBranch (w' := w) (p' := p) (alg' := alg) h1 h1 ?_ h3 h3)) (keyOld h4 (.thiele h1 ?_ ?_))
    · exact h2.imp id (Or.imp id Or.inr)
    · exact h2.imp id (Or.imp id fun ⟨b, e, hb⟩ => ⟨b, e, Or.inr (Or.inl ⟨h3, hb⟩)⟩)
    · exact fun g => absurd (h3.symm.trans g) (by decide)
  | lexcc h1 h2 =>
    exact old (resolute_widen hw hp h hal (.lexcc (w' := w) (p' := p) (alg' := alg) h1 h1))
      (keyOld h2 (.lexcc fun g => absurd (h1.symm.trans g) (by decide)))
  | lexminimaxav h1 h2 h3 =>
    obtain ⟨S, S', g1, g2, g3⟩ := elects_dummies hw hp (names := names) hn hal h3 (.lexminimaxav h1)
    exact same_of_least key_antisymm g3 (least_leading hp h hal hw g1 h2 (Or.inr (Or.inr ⟨Or.inl rfl, h1⟩)))
      (least_leading hq h halq hw g2 h2 (Or.inr (Or.inr ⟨Or.inl rfl, h1⟩)))
  | @seqThiele sid s h1 h2 =>
    refine old (resolute_widen hw hp h hal (.seqThiele (w' := w) (p' := p) (alg' := alg) h1 h1 h2)) ?_
    obtain ⟨ri, hi, -⟩ := (C19_prologue_ok_iff _ _ p a alg).1 hal
    have hst := (ruleInfo_seq (Or.inl rfl) h1 hi) ▸ hi
    obtain ⟨W, g1, g2, g3⟩ := C27_seqThiele_resolute w.env sid s _ hq a (standard_of halq hst) h1 h2 h
    rw [compute_none halq, run_seq w _ _ h1]
    refine ⟨_, g3, fun hm => ?_⟩
    rw [mem_sortNat] at hm
    refine lt_irrefl _ (seqFirst_old (n := p.numCand) rfl (fun V d _ _ => ?_) g1 (g2.le.trans hk) _ hm)
    rw [gain_new _ hu]
    exact gain_nonneg _ h2 _ hq _ _
  | seqphragmen h1 h2 =>
    refine old (resolute_widen hw hp h hal (.seqphragmen (w' := w) (p' := p) (alg' := alg) h1 h1 h2 h2)) ?_
    rw [compute_none halq]
    exact runOld (phrag_old hb) (fun _ _ _ h => h.1)
      (C33_seqphragmen_resolute w.env (w.float "seqphragmen" (widen p (p.numCand + 1) names) a) _ hq h1 a alg halq h2 h)
  | maximinSupport h1 h2 h3 =>
    refine old (resolute_widen hw hp h hal (.maximinSupport (w' := w) (p' := p) (alg' := alg) h1 h1 h2 h3 h3)) ?_
    rw [compute_none halq]
    exact runOld (Best := fun W (_ : Unit) e => MaximinBest 0 (widen p (p.numCand + 1) names) W e) (fun W _ d => maximin_old hq hb W d)
      (fun _ _ _ h => h.1) (maximin_first w.env w.solve w.iter h3 _ hq h1 a h2 alg halq (hw.solve alg) h)
  | greedyMonroe h1 h2 =>
    refine old (resolute_widen hw hp h hal (.greedyMonroe (w' := w) (p' := p) (alg' := alg) h1 h2 h2)) ?_
    rw [compute_none halq]
    obtain ⟨W', Ds', C', -, -, g1', -, g2', g3', g4', g5', g6', -⟩ := (C32_greedy_monroe w.env w.matching hw.matching w.minCost
      hw.minCost (w.iter (widen p (p.numCand + 1) names).candidates) _ (hw.iter _) a (standard_of halq rfl)).1 (unitWeights_iff.2 h1)
    refine ⟨C', g1', fun hm => ?_⟩
    have hm' : p.numCand ∈ W' := List.mem_toFinset.1 (g6'.symm ▸ List.mem_toFinset.2 hm)
    exact lt_irrefl _ (runFirst_old (gm_old hb) (fun _ _ _ h => h.1) (g2' (h2 _)) (by simp) (g3'.le.trans hk) _ hm')
  | enestroem h1 =>
    refine old (resolute_widen hw hp h hal (.enestroem (w' := w) (p' := p) (alg' := alg) h1 h1)) ?_
    rw [compute_none halq]
    exact runOld (support_old hb) (fun _ _ _ h => h.1)
      ((C40_enestroem w.env (w.float "phragmen-enestroem" (widen p (p.numCand + 1) names) a) _ hq a alg halq h1).2 h)
  | consensus h1 =>
    refine old (resolute_widen hw hp h hal (.consensus (w' := w) (p' := p) (alg' := alg) h1 h1)) ?_
    rw [compute_none halq]
    exact runOld (consensus_old hb) (fun _ _ _ h => h.1)
      ((C41_consensus w.env (w.float "consensus-rule" (widen p (p.numCand + 1) names) a) _ a alg halq h1).2 h)
  | equalShares h1 h2 h3 =>
    refine old (resolute_widen hw hp h hal (.equalShares (w' := w) (p' := p) (alg' := alg) h1 h2 h2 h3 h3)) ?_
    have same : prologue w.env "equal-shares" (widen p (p.numCand + 1) names) a = .ok alg := by
      rw [← halq]
      refine prologue_alias ?_ _ a
      simp only [List.mem_cons, List.not_mem_nil, or_false] at h1
      rcases h1 with rfl | rfl | rfl <;> rfl
    have run : w.run ruleId (widen p (p.numCand + 1) names) a =
        computeEqualShares w.env (w.float ruleId (widen p (p.numCand + 1) names) a) .seqphragmen (widen p (p.numCand + 1) names) a := by
      simp only [List.mem_cons, List.not_mem_nil, or_false] at h1
      rcases h1 with rfl | rfl | rfl <;> rfl
    obtain ⟨X, W, b, g1, g2, g3, g4⟩ := C38_equal_shares_resolute w.env (w.float ruleId (widen p (p.numCand + 1) names) a) _ hq
      .seqphragmen (Or.inr (Or.inl ⟨rfl, h2⟩)) a _ alg rfl same h3 h
    rw [compute_none halq, run]
    exact ⟨X, g1, mes_old hp hk (Or.inr rfl) g3 g4⟩
  | equalSharesNone h1 h2 =>
    refine old (resolute_widen hw hp h hal (.equalSharesNone (w' := w) (p' := p) (alg' := alg) h1 h2 h2)) ?_
    have same : prologue w.env "equal-shares-without-completion" (widen p (p.numCand + 1) names) a = .ok alg := by
      rw [← halq]
      refine prologue_alias ?_ _ a
      simp only [List.mem_cons, List.not_mem_nil, or_false] at h1
      rcases h1 with rfl | rfl | rfl <;> rfl
    have run : w.run ruleId (widen p (p.numCand + 1) names) a =
        computeEqualShares w.env (w.float ruleId (widen p (p.numCand + 1) names) a) .none (widen p (p.numCand + 1) names) a := by
      simp only [List.mem_cons, List.not_mem_nil, or_false] at h1
      rcases h1 with rfl | rfl | rfl <;> rfl
    obtain ⟨X, W, b, g1, g2, g3, g4⟩ := C38_equal_shares_resolute w.env (w.float ruleId (widen p (p.numCand + 1) names) a) _ hq
      .none (Or.inl rfl) a _ alg rfl same h2 h
    rw [compute_none halq, run]
    exact ⟨X, g1, mes_old hp hk (Or.inl rfl) g3 g4⟩
  | trivial =>
    rw [compute_none hal, compute_none halq]
    exact ⟨_, (C42_trivial w.env p a (standard_of hal rfl)).2 h, (C42_trivial w.env _ a (standard_of halq rfl)).2 h⟩

end

theorem resoluteDummyRule_widen {w : World} {p : Profile} {n k : ℕ} {names : List Name} {alg ruleId : String}
    (h : ResoluteDummyRule w p k alg ruleId) : ResoluteDummyRule w (widen p n names) k alg ruleId := by
  cases h with
  | av => exact .av
  | sav => exact .sav
  | thiele h1 h2 h3 => exact .thiele h1 h2 h3
  | thieleBranch h1 h2 h3 h4 => exact .thieleBranch h1 h2 h3 h4
  | lexcc h1 h2 => exact .lexcc h1 h2
  | lexminimaxav h1 h2 h3 => exact .lexminimaxav h1 h2 h3
  | seqThiele h1 h2 => exact .seqThiele h1 h2
  | seqphragmen h1 h2 => exact .seqphragmen h1 h2
  | maximinSupport h1 h2 h3 => exact .maximinSupport h1 h2 h3
  | greedyMonroe h1 h2 => exact .greedyMonroe h1 h2
  | enestroem h1 => exact .enestroem h1
  | consensus h1 => exact .consensus h1
  | equalShares h1 h2 h3 => exact .equalShares h1 h2 h3
  | equalSharesNone h1 h2 => exact .equalSharesNone h1 h2
  | trivial => exact .trivial

/-- **C121** `resolute=True`: additional candidates with larger numbers whom nobody approves change nothing — even if there are fewer
approved candidates than seats. -/
theorem C121_unapproved_candidates {w : World} (hw : w.Exact) {p q : Profile} (hp : p.WF) (hpq : MoreCandidates p q)
    (hlt : p.numCand < q.numCand) {a : Args} (h : a.resolute = true) {ruleId alg : String} (hal : prologue w.env ruleId p a = .ok alg)
    (hr : ResoluteDummyRule w p a.k alg ruleId) :
    SameCommittee (compute w ruleId p a.committeesize none a.kw) (compute w ruleId q a.committeesize none a.kw) := by
  rw [widen_of hpq]
  have key : ∀ m (names : List Name), SameCommittee (compute w ruleId p a.committeesize none a.kw)
      (compute w ruleId (widen p (p.numCand + (m + 1)) names) a.committeesize none a.kw) := by
    intro m
    induction m with
    | zero => exact fun names => resolute_dummy hw hp h hal hr
    | succ m ih =>
      intro names
      obtain ⟨W, e1, e2⟩ := ih []
      have hn : p.numCand ≤ p.numCand + (m + 1) := by omega
      obtain ⟨V, e3, e4⟩ := resolute_dummy (names := names) hw (widen_wf (names := []) hp hn) h (prologue_widen (names := []) hn hal)
        (resoluteDummyRule_widen hr)
      rw [e2] at e3
      injection e3 with e3
      injection e3 with e3
      subst e3
      exact ⟨_, e1, e4⟩
  obtain ⟨m, hm⟩ : ∃ m, q.numCand = p.numCand + (m + 1) := ⟨q.numCand - p.numCand - 1, by omega⟩
  rw [hm]
  exact key m _

/-! ### The hypotheses can be met -/

/-- One approved candidate, three seats, two further candidates whom nobody approves. -/
example (w : World) (hw : w.env = exampleEnv) (p : Profile) (e : p = ⟨4, [⟨[3], 1⟩], []⟩) :
    p.WF ∧ MoreCandidates p ⟨6, [⟨[3], 1⟩], []⟩ ∧ ResoluteDummyRule w p 3 "standard-fractions" "equal-shares" ∧
    prologue w.env "equal-shares" p { committeesize := 3, resolute := true } = .ok "standard-fractions" ∧
    ResoluteDummyRule w p 3 "standard-fractions" "consensus-rule" ∧
    prologue w.env "consensus-rule" p { committeesize := 3, resolute := true } = .ok "standard-fractions" ∧
    compute bothWorld "equal-shares" ⟨6, [⟨[3], 1⟩], []⟩ 3 none {} = .ok [[0, 1, 3]] := by
  subst e
  refine ⟨⟨by decide +kernel, by decide +kernel, by decide +kernel, by decide +kernel⟩, ⟨rfl, by decide⟩,
    .equalShares (by simp) (approversAtLeastOne_of_weights (by decide +kernel)) (Or.inl rfl), ?_, .consensus (Or.inl rfl), ?_, ?_⟩
  · rw [hw]; decide +kernel
  · rw [hw]; decide +kernel
  · decide +kernel

/-- **C121** Contrast: branch and bound returns the first committee in the order of the texts of the committees, where `10` precedes
`2`; so an eleventh candidate whom nobody approves is elected if there are too few approved candidates.  Brute force does not elect it. -/
theorem C121_contrast :
    computeThieleMethod exampleEnv "pav" (fun _ => .error .importError) ⟨10, [⟨[0], 1⟩], []⟩
      { committeesize := 3, algorithm := "branch-and-bound", resolute := true } = .ok [[0, 1, 2]] ∧
    computeThieleMethod exampleEnv "pav" (fun _ => .error .importError) ⟨11, [⟨[0], 1⟩], []⟩
      { committeesize := 3, algorithm := "branch-and-bound", resolute := true } = .ok [[0, 1, 10]] ∧
    computeThieleMethod exampleEnv "pav" (fun _ => .error .importError) ⟨11, [⟨[0], 1⟩], []⟩
      { committeesize := 3, algorithm := "brute-force", resolute := true } = .ok [[0, 1, 2]] := by
  decide +kernel

end Abc
