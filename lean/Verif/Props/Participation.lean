import Verif.Spec.Participation
import Verif.Props.Consistency
import Verif.Props.Guarantees
import Verif.Props.ParetoRules
import Verif.Props.FloatAccuracyEph

/-!
# C129: voters never lose by taking part in the election
-/

namespace Abc

open Spec

/-- Whoever wins after the value `v₂` has been added has at least the `v₂` of those who won before. -/
theorem join_value {α : Type} [LinearOrder α] {C : Finset ℕ → Prop} {v₁ v₂ v : Finset ℕ → α}
    (hcomb : ∀ A B, v₁ B ≤ v₁ A → v₂ B ≤ v₂ A → v B ≤ v A ∧ (v₁ B < v₁ A ∨ v₂ B < v₂ A → v B < v A))
    {W W' : Finset ℕ} (h : C W ∧ ∀ B, C B → v₁ B ≤ v₁ W) (h' : C W' ∧ ∀ B, C B → v B ≤ v W') : v₂ W ≤ v₂ W' := by
  by_contra hlt
  rw [not_le] at hlt
  exact absurd (h'.2 W h.1) (not_le.2 ((hcomb W W' (h.2 W' h'.1) hlt.le).2 (Or.inr hlt)))

/-- What the voters who join with ballot `A` want: they do not lose, and if they approve all of a committee that wins, it wins still, and
only together with others that won before and which they approve completely, too. -/
def Joining (A : Finset ℕ) (S S' : Finset ℕ → Prop) : Prop :=
  (∀ W W', S W → S' W' → (A ∩ W).card ≤ (A ∩ W').card) ∧ ∀ W, S W → W ⊆ A → S' W ∧ ∀ W', S' W' → S W' ∧ W' ⊆ A

theorem joining_of_values {α : Type} [LinearOrder α] {k : ℕ} {C : Finset ℕ → Prop} {v₁ v₂ v : Finset ℕ → α} (A : Finset ℕ)
    (hC : ∀ W, C W → W.card = k)
    (hcomb : ∀ A B, v₁ B ≤ v₁ A → v₂ B ≤ v₂ A → v B ≤ v A ∧ (v₁ B < v₁ A ∨ v₂ B < v₂ A → v B < v A))
    (hv : ∀ B B', C B → C B' → (v₂ B ≤ v₂ B' ↔ (A ∩ B).card ≤ (A ∩ B').card)) :
    Joining A (fun W => C W ∧ ∀ B, C B → v₁ B ≤ v₁ W) (fun W => C W ∧ ∀ B, C B → v B ≤ v W) := by
  have h1 : ∀ W W', (C W ∧ ∀ B, C B → v₁ B ≤ v₁ W) → (C W' ∧ ∀ B, C B → v B ≤ v W') → (A ∩ W).card ≤ (A ∩ W').card :=
    fun W W' h h' => (hv W W' h.1 h'.1).1 (join_value hcomb h h')
  refine ⟨h1, fun W hW hWA => ?_⟩
  have hfull : (A ∩ W).card = k := by rw [Finset.inter_eq_right.2 hWA, hC W hW.1]
  have hle : ∀ B, C B → (A ∩ B).card ≤ k := fun B hB => (Finset.card_le_card Finset.inter_subset_right).trans (hC B hB).le
  have hmax : C W ∧ ∀ B, C B → v₂ B ≤ v₂ W := ⟨hW.1, fun B hB => (hv B W hB hW.1).2 ((hle B hB).trans hfull.ge)⟩
  have key := consistent_values hcomb W hW hmax
  have hW' := (key W).2 ⟨hW, hmax⟩
  refine ⟨hW', fun W' h' => ⟨((key W').1 h').1, ?_⟩⟩
  have h2 := h1 W W' hW h'
  have h3 : A ∩ W' = W' := Finset.eq_of_subset_of_card_le Finset.inter_subset_right (by rw [hC W' h'.1]; omega)
  exact Finset.inter_eq_right.1 h3

section
variable {A : Finset ℕ} {p r : Profile} (J : Joined A p r) (hr : r.WF)
include J

theorem joined_committee (k : ℕ) (W : Finset ℕ) : IsCommittee r k W ↔ IsCommittee p k W := by
  unfold IsCommittee
  rw [J.cand]

include hr

/-- The voters who joined add to every sum over the voters their total weight times a term that depends on their ballot only. -/
theorem joined_sum : ∃ m : ℚ, 0 < m ∧ ∀ (F : Voter → ℚ) (G : Finset ℕ → ℚ), (∀ v, F v = v.weight * G v.A) →
    (r.voters.map F).sum = (p.voters.map F).sum + m * G A := by
  obtain ⟨l, h1, h2, h3⟩ := J.voters
  refine ⟨(l.map Prod.snd).sum, ?_, fun F G hF => ?_⟩
  · have hpos : ∀ x ∈ l.map Prod.snd, 0 < x := by
      intro x hx
      obtain ⟨b, hb, rfl⟩ := List.mem_map.1 hx
      have : b ∈ r.voters.map ballot := h3.mem_iff.2 (List.mem_append_right _ hb)
      obtain ⟨v, hv, rfl⟩ := List.mem_map.1 this
      exact hr.weight v hv
    exact List.sum_pos _ hpos (by simpa using h1)
  · have e : ∀ L : List Voter, L.map F = (L.map ballot).map (fun b => b.2 * G b.1) := fun L => by
      rw [List.map_map]
      exact List.map_congr_left (fun v _ => hF v)
    rw [e, e, (h3.map (fun b => b.2 * G b.1)).sum_eq, List.map_append, List.sum_append]
    congr 1
    have : l.map (fun b => b.2 * G b.1) = l.map (fun b => b.2 * G A) := List.map_congr_left fun b hb => by rw [h2 b hb]
    rw [this, List.sum_map_mul_right]

theorem joined_score (f : ℕ → ℚ) : ∃ m : ℚ, 0 < m ∧ ∀ W, score f r W = score f p W + m * ∑ i ∈ Finset.range (A ∩ W).card, f (i + 1) := by
  obtain ⟨m, hm, h⟩ := joined_sum J hr
  exact ⟨m, hm, fun W => h _ (fun B => ∑ i ∈ Finset.range (B ∩ W).card, f (i + 1)) fun v => rfl⟩

theorem joining_thiele {f : ℕ → ℚ} (hf : ∀ i, 0 < f (i + 1)) (k : ℕ) : Joining A (ThieleOpt f p k) (ThieleOpt f r k) := by
  obtain ⟨m, hm, h⟩ := joined_score J hr f
  have hmono : StrictMono fun n => ∑ i ∈ Finset.range n, f (i + 1) :=
    strictMono_nat_of_lt_succ fun n => by rw [Finset.sum_range_succ]; linarith [hf n]
  have := joining_of_values (k := k) (C := IsCommittee p k) (v₁ := score f p) (v₂ := fun W => m * ∑ i ∈ Finset.range (A ∩ W).card, f (i + 1))
    (v := score f r) A (fun W hW => hW.2) (fun B B' h1 h2 => by rw [h, h]; exact rat_comb h1 h2)
    (fun B B' _ _ => by rw [mul_le_mul_iff_of_pos_left hm]; exact hmono.le_iff_le)
  unfold ThieleOpt
  simp only [joined_committee J]
  exact this

theorem joined_cc {k : ℕ} {W W' : Finset ℕ} (h : ThieleOpt (marginalFct .cc) p k W) (h' : ThieleOpt (marginalFct .cc) r k W')
    (hne : (A ∩ W).Nonempty) : (A ∩ W').Nonempty := by
  obtain ⟨m, hm, e⟩ := joined_score J hr (marginalFct .cc)
  unfold ThieleOpt at h'
  simp only [joined_committee J] at h'
  have h1 := join_value (C := IsCommittee p k) (v₁ := score (marginalFct .cc) p)
    (v₂ := fun W => m * ∑ i ∈ Finset.range (A ∩ W).card, marginalFct .cc (i + 1))
    (v := score (marginalFct .cc) r) (fun B B' h1 h2 => by rw [e, e]; exact rat_comb h1 h2) h h'
  by_contra hno
  rw [Finset.not_nonempty_iff_eq_empty] at hno
  rw [hno] at h1
  obtain ⟨n, hn⟩ : ∃ n, (A ∩ W).card = n + 1 := ⟨(A ∩ W).card - 1, by have := hne.card_pos; omega⟩
  rw [hn, Finset.sum_range_succ'] at h1
  have h2 : ∑ i ∈ Finset.range n, marginalFct .cc (i + 1 + 1) = 0 := Finset.sum_eq_zero fun i _ => by simp [marginalFct]
  rw [h2] at h1
  simp only [marginalFct, Finset.card_empty, Finset.range_zero, Finset.sum_empty] at h1
  norm_num at h1
  linarith

theorem joining_sep (s : SepRule) (k : ℕ) : Joining A (SepOpt s p k) (SepOpt s r k) := by
  obtain ⟨m, hm, h⟩ := joined_sum J hr
  set x : ℚ := match s with
    | .av => 1
    | .sav => 1 / (A.card : ℚ) with hx
  have e : ∀ W : Finset ℕ, ∑ c ∈ W, candScore s r c = ∑ c ∈ W, candScore s p c + m * ((A ∩ W).card * x) := fun W => by
    have h1 : ∀ c, candScore s r c = candScore s p c + m * (if c ∈ A then x else 0) := fun c => by
      cases s with
      | av => exact h _ (fun B => if c ∈ B then 1 else 0) fun v => by simp only [mul_ite, mul_one, mul_zero]
      | sav => exact h _ (fun B => if c ∈ B then 1 / (B.card : ℚ) else 0) fun v => by simp only [mul_ite, mul_one_div, mul_zero]
    rw [Finset.sum_congr rfl fun c _ => h1 c, Finset.sum_add_distrib, ← Finset.mul_sum, ← Finset.sum_filter, Finset.sum_const,
      nsmul_eq_mul]
    congr 5
    ext c
    simp [and_comm]
  have := joining_of_values (k := k) (C := IsCommittee p k) (v₁ := fun W => ∑ c ∈ W, candScore s p c)
    (v₂ := fun W => m * ((A ∩ W).card * x)) (v := fun W => ∑ c ∈ W, candScore s r c) A (fun W hW => hW.2)
    (fun B B' h1 h2 => by simp only [e]; exact rat_comb h1 h2)
    (fun B B' _ _ => by
      rcases A.eq_empty_or_nonempty with hA | hA
      · subst hA; simp
      · have hx0 : 0 < x := by
          rw [hx]
          cases s with
          | av => exact one_pos
          | sav => exact one_div_pos.2 (by exact_mod_cast hA.card_pos)
        rw [mul_le_mul_iff_of_pos_left hm, mul_le_mul_iff_of_pos_right hx0, Nat.cast_le])
  unfold SepOpt
  simp only [joined_committee J]
  exact this

end

/-- Vectors of the form `(m, …, m, 0, …, 0)` are ordered by the number of entries `m`. -/
theorem steps_le {m : ℚ} (hm : 0 < m) : ∀ (k a s t : ℕ), s ≤ a + k → t ≤ a + k →
    (((List.range' a k).map (fun l => if l + 1 ≤ s then m else 0) ≤ (List.range' a k).map (fun l => if l + 1 ≤ t then m else 0)) ↔
      max a s ≤ max a t) := by
  intro k
  induction k with
  | zero => intro a s t hs ht; simp; omega
  | succ k ih =>
    intro a s t hs ht
    have := ih (a + 1) s t (by omega) (by omega)
    rw [List.range'_succ, List.map_cons, List.map_cons, lex_cons_le, this]
    by_cases h1 : a + 1 ≤ s <;> by_cases h2 : a + 1 ≤ t
    · simp only [h1, h2, if_true, lt_self_iff_false, false_or, true_and]; omega
    · simp only [h1, h2, if_true, if_false]
      constructor
      · rintro (h | ⟨h, -⟩) <;> linarith
      · omega
    · simp only [h1, h2, if_true, if_false, hm, true_or, true_iff]; omega
    · simp only [h1, h2, if_false, lt_self_iff_false, false_or, true_and]; omega

section
variable {A : Finset ℕ} {p r : Profile} (J : Joined A p r) (hr : r.WF)
include J hr

theorem joining_lexcc (k : ℕ) : Joining A (LexccOpt p k) (LexccOpt r k) := by
  obtain ⟨m, hm, h⟩ := joined_sum J hr
  have e : ∀ W, coverageVector r k W =
      (List.range k).map (fun l => coverage p (l + 1) W + if l + 1 ≤ (A ∩ W).card then m else 0) := fun W =>
    List.map_congr_left fun l _ => by
      rw [coverage, h _ (fun B => if l + 1 ≤ (B ∩ W).card then 1 else 0) fun v => by simp only [mul_ite, mul_one, mul_zero]; rfl]
      simp only [mul_ite, mul_one, mul_zero]
      rfl
  have := joining_of_values (k := k) (C := IsCommittee p k) (v₁ := coverageVector p k)
    (v₂ := fun W => (List.range k).map (fun l => if l + 1 ≤ (A ∩ W).card then m else 0)) (v := coverageVector r k) A (fun W hW => hW.2)
    (fun B B' h1 h2 => by rw [e, e]; exact lex_comb _ _ _ _ _ h1 h2)
    (fun B B' hB hB' => by
      have h1 : (A ∩ B).card ≤ k := (Finset.card_le_card Finset.inter_subset_right).trans hB.2.le
      have h2 : (A ∩ B').card ≤ k := (Finset.card_le_card Finset.inter_subset_right).trans hB'.2.le
      have := steps_le hm k 0 (A ∩ B).card (A ∩ B').card (by omega) (by omega)
      rw [List.range_eq_range', this]
      simp)
  unfold LexccOpt
  simp only [joined_committee J, not_lt]
  exact this

omit hr in
theorem joined_minimaxav {k : ℕ} {W : Finset ℕ} (h : MinimaxavOpt p k W) :
    MinimaxavOpt r k W ∨ ∀ W', MinimaxavOpt r k W' → (A ∩ W).card < (A ∩ W').card := by
  obtain ⟨l, h1, h2, h3⟩ := J.voters
  by_cases hW : MinimaxavOpt r k W
  · exact Or.inl hW
  · refine Or.inr fun W' hW' => ?_
    unfold MinimaxavOpt at hW
    rw [joined_committee J] at hW
    simp only [h.1, true_and] at hW
    push Not at hW
    obtain ⟨B, hB, d, hd, v, hv, hlt⟩ := hW
    have hmem : ∀ b, b ∈ r.voters.map ballot ↔ b ∈ p.voters.map ballot ∨ b ∈ l := fun b => by rw [h3.mem_iff, List.mem_append]
    have hdist : ∀ {u v : Voter}, u.A = v.A → ∀ W, dist u W = dist v W := fun e W => by unfold Spec.dist; rw [e]
    -- the voters of `p` are all within distance `d` of `W`
    have hp : ∀ u ∈ p.voters, dist u W ≤ d := h.2 B ((joined_committee J k B).1 hB) d fun u hu => by
      obtain ⟨x, hx, e⟩ := List.mem_map.1 ((hmem _).2 (Or.inl (List.mem_map_of_mem (f := ballot) hu)))
      rw [← hdist (congrArg Prod.fst e)]
      exact hd x hx
    have hvA : v.A = A := by
      rcases (hmem _).1 (List.mem_map_of_mem (f := ballot) hv) with g | g
      · obtain ⟨u, hu, e⟩ := List.mem_map.1 g
        have := hp u hu
        rw [hdist (congrArg Prod.fst e)] at this
        omega
      · exact h2 _ g
    have h5 := hW'.2 B hB d hd v hv
    have e1 := dist_util v W
    have e2 := dist_util v W'
    have c1 := h.1.2
    have c2 := hW'.1.2
    unfold util at e1 e2
    rw [hvA] at e1 e2
    omega

end

/-! ## The theorems -/

section
variable {w w' : World} (hw : w.Exact) (hw' : w'.Exact) {A : Finset ℕ} {p r : Profile} (hp : p.WF) (hr : r.WF) (J : Joined A p r)
  {a a' : Args} (hk : a'.k = a.k) {ruleId alg alg' : String} (hal : prologue w.env ruleId p a = .ok alg)
  (hal' : prologue w'.env ruleId r a' = .ok alg')

include hr J in
theorem participation_elects {k : ℕ} (h : ParticipationRule w w' p r alg alg' ruleId) :
    ∃ S S', Elects w p k alg ruleId S ∧ Elects w' r k alg' ruleId S' ∧ Joining A S S' := by
  cases h with
  | av => exact ⟨_, _, .av, .av, joining_sep J hr .av k⟩
  | sav => exact ⟨_, _, .sav, .sav, joining_sep J hr .sav k⟩
  | @thiele _ s h1 h2 h3 h4 h5 =>
    have hok : ∀ alg : String, s = .pav ∨ s = .slav ∨ s = .cc ∨
        ∃ b, s = .geom b ∧ (1 < b ∨ (alg = "branch-and-bound" ∧ 1 ≤ b) ∨ (alg = "brute-force" ∧ 0 < b)) := by
      intro alg
      rcases h3 with h | h | ⟨b, h, hb⟩
      · exact Or.inl h
      · exact Or.inr (Or.inl h)
      · exact Or.inr (Or.inr (Or.inr ⟨b, h, Or.inl hb⟩))
    refine ⟨_, _, .thiele h1 (hok _) h4, .thiele h2 (hok _) h5, joining_thiele J hr (fun i => ?_) k⟩
    rcases h3 with rfl | rfl | ⟨b, rfl, hb⟩
    · simp only [marginalFct]; rw [if_neg (by omega)]; positivity
    · simp only [marginalFct]; rw [if_neg (by omega)]
      have : (0 : ℚ) < 2 * ((i + 1 : ℕ) : ℚ) - 1 := by push_cast; linarith [(Nat.cast_nonneg i : (0 : ℚ) ≤ i)]
      positivity
    · simp only [marginalFct]; rw [if_neg (by omega)]; positivity
  | lexcc h1 h2 => exact ⟨_, _, .lexcc h1, .lexcc h2, joining_lexcc J hr k⟩

include hw hw' hp hr J hk hal hal'

/-- **C129** Voters never lose by taking part: if voters with the same ballot `A` join, then everybody who wins afterwards (in whatever way
ties are broken) contains at least as many candidates of `A` as every committee that won without them. -/
theorem C129_participation (h : ParticipationRule w w' p r alg alg' ruleId) :
    ∃ cs cs', compute w ruleId p a.committeesize none a.kw = .ok cs ∧ compute w' ruleId r a'.committeesize none a'.kw = .ok cs' ∧
      cs ≠ [] ∧ cs' ≠ [] ∧ ∀ W ∈ cs, ∀ W' ∈ cs', (A ∩ W.toFinset).card ≤ (A ∩ W'.toFinset).card := by
  obtain ⟨S, S', hS, hS', hJ⟩ := participation_elects (k := a.k) hr J h
  rw [← hk] at hS'
  obtain ⟨cs, h1, h2, -⟩ := C31_valid w hw p hp a ruleId alg hal hS
  obtain ⟨cs', h1', h2', -⟩ := C31_valid w' hw' r hr a' ruleId alg' hal' hS'
  exact ⟨cs, cs', h1, h1', h2, h2', fun W hW W' hW' => hJ.1 _ _ (answers_mem (C31_compute w hw p hp a ruleId alg hal hS) h1 hW)
    (answers_mem (C31_compute w' hw' r hr a' ruleId alg' hal' hS') h1' hW')⟩

/-- **C129** If voters join who approve all members of a winning committee, it still wins, and only together with committees that won
before and whose members they all approve, too. -/
theorem C129_reinforcement (h : ParticipationRule w w' p r alg alg' ruleId) (hall : AllCommittees a) (hall' : AllCommittees a') :
    ∃ cs cs', compute w ruleId p a.committeesize none a.kw = .ok cs ∧ compute w' ruleId r a'.committeesize none a'.kw = .ok cs' ∧
      ∀ W ∈ cs, W.toFinset ⊆ A → W ∈ cs' ∧ ∀ W' ∈ cs', W' ∈ cs ∧ W'.toFinset ⊆ A := by
  obtain ⟨S, S', hS, hS', hJ⟩ := participation_elects (k := a.k) hr J h
  rw [← hk] at hS'
  have g := C31_compute w hw p hp a ruleId alg hal hS
  have g' := C31_compute w' hw' r hr a' ruleId alg' hal' hS'
  unfold Answers at g g'
  rw [hall.1, hall.2] at g
  rw [hall'.1, hall'.2] at g'
  obtain ⟨cs, e, c, m⟩ := g
  obtain ⟨cs', e', c', m'⟩ := g'
  refine ⟨cs, cs', e, e', fun W hW hWA => ?_⟩
  rw [returns_mem c m] at hW
  obtain ⟨h1, h2⟩ := hJ.2 _ hW.2 hWA
  refine ⟨(returns_mem c' m' W).2 ⟨hW.1, h1⟩, fun W' hW' => ?_⟩
  rw [returns_mem c' m'] at hW'
  obtain ⟨h3, h4⟩ := h2 _ hW'.2
  exact ⟨(returns_mem c m W').2 ⟨hW'.1, h3⟩, h4⟩

/-- **C129** The same for `cc`, whose voters only care whether they are represented. -/
theorem C129_cc (hr' : ruleId = "cc") (hcp : alg = "ortools-cp" → IntegerWeights p) (hcp' : alg' = "ortools-cp" → IntegerWeights r) :
    ∃ cs cs', compute w ruleId p a.committeesize none a.kw = .ok cs ∧ compute w' ruleId r a'.committeesize none a'.kw = .ok cs' ∧
      cs ≠ [] ∧ cs' ≠ [] ∧ ∀ W ∈ cs, ∀ W' ∈ cs', (A ∩ W.toFinset).Nonempty → (A ∩ W'.toFinset).Nonempty := by
  subst hr'
  have hS : Elects w p a.k alg "cc" _ := .thiele (s := .cc) rfl (Or.inr (Or.inr (Or.inl rfl))) hcp
  have hS' : Elects w' r a'.k alg' "cc" _ := .thiele (s := .cc) rfl (Or.inr (Or.inr (Or.inl rfl))) hcp'
  obtain ⟨cs, h1, h2, -⟩ := C31_valid w hw p hp a _ alg hal hS
  obtain ⟨cs', h1', h2', -⟩ := C31_valid w' hw' r hr a' _ alg' hal' hS'
  refine ⟨cs, cs', h1, h1', h2, h2', fun W hW W' hW' hne => ?_⟩
  have g := answers_mem (C31_compute w hw p hp a _ alg hal hS) h1 hW
  have g' := answers_mem (C31_compute w' hw' r hr a' _ alg' hal' hS') h1' hW'
  rw [hk] at g'
  exact joined_cc J hr g g' hne

/-- **C129** Minimax-AV: a committee that won before still wins, or everybody who wins now contains more candidates of `A`. -/
theorem C129_minimaxav (hr' : ruleId = "minimaxav") (hall' : AllCommittees a') :
    ∃ cs cs', compute w ruleId p a.committeesize none a.kw = .ok cs ∧ compute w' ruleId r a'.committeesize none a'.kw = .ok cs' ∧
      cs ≠ [] ∧ cs' ≠ [] ∧ ∀ W ∈ cs, W ∈ cs' ∨ ∀ W' ∈ cs', (A ∩ W.toFinset).card < (A ∩ W'.toFinset).card := by
  subst hr'
  have hS : Elects w p a.k alg "minimaxav" _ := .minimaxav
  have hS' : Elects w' r a'.k alg' "minimaxav" _ := .minimaxav
  obtain ⟨cs, h1, h2, hcan, -⟩ := C31_valid w hw p hp a _ alg hal hS
  obtain ⟨cs', h1', h2', -⟩ := C31_valid w' hw' r hr a' _ alg' hal' hS'
  refine ⟨cs, cs', h1, h1', h2, h2', fun W hW => ?_⟩
  have g := answers_mem (C31_compute w hw p hp a _ alg hal hS) h1 hW
  have g' := C31_compute w' hw' r hr a' _ alg' hal' hS'
  unfold Answers at g'
  rw [hall'.1, hall'.2] at g'
  obtain ⟨cs'', e', c', m'⟩ := g'
  obtain rfl := Except.ok.inj (h1'.symm.trans e')
  rw [hk] at m'
  rcases joined_minimaxav J g with g | g
  · exact Or.inl ((returns_mem c' m' W).2 ⟨hcan.asc W hW, g⟩)
  · exact Or.inr fun W' hW' => g _ ((returns_mem c' m' W').1 hW').2

end

/-- Non-vacuity: the hypotheses of C129 hold for concrete calls. -/
example (w : World) (hw : w.env = exampleEnv) :
    let r : Profile := ⟨3, [⟨[0, 1], 1⟩, ⟨[2, 0], 1⟩, ⟨[1, 2], 2⟩, ⟨[0, 2], 3⟩], []⟩
    exampleProfile.WF ∧ r.WF ∧ Joined {0, 2} exampleProfile r ∧
    ParticipationRule w w exampleProfile r "branch-and-bound" "brute-force" "pav" ∧
    prologue w.env "pav" exampleProfile { committeesize := 2, resolute := false } = .ok "branch-and-bound" ∧
    prologue w.env "pav" r { committeesize := 2, algorithm := "brute-force", resolute := false } = .ok "brute-force" := by
  refine ⟨⟨by decide, by decide, by decide, by decide⟩, ⟨by decide, by decide, by decide, by decide⟩,
    ⟨rfl, [({0, 2}, 1), ({0, 2}, 3)], by simp, by simp, ?_⟩,
    .thiele (s := .pav) (by rw [hw]; rfl) (by rw [hw]; rfl) (Or.inl rfl) (by simp) (by simp),
    by rw [hw]; decide +kernel, by rw [hw]; decide +kernel⟩
  decide +kernel

/-- **C129** Contrast: under sequential PAV and under sequential Phragmén it can harm voters to vote. -/
theorem C129_contrast :
    compute { bothWorld with env := exampleEnv } "seqpav" ⟨4, [⟨[0, 3], 4⟩, ⟨[1, 2], 7⟩, ⟨[2, 3], 2⟩, ⟨[0, 1], 3⟩], []⟩ 3 none { resolute := some false } =
      .ok [[1, 2, 3]] ∧
    compute { bothWorld with env := exampleEnv } "seqpav" ⟨4, [⟨[0, 3], 4⟩, ⟨[1, 2], 7⟩, ⟨[2, 3], 2⟩, ⟨[0, 1], 3⟩, ⟨[2, 3], 2⟩], []⟩ 3 none
      { resolute := some false } = .ok [[0, 1, 2]] ∧
    compute bothWorld "seqphragmen" ⟨5, [⟨[1, 2, 4], 4⟩, ⟨[1, 2, 3], 1⟩, ⟨[0, 1, 3], 4⟩, ⟨[0, 3], 4⟩, ⟨[0, 1, 2, 4], 3⟩], []⟩ 3 none
      { algorithm := some "standard-fractions", resolute := some false } = .ok [[0, 1, 2]] ∧
    compute bothWorld "seqphragmen" ⟨5, [⟨[1, 2, 4], 4⟩, ⟨[1, 2, 3], 1⟩, ⟨[0, 1, 3], 4⟩, ⟨[0, 3], 4⟩, ⟨[0, 1, 2, 4], 3⟩, ⟨[0, 2, 4], 2⟩], []⟩ 3
      none { algorithm := some "standard-fractions", resolute := some false } = .ok [[0, 1, 3]] := by
  refine ⟨?_, ?_, ?_, ?_⟩ <;> decide +kernel

end Abc
