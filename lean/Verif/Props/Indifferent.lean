import Verif.Spec.Indifferent
import Verif.Props.ResoluteElectorate

/-!
# C122: voters who approve every candidate do not matter
-/

namespace Abc
open Spec

theorem Spec.SameUpToIndifferent.symm {p p' : Profile} (h : SameUpToIndifferent p p') : SameUpToIndifferent p' p :=
  ⟨h.1.symm, fun A h0 h1 => (h.2 A h0 (h.1 ▸ h1)).symm⟩

theorem Spec.SameBallots.indifferent {p p' : Profile} (h : SameBallots p p') : SameUpToIndifferent p p' := ⟨h.1, fun A hA _ => h.2 A hA⟩

/-- The additional weight of the voters who approve every candidate. -/
def extra (p p' : Profile) : ℚ :=
  electorate p'.voters (Finset.range p.numCand) - electorate p.voters (Finset.range p.numCand)

theorem sum_indifferent {p p' : Profile} (h : SameUpToIndifferent p p') (g : Finset ℕ → ℚ) (hg : g ∅ = 0) :
    (p'.voters.map (fun v => v.weight * g v.A)).sum
      = (p.voters.map (fun v => v.weight * g v.A)).sum + extra p p' * g (Finset.range p.numCand) := by
  obtain ⟨S, hS⟩ : ∃ S, S = insert (Finset.range p.numCand) ((p.voters ++ p'.voters).map Voter.A).toFinset := ⟨_, rfl⟩
  have hU : Finset.range p.numCand ∈ S := hS ▸ Finset.mem_insert_self _ _
  rw [sum_by_set p.voters g S, sum_by_set p'.voters g S, ← Finset.add_sum_erase S _ hU, ← Finset.add_sum_erase S _ hU]
  · have : ∑ A ∈ S.erase (Finset.range p.numCand), electorate p'.voters A * g A
        = ∑ A ∈ S.erase (Finset.range p.numCand), electorate p.voters A * g A := by
      refine Finset.sum_congr rfl fun A hA => ?_
      by_cases h0 : A = ∅
      · rw [h0, hg, mul_zero, mul_zero]
      · rw [h.2 A h0 (Finset.mem_erase.1 hA).1]
    rw [this]
    unfold extra
    ring
  · intro v hv
    simp only [hS, Finset.mem_insert, List.mem_toFinset, List.mem_map, List.mem_append]
    exact Or.inr ⟨v, Or.inr hv, rfl⟩
  · intro v hv
    simp only [hS, Finset.mem_insert, List.mem_toFinset, List.mem_map, List.mem_append]
    exact Or.inr ⟨v, Or.inl hv, rfl⟩

theorem sum_backers_indifferent {p p' : Profile} (h : SameUpToIndifferent p p') {c : ℕ} (hc : c < p.numCand) (g : Finset ℕ → ℚ) :
    ∑ i ∈ backers p' c, (p'.voters.get i).weight * g (appr p' i)
      = ∑ i ∈ backers p c, (p.voters.get i).weight * g (appr p i) + extra p p' * g (Finset.range p.numCand) := by
  have := sum_indifferent h (fun A => if c ∈ A then g A else 0) (by simp)
  rw [voters_map_sum, voters_map_sum, if_pos (Finset.mem_range.2 hc)] at this
  unfold backers appr
  rw [Finset.sum_filter, Finset.sum_filter]
  simpa only [mul_ite, mul_zero] using this

section
variable {p p' : Profile} (h : SameUpToIndifferent p p')
include h

theorem committee_indifferent (k : ℕ) (A : Finset ℕ) : IsCommittee p k A ↔ IsCommittee p' k A := by
  unfold IsCommittee
  rw [h.1]

theorem candScore_indifferent (r : SepRule) : ∃ z : ℚ, ∀ c < p.numCand, candScore r p' c = candScore r p c + z := by
  cases r with
  | av =>
    refine ⟨extra p p', fun c hc => ?_⟩
    have := sum_indifferent h (fun A => if c ∈ A then 1 else 0) (by simp)
    rw [if_pos (Finset.mem_range.2 hc), mul_one] at this
    unfold candScore
    simpa only [mul_ite, mul_one, mul_zero] using this
  | sav =>
    refine ⟨extra p p' * (p.numCand : ℚ)⁻¹, fun c hc => ?_⟩
    have := sum_indifferent h (fun A => if c ∈ A then (A.card : ℚ)⁻¹ else 0) (by simp)
    rw [if_pos (Finset.mem_range.2 hc), Finset.card_range] at this
    unfold candScore
    simpa only [mul_ite, mul_zero, div_eq_mul_inv] using this

theorem sepOpt_indifferent (r : SepRule) (k : ℕ) (A : Finset ℕ) : SepOpt r p k A ↔ SepOpt r p' k A := by
  obtain ⟨z, hz⟩ := candScore_indifferent h r
  have key : ∀ B, IsCommittee p k B → ∑ c ∈ B, candScore r p' c = ∑ c ∈ B, candScore r p c + k * z := by
    intro B hB
    rw [Finset.sum_congr rfl fun c hc => hz c (Finset.mem_range.1 (hB.1 hc)), Finset.sum_add_distrib, Finset.sum_const, hB.2, nsmul_eq_mul]
  unfold SepOpt
  simp only [← committee_indifferent h]
  refine and_congr_right fun hA => forall₂_congr fun B hB => ?_
  rw [key A hA, key B hB, add_le_add_iff_right]

theorem score_indifferent (f : ℕ → ℚ) {W : Finset ℕ} (hW : W ⊆ Finset.range p.numCand) :
    score f p' W = score f p W + extra p p' * ∑ i ∈ Finset.range W.card, f (i + 1) := by
  have := sum_indifferent h (fun A => ∑ i ∈ Finset.range (A ∩ W).card, f (i + 1)) (by simp)
  rw [Finset.inter_eq_right.2 hW] at this
  exact this

theorem thieleOpt_indifferent (f : ℕ → ℚ) (k : ℕ) (A : Finset ℕ) : ThieleOpt f p k A ↔ ThieleOpt f p' k A := by
  unfold ThieleOpt
  simp only [← committee_indifferent h]
  refine and_congr_right fun hA => forall₂_congr fun B hB => ?_
  rw [score_indifferent h f hA.1, score_indifferent h f hB.1, hA.2, hB.2, add_le_add_iff_right]

theorem coverage_indifferent {l : ℕ} (hl : 1 ≤ l) {k : ℕ} {W : Finset ℕ} (hW : IsCommittee p k W) :
    coverage p' l W = coverage p l W + if l ≤ k then extra p p' else 0 := by
  have := sum_indifferent h (fun A => if l ≤ (A ∩ W).card then 1 else 0) (by simp; omega)
  rw [Finset.inter_eq_right.2 hW.1, hW.2] at this
  unfold coverage util
  simpa only [mul_ite, mul_one, mul_zero] using this

omit h in
/-- Adding the same vector to two vectors does not change their order. -/
theorem lex_add {n : ℕ} (f g z : ℕ → ℚ) :
    ((List.range n).map (fun i => f i + z i) < (List.range n).map (fun i => g i + z i)) ↔ (List.range n).map f < (List.range n).map g := by
  have : ∀ l : List ℕ, (l.map (fun i => f i + z i) < l.map (fun i => g i + z i)) ↔ l.map f < l.map g := by
    intro l
    induction l with
    | nil => simp
    | cons a l ih =>
      simp only [List.map_cons, List.cons_lt_cons_iff, ih, add_lt_add_iff_right, add_left_inj]
  exact this _

theorem lexccOpt_indifferent (k : ℕ) (A : Finset ℕ) : LexccOpt p k A ↔ LexccOpt p' k A := by
  unfold LexccOpt
  simp only [← committee_indifferent h]
  refine and_congr_right fun hA => forall₂_congr fun B hB => not_congr ?_
  unfold coverageVector
  have e : ∀ W, IsCommittee p k W → (List.range k).map (fun l => coverage p' (l + 1) W)
      = (List.range k).map (fun l => coverage p (l + 1) W + if l + 1 ≤ k then extra p p' else 0) := fun W hW =>
    List.map_congr_left fun l _ => coverage_indifferent h (by omega) hW
  rw [e A hA, e B hB, lex_add]

omit h in
theorem seqRun_lt {f : ℕ → ℚ} {W : List ℕ} (hW : SeqRun f p W) : W.toFinset ⊆ Finset.range p.numCand := by
  induction hW with
  | nil => simp
  | snoc _ h1 _ _ ih =>
    intro x hx
    simp only [List.toFinset_append, Finset.mem_union, List.mem_toFinset, List.toFinset_cons, List.toFinset_nil,
      insert_empty_eq, Finset.mem_singleton] at hx
    rcases hx with hx | rfl
    · exact ih (List.mem_toFinset.2 hx)
    · exact Finset.mem_range.2 h1

theorem gain_indifferent (f : ℕ → ℚ) {W : Finset ℕ} (hW : W ⊆ Finset.range p.numCand) {c : ℕ} (hc : c < p.numCand) (hcW : c ∉ W) :
    gain f p' W c = gain f p W c + extra p p' * f (W.card + 1) := by
  unfold gain
  rw [score_indifferent h f hW, score_indifferent h f (Finset.insert_subset (Finset.mem_range.2 hc) hW), Finset.card_insert_of_notMem hcW,
    Finset.sum_range_succ]
  ring

theorem seqRun_indifferent {f : ℕ → ℚ} {W : List ℕ} (hW : SeqRun f p W) : SeqRun f p' W := by
  induction hW with
  | nil => exact .nil
  | @snoc W c hr h1 h2 h3 ih =>
    have hs := seqRun_lt hr
    refine .snoc ih (h.1 ▸ h1) h2 fun d hd hdW => ?_
    have hd' : d < p.numCand := h.1.symm ▸ hd
    rw [gain_indifferent h f hs hd' (by simpa using hdW), gain_indifferent h f hs h1 (by simpa using h2)]
    exact add_le_add_left (h3 d hd' hdW) _

theorem seqThiele_indifferent (f : ℕ → ℚ) (k : ℕ) (A : Finset ℕ) : SeqThieleWinner f p k A ↔ SeqThieleWinner f p' k A :=
  ⟨fun ⟨W, h1, h2⟩ => ⟨W, seqRun_indifferent h h1, h2⟩, fun ⟨W, h1, h2⟩ => ⟨W, seqRun_indifferent h.symm h1, h2⟩⟩

theorem loss_indifferent (f : ℕ → ℚ) {W : Finset ℕ} (hW : W ⊆ Finset.range p.numCand) {c : ℕ} (hc : c ∈ W) :
    loss f p' W c = loss f p W c + extra p p' * f W.card := by
  unfold loss
  rw [score_indifferent h f hW, score_indifferent h f ((Finset.erase_subset c W).trans hW), Finset.card_erase_of_mem hc]
  obtain ⟨n, hn⟩ : ∃ n, W.card = n + 1 := ⟨W.card - 1, by have := Finset.card_pos.2 ⟨c, hc⟩; omega⟩
  rw [hn, Nat.add_sub_cancel, Finset.sum_range_succ]
  ring

theorem revRun_indifferent {f : ℕ → ℚ} {W : Finset ℕ} (hW : RevRun f p W) : RevRun f p' W ∧ W ⊆ Finset.range p.numCand := by
  induction hW with
  | all => exact ⟨by rw [h.1]; exact .all, subset_rfl⟩
  | @remove W c _ h1 h2 ih =>
    obtain ⟨i1, i2⟩ := ih
    refine ⟨.remove i1 h1 fun d hd => ?_, (Finset.erase_subset _ _).trans i2⟩
    rw [loss_indifferent h f i2 h1, loss_indifferent h f i2 hd]
    exact add_le_add_left (h2 d hd) _

theorem revseqThiele_indifferent (f : ℕ → ℚ) (k : ℕ) (A : Finset ℕ) : (RevRun f p A ∧ A.card = k) ↔ (RevRun f p' A ∧ A.card = k) :=
  ⟨fun ⟨h1, h2⟩ => ⟨(revRun_indifferent h h1).1, h2⟩, fun ⟨h1, h2⟩ => ⟨(revRun_indifferent h.symm h1).1, h2⟩⟩

theorem sdv_indifferent (R : Finset ℕ) : ∃ z : ℚ, ∀ c < p.numCand, sdv p' R c = sdv p R c + z := by
  refine ⟨extra p p' * ((Finset.range p.numCand ∩ R).card : ℚ)⁻¹, fun c hc => ?_⟩
  have := sum_backers_indifferent h hc (fun A => ((A ∩ R).card : ℚ)⁻¹)
  unfold sdv
  simpa only [div_eq_mul_inv] using this

theorem wt_backers_indifferent {c : ℕ} (hc : c < p.numCand) : wt p' (backers p' c) = wt p (backers p c) + extra p p' := by
  have := sum_backers_indifferent h hc (fun _ => 1)
  unfold wt
  simpa using this

theorem ephElim_indifferent {R : Finset ℕ} (hR : R ⊆ Finset.range p.numCand) (c : ℕ) : EPHElim p R c ↔ EPHElim p' R c := by
  obtain ⟨z, hz⟩ := sdv_indifferent h R
  have hlow : ∀ d ∈ R, SdvLow p' R d ↔ SdvLow p R d := by
    intro d hd
    unfold SdvLow
    have : R.filter (fun e => sdv p' R e < sdv p' R d) = R.filter (fun e => sdv p R e < sdv p R d) :=
      Finset.filter_congr fun e he => by
        rw [hz e (Finset.mem_range.1 (hR he)), hz d (Finset.mem_range.1 (hR hd)), add_lt_add_iff_right]
    rw [this]
  unfold EPHElim
  refine and_congr_right fun hc => and_congr (hlow c hc).symm (forall₂_congr fun d hd => ?_)
  rw [hlow d hd, wt_backers_indifferent h (Finset.mem_range.1 (hR hd)), wt_backers_indifferent h (Finset.mem_range.1 (hR hc)),
    add_le_add_iff_right]

theorem ephWinner_indifferent {k : ℕ} {R A : Finset ℕ} (hR : R ⊆ Finset.range p.numCand) (hA : EPHWinner p k R A) : EPHWinner p' k R A := by
  induction hA with
  | stop h1 h2 h3 h4 h5 => exact .stop (fun c => by rw [h1, ephElim_indifferent h hR]) h2 h3 h4 h5
  | next h1 h2 _ ih =>
    exact .next (fun c => by rw [h1, ephElim_indifferent h hR]) h2 (ih (Finset.sdiff_subset.trans hR))

theorem lexminimaxav_indifferent (hp : p.WF) (hp' : p'.WF) (h1 : ∀ v ∈ p.voters, v.weight = 1) (h1' : ∀ v ∈ p'.voters, v.weight = 1)
    (k : ℕ) (A : Finset ℕ) : LexminimaxavOpt p k A ↔ LexminimaxavOpt p' k A := by
  have key : ∀ d, ∃ z : ℚ, ∀ B, IsCommittee p k B → (cntDist p' B d : ℚ) = cntDist p B d + z := by
    intro d
    refine ⟨(if k ≤ d then 1 else 0) * (total p' - total p)
      + extra p p' * ((if p.numCand - k ≤ d then 1 else 0) - if k ≤ d then 1 else 0), fun B hB => ?_⟩
    have hcnt : ∀ q : Profile, (∀ v ∈ q.voters, v.weight = 1) → (cntDist q B d : ℚ) =
        (q.voters.map (fun v => v.weight * ((if (symmDiff v.A B).card ≤ d then 1 else 0) - if k ≤ d then 1 else 0))).sum
          + (if k ≤ d then 1 else 0) * total q := by
      intro q hq
      unfold cntDist total
      rw [← voters_map_sum q Voter.weight, ← List.sum_map_mul_left, ← List.sum_map_add]
      have : ∀ l : List Voter, (∀ v ∈ l, v.weight = 1) → ((l.countP (fun v => decide (dist v B ≤ d)) : ℕ) : ℚ) = (l.map (fun v =>
          v.weight * ((if (symmDiff v.A B).card ≤ d then 1 else 0) - if k ≤ d then 1 else 0) + (if k ≤ d then 1 else 0) * v.weight)).sum := by
        intro l
        induction l with
        | nil => simp
        | cons v l ih =>
          intro hl
          rw [List.countP_cons, List.map_cons, List.sum_cons, ← ih (fun w hw => hl w (by simp [hw])), hl v (by simp)]
          unfold dist
          by_cases hv : (symmDiff v.A B).card ≤ d <;> simp [hv, add_comm]
      exact this _ hq
    have hs := sum_indifferent h (fun A => (if (symmDiff A B).card ≤ d then 1 else 0) - if k ≤ d then 1 else 0) (by
      have : symmDiff (∅ : Finset ℕ) B = B := bot_symmDiff B
      simp only [this, hB.2, sub_self])
    have hU : (symmDiff (Finset.range p.numCand) B).card = p.numCand - k := by
      rw [symmDiff_def, Finset.sup_eq_union, Finset.sdiff_eq_empty_iff_subset.2 hB.1, Finset.union_empty, Finset.card_sdiff_of_subset hB.1,
        Finset.card_range, hB.2]
    simp only [hU] at hs
    rw [hcnt p h1, hcnt p' h1', hs]
    ring
  rw [lexminimaxavOpt_iff hp, lexminimaxavOpt_iff hp']
  unfold LexMax
  rw [← h.1]
  simp only [← committee_indifferent h]
  refine and_congr_right fun hA => forall₂_congr fun B hB => not_congr ?_
  unfold LexLt distLevel
  rw [← h.1]
  refine exists_congr fun i => and_congr_right fun _ => and_congr (forall₂_congr fun j _ => ?_) ?_
  · obtain ⟨z, hz⟩ := key (p.numCand - j)
    rw [← Nat.cast_inj (R := ℚ), ← Nat.cast_inj (R := ℚ) (m := cntDist p' _ _), hz A hA, hz B hB, add_left_inj]
  · obtain ⟨z, hz⟩ := key (p.numCand - i)
    rw [← Nat.cast_lt (α := ℚ), ← Nat.cast_lt (α := ℚ) (m := cntDist p' _ _), hz A hA, hz B hB, add_lt_add_iff_right]

end

theorem elects_indifferent {w w' : World} {p p' : Profile} {k : ℕ} {alg alg' ruleId : String} (h : SameUpToIndifferent p p') (hp : p.WF)
    (hp' : p'.WF) (hr : IndifferentRule w w' p p' k alg alg' ruleId) :
    ∃ S S', Elects w p k alg ruleId S ∧ Elects w' p' k alg' ruleId S' ∧ ∀ A, S A ↔ S' A := by
  cases hr with
  | av => exact ⟨_, _, .av, .av, fun A => sepOpt_indifferent h _ _ A⟩
  | sav => exact ⟨_, _, .sav, .sav, fun A => sepOpt_indifferent h _ _ A⟩
  | @thiele sid s h1 h2 h3 h4 h5 =>
    have h3' : ∀ x : String, s = .pav ∨ s = .slav ∨ s = .cc ∨
        ∃ b, s = .geom b ∧ (1 < b ∨ (x = "branch-and-bound" ∧ 1 ≤ b) ∨ (x = "brute-force" ∧ 0 < b)) := fun x =>
      h3.imp id (Or.imp id (Or.imp id fun ⟨b, e, hb⟩ => ⟨b, e, Or.inl hb⟩))
    exact ⟨_, _, .thiele h1 (h3' _) h4, .thiele h2 (h3' _) h5, fun A => thieleOpt_indifferent h _ _ A⟩
  | lexcc h1 h2 => exact ⟨_, _, .lexcc h1, .lexcc h2, fun A => lexccOpt_indifferent h _ A⟩
  | seqThiele h1 h2 h3 => exact ⟨_, _, .seqThiele h1 h3, .seqThiele h2 h3, fun A => seqThiele_indifferent h _ _ A⟩
  | revseqThiele h1 h2 => exact ⟨_, _, .revseqThiele h1, .revseqThiele h2, fun A => revseqThiele_indifferent h _ _ A⟩
  | lexminimaxav h1 h2 => exact ⟨_, _, .lexminimaxav h1, .lexminimaxav h2, fun A => lexminimaxav_indifferent h hp hp' h1 h2 _ A⟩
  | trivial => exact ⟨_, _, .trivial, .trivial, fun A => committee_indifferent h _ A⟩
  | eph h1 h2 h3 =>
    refine ⟨_, _, .eph h1 h2, .eph (h.1 ▸ h1) h3, fun A => ?_⟩
    exact ⟨fun g => h.1 ▸ ephWinner_indifferent h subset_rfl g, fun g => h.1.symm ▸ ephWinner_indifferent h.symm subset_rfl g⟩

section
variable {w w' : World} (hw : w.Exact) (hw' : w'.Exact) {p p' : Profile} (hp : p.WF) (hp' : p'.WF) {a a' : Args} (hk : a.k = a'.k)
  (hall : AllCommittees a) {ruleId alg alg' : String} (hal : prologue w.env ruleId p a = .ok alg)
  (hal' : prologue w'.env ruleId p' a' = .ok alg')
include hw hw' hp hp' hk hall hal hal'

/-- **C122** Voters who approve every candidate (or nobody) do not matter — for approval voting, satisfaction approval voting, all Thiele
rules and their sequential versions, lex-CC, lex-minimax-AV and E Pluribus Hugo: the same committees win in two profiles in which every
other ballot has the same total weight.  The two calls may use different algorithms and solvers. -/
theorem C122_indifferent (h : SameUpToIndifferent p p') (hr : IndifferentRule w w' p p' a.k alg alg' ruleId) :
    SameWinners a' (compute w ruleId p a.committeesize none a.kw) (compute w' ruleId p' a'.committeesize none a'.kw) := by
  obtain ⟨S, S', h1, h2, h3⟩ := elects_indifferent h hp hp' hr
  rw [hk] at h2
  obtain ⟨cs', e', hne, hval⟩ := C31_valid w' hw' p' hp' a' ruleId alg' hal' h2
  exact sameWinners_of_answers hall (C31_compute w hw p hp a ruleId alg hal h1) (C31_compute w' hw' p' hp' a' ruleId alg' hal' h2) h3
    ⟨cs', e', hne, fun W hW => hval.1.asc W hW⟩

end

theorem seqRunFirst_indifferent {p p' : Profile} (h : SameUpToIndifferent p p') {f : ℕ → ℚ} {W : List ℕ} (hW : SeqRunFirst f p W) :
    SeqRunFirst f p' W ∧ W.toFinset ⊆ Finset.range p.numCand := by
  induction hW with
  | nil => exact ⟨.nil, by simp⟩
  | @snoc W c _ h1 h2 h3 h4 ih =>
    obtain ⟨ih, hs⟩ := ih
    refine ⟨.snoc ih (h.1 ▸ h1) h2 (fun d hd hdW => ?_) (fun d hd hdW => ?_), fun x hx => ?_⟩
    · have hd' : d < p.numCand := h.1.symm ▸ hd
      rw [gain_indifferent h f hs hd' (by simpa using hdW), gain_indifferent h f hs h1 (by simpa using h2)]
      exact add_le_add_left (h3 d hd' hdW) _
    · rw [gain_indifferent h f hs (hd.trans h1) (by simpa using hdW), gain_indifferent h f hs h1 (by simpa using h2)]
      exact add_lt_add_left (h4 d hd hdW) _
    · rcases List.mem_append.1 (List.mem_toFinset.1 hx) with hx | hx
      · exact hs (List.mem_toFinset.2 hx)
      · rw [List.mem_singleton.1 hx]
        exact Finset.mem_range.2 h1

section
variable {w w' : World} (hw : w.Exact) (hw' : w'.Exact) {p p' : Profile} (hp : p.WF) (hp' : p'.WF) {a a' : Args}
  (h : a.resolute = true) (h' : a'.resolute = true) (hk : a.k = a'.k) {ruleId alg alg' : String}
  (hal : prologue w.env ruleId p a = .ok alg) (hal' : prologue w'.env ruleId p' a' = .ok alg')
include hw hw' hp hp' h h' hk hal hal'

/-- **C122** `resolute=True`: the same committee is returned for two profiles that differ only by voters who approve every candidate or
nobody. -/
theorem C122_resolute (hb : SameUpToIndifferent p p') (hr : ResoluteIndifferentRule w w' p p' a.k alg alg' ruleId) :
    SameCommittee (compute w ruleId p a.committeesize none a.kw) (compute w' ruleId p' a'.committeesize none a'.kw) := by
  cases hr with
  | av =>
    exact same_of_least lex_antisymm (hk ▸ sepOpt_indifferent hb _ _) (least_separable hp h hal .av rfl) (least_separable hp' h' hal' .av rfl)
  | sav =>
    exact same_of_least lex_antisymm (hk ▸ sepOpt_indifferent hb _ _) (least_separable hp h hal .sav rfl)
      (least_separable hp' h' hal' .sav rfl)
  | thiele h1 h2 h3 h4 h5 =>
    exact same_of_least lex_antisymm (hk ▸ thieleOpt_indifferent hb _ _) (least_thiele hp h hal hw h1 h3 h4)
      (least_thiele hp' h' hal' hw' h2 h3 h5)
  | thieleBranch h1 h2 h3 h4 h5 =>
    exact same_of_least key_antisymm (hk ▸ thieleOpt_indifferent hb _ _) (least_branch hp h hal hw h1 h3 h4)
      (least_branch hp' h' hal' hw' h2 h3 h5)
  | lexcc h1 h2 =>
    exact same_of_least key_antisymm (hk ▸ lexccOpt_indifferent hb _)
      (least_leading hp h hal hw (.lexcc fun g => absurd (h1.symm.trans g) (by decide)) h1 (Or.inl rfl))
      (least_leading hp' h' hal' hw' (.lexcc fun g => absurd (h2.symm.trans g) (by decide)) h2 (Or.inl rfl))
  | lexminimaxav h1 h2 h3 h4 =>
    exact same_of_least key_antisymm (hk ▸ lexminimaxav_indifferent hb hp hp' h1 h2 _)
      (least_leading hp h hal hw (.lexminimaxav h1) h3 (Or.inr (Or.inr ⟨Or.inl rfl, h1⟩)))
      (least_leading hp' h' hal' hw' (.lexminimaxav h2) h4 (Or.inr (Or.inr ⟨Or.inl rfl, h2⟩)))
  | @seqThiele sid s h1 h2 h3 =>
    obtain ⟨ri, hi, -⟩ := (C19_prologue_ok_iff _ _ p a alg).1 hal
    obtain ⟨ri', hi', -⟩ := (C19_prologue_ok_iff _ _ p' a' alg').1 hal'
    obtain ⟨W, g1, g2, g3⟩ := C27_seqThiele_resolute w.env sid s p hp a
      (standard_of hal ((ruleInfo_seq (Or.inl rfl) h1 hi) ▸ hi)) h1 h3 h
    obtain ⟨W', g1', g2', g3'⟩ := C27_seqThiele_resolute w'.env sid s p' hp' a'
      (standard_of hal' ((ruleInfo_seq (Or.inl rfl) h2 hi') ▸ hi')) h2 h3 h'
    rw [compute_none hal, compute_none hal', run_seq w p _ h1, run_seq w' p' _ h2]
    obtain rfl := SeqRunFirst.unique (seqRunFirst_indifferent hb g1).1 g1' (by rw [g2, g2', hk])
    exact ⟨_, g3, g3'⟩
  | trivial =>
    rw [compute_none hal, compute_none hal']
    exact ⟨_, (C42_trivial w.env p a (standard_of hal rfl)).2 h, by rw [hk]; exact (C42_trivial w'.env p' a' (standard_of hal' rfl)).2 h'⟩

end

/-! ### Examples -/

/-- One voter for candidate 0 (of three); … -/
def oneFan : Profile := ⟨3, [⟨[0], 1⟩], []⟩

/-- … and in addition a voter who approves all candidates. -/
def oneFanAndAll : Profile := ⟨3, [⟨[2, 1, 0], 1⟩, ⟨[0], 1⟩], []⟩

theorem oneFan_same : SameUpToIndifferent oneFan oneFanAndAll := by
  refine ⟨rfl, fun A _ hA => ?_⟩
  unfold electorate oneFan oneFanAndAll Voter.A
  have h1 : ¬ ([2, 1, 0] : List ℕ).toFinset = A := fun e => hA (by rw [← e]; decide)
  simp only [List.filter_cons, List.filter_nil, h1, decide_false, Bool.false_eq_true, if_false]

/-- **C122** Voters who approve everybody do matter for minimax-AV. -/
theorem C122_contrast : SameUpToIndifferent oneFan oneFanAndAll ∧
    ∀ solver, computeMinimaxav exampleEnv solver oneFan { committeesize := 1, algorithm := "brute-force", resolute := false } = .ok [[0]] ∧
      computeMinimaxav exampleEnv solver oneFanAndAll { committeesize := 1, algorithm := "brute-force", resolute := false } =
        .ok [[0], [1], [2]] := by
  refine ⟨oneFan_same, fun solver => ?_⟩
  have h1 : prologue exampleEnv "minimaxav" oneFan { committeesize := 1, algorithm := "brute-force", resolute := false } =
    .ok "brute-force" := by decide +kernel
  have h2 : prologue exampleEnv "minimaxav" oneFanAndAll { committeesize := 1, algorithm := "brute-force", resolute := false } =
    .ok "brute-force" := by decide +kernel
  unfold computeMinimaxav
  rw [h1, h2]
  simp only [bind, Except.bind, if_true]
  decide +kernel

/-- The hypotheses of `C122_indifferent` can be met. -/
example (w : World) (hw : w.env = exampleEnv) : oneFan.WF ∧ oneFanAndAll.WF ∧ SameUpToIndifferent oneFan oneFanAndAll ∧
    prologue w.env "seqpav" oneFan { committeesize := 1, resolute := false } = .ok "standard" ∧
    prologue w.env "seqpav" oneFanAndAll { committeesize := 1, resolute := true } = .ok "standard" ∧
    IndifferentRule w w oneFan oneFanAndAll 1 "standard" "standard" "seqpav" :=
  ⟨⟨by decide, by decide, by decide, by decide +kernel⟩, ⟨by decide, by decide, by decide, by decide +kernel⟩, oneFan_same,
    by rw [hw]; decide +kernel, by rw [hw]; decide +kernel,
    .seqThiele (sid := "pav") (s := .pav) (by rw [hw]; rfl) (by rw [hw]; rfl) (marginalFct_nonneg .pav (by simp))⟩

/-- The hypotheses of `C122_resolute` can be met. -/
example (w : World) (hw : w.env = exampleEnv) :
    prologue w.env "pav" oneFan { committeesize := 1, algorithm := "branch-and-bound", resolute := true } = .ok "branch-and-bound" ∧
    prologue w.env "pav" oneFanAndAll { committeesize := 1, algorithm := "branch-and-bound", resolute := true } = .ok "branch-and-bound" ∧
    ResoluteIndifferentRule w w oneFan oneFanAndAll 1 "branch-and-bound" "branch-and-bound" "pav" :=
  ⟨by rw [hw]; decide +kernel, by rw [hw]; decide +kernel, .thieleBranch (s := .pav) (by rw [hw]; rfl) (by rw [hw]; rfl) (Or.inl rfl) rfl rfl⟩

end Abc
