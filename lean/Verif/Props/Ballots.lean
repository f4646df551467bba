import Verif.Spec.Ballots
import Verif.Lemmas.Electorate
import Verif.Props.Consistency
import Verif.Props.Dispatch
import Verif.Props.Dominance
import Verif.Props.ILPLexminimaxav
import Verif.Props.Anonymity
import Verif.Props.Neutrality

/-!
# C103: only the total weights of the ballots matter; voters who approve nobody do not matter
-/

namespace Abc
open Spec

theorem Spec.SameBallots.symm {p p' : Profile} (h : SameBallots p p') : SameBallots p' p :=
  ⟨h.1.symm, fun A hA => (h.2 A hA).symm⟩

theorem Spec.SameElectorate.ballots {p p' : Profile} (h : SameElectorate p p') : SameBallots p p' := ⟨h.1, fun A _ => h.2 A⟩

/-- Sums over the voters of the weight times a function of the ballot. -/
theorem sum_ballots {p p' : Profile} (h : SameBallots p p') (g : Finset ℕ → ℚ) (hg : g ∅ = 0) :
    (p.voters.map (fun v => v.weight * g v.A)).sum = (p'.voters.map (fun v => v.weight * g v.A)).sum := by
  set S := ((p.voters ++ p'.voters).map Voter.A).toFinset with hS
  rw [sum_by_set p.voters g S, sum_by_set p'.voters g S]
  · refine Finset.sum_congr rfl (fun A _ => ?_)
    by_cases hA : A = ∅
    · rw [hA, hg, mul_zero, mul_zero]
    · rw [h.2 A hA]
  · intro v hv
    simp only [hS, List.mem_toFinset, List.mem_map, List.mem_append]
    exact ⟨v, Or.inr hv, rfl⟩
  · intro v hv
    simp only [hS, List.mem_toFinset, List.mem_map, List.mem_append]
    exact ⟨v, Or.inl hv, rfl⟩

theorem sum_fin {p p' : Profile} (h : SameBallots p p') (g : Finset ℕ → ℚ) (hg : g ∅ = 0) :
    ∑ i, (p.voters.get i).weight * g (appr p i) = ∑ i, (p'.voters.get i).weight * g (appr p' i) := by
  have := sum_ballots h g hg
  rw [voters_map_sum, voters_map_sum] at this
  exact this

/-- Sums over the supporters of a candidate. -/
theorem sum_backers_ballots {p p' : Profile} (h : SameBallots p p') (c : ℕ) (g : Finset ℕ → ℚ) :
    ∑ i ∈ backers p c, (p.voters.get i).weight * g (appr p i) = ∑ i ∈ backers p' c, (p'.voters.get i).weight * g (appr p' i) := by
  have := sum_fin h (fun A => if c ∈ A then g A else 0) (by simp)
  unfold backers
  rw [Finset.sum_filter, Finset.sum_filter]
  simpa only [mul_ite, mul_zero] using this

section
variable {p p' : Profile} (h : SameBallots p p')
include h

theorem wt_backers_ballots (c : ℕ) : wt p (backers p c) = wt p' (backers p' c) := by
  have := sum_backers_ballots h c (fun _ => 1)
  unfold wt
  simpa using this

theorem wt_backersOf_ballots (C : Finset ℕ) : wt p (backersOf p C) = wt p' (backersOf p' C) := by
  have := sum_fin h (fun A => if ∃ c ∈ C, c ∈ A then 1 else 0) (by simp)
  unfold wt backersOf
  rw [Finset.sum_filter, Finset.sum_filter]
  simpa only [mul_ite, mul_one, mul_zero] using this

theorem score_ballots (f : ℕ → ℚ) (W : Finset ℕ) : score f p W = score f p' W := by
  have := sum_ballots h (fun A => ∑ i ∈ Finset.range (A ∩ W).card, f (i + 1)) (by simp)
  exact this

theorem committee_ballots (k : ℕ) (A : Finset ℕ) : IsCommittee p k A ↔ IsCommittee p' k A := by
  unfold IsCommittee
  rw [h.1]

theorem candScore_ballots (r : SepRule) (c : ℕ) : candScore r p c = candScore r p' c := by
  unfold candScore
  cases r with
  | av =>
    have := sum_ballots h (fun A => if c ∈ A then 1 else 0) (by simp)
    simpa only [mul_ite, mul_one, mul_zero] using this
  | sav =>
    have := sum_ballots h (fun A => if c ∈ A then (A.card : ℚ)⁻¹ else 0) (by simp)
    simpa only [mul_ite, mul_zero, div_eq_mul_inv] using this

theorem sepOpt_ballots (r : SepRule) (k : ℕ) (A : Finset ℕ) : SepOpt r p k A ↔ SepOpt r p' k A := by
  unfold SepOpt
  simp only [committee_ballots h, candScore_ballots h]

theorem thieleOpt_ballots (f : ℕ → ℚ) (k : ℕ) (A : Finset ℕ) : ThieleOpt f p k A ↔ ThieleOpt f p' k A := by
  unfold ThieleOpt
  simp only [committee_ballots h, score_ballots h]

theorem coverage_ballots (l : ℕ) (hl : 1 ≤ l) (W : Finset ℕ) : coverage p l W = coverage p' l W := by
  have := sum_ballots h (fun A => if l ≤ (A ∩ W).card then 1 else 0) (by simp; omega)
  unfold coverage util
  simpa only [mul_ite, mul_one, mul_zero] using this

theorem lexccOpt_ballots (k : ℕ) (A : Finset ℕ) : LexccOpt p k A ↔ LexccOpt p' k A := by
  have : ∀ W, coverageVector p k W = coverageVector p' k W := fun W => by
    unfold coverageVector
    exact List.map_congr_left fun i _ => coverage_ballots h _ (by omega) W
  unfold LexccOpt
  simp only [committee_ballots h, this]

theorem seqRun_ballots {f : ℕ → ℚ} {W : List ℕ} (hW : SeqRun f p W) : SeqRun f p' W := by
  induction hW with
  | nil => exact .nil
  | snoc _ h1 h2 h3 ih =>
    refine .snoc ih (h.1 ▸ h1) h2 fun d hd hdW => ?_
    have := h3 d (h.1.symm ▸ hd) hdW
    unfold gain at this ⊢
    simpa only [score_ballots h] using this

theorem seqThiele_ballots (f : ℕ → ℚ) (k : ℕ) (A : Finset ℕ) : SeqThieleWinner f p k A ↔ SeqThieleWinner f p' k A :=
  ⟨fun ⟨W, h1, h2⟩ => ⟨W, seqRun_ballots h h1, h2⟩, fun ⟨W, h1, h2⟩ => ⟨W, seqRun_ballots h.symm h1, h2⟩⟩

theorem revRun_ballots {f : ℕ → ℚ} {W : Finset ℕ} (hW : RevRun f p W) : RevRun f p' W := by
  induction hW with
  | all => rw [h.1]; exact .all
  | remove _ h1 h2 ih =>
    refine .remove ih h1 fun d hd => ?_
    have := h2 d hd
    unfold loss at this ⊢
    simpa only [score_ballots h] using this

theorem revseqThiele_ballots (f : ℕ → ℚ) (k : ℕ) (A : Finset ℕ) : (RevRun f p A ∧ A.card = k) ↔ (RevRun f p' A ∧ A.card = k) :=
  ⟨fun ⟨h1, h2⟩ => ⟨revRun_ballots h h1, h2⟩, fun ⟨h1, h2⟩ => ⟨revRun_ballots h.symm h1, h2⟩⟩

theorem sdv_ballots (R : Finset ℕ) (c : ℕ) : sdv p R c = sdv p' R c := by
  have := sum_backers_ballots h c (fun A => ((A ∩ R).card : ℚ)⁻¹)
  unfold sdv
  simpa only [div_eq_mul_inv] using this

theorem ephElim_ballots (R : Finset ℕ) (c : ℕ) : EPHElim p R c ↔ EPHElim p' R c := by
  unfold EPHElim SdvLow
  simp only [sdv_ballots h, wt_backers_ballots h]

theorem ephWinner_ballots {k : ℕ} {R A : Finset ℕ} (hA : EPHWinner p k R A) : EPHWinner p' k R A := by
  induction hA with
  | stop h1 h2 h3 h4 h5 => exact .stop (fun c => by rw [h1, ephElim_ballots h]) h2 h3 h4 h5
  | next h1 h2 _ ih => exact .next (fun c => by rw [h1, ephElim_ballots h]) h2 ih

variable (hp : p.WF) (hp' : p'.WF)
include hp hp'

theorem backers_nonempty_ballots (c : ℕ) : (backers p c).Nonempty ↔ (backers p' c).Nonempty := by
  rw [← wt_backers_pos hp, ← wt_backers_pos hp', wt_backers_ballots h]

theorem approvedSet_ballots : approvedSet p = approvedSet p' := by
  ext c
  have hb : ∀ q : Profile, c ∈ approvedSet q ↔ (backers q c).Nonempty := fun q => by
    unfold approvedSet backers
    simp [Finset.Nonempty]
  rw [hb, hb, backers_nonempty_ballots h hp hp']

theorem approvers_ballots (h1 : ApproversAtLeastOne p) : ApproversAtLeastOne p' := fun c hc => by
  rw [← wt_backers_ballots h]
  exact h1 c ((backers_nonempty_ballots h hp hp' c).2 hc)

theorem loadWithin_ballots (hn : p.voters ≠ []) (hn' : p'.voters ≠ []) (A : Finset ℕ) (t : ℚ) : LoadWithin p A t ↔ LoadWithin p' A t := by
  rw [C67_load_iff hp hn, C67_load_iff hp' hn']
  simp only [wt_backersOf_ballots h]

theorem minimaxphragmen_ballots (hn : p.voters ≠ []) (hn' : p'.voters ≠ []) (ε : ℚ) (k : ℕ) (A : Finset ℕ) :
    MinimaxPhragmenOpt ε p k A ↔ MinimaxPhragmenOpt ε p' k A := by
  unfold MinimaxPhragmenOpt LoadCommittee
  simp only [committee_ballots h, loadWithin_ballots h hp hp' hn hn', approvedSet_ballots h hp hp']

theorem supportAtLeast_ballots (A : Finset ℕ) (t : ℚ) : SupportAtLeast p A t ↔ SupportAtLeast p' A t := by
  rw [C67_support_iff hp, C67_support_iff hp']
  simp only [wt_backersOf_ballots h]

theorem maximin_ballots (ε : ℚ) (k : ℕ) (A : Finset ℕ) : MaximinWinner ε p k A ↔ MaximinWinner ε p' k A := by
  have : (fun W (_ : Unit) c => MaximinBest ε p W c) = fun W (_ : Unit) c => MaximinBest ε p' W c := by
    funext W _ c
    unfold MaximinBest
    simp only [supportAtLeast_ballots h hp hp', h.1]
  unfold MaximinWinner
  rw [this]

theorem lexminimaxav_ballots (h1 : ∀ v ∈ p.voters, v.weight = 1) (h1' : ∀ v ∈ p'.voters, v.weight = 1) (k : ℕ) (A : Finset ℕ) :
    LexminimaxavOpt p k A ↔ LexminimaxavOpt p' k A := by
  have key : ∀ d, ∃ z : ℚ, ∀ B, IsCommittee p k B → (cntDist p' B d : ℚ) = cntDist p B d + z := by
    intro d
    refine ⟨(if k ≤ d then 1 else 0) * (total p' - total p), fun B hB => ?_⟩
    have hcnt : ∀ q : Profile, (∀ v ∈ q.voters, v.weight = 1) → (cntDist q B d : ℚ) =
        (q.voters.map (fun v => v.weight * ((if (symmDiff v.A B).card ≤ d then 1 else 0) - if k ≤ d then 1 else 0))).sum
          + (if k ≤ d then 1 else 0) * total q := by
      intro q hq
      unfold cntDist total
      rw [← voters_map_sum q Voter.weight, ← List.sum_map_mul_left, ← List.sum_map_add]
      have : ∀ l : List Voter, (∀ v ∈ l, v.weight = 1) → ((l.countP (fun v => decide (dist v B ≤ d)) : ℕ) : ℚ) = (l.map (fun v =>
          v.weight * ((if (symmDiff v.A B).card ≤ d then 1 else 0) - if k ≤ d then 1 else 0) + (if k ≤ d then 1 else 0) * v.weight)).sum := by
        intro l
        induction l with
        | nil => simp
        | cons v l ih =>
          intro hl
          rw [List.countP_cons, List.map_cons, List.sum_cons, ← ih (fun w hw => hl w (by simp [hw])), hl v (by simp)]
          unfold dist
          by_cases hv : (symmDiff v.A B).card ≤ d <;> simp [hv, add_comm]
      exact this _ hq
    have hs := sum_ballots h (fun A => (if (symmDiff A B).card ≤ d then 1 else 0) - if k ≤ d then 1 else 0) (by
      have : symmDiff (∅ : Finset ℕ) B = B := bot_symmDiff B
      simp only [this, hB.2, sub_self])
    rw [hcnt p h1, hcnt p' h1', hs]
    ring
  rw [lexminimaxavOpt_iff hp, lexminimaxavOpt_iff hp']
  unfold LexMax
  rw [← h.1]
  simp only [← committee_ballots h]
  refine and_congr_right fun hA => forall₂_congr fun B hB => not_congr ?_
  unfold LexLt distLevel
  rw [← h.1]
  refine exists_congr fun i => and_congr_right fun _ => and_congr (forall₂_congr fun j _ => ?_) ?_
  · obtain ⟨z, hz⟩ := key (p.numCand - j)
    have e1 := hz A hA
    have e2 := hz B hB
    constructor <;> intro h
    · have h' : (cntDist p A (p.numCand - j) : ℚ) = cntDist p B (p.numCand - j) := by exact_mod_cast h
      have : (cntDist p' A (p.numCand - j) : ℚ) = cntDist p' B (p.numCand - j) := by linarith
      exact_mod_cast this
    · have h' : (cntDist p' A (p.numCand - j) : ℚ) = cntDist p' B (p.numCand - j) := by exact_mod_cast h
      have : (cntDist p A (p.numCand - j) : ℚ) = cntDist p B (p.numCand - j) := by linarith
      exact_mod_cast this
  · obtain ⟨z, hz⟩ := key (p.numCand - i)
    have e1 := hz A hA
    have e2 := hz B hB
    constructor <;> intro h
    · have h' : (cntDist p A (p.numCand - i) : ℚ) < cntDist p B (p.numCand - i) := by exact_mod_cast h
      have : (cntDist p' A (p.numCand - i) : ℚ) < cntDist p' B (p.numCand - i) := by linarith
      exact_mod_cast this
    · have h' : (cntDist p' A (p.numCand - i) : ℚ) < cntDist p' B (p.numCand - i) := by exact_mod_cast h
      have : (cntDist p A (p.numCand - i) : ℚ) < cntDist p B (p.numCand - i) := by linarith
      exact_mod_cast this

end

/-! ## Rules with loads or budgets -/

/-- Simulation of smallest-index runs. -/
theorem runFirst_ballots {σ τ : Type} {Best : List ℕ → σ → ℕ → Prop} {upd : List ℕ → σ → ℕ → σ} {Best' : List ℕ → τ → ℕ → Prop}
    {upd' : List ℕ → τ → ℕ → τ} (R : List ℕ → σ → τ → Prop) {s₀ : σ} {t₀ : τ} (h0 : R [] s₀ t₀)
    (hb : ∀ W s t c, R W s t → (Best W s c ↔ Best' W t c))
    (hs : ∀ W s t c, R W s t → Best W s c → R (W ++ [c]) (upd W s c) (upd' W t c))
    {W : List ℕ} {s : σ} (h : RunFirst Best upd [] s₀ W s) : ∃ t, RunFirst Best' upd' [] t₀ W t ∧ R W s t := by
  induction h with
  | start => exact ⟨t₀, .start, h0⟩
  | @step W s c _ hc hfst ih =>
    obtain ⟨t, h1, h2⟩ := ih
    exact ⟨_, .step h1 ((hb W s t c h2).1 hc) (fun d hd h => hfst d hd ((hb W s t d h2).2 h)), hs W s t c h2 hc⟩

/-- Simulation of runs from any start. -/
theorem runFrom_ballots {σ τ : Type} {Best : List ℕ → σ → ℕ → Prop} {upd : List ℕ → σ → ℕ → σ} {Best' : List ℕ → τ → ℕ → Prop}
    {upd' : List ℕ → τ → ℕ → τ} (R : σ → τ → Prop) {W₀ : List ℕ} {s₀ : σ} {t₀ : τ} (h0 : R s₀ t₀)
    (hb : ∀ W s t c, R s t → (Best W s c ↔ Best' W t c)) (hs : ∀ W s t c, R s t → Best W s c → R (upd W s c) (upd' W t c))
    {W : List ℕ} {s : σ} (h : Run Best upd W₀ s₀ W s) : ∃ t, Run Best' upd' W₀ t₀ W t ∧ R s t := by
  induction h with
  | start => exact ⟨t₀, .start, h0⟩
  | @step W s c _ hc ih =>
    obtain ⟨t, h1, h2⟩ := ih
    exact ⟨_, .step h1 ((hb W s t c h2).1 hc), hs W s t c h2 hc⟩

/-- Voters with the same ballot have the same load, and it is the same in both profiles. -/
def SameLoads (p p' : Profile) (x : VoterMap p) (y : VoterMap p') : Prop :=
  ∃ X : Finset ℕ → ℚ, (∀ i, x i = X (appr p i)) ∧ ∀ i, y i = X (appr p' i)

/-- The budgets per unit of weight are functions of the ballot, the same in both profiles. -/
def SameBudgets (p p' : Profile) (x : VoterMap p) (y : VoterMap p') : Prop :=
  ∃ X : Finset ℕ → ℚ, (∀ i, x i = (p.voters.get i).weight * X (appr p i)) ∧ ∀ i, y i = (p'.voters.get i).weight * X (appr p' i)

theorem SameLoads.symm {p p' : Profile} {x : VoterMap p} {y : VoterMap p'} (h : SameLoads p p' x y) : SameLoads p' p y x :=
  let ⟨X, h1, h2⟩ := h; ⟨X, h2, h1⟩

theorem SameBudgets.symm {p p' : Profile} {x : VoterMap p} {y : VoterMap p'} (h : SameBudgets p p' x y) : SameBudgets p' p y x :=
  let ⟨X, h1, h2⟩ := h; ⟨X, h2, h1⟩

section
variable {p p' : Profile} (h : SameBallots p p') (hp : p.WF) (hp' : p'.WF)
include h

theorem newLoad_ballots {x : VoterMap p} {y : VoterMap p'} (hx : SameLoads p p' x y) (c : ℕ) : newLoad p x c = newLoad p' y c := by
  obtain ⟨X, h1, h2⟩ := hx
  unfold newLoad
  simp only [h1, h2]
  rw [sum_backers_ballots h, wt_backers_ballots h]

theorem phragUpd_ballots {x : VoterMap p} {y : VoterMap p'} (hx : SameLoads p p' x y) (W : List ℕ) (c : ℕ) :
    SameLoads p p' (phragUpd p W x c) (phragUpd p' W y c) := by
  have hl := newLoad_ballots h hx c
  obtain ⟨X, h1, h2⟩ := hx
  refine ⟨fun A => if c ∈ A then newLoad p x c else X A, fun i => ?_, fun i => ?_⟩
  · unfold phragUpd
    simp only [mem_backers_appr, h1]
  · unfold phragUpd
    simp only [mem_backers_appr, h2, hl]

include hp hp'

theorem phragBest_ballots {x : VoterMap p} {y : VoterMap p'} (hx : SameLoads p p' x y) (W : List ℕ) (c : ℕ) :
    PhragBest p W x c ↔ PhragBest p' W y c := by
  have he : ∀ d, backers p d = ∅ ↔ backers p' d = ∅ := fun d => by
    rw [← Finset.not_nonempty_iff_eq_empty, ← Finset.not_nonempty_iff_eq_empty, backers_nonempty_ballots h hp hp']
  unfold PhragBest
  simp only [h.1, backers_nonempty_ballots h hp hp', newLoad_ballots h hx, he]

theorem phragRun_ballots {W₀ W : List ℕ} {x₀ x : VoterMap p} {y₀ : VoterMap p'} (h0 : SameLoads p p' x₀ y₀)
    (hr : Run (PhragBest p) (phragUpd p) W₀ x₀ W x) : ∃ y, Run (PhragBest p') (phragUpd p') W₀ y₀ W y ∧ SameLoads p p' x y :=
  runFrom_ballots (SameLoads p p') h0 (fun W _ _ c hx => phragBest_ballots h hp hp' hx W c)
    (fun W _ _ c hx _ => phragUpd_ballots h hx W c) hr

omit h hp hp' in
theorem sameLoads_const (p p' : Profile) (q : ℚ) : SameLoads p p' (fun _ => q) (fun _ => q) := ⟨fun _ => q, fun _ => rfl, fun _ => rfl⟩

theorem seqphragmen_ballots (k : ℕ) (A : Finset ℕ) : RunWinner (PhragBest p) (phragUpd p) (fun _ => 0) k A ↔
    RunWinner (PhragBest p') (phragUpd p') (fun _ => 0) k A := by
  constructor
  · rintro ⟨W, x, h1, h2⟩
    obtain ⟨y, h3, -⟩ := phragRun_ballots h hp hp' (sameLoads_const p p' 0) h1
    exact ⟨W, y, h3, h2⟩
  · rintro ⟨W, x, h1, h2⟩
    obtain ⟨y, h3, -⟩ := phragRun_ballots h.symm hp' hp (sameLoads_const p' p 0) h1
    exact ⟨W, y, h3, h2⟩

/-! ### Equal Shares -/

theorem payments_ballots {b : VoterMap p} {b' : VoterMap p'} (hb : SameBudgets p p' b b') (c : ℕ) (q : ℚ) :
    payments p b c q = payments p' b' c q := by
  obtain ⟨X, h1, h2⟩ := hb
  have key : ∀ (r : Profile) (hr : r.WF) (x : VoterMap r), (∀ i, x i = (r.voters.get i).weight * X (appr r i)) →
      payments r x c q = ∑ i ∈ backers r c, (r.voters.get i).weight * min (X (appr r i)) q := by
    intro r hr x hx
    unfold payments
    refine Finset.sum_congr rfl fun i _ => ?_
    rw [hx, mul_comm q, ← mul_min_of_nonneg _ _ (weight_pos hr i).le]
  rw [key p hp b h1, key p' hp' b' h2, sum_backers_ballots h c (fun A => min (X A) q)]

theorem isPrice_ballots {b : VoterMap p} {b' : VoterMap p'} (hb : SameBudgets p p' b b') (c : ℕ) : IsPrice p b c = IsPrice p' b' c := by
  funext q
  unfold IsPrice
  simp only [payments_ballots h hp hp' hb]

theorem mesBest_ballots {b : VoterMap p} {b' : VoterMap p'} (hb : SameBudgets p p' b b') (W : List ℕ) (c : ℕ) :
    MESBest p W b c ↔ MESBest p' W b' c := by
  unfold MESBest
  simp only [h.1, isPrice_ballots h hp hp' hb]

theorem mesUpd_ballots {b : VoterMap p} {b' : VoterMap p'} (hb : SameBudgets p p' b b') (W : List ℕ) (c : ℕ) :
    SameBudgets p p' (mesUpd p W b c) (mesUpd p' W b' c) := by
  have hpr : price p b c = price p' b' c := by
    unfold price
    rw [isPrice_ballots h hp hp' hb]
  obtain ⟨X, h1, h2⟩ := hb
  have key : ∀ (r : Profile) (hr : r.WF) (x : VoterMap r), (∀ i, x i = (r.voters.get i).weight * X (appr r i)) → ∀ i,
      mesUpd r W x c i = (r.voters.get i).weight * (if c ∈ appr r i then X (appr r i) - min (X (appr r i)) (price r x c) else X (appr r i)) := by
    intro r hr x hx i
    unfold mesUpd
    by_cases hc : c ∈ appr r i
    · rw [if_pos (mem_backers_appr.2 hc), if_pos hc, hx, mul_comm (price r x c), ← mul_min_of_nonneg _ _ (weight_pos hr i).le, mul_sub]
    · rw [if_neg (fun h => hc (mem_backers_appr.1 h)), if_neg hc, hx]
  refine ⟨fun A => if c ∈ A then X A - min (X A) (price p b c) else X A, key p hp b h1, fun i => ?_⟩
  rw [hpr]
  exact key p' hp' b' h2 i

omit hp hp' in
theorem mesDone_ballots {b : VoterMap p} {b' : VoterMap p'} (hb : SameBudgets p p' b b') (W : List ℕ) :
    MESDone p W b ↔ MESDone p' W b' := by
  obtain ⟨X, h1, h2⟩ := hb
  unfold MESDone Affordable
  simp only [h1, h2, h.1, sum_backers_ballots h _ X]

omit h hp hp' in
theorem budgetOf_ballots (p p' : Profile) (r : ℚ) : SameBudgets p p' (budgetOf p r) (budgetOf p' r) :=
  ⟨fun _ => r, fun _ => rfl, fun _ => rfl⟩

theorem completed_ballots {b : VoterMap p} {b' : VoterMap p'} (hb : SameBudgets p p' b b') (k : ℕ) (cm : Completion) (W : List ℕ)
    (A : Finset ℕ) (hA : Completed p k cm W b A) : Completed p' k cm W b' A := by
  cases cm with
  | none => exact hA
  | seqphragmen =>
    obtain ⟨V, x, h1, h2⟩ := hA
    have hl : SameLoads p p' (fun i => - b i / (p.voters.get i).weight) (fun i => - b' i / (p'.voters.get i).weight) := by
      obtain ⟨X, g1, g2⟩ := hb
      refine ⟨fun A => - X A, fun i => ?_, fun i => ?_⟩
      · have := weight_pos hp i
        simp only [g1]
        field_simp
      · have := weight_pos hp' i
        simp only [g2]
        field_simp
    obtain ⟨y, h3, -⟩ := phragRun_ballots h hp hp' hl h1
    exact ⟨V, y, h3, h2⟩
  | av =>
    unfold Completed at hA ⊢
    simpa only [committee_ballots h, candScore_ballots h] using hA
  | increment => exact hA
  | other _ => exact hA

theorem mesWinner_ballots {k : ℕ} {cm : Completion} {r : ℚ} {A : Finset ℕ} (hA : MESWinner p k cm r A) : MESWinner p' k cm r A := by
  obtain ⟨W, b, h1, h2⟩ := hA
  obtain ⟨b', h3, h4⟩ := runFrom_ballots (SameBudgets p p') (budgetOf_ballots p p' r)
    (fun W _ _ c hx => mesBest_ballots h hp hp' hx W c) (fun W _ _ c hx _ => mesUpd_ballots h hp hp' hx W c) h1
  refine ⟨W, b', h3, h2.imp id fun ⟨g1, g2, g3⟩ => ⟨g1, (mesDone_ballots h h4 W).1 g2, completed_ballots h hp hp' h4 k cm W A g3⟩⟩

theorem firstOutcome_ballots {k : ℕ} {r : ℚ} {W : List ℕ} (hW : FirstOutcome p k r W) : FirstOutcome p' k r W := by
  obtain ⟨b, h1, h2⟩ := hW
  obtain ⟨b', h3, h4⟩ := runFirst_ballots (fun _ => SameBudgets p p') (budgetOf_ballots p p' r)
    (fun W _ _ c hx => mesBest_ballots h hp hp' hx W c) (fun W _ _ c hx _ => mesUpd_ballots h hp hp' hx W c) h1
  exact ⟨b', h3, h2.imp id fun ⟨g1, g2⟩ => ⟨g1, (mesDone_ballots h h4 W).1 g2⟩⟩

theorem increment_ballots (ht : total p = total p') {k : ℕ} {A : Finset ℕ} (hA : IncrementWinner p k A) : IncrementWinner p' k A := by
  unfold IncrementWinner at hA ⊢
  rw [← ht, ← approvedSet_ballots h hp hp']
  have hsub : ∀ q : Profile, (∀ i, appr q i ⊆ A) ↔ approvedSet q ⊆ A := fun q => by
    unfold approvedSet
    rw [Finset.biUnion_subset]
    simp
  rcases hA with ⟨h1, h2, h3⟩ | ⟨h1, inc, W, h2, h3, h4, h5, h6⟩
  · refine Or.inl ⟨h1, (sepOpt_ballots h _ _ _).1 h2, ?_⟩
    rw [hsub, ← approvedSet_ballots h hp hp', ← hsub]
    exact h3
  · refine Or.inr ⟨h1, inc, W, h2, firstOutcome_ballots h hp hp' h3, h4, h5, fun j hj hlt => ?_⟩
    obtain ⟨V, g1, g2⟩ := h6 j hj hlt
    exact ⟨V, firstOutcome_ballots h hp hp' g1, g2⟩

/-! ### Phragmén-Eneström, consensus rule -/

theorem support_ballots {b : VoterMap p} {b' : VoterMap p'} (hb : SameBudgets p p' b b') (c : ℕ) : support p b c = support p' b' c := by
  obtain ⟨X, h1, h2⟩ := hb
  have key : ∀ (r : Profile) (hr : r.WF) (x : VoterMap r), (∀ i, x i = (r.voters.get i).weight * X (appr r i)) →
      support r x c = ∑ i ∈ backers r c, (r.voters.get i).weight * (if 0 < X (appr r i) then X (appr r i) else 0) := by
    intro r hr x hx
    unfold support
    rw [Finset.sum_filter]
    refine Finset.sum_congr rfl fun i _ => ?_
    have hw := weight_pos hr i
    simp only [hx, mul_pos_iff_of_pos_left hw]
    split_ifs <;> simp
  rw [key p hp b h1, key p' hp' b' h2, sum_backers_ballots h c (fun A => if 0 < X A then X A else 0)]

theorem supportBest_ballots {b : VoterMap p} {b' : VoterMap p'} (hb : SameBudgets p p' b b') (W : List ℕ) (c : ℕ) :
    SupportBest p W b c ↔ SupportBest p' W b' c := by
  unfold SupportBest
  simp only [h.1, support_ballots h hp hp' hb]

theorem enestroemUpd_ballots {b : VoterMap p} {b' : VoterMap p'} (hb : SameBudgets p p' b b') (q : ℚ) (W : List ℕ) (c : ℕ) :
    SameBudgets p p' (enestroemUpd p q W b c) (enestroemUpd p' q W b' c) := by
  have hs := support_ballots h hp hp' hb c
  obtain ⟨X, h1, h2⟩ := hb
  have key : ∀ (r : Profile) (x : VoterMap r), (∀ i, x i = (r.voters.get i).weight * X (appr r i)) → ∀ i,
      enestroemUpd r q W x c i = (r.voters.get i).weight * (if c ∈ appr r i then (if q < support r x c then
        X (appr r i) - q * (X (appr r i) / support r x c) else 0) else X (appr r i)) := by
    intro r x hx i
    unfold enestroemUpd
    simp only [mem_backers_appr, hx i]
    split_ifs
    · ring
    · ring
    · rfl
  refine ⟨fun A => if c ∈ A then (if q < support p b c then X A - q * (X A / support p b c) else 0) else X A, key p b h1, fun i => ?_⟩
  rw [hs]
  exact key p' b' h2 i

theorem enestroem_ballots (ht : total p = total p') {k : ℕ} {A : Finset ℕ} (hA : EnestroemWinner p k A) : EnestroemWinner p' k A := by
  obtain ⟨W, b, h1, h2⟩ := hA
  have h0 : SameBudgets p p' (fun i => (p.voters.get i).weight) (fun i => (p'.voters.get i).weight) :=
    ⟨fun _ => 1, fun _ => (mul_one _).symm, fun _ => (mul_one _).symm⟩
  obtain ⟨b', h3, -⟩ := runFrom_ballots (SameBudgets p p') h0
    (fun W _ _ c hx => supportBest_ballots h hp hp' hx W c) (fun W _ _ c hx _ => enestroemUpd_ballots h hp hp' hx (total p / k) W c) h1
  unfold EnestroemWinner
  rw [← ht]
  exact ⟨W, b', h3, h2⟩

omit h hp hp' in
theorem income_ballots {b : VoterMap p} {b' : VoterMap p'} (hb : SameBudgets p p' b b') : SameBudgets p p' (income p b) (income p' b') := by
  obtain ⟨X, h1, h2⟩ := hb
  refine ⟨fun A => X A + 1, fun i => ?_, fun i => ?_⟩
  · unfold income; rw [h1]; ring
  · unfold income; rw [h2]; ring

theorem consensusUpd_ballots (ht : total p = total p') {b : VoterMap p} {b' : VoterMap p'} (hb : SameBudgets p p' b b') (W : List ℕ)
    (c : ℕ) : SameBudgets p p' (consensusUpd p W b c) (consensusUpd p' W b' c) := by
  obtain ⟨X, h1, h2⟩ := income_ballots hb
  have hpos : ∀ (r : Profile) (hr : r.WF) (x : VoterMap r), (∀ i, x i = (r.voters.get i).weight * X (appr r i)) → ∀ i,
      (0 < x i ↔ 0 < X (appr r i)) := fun r hr x hx i => by rw [hx, mul_pos_iff_of_pos_left (weight_pos hr i)]
  have key : ∀ (r : Profile) (hr : r.WF) (x : VoterMap r), (∀ i, x i = (r.voters.get i).weight * X (appr r i)) →
      ∑ j ∈ backers r c with 0 < x j, (r.voters.get j).weight =
        ∑ i ∈ backers r c, (r.voters.get i).weight * (if 0 < X (appr r i) then 1 else 0) := by
    intro r hr x hx
    rw [Finset.sum_filter]
    refine Finset.sum_congr rfl fun i _ => ?_
    simp only [hpos r hr x hx]
    split_ifs <;> simp
  have hsum : ∑ j ∈ backers p c with 0 < income p b j, (p.voters.get j).weight =
      ∑ j ∈ backers p' c with 0 < income p' b' j, (p'.voters.get j).weight := by
    rw [key p hp _ h1, key p' hp' _ h2, sum_backers_ballots h c (fun A => if 0 < X A then 1 else 0)]
  have hupd : ∀ (r : Profile) (hr : r.WF) (x : VoterMap r), (∀ i, income r x i = (r.voters.get i).weight * X (appr r i)) → ∀ i,
      consensusUpd r W x c i = (r.voters.get i).weight * (if c ∈ appr r i ∧ 0 < X (appr r i) then
        X (appr r i) - total r * (1 / ∑ j ∈ backers r c with 0 < income r x j, (r.voters.get j).weight) else X (appr r i)) := by
    intro r hr x hx i
    unfold consensusUpd
    simp only [mem_backers_appr, hpos r hr _ hx]
    rw [hx i]
    split_ifs
    · ring
    · rfl
  refine ⟨fun A => if c ∈ A ∧ 0 < X A then X A - total p * (1 / ∑ j ∈ backers p c with 0 < income p b j, (p.voters.get j).weight) else X A,
    hupd p hp b h1, fun i => ?_⟩
  rw [hupd p' hp' b' h2 i, hsum, ht]

theorem consensus_ballots (ht : total p = total p') {k : ℕ} {A : Finset ℕ} (hA : ConsensusWinner p k A) : ConsensusWinner p' k A := by
  obtain ⟨W, b, h1, h2⟩ := hA
  have h0 : SameBudgets p p' (fun _ => 0) (fun _ => 0) := ⟨fun _ => 0, fun _ => (mul_zero _).symm, fun _ => (mul_zero _).symm⟩
  obtain ⟨b', h3, -⟩ := runFrom_ballots (SameBudgets p p') h0
    (fun W _ _ c hx => supportBest_ballots h hp hp' (income_ballots hx) W c)
    (fun W _ _ c hx _ => consensusUpd_ballots h hp hp' ht hx W c) h1
  exact ⟨W, b', h3, h2⟩

end

/-! ## The theorems -/

theorem total_electorate {p p' : Profile} (h : SameElectorate p p') : total p = total p' := by
  have := sum_electorate h (fun _ => 1)
  unfold total
  rw [voters_map_sum, voters_map_sum] at this
  simpa using this

/-- Profiles with unit weights and the same electorate differ only by the order of the voters. -/
theorem renaming_of_electorate {p p' : Profile} (h : SameElectorate p p') (h1 : ∀ v ∈ p.voters, v.weight = 1)
    (h1' : ∀ v ∈ p'.voters, v.weight = 1) : ∃ R : Renaming 1 p p', R.cand = Equiv.refl ℕ := by
  have hcount : ∀ (q : Profile), (∀ v ∈ q.voters, v.weight = 1) → ∀ A, ((q.voters.map Voter.A).count A : ℚ) = electorate q.voters A := by
    intro q hq A
    unfold electorate
    rw [List.count, List.countP_map, List.countP_eq_length_filter]
    rw [List.map_congr_left (g := fun _ => (1 : ℚ)) (fun v hv => hq v (List.mem_filter.1 hv).1)]
    simp [Function.comp_def, beq_eq_decide]
  have hperm : (p.voters.map Voter.A).Perm (p'.voters.map Voter.A) := by
    rw [List.perm_iff_count]
    intro A
    have := h.2 A
    rw [← hcount p h1, ← hcount p' h1'] at this
    exact_mod_cast this
  obtain ⟨σ, hσ⟩ := perm_equiv hperm
  let τ : Fin p.voters.length ≃ Fin p'.voters.length :=
    (finCongr (List.length_map (as := p.voters) Voter.A).symm).trans (σ.trans (finCongr (List.length_map (as := p'.voters) Voter.A)))
  have hτ : ∀ i, appr p' (τ i) = appr p i := by
    intro i
    have := hσ (finCongr (List.length_map (as := p.voters) Voter.A).symm i)
    simpa [appr, τ] using this
  refine ⟨⟨τ, Equiv.refl ℕ, one_pos, h.1.symm, fun c => Iff.rfl, fun i c => ?_, fun i => ?_⟩, rfl⟩
  · rw [hτ]; rfl
  · rw [h1 _ (List.get_mem _ _), h1' _ (List.get_mem _ _), one_mul]

theorem sameWinners_of_answers {a a' : Args} (ha : AllCommittees a) {r r' : Except Err (List (List ℕ))} {S S' : Finset ℕ → Prop}
    (g : Answers a r S) (g' : Answers a' r' S') (hS : ∀ A, S A ↔ S' A) (hv : ∃ cs', r' = .ok cs' ∧ cs' ≠ [] ∧ ∀ W ∈ cs', W.Pairwise (· < ·)) :
    SameWinners a' r r' := by
  obtain ⟨cs', e', hne, hlt⟩ := hv
  have hg := g'
  unfold Answers at g
  rw [ha.1, ha.2] at g
  obtain ⟨cs, e, hc, hm⟩ := g
  refine ⟨cs, cs', e, e', hne, fun W hW => ?_, fun ha' => ?_⟩
  · rw [returns_mem hc hm, hS]
    exact ⟨hlt W hW, answers_mem hg e' hW⟩
  · unfold Answers at g'
    rw [ha'.1, ha'.2] at g'
    obtain ⟨cs'', e'', hc', hm'⟩ := g'
    rw [e'] at e''
    obtain rfl := Except.ok.inj e''
    exact canonical_ext hc' hc fun A => by rw [hm, hm', hS]

theorem elects_ballots {w w' : World} {p p' : Profile} {k : ℕ} {alg alg' ruleId : String} (h : SameBallots p p') (hp : p.WF) (hp' : p'.WF)
    (hn : p.voters ≠ []) (hn' : p'.voters ≠ []) (hr : BallotRule w w' p p' k alg alg' ruleId) :
    ∃ S S', Elects w p k alg ruleId S ∧ Elects w' p' k alg' ruleId S' ∧ ∀ A, S A ↔ S' A := by
  cases hr with
  | av => exact ⟨_, _, .av, .av, fun A => sepOpt_ballots h _ _ A⟩
  | sav => exact ⟨_, _, .sav, .sav, fun A => sepOpt_ballots h _ _ A⟩
  | @thiele sid s h1 h2 h3 h4 h5 =>
    have h3' : ∀ x : String, s = .pav ∨ s = .slav ∨ s = .cc ∨
        ∃ b, s = .geom b ∧ (1 < b ∨ (x = "branch-and-bound" ∧ 1 ≤ b) ∨ (x = "brute-force" ∧ 0 < b)) := fun x =>
      h3.imp id (Or.imp id (Or.imp id fun ⟨b, e, hb⟩ => ⟨b, e, Or.inl hb⟩))
    exact ⟨_, _, .thiele h1 (h3' _) h4, .thiele h2 (h3' _) h5, fun A => thieleOpt_ballots h _ _ A⟩
  | lexcc h1 h2 => exact ⟨_, _, .lexcc h1, .lexcc h2, fun A => lexccOpt_ballots h _ A⟩
  | seqThiele h1 h2 h3 => exact ⟨_, _, .seqThiele h1 h3, .seqThiele h2 h3, fun A => seqThiele_ballots h _ _ A⟩
  | revseqThiele h1 h2 => exact ⟨_, _, .revseqThiele h1, .revseqThiele h2, fun A => revseqThiele_ballots h _ _ A⟩
  | seqphragmen h1 h2 h3 =>
    exact ⟨_, _, .seqphragmen h1 h2, .seqphragmen (approvers_ballots h hp hp' h1) h3, fun A => seqphragmen_ballots h hp hp' _ A⟩
  | minimaxphragmen h1 h2 h3 h4 h5 =>
    exact ⟨_, _, .minimaxphragmen h1 h3 h5, .minimaxphragmen h2 h4 (by rw [← approvedSet_ballots h hp hp']; exact h5),
      fun A => minimaxphragmen_ballots h hp hp' hn hn' _ _ A⟩
  | maximinSupport h1 h2 h3 => exact ⟨_, _, .maximinSupport h1 h3, .maximinSupport h2 h3, fun A => maximin_ballots h hp hp' _ _ A⟩
  | lexminimaxav h1 h2 => exact ⟨_, _, .lexminimaxav h1, .lexminimaxav h2, fun A => lexminimaxav_ballots h hp hp' h1 h2 _ A⟩
  | trivial => exact ⟨_, _, .trivial, .trivial, fun A => committee_ballots h _ A⟩
  | eph h1 h2 h3 =>
    refine ⟨_, _, .eph h1 h2, .eph (h.1 ▸ h1) h3, fun A => ?_⟩
    rw [h.1]
    exact ⟨ephWinner_ballots h, ephWinner_ballots h.symm⟩

theorem minimaxav_electorate {p p' : Profile} (h : SameElectorate p p') (hp : p.WF) (hp' : p'.WF) (k : ℕ) (A : Finset ℕ) :
    MinimaxavOpt p k A ↔ MinimaxavOpt p' k A := by
  have key : ∀ (B : Finset ℕ) (d : ℕ), (∀ v ∈ p.voters, dist v B ≤ d) ↔ ∀ v ∈ p'.voters, dist v B ≤ d := by
    intro B d
    have : ∀ q : Profile, (∀ v ∈ q.voters, dist v B ≤ d) ↔ ∀ X, (∃ v ∈ q.voters, v.A = X) → (symmDiff X B).card ≤ d := fun q =>
      ⟨fun h X ⟨v, hv, e⟩ => e ▸ h v hv, fun h v hv => h v.A ⟨v, hv, rfl⟩⟩
    rw [this, this]
    simp only [occurs_iff hp hp' h]
  unfold MinimaxavOpt
  simp only [committee_ballots h.ballots, key]

theorem elects_electorate {w w' : World} {p p' : Profile} {k : ℕ} {alg alg' ruleId : String} (h : SameElectorate p p') (hp : p.WF)
    (hp' : p'.WF) (hn : p.voters ≠ []) (hn' : p'.voters ≠ []) (hr : ElectorateRule w w' p p' k alg alg' ruleId) :
    ∃ S S', Elects w p k alg ruleId S ∧ Elects w' p' k alg' ruleId S' ∧ ∀ A, S A ↔ S' A := by
  have hb := h.ballots
  have ht := total_electorate h
  have hmes : ∀ cm A, MESWinner p k cm (k / total p) A ↔ MESWinner p' k cm (k / total p') A := fun cm A => by
    rw [← ht]
    exact ⟨mesWinner_ballots hb hp hp', mesWinner_ballots hb.symm hp' hp⟩
  cases hr with
  | ballots hr => exact elects_ballots hb hp hp' hn hn' hr
  | monroe h1 h2 =>
    obtain ⟨R, hR⟩ := renaming_of_electorate h h1 h2
    obtain ⟨R', hR'⟩ := renaming_of_electorate h.symm h2 h1
    have e : ∀ A, R.set A = A := cand_one hR
    have e' : ∀ A, R'.set A = A := cand_one hR'
    exact ⟨_, _, .monroe h1, .monroe h2, fun A => ⟨fun hA => e A ▸ hA.rename R, fun hA => e' A ▸ hA.rename R'⟩⟩
  | minimaxav => exact ⟨_, _, .minimaxav, .minimaxav, fun A => minimaxav_electorate h hp hp' k A⟩
  | equalShares h1 h2 h3 h4 =>
    exact ⟨_, _, .equalShares h1 h2 h3, .equalShares h1 (approvers_ballots hb hp hp' h2) h4, fun A => hmes _ A⟩
  | equalSharesAv h1 h2 => exact ⟨_, _, .equalSharesAv h1, .equalSharesAv h2, fun A => hmes _ A⟩
  | equalSharesNone h1 h2 h3 => exact ⟨_, _, .equalSharesNone h1 h2, .equalSharesNone h1 h3, fun A => hmes _ A⟩
  | enestroem h1 h2 =>
    exact ⟨_, _, .enestroem h1, .enestroem h2, fun A => ⟨enestroem_ballots hb hp hp' ht, enestroem_ballots hb.symm hp' hp ht.symm⟩⟩
  | consensus h1 h2 =>
    exact ⟨_, _, .consensus h1, .consensus h2, fun A => ⟨consensus_ballots hb hp hp' ht, consensus_ballots hb.symm hp' hp ht.symm⟩⟩

section
variable {w w' : World} (hw : w.Exact) (hw' : w'.Exact) {p p' : Profile} (hp : p.WF) (hp' : p'.WF) {a a' : Args} (hk : a.k = a'.k)
  (hall : AllCommittees a) {ruleId alg alg' : String} (hal : prologue w.env ruleId p a = .ok alg)
  (hal' : prologue w'.env ruleId p' a' = .ok alg')
include hw hw' hp hp' hk hall hal hal'

/-- **C103** Voters who approve nobody do not matter — for approval voting, satisfaction approval voting, all Thiele rules and their
sequential versions, lex-CC, the Phragmén rules, maximin support, lex-minimax-AV and E Pluribus Hugo: the same committees win in two
profiles in which every nonempty ballot has the same total weight.  The two calls may use different algorithms and solvers. -/
theorem C103_empty_ballots (h : SameBallots p p') (hr : BallotRule w w' p p' a.k alg alg' ruleId) :
    SameWinners a' (compute w ruleId p a.committeesize none a.kw) (compute w' ruleId p' a'.committeesize none a'.kw) := by
  have hv := validCall_of_prologue hal
  have hv' := validCall_of_prologue hal'
  obtain ⟨S, S', h1, h2, h3⟩ := elects_ballots h hp hp' hv.voters hv'.voters hr
  rw [hk] at h2
  obtain ⟨cs', e', hne, hval⟩ := C31_valid w' hw' p' hp' a' ruleId alg' hal' h2
  exact sameWinners_of_answers hall (C31_compute w hw p hp a ruleId alg hal h1) (C31_compute w' hw' p' hp' a' ruleId alg' hal' h2) h3
    ⟨cs', e', hne, fun W hW => hval.1.asc W hW⟩

/-- **C103** Only the total weight of every ballot matters — for every rule except Greedy Monroe, Random Serial Dictator,
leximax-Phragmén and Equal Shares completed by increments (for which see C118): e.g. voters may be reordered and voters with the same ballot may be merged into one with the sum of their weights. -/
theorem C103_electorate (h : SameElectorate p p') (hr : ElectorateRule w w' p p' a.k alg alg' ruleId) :
    SameWinners a' (compute w ruleId p a.committeesize none a.kw) (compute w' ruleId p' a'.committeesize none a'.kw) := by
  have hv := validCall_of_prologue hal
  have hv' := validCall_of_prologue hal'
  obtain ⟨S, S', h1, h2, h3⟩ := elects_electorate h hp hp' hv.voters hv'.voters hr
  rw [hk] at h2
  obtain ⟨cs', e', hne, hval⟩ := C31_valid w' hw' p' hp' a' ruleId alg' hal' h2
  exact sameWinners_of_answers hall (C31_compute w hw p hp a ruleId alg hal h1) (C31_compute w' hw' p' hp' a' ruleId alg' hal' h2) h3
    ⟨cs', e', hne, fun W hW => hval.1.asc W hW⟩

end

/-! ### Examples -/

/-- Two voters, {0, 1} and {0, 1}, … -/
def withoutEmpty : Profile := ⟨3, [⟨[0, 1], 1⟩, ⟨[1, 0], 1⟩], []⟩

/-- … the same ballots, merged, and a voter who approves nobody. -/
def withEmpty : Profile := ⟨3, [⟨[], 1⟩, ⟨[0, 1], 2⟩], []⟩

theorem withEmpty_same : SameBallots withoutEmpty withEmpty := by
  refine ⟨rfl, fun A hA => ?_⟩
  unfold electorate withoutEmpty withEmpty Voter.A
  by_cases h : A = {0, 1}
  · subst h; decide +kernel
  · have h1 : ¬ ([0, 1] : List ℕ).toFinset = A := fun e => h (by rw [← e]; decide)
    have h2 : ¬ ([1, 0] : List ℕ).toFinset = A := fun e => h (by rw [← e]; decide)
    have h3 : ¬ ([] : List ℕ).toFinset = A := fun e => hA (by rw [← e]; decide)
    simp only [List.filter_cons, List.filter_nil, h1, h2, h3, decide_false, Bool.false_eq_true, if_false]

/-- **C103** Voters who approve nobody do matter for Equal Shares (they get a share of the budget) and for minimax-AV. -/
theorem C103_empty_ballots_matter : SameBallots withoutEmpty withEmpty ∧
    (computeEqualShares exampleEnv (.ok []) .none withoutEmpty { committeesize := 2, resolute := true } = .ok [[0, 1]] ∧
      computeEqualShares exampleEnv (.ok []) .none withEmpty { committeesize := 2, resolute := true } = .ok [[0]]) ∧
    ∀ solver, computeMinimaxav exampleEnv solver withoutEmpty { committeesize := 2, algorithm := "brute-force", resolute := false } =
        .ok [[0, 1]] ∧
      computeMinimaxav exampleEnv solver withEmpty { committeesize := 2, algorithm := "brute-force", resolute := false } =
        .ok [[0, 1], [0, 2], [1, 2]] := by
  refine ⟨withEmpty_same, by decide +kernel, fun solver => ?_⟩
  have h1 : prologue exampleEnv "minimaxav" withoutEmpty { committeesize := 2, algorithm := "brute-force", resolute := false } =
    .ok "brute-force" := by decide +kernel
  have h2 : prologue exampleEnv "minimaxav" withEmpty { committeesize := 2, algorithm := "brute-force", resolute := false } =
    .ok "brute-force" := by decide +kernel
  unfold computeMinimaxav
  rw [h1, h2]
  simp only [bind, Except.bind, if_true]
  decide +kernel

/-- The hypotheses of `C103_empty_ballots` can be met. -/
example (w : World) (hw : w.env = exampleEnv) :
    withoutEmpty.WF ∧ withEmpty.WF ∧ SameBallots withoutEmpty withEmpty ∧
    prologue w.env "seqphragmen" withoutEmpty { committeesize := 2, resolute := false } = .ok "standard-fractions" ∧
    prologue w.env "seqphragmen" withEmpty { committeesize := 2, resolute := true } = .ok "standard-fractions" ∧
    BallotRule w w withoutEmpty withEmpty 2 "standard-fractions" "standard-fractions" "seqphragmen" :=
  ⟨⟨by decide, by decide, by decide, by decide +kernel⟩, ⟨by decide, by decide, by decide, by decide +kernel⟩, withEmpty_same,
    by rw [hw]; decide +kernel, by rw [hw]; decide +kernel,
    .seqphragmen (approversAtLeastOne_of_weights (by decide +kernel)) (Or.inl rfl) (Or.inl rfl)⟩

/-- The hypotheses of `C103_electorate` can be met: merged voters. -/
example (w : World) (hw : w.env = exampleEnv) : ∃ p' : Profile, p'.WF ∧ p'.voters.length = 1 ∧ SameElectorate withoutEmpty p' ∧
    prologue w.env "consensus-rule" withoutEmpty { committeesize := 2, resolute := false } = .ok "standard-fractions" ∧
    prologue w.env "consensus-rule" p' { committeesize := 2, resolute := true } = .ok "standard-fractions" ∧
    ElectorateRule w w withoutEmpty p' 2 "standard-fractions" "standard-fractions" "consensus-rule" := by
  refine ⟨⟨3, [⟨[0, 1], 2⟩], []⟩, ⟨by decide, by decide, by decide, by decide +kernel⟩, rfl, ⟨rfl, fun A => ?_⟩,
    by rw [hw]; decide +kernel, by rw [hw]; decide +kernel, .consensus (Or.inl rfl) (Or.inl rfl)⟩
  unfold electorate withoutEmpty Voter.A
  by_cases h : A = {0, 1}
  · subst h; decide +kernel
  · have h1 : ¬ ([0, 1] : List ℕ).toFinset = A := fun e => h (by rw [← e]; decide)
    have h2 : ¬ ([1, 0] : List ℕ).toFinset = A := fun e => h (by rw [← e]; decide)
    simp only [List.filter_cons, List.filter_nil, h1, h2, decide_false, Bool.false_eq_true, if_false]

end Abc
