import Verif.Props.Electorate
import Verif.Props.Checkers
import Verif.Props.Other

/-!
# C50 for the Method of Equal Shares and E Pluribus Hugo
-/

namespace Abc
open Spec

section
variable {p p' : Profile} (hp : p.WF) (hp' : p'.WF) (h : SameElectorate p p')

/-- the budgets `weight * g(approval set)` -/
def budgetMap (q : Profile) (g : Finset ℕ → ℚ) : List ℚ := q.voters.map (fun v => v.weight * g v.A)

theorem sum_backers (q : Profile) (c : ℕ) (F : Voter → ℚ) :
    ∑ i ∈ backers q c, F (q.voters.get i) = (q.voters.map (fun v => if c ∈ v.A then F v else 0)).sum := by
  rw [voters_map_sum]
  rw [← Finset.sum_filter]
  refine Finset.sum_congr ?_ (fun _ _ => rfl)
  ext i
  rw [mem_backers]
  simp [Voter.A]

include h in
theorem payments_congr (hp : p.WF) (hp' : p'.WF) (g : Finset ℕ → ℚ) (c : ℕ) (q : ℚ) :
    payments p (fun i => (p.voters.get i).weight * g (p.voters.get i).A) c q =
      payments p' (fun i => (p'.voters.get i).weight * g (p'.voters.get i).A) c q := by
  unfold payments
  rw [sum_backers p c (fun v => min (v.weight * g v.A) (q * v.weight)), sum_backers p' c (fun v => min (v.weight * g v.A) (q * v.weight))]
  have key : ∀ w : ℚ, 0 < w → ∀ x : ℚ, min (w * x) (q * w) = w * min x q := by
    intro w hw x
    rw [mul_comm q w, mul_min_of_nonneg _ _ hw.le]
  refine sum_electorate' h (fun A => if c ∈ A then min (g A) q else 0) _ _ ?_ ?_
  · intro v hv
    simp only [key v.weight (hp.weight v hv)]
    split <;> simp
  · intro v hv
    simp only [key v.weight (hp'.weight v hv)]
    split <;> simp

include h in
theorem getMinQ_congr (hp : p.WF) (hp' : p'.WF) (g : Finset ℕ → ℚ) (c : ℕ) :
    getMinQ p (budgetMap p g) c = getMinQ p' (budgetMap p' g) c := by
  unfold budgetMap
  rw [voters_map_ofFn, voters_map_ofFn]
  have hpay := payments_congr h hp hp' g c
  have hpr : ∀ q, IsPrice p (fun i => (p.voters.get i).weight * g (p.voters.get i).A) c q ↔
      IsPrice p' (fun i => (p'.voters.get i).weight * g (p'.voters.get i).A) c q := by
    intro q
    unfold IsPrice
    simp only [hpay]
  rcases C35_price p hp (fun i => (p.voters.get i).weight * g (p.voters.get i).A) c with ⟨q, e, hq, -⟩ | ⟨e, -, hq⟩
  · rcases C35_price p' hp' (fun i => (p'.voters.get i).weight * g (p'.voters.get i).A) c with ⟨q', e', hq', -⟩ | ⟨e', -, hq'⟩
    · rw [e, e']
      have h1 := (hpr q).1 hq
      rcases lt_trichotomy q q' with hl | hl | hl
      · exact absurd h1.1 (hq'.2 q hl).ne
      · rw [hl]
      · exact absurd hq'.1 (h1.2 q' hl).ne
    · exact absurd ((hpr q).1 hq) (hq' q)
  · rcases C35_price p' hp' (fun i => (p'.voters.get i).weight * g (p'.voters.get i).A) c with ⟨q', e', hq', -⟩ | ⟨e', -, hq'⟩
    · exact absurd ((hpr q').2 hq') (hq q')
    · rw [e, e']

include hp hp' h

theorem mesPrices_congr (g : Finset ℕ → ℚ) (cs : List ℕ) :
    mesPrices p (budgetMap p g) cs = mesPrices p' (budgetMap p' g) cs := by
  induction cs with
  | nil => rfl
  | cons c cs ih =>
    unfold mesPrices
    rw [getMinQ_congr h hp hp', ih]

omit hp' h in
theorem mesBudget_map (g : Finset ℕ → ℚ) (c : ℕ) (q : ℚ) :
    mesBudget p (budgetMap p g) c q = budgetMap p (fun A => if c ∈ A then g A - min (g A) q else g A) := by
  unfold mesBudget budgetMap
  rw [zipWith_map_self]
  refine List.map_congr_left (fun v hv => ?_)
  simp only [Voter.A, List.mem_toFinset]
  split
  · rw [mul_comm q, ← mul_min_of_nonneg _ _ (hp.weight v hv).le]
    ring
  · rfl

/-- states with the same committee and budgets per unit of weight given by the same function of the approval set -/
def BudgetRel' (p p' : Profile) (n n' : List ℕ × List ℚ) : Prop :=
  n.1 = n'.1 ∧ ∃ g : Finset ℕ → ℚ, n.2 = budgetMap p g ∧ n'.2 = budgetMap p' g

omit h in
theorem mesSuccs_sim (res : Bool) (V : List ℕ) (g : Finset ℕ → ℚ) (minQ : List (ℕ × ℚ)) :
    List.Forall₂ (BudgetRel' p p') (mesSuccs p res (V, budgetMap p g) minQ) (mesSuccs p' res (V, budgetMap p' g) minQ) := by
  unfold mesSuccs
  simp only [mesBudget_map hp, mesBudget_map hp']
  rw [List.forall₂_map_left_iff, List.forall₂_map_right_iff]
  refine List.forall₂_same.2 ?_
  intro c _
  generalize listMin (minQ.map Prod.snd) = m
  exact ⟨rfl, (fun A => if c ∈ A then g A - min (g A) m else g A), rfl, rfl⟩

theorem phragmenPhase_congr (k : ℕ) (res : Bool) (W : List ℕ) (g : Finset ℕ → ℚ) :
    phragmenPhase p k res W (budgetMap p g) = phragmenPhase p' k res W (budgetMap p' g) := by
  have hb : ∀ q : Profile, q.WF → List.zipWith (fun (v : Voter) b => -b / v.weight) q.voters (budgetMap q g) =
      q.voters.map (fun v => (fun A => - g A) v.A) := by
    intro q hq
    unfold budgetMap
    rw [zipWith_map_self]
    refine List.map_congr_left (fun v hv => ?_)
    have := (hq.weight v hv).ne'
    field_simp
  unfold phragmenPhase
  simp only [hb p hp, hb p' hp']
  have h1 := seqphragmenResolute_congr h k W (fun A => - g A)
  have h2 := seqphragmenIrresolute_congr h k none W (fun A => - g A)
  cases res with
  | true =>
    simp only [if_true, h1]
  | false => simp only [Bool.false_eq_true, if_false, h2]

theorem avPhase_congr (k : ℕ) (W : List ℕ) : avPhase p k W = avPhase p' k W := by
  have : ∀ n m, avPhaseLoop p k W n m = avPhaseLoop p' k W n m := by
    intro n
    induction n with
    | zero => intro m; rfl
    | succ n ih =>
      intro m
      unfold avPhaseLoop
      rw [separableAlgorithm_congr hp hp' h]
      simp only [ih]
  exact this _ _

theorem mesComplete_congr (k : ℕ) (res : Bool) (completion : Completion) (W : List ℕ) (g : Finset ℕ → ℚ) :
    mesComplete p k res completion W (budgetMap p g) = mesComplete p' k res completion W (budgetMap p' g) := by
  cases completion with
  | seqphragmen => exact phragmenPhase_congr hp hp' h k res W g
  | av => exact avPhase_congr hp hp' h k W
  | _ => rfl

theorem mesStep_sim (k : ℕ) (res : Bool) (completion : Completion) (max : Option ℕ) (n n' : List ℕ × List ℚ)
    (hn : BudgetRel' p p' n n') (win : List (List ℕ)) :
    (∃ e, mesStep p k res completion max n win = .error e ∧ mesStep p' k res completion max n' win = .error e) ∨
    (∃ w, mesStep p k res completion max n win = .ok (.inl w) ∧ mesStep p' k res completion max n' win = .ok (.inl w)) ∨
    (∃ q q' w, mesStep p k res completion max n win = .ok (.inr (q, w)) ∧
      mesStep p' k res completion max n' win = .ok (.inr (q', w)) ∧ List.Forall₂ (BudgetRel' p p') q q') := by
  obtain ⟨V, x⟩ := n
  obtain ⟨V', x'⟩ := n'
  obtain ⟨e, g, hx, hx'⟩ := hn
  simp only at e hx hx'
  subst e hx hx'
  have hav : available p V = available p' V := by
    unfold available
    rw [candidates_congr h]
  unfold mesStep
  simp only [mesPrices_congr hp hp' h, hav]
  cases mesPrices p' (budgetMap p' g) (available p' V) with
  | error e => exact Or.inl ⟨e, rfl, rfl⟩
  | ok minQ =>
    simp only [bind, Except.bind]
    by_cases hl : minQ.length > 0
    · simp only [hl, if_true]
      rcases expandLoop_sim (R := BudgetRel' p p') (full := fun n => decide (n.1.length = k))
        (full' := fun n => decide (n.1.length = k)) (out := fun n => sortNat n.1) (out' := fun n => sortNat n.1)
        (by rintro n n' ⟨e, -⟩; rw [e]) (by rintro n n' ⟨e, -⟩; rw [e]) max (mesSuccs_sim hp hp' res V g minQ) .nil win with
        ⟨w, e1, e2⟩ | ⟨q, q', w, e1, e2, e3⟩
      · exact Or.inr (Or.inl ⟨w, by rw [e1], by rw [e2]⟩)
      · exact Or.inr (Or.inr ⟨q, q', w, by rw [e1], by rw [e2], e3⟩)
    · simp only [hl, if_false, mesComplete_congr hp hp' h]
      cases mesComplete p' k res completion V (budgetMap p' g) with
      | error e => exact Or.inl ⟨e, rfl, rfl⟩
      | ok new => exact Or.inr (Or.inr ⟨[], [], _, rfl, rfl, .nil⟩)

theorem mesLoop_congr (k : ℕ) (res : Bool) (completion : Completion) (max : Option ℕ) (fuel : ℕ)
    {st st' : List (List ℕ × List ℚ)} (hst : List.Forall₂ (BudgetRel' p p') st st') (win : List (List ℕ)) :
    mesLoop p k res completion max fuel st win = mesLoop p' k res completion max fuel st' win := by
  induction fuel generalizing st st' win with
  | zero => cases hst <;> simp only [mesLoop]
  | succ fuel ih =>
    cases hst with
    | nil => simp only [mesLoop]
    | @cons n n' st st' hn hst =>
      unfold mesLoop
      rcases mesStep_sim hp hp' h k res completion max n n' hn win with ⟨e, e1, e2⟩ | ⟨w, e1, e2⟩ | ⟨q, q', w, e1, e2, hq⟩
      · rw [e1, e2]; simp only [bind, Except.bind]
      · rw [e1, e2]; simp only [bind, Except.bind]
      · rw [e1, e2]
        simp only [bind, Except.bind]
        rw [ih (List.rel_append hq hst)]

omit hp hp' in
theorem totalWeight_congr' : p.totalWeight = p'.totalWeight := totalWeight_congr h

theorem startBudget_sim (k : ℕ) (r : Option ℚ) : ∃ g, startBudget p k r = budgetMap p g ∧ startBudget p' k r = budgetMap p' g := by
  cases r with
  | none =>
    refine ⟨fun _ => k / p'.totalWeight, ?_, ?_⟩ <;> simp [startBudget, budgetMap, totalWeight_congr' h, mul_div_assoc]
  | some b =>
    by_cases hb : b = 0
    · refine ⟨fun _ => k / p'.totalWeight, ?_, ?_⟩ <;> simp [startBudget, budgetMap, totalWeight_congr' h, mul_div_assoc, hb]
    · refine ⟨fun _ => b, ?_, ?_⟩ <;> simp [startBudget, budgetMap, hb]

theorem equalSharesAlgorithm_congr (k : ℕ) (res : Bool) (max : Option ℕ) (completion : Completion) (r : Option ℚ) :
    equalSharesAlgorithm p k res max completion r = equalSharesAlgorithm p' k res max completion r := by
  obtain ⟨g, e1, e2⟩ := startBudget_sim hp hp' h k r
  unfold equalSharesAlgorithm dfsFuel
  rw [h.1, e1, e2]
  simp only
  rw [mesLoop_congr hp hp' h k res completion _ _ (st := [([], budgetMap p g)]) (st' := [([], budgetMap p' g)])
    (.cons ⟨rfl, g, rfl, rfl⟩ .nil)]

theorem approvedCandidates_congr : p.approvedCandidates.length = p'.approvedCandidates.length := by
  obtain ⟨n1, h1⟩ := approvedCandidates_lists p
  obtain ⟨n2, h2⟩ := approvedCandidates_lists p'
  refine ((List.perm_ext_iff_of_nodup n1 n2).2 ?_).length_eq
  intro c
  rw [h1, h2]
  have key : ∀ {q q' : Profile}, q.WF → q'.WF → SameElectorate q q' → (∃ i : Fin q.voters.length, c ∈ appr q i) →
      ∃ i : Fin q'.voters.length, c ∈ appr q' i := by
    rintro q q' hq hq' hh ⟨i, hc⟩
    obtain ⟨v', hv', e⟩ := (occurs_iff hq hq' hh (q.voters.get i).A).1 ⟨_, List.get_mem _ _, rfl⟩
    obtain ⟨j, rfl⟩ := List.mem_iff_get.1 hv'
    exact ⟨j, by unfold appr at *; rw [e]; exact hc⟩
  exact ⟨key hp hp' h, key hp' hp h.symm⟩

/-- C50 for the Method of Equal Shares (exact fractions), all completions. -/
theorem C50_equal_shares (env : Env) (float float' : Except Err (List (List ℕ))) (completion : Completion) (a : Args)
    (rid alg : String) (hrid : completion.ruleId = .ok rid) (hal : prologue env rid p a = .ok alg) (hex : ExactAlg env alg) :
    computeEqualShares env float completion p a = computeEqualShares env float' completion p' a := by
  have hal' := hal
  rw [prologue_congr hp hp' h] at hal'
  unfold computeEqualShares
  rw [hrid]
  simp only [bind, Except.bind]
  rw [hal, hal']
  simp only
  have hinc : ∀ incs, incrementLoop p a.k incs = incrementLoop p' a.k incs := by
    intro incs
    induction incs with
    | nil => rfl
    | cons i incs ih =>
      unfold incrementLoop
      rw [equalSharesAlgorithm_congr hp hp' h, totalWeight_congr' h, ih]
  unfold equalSharesIncrement incrementRange
  simp only [withFractions_exact hex, equalSharesAlgorithm_congr hp hp' h, approvedCandidates_congr hp hp' h, hinc,
    totalWeight_congr' h, separableAlgorithm_congr hp hp' h]

/-- C50 for E Pluribus Hugo (exact fractions). -/
theorem C50_eph (env : Env) (float float' : Except Err (List (List ℕ))) (iter : List ℕ) (a : Args) (alg : String)
    (hal : prologue env "eph" p a = .ok alg) (hex : ExactAlg env alg) :
    computeEph env float iter p a = computeEph env float' iter p' a := by
  have hal' := hal
  rw [prologue_congr hp hp' h] at hal'
  have hs : ∀ rem c, rem.Nodup → ephSdv p rem c = ephSdv p' rem c := by
    intro rem c hrem
    unfold ephSdv
    rw [sum_filter_map, sum_filter_map]
    refine sum_electorate' h (fun A => if c ∈ A then 1 / (((rem.filter (fun c => decide (c ∈ A))).length : ℕ) : ℚ) else 0) _ _ ?_ ?_ <;>
    · intro v hv
      simp only [Voter.A, List.mem_toFinset, decide_eq_true_eq]
      split
      · rw [mul_one_div]
      · simp
  have hs' : ∀ rem, ephSdv p rem = ephSdv p' rem := by
    intro rem
    funext c
    unfold ephSdv
    rw [sum_filter_map, sum_filter_map]
    refine sum_electorate' h (fun A => if c ∈ A then 1 / (((rem.filter (fun c => decide (c ∈ A))).length : ℕ) : ℚ) else 0) _ _ ?_ ?_ <;>
    · intro v hv
      simp only [Voter.A, List.mem_toFinset, decide_eq_true_eq]
      split
      · rw [mul_one_div]
      · simp
  have he : ∀ rem, ephElim p rem = ephElim p' rem := by
    intro rem
    have ha : approversWeight p = approversWeight p' := funext (approversWeight_congr h)
    unfold ephElim
    rw [hs', ha]
  have hl : ∀ fuel rem, ephLoop p a.k a.effMax fuel rem = ephLoop p' a.k a.effMax fuel rem := by
    intro fuel
    induction fuel with
    | zero => intro rem; rfl
    | succ n ih =>
      intro rem
      unfold ephLoop
      simp only [he, ih]
  unfold computeEph
  rw [hal, hal']
  simp only [bind, Except.bind, withFractions_exact hex, hl, h.1]

end

end Abc
