import Verif.Props.Checkers
import Verif.Props.BranchAndBound
import Verif.Props.Separable
import Mathlib.Algebra.Order.BigOperators.Group.List

/-!
# C58, C45, C46, C47: hierarchy of the axioms; PAV satisfies EJR+; Thiele winners are Pareto optimal; CC satisfies JR
-/

namespace Abc
open Spec

/-! ## C58: hierarchy -/

theorem Spec.Core.fjr {p : Profile} {W : Finset ℕ} {q : ℚ} (h : Core p W q) : FJR p W q := by
  intro G T β hne _ hw hG
  obtain ⟨i, hi, hle⟩ := h G T hne hw
  exact ⟨i, hi, (hG i hi).trans hle⟩

theorem Spec.FJR.ejr {p : Profile} {W : Finset ℕ} {q : ℚ} (hq : 0 < q) (h : FJR p W q) : EJR p W q := by
  rintro ℓ G T ⟨h1, h2, h3, h4⟩
  obtain ⟨T', hT', hc⟩ := Finset.exists_subset_card_eq h3
  have hpos : 0 < (ℓ : ℚ) * q := mul_pos (by exact_mod_cast h1) hq
  refine h G T' ℓ (nonempty_of_wt hpos h2) h1 (by rw [hc]; exact h2) ?_
  intro i hi
  rw [Finset.inter_eq_right.2 (hT'.trans (h4 i hi)), hc]

theorem Spec.EJRplus.ejr {p : Profile} {W : Finset ℕ} {q : ℚ} (hq : 0 < q) (h : EJRplus p W q) : EJR p W q := by
  rintro ℓ G T ⟨h1, h2, h3, h4⟩
  by_cases hT : T ⊆ W
  · have hpos : 0 < (ℓ : ℚ) * q := mul_pos (by exact_mod_cast h1) hq
    obtain ⟨i, hi⟩ := nonempty_of_wt hpos h2
    exact ⟨i, hi, h3.trans (Finset.card_le_card (Finset.subset_inter (h4 i hi) hT))⟩
  · obtain ⟨c, hc, hcW⟩ := Finset.not_subset.1 hT
    exact h ℓ G c h1 h2 hcW (fun i hi => h4 i hi hc)

theorem Spec.EJR.pjr {p : Profile} {W : Finset ℕ} {q : ℚ} (h : EJR p W q) : PJR p W q := by
  intro ℓ G T hG
  obtain ⟨i, hi, hle⟩ := h ℓ G T hG
  exact hle.trans (Finset.card_le_card (Finset.inter_subset_inter (Finset.subset_biUnion_of_mem _ hi) le_rfl))

theorem Spec.PJR.jr {p : Profile} {W : Finset ℕ} {q : ℚ} (h : PJR p W q) : JR p W q := by
  intro G c hw hG
  have := h 1 G {c} ⟨le_rfl, by simpa using hw, by simp, fun i hi => by simpa using hG i hi⟩
  obtain ⟨x, hx⟩ := Finset.card_pos.1 (by omega : 0 < (G.biUnion (appr p) ∩ W).card)
  simp only [Finset.mem_inter, Finset.mem_biUnion] at hx
  obtain ⟨⟨i, hi, hxi⟩, hxW⟩ := hx
  exact ⟨i, hi, x, by simp [hxi, hxW]⟩

/-- C58: if `check_core` answers `True`, so does `check_FJR`. -/
theorem C58_core_FJR (p : Profile) (hp : p.WF) (ap : List ℕ) (hap : ListsApproved p ap) (W : List ℕ) (hW : W.Nodup)
    (hlt : ∀ c ∈ W, c < p.numCand) (quota : Option ℚ) (hq : 0 < quotaValue p W.length quota)
    (h : checkCore ap p (W.map Int.ofNat) quota = .ok true) : checkFJR ap p (W.map Int.ofNat) quota = .ok true := by
  obtain ⟨b, e1, e2⟩ := C57_check_core p hp ap hap W hW hlt quota hq
  obtain ⟨b', e3, e4⟩ := C56_check_FJR p hp ap hap W hW hlt quota hq
  rw [e1] at h
  obtain rfl := Except.ok.inj h
  rw [e3, e4.2 (e2.1 rfl).fjr]

/-- C58: FJR implies EJR, as reported (unit weights, where the EJR check is sound). -/
theorem C58_FJR_EJR (p : Profile) (hp : p.WF) (hu : p.hasUnitWeights = true) (ap : List ℕ) (hap : ListsApproved p ap) (W : List ℕ)
    (hW : W.Nodup) (hlt : ∀ c ∈ W, c < p.numCand) (quota : Option ℚ) (hq : 0 < quotaValue p W.length quota)
    (h : checkFJR ap p (W.map Int.ofNat) quota = .ok true) : checkEJR p (W.map Int.ofNat) quota = .ok true := by
  obtain ⟨b, e1, e2⟩ := C56_check_FJR p hp ap hap W hW hlt quota hq
  obtain ⟨b', e3, e4⟩ := C53_check_EJR p hp hu W hW hlt quota hq
  rw [e1] at h
  obtain rfl := Except.ok.inj h
  rw [e3, e4.2 ((e2.1 rfl).ejr hq)]

/-- C58: EJR+ implies EJR, as reported. -/
theorem C58_EJRplus_EJR (p : Profile) (hp : p.WF) (hu : p.hasUnitWeights = true) (W : List ℕ)
    (hW : W.Nodup) (hlt : ∀ c ∈ W, c < p.numCand) (quota : Option ℚ) (hq : 0 < quotaValue p W.length quota)
    (hsat : ∀ i, (sat p W.toFinset i : ℚ) * quotaValue p W.length quota ≤ total p)
    (h : checkEJRPlus p (W.map Int.ofNat) quota = .ok true) : checkEJR p (W.map Int.ofNat) quota = .ok true := by
  obtain ⟨b, e1, e2⟩ := C55_check_EJR_plus p hp W hW hlt quota hq hsat
  obtain ⟨b', e3, e4⟩ := C53_check_EJR p hp hu W hW hlt quota hq
  rw [e1] at h
  obtain rfl := Except.ok.inj h
  rw [e3, e4.2 ((e2.1 rfl).ejr hq)]

/-- C58: EJR implies PJR, as reported. -/
theorem C58_EJR_PJR (p : Profile) (hp : p.WF) (hu : p.hasUnitWeights = true) (W : List ℕ)
    (hW : W.Nodup) (hlt : ∀ c ∈ W, c < p.numCand) (quota : Option ℚ) (hq : 0 < quotaValue p W.length quota)
    (h : checkEJR p (W.map Int.ofNat) quota = .ok true) : checkPJR p (W.map Int.ofNat) quota = .ok true := by
  obtain ⟨b, e1, e2⟩ := C53_check_EJR p hp hu W hW hlt quota hq
  obtain ⟨b', e3, e4⟩ := C54_check_PJR p hp hu W hW hlt quota hq
  rw [e1] at h
  obtain rfl := Except.ok.inj h
  rw [e3, e4.2 (e2.1 rfl).pjr]

/-- C58: PJR implies JR, as reported. -/
theorem C58_PJR_JR (p : Profile) (hp : p.WF) (hu : p.hasUnitWeights = true) (W : List ℕ)
    (hW : W.Nodup) (hlt : ∀ c ∈ W, c < p.numCand) (quota : Option ℚ) (hq : 0 < quotaValue p W.length quota)
    (h : checkPJR p (W.map Int.ofNat) quota = .ok true) : checkJR p (W.map Int.ofNat) quota = .ok true := by
  obtain ⟨b, e1, e2⟩ := C54_check_PJR p hp hu W hW hlt quota hq
  obtain ⟨b', e3, e4⟩ := C51_check_JR p hp W hW hlt quota hq
  rw [e1] at h
  obtain rfl := Except.ok.inj h
  rw [e3, e4.2 (e2.1 rfl).jr]

/-! ## C46: Pareto optimality -/

theorem answers_mem {a : Args} {r : Except Err (List (List ℕ))} {S : Finset ℕ → Prop} (h : Answers a r S)
    {cs : List (List ℕ)} (hr : r = .ok cs) {W : List ℕ} (hW : W ∈ cs) : S W.toFinset := by
  unfold Answers at h
  split at h
  · obtain ⟨V, e, -, hS⟩ := h
    rw [hr] at e
    obtain rfl := Except.ok.inj e
    rw [List.mem_singleton] at hW
    rwa [hW]
  · obtain ⟨ds, e, -, hS⟩ := h
    rw [hr] at e
    obtain rfl := Except.ok.inj e
    exact (hS _).1 ⟨W, hW, rfl⟩
  · obtain ⟨ds, e, -, hS, -⟩ := h
    rw [hr] at e
    obtain rfl := Except.ok.inj e
    exact hS W hW

theorem score_lt_of_dominates (f : ℕ → ℚ) (hf : ∀ i, 0 < f (i + 1)) (p : Profile) (hp : p.WF) {X W : Finset ℕ}
    (h : Dominates p X W) : score f p W < score f p X := by
  have hle : ∀ v ∈ p.voters, v.weight * ∑ i ∈ Finset.range (util v W), f (i + 1)
      ≤ v.weight * ∑ i ∈ Finset.range (util v X), f (i + 1) := by
    intro v hv
    refine mul_le_mul_of_nonneg_left ?_ (hp.weight v hv).le
    exact Finset.sum_le_sum_of_subset_of_nonneg (Finset.range_mono (h.1 v hv)) (fun i _ _ => (hf i).le)
  obtain ⟨v, hv, hlt⟩ := h.2
  unfold score
  refine List.sum_lt_sum _ _ hle ⟨v, hv, ?_⟩
  refine mul_lt_mul_of_pos_left ?_ (hp.weight v hv)
  exact Finset.sum_lt_sum_of_subset (Finset.range_mono hlt.le) (i := util v W) (by simpa using hlt) (by simp) (hf _)
    (fun i _ _ => (hf i).le)

theorem ThieleOpt.pareto {f : ℕ → ℚ} (hf : ∀ i, 0 < f (i + 1)) {p : Profile} (hp : p.WF) {k : ℕ} {W : Finset ℕ}
    (h : ThieleOpt f p k W) : ParetoOptimal p W := by
  intro X hX hd
  rw [h.1.2] at hX
  have := h.2 X hX
  have := score_lt_of_dominates f hf p hp hd
  linarith

/-- Score ids with strictly positive marginal scores: pav, slav, av and geom with positive base. -/
def ScoreId.Positive : ScoreId → Prop
  | .pav | .slav | .av => True
  | .geom b => 0 < b
  | _ => False

theorem marginalFct_pos (s : ScoreId) (h : s.Positive) (i : ℕ) : 0 < marginalFct s (i + 1) := by
  cases s with
  | pav => simp only [marginalFct]; rw [if_neg (by omega)]; positivity
  | slav =>
    simp only [marginalFct]; rw [if_neg (by omega)]
    refine one_div_pos.2 ?_
    push_cast
    have : (0 : ℚ) ≤ i := by positivity
    linarith
  | av => simp only [marginalFct]; rw [if_pos (by omega)]; norm_num
  | geom b =>
    have hb : (0 : ℚ) < b := h
    simp only [marginalFct]; rw [if_neg (by omega)]; positivity
  | cc => exact absurd h id
  | atleast l => exact absurd h id

/-- C46: PAV, SLAV and geometric Thiele winners (brute force) are Pareto optimal. -/
theorem C46_bruteforce_pareto (env : Env) (sid : String) (s : ScoreId) (solver : Solver) (p : Profile) (hp : p.WF) (a : Args)
    (hal : prologue env sid p a = .ok "brute-force") (hsid : env.scoreId sid = .ok s) (hs : s.Positive)
    (cs : List (List ℕ)) (hcs : computeThieleMethod env sid solver p a = .ok cs) :
    ∀ W ∈ cs, ParetoOptimal p W.toFinset := by
  intro W hW
  have h := C21_bruteforce_optimal env sid s solver p hp a hal hsid (marginalFct_nonneg s (by
    rintro b rfl; exact hs))
  exact ThieleOpt.pareto (marginalFct_pos s hs) hp (answers_mem h hcs hW)

/-- C46: the same for branch-and-bound. -/
theorem C46_bnb_pareto (env : Env) (sid : String) (s : ScoreId) (solver : Solver) (p : Profile) (hp : p.WF) (a : Args)
    (hal : prologue env sid p a = .ok "branch-and-bound") (hsid : env.scoreId sid = .ok s) (hs : s.Positive) (hs' : s.Proper)
    (cs : List (List ℕ)) (hcs : computeThieleMethod env sid solver p a = .ok cs) :
    ∀ W ∈ cs, ParetoOptimal p W.toFinset := by
  intro W hW
  have h := C22_bnb_optimal env sid s solver p hp a hal hsid hs'
  exact ThieleOpt.pareto (marginalFct_pos s hs) hp (answers_mem h hcs hW)

theorem sum_candScore_av (p : Profile) (W : Finset ℕ) : ∑ c ∈ W, candScore .av p c = score (marginalFct .av) p W := by
  obtain ⟨l, -, rfl⟩ := exists_lt_list W
  rw [← thieleScore_eq, C16_av_score]
  rfl

/-- C46: AV winners are Pareto optimal. -/
theorem C46_av_pareto (env : Env) (p : Profile) (hp : p.WF) (a : Args)
    (hal : prologue env "av" p a = .ok "standard") (cs : List (List ℕ)) (hcs : computeSeparable env .av p a = .ok cs) :
    ∀ W ∈ cs, ParetoOptimal p W.toFinset := by
  intro W hW
  have h := answers_mem (C20_separable_optimal env .av p hp a hal) hcs hW
  refine ThieleOpt.pareto (f := marginalFct .av) (marginalFct_pos .av trivial) hp (k := a.k) ⟨h.1, ?_⟩
  intro B hB
  have := h.2 B hB
  rwa [sum_candScore_av, sum_candScore_av] at this

/-- Non-vacuity: a profile in which AV has a unique Pareto optimal winner and the other committees are dominated. -/
example : prologue exampleEnv "pav" exampleProfile { committeesize := 1, resolute := false } = .ok "branch-and-bound" ∧
    computeThieleMethod exampleEnv "pav" (fun _ => .error .importError) exampleProfile
      { committeesize := 1, resolute := false } = .ok [[1]] ∧
    checkPareto exampleProfile [1] = .ok true ∧ checkPareto exampleProfile [0] = .ok false := by decide +kernel

/-! ## sums over voters -/

theorem voters_sum_fin (p : Profile) (g : Voter → ℚ) : (p.voters.map g).sum = ∑ i : Fin p.voters.length, g (p.voters.get i) := by
  have := Fin.sum_univ_fun_getElem p.voters g
  simpa using this.symm

theorem util_sat (p : Profile) (W : Finset ℕ) (i : Fin p.voters.length) : util (p.voters.get i) W = sat p W i := rfl

/-- the supporters of a candidate alone account for at least the part of the gain due to a group of supporters -/
theorem gain_ge_group (f : ℕ → ℚ) (hf : ∀ i, 0 ≤ f i) (p : Profile) (hp : p.WF) (W : Finset ℕ) (c : ℕ) (hc : c ∉ W) (G : Group p)
    (hG : ∀ i ∈ G, c ∈ appr p i) (x : ℚ) (hx : ∀ i ∈ G, x ≤ f (sat p W i + 1)) : wt p G * x ≤ gain f p W c := by
  unfold gain
  rw [score_insert f p W c hc, voters_sum_fin]
  calc wt p G * x = ∑ i ∈ G, (p.voters.get i).weight * x := by unfold wt; rw [Finset.sum_mul]
    _ ≤ ∑ i ∈ G, (if c ∈ (p.voters.get i).A then (p.voters.get i).weight * f (util (p.voters.get i) W + 1) else 0) := by
        refine Finset.sum_le_sum (fun i hi => ?_)
        rw [if_pos (show c ∈ (p.voters.get i).A from hG i hi)]
        exact mul_le_mul_of_nonneg_left (hx i hi) (weight_pos hp i).le
    _ ≤ _ := by
        refine Finset.sum_le_sum_of_subset_of_nonneg (Finset.subset_univ G) (fun i _ _ => ?_)
        split
        · exact mul_nonneg (weight_pos hp i).le (hf _)
        · exact le_rfl

/-- total loss over all members of a committee -/
theorem sum_loss (f : ℕ → ℚ) (p : Profile) (W : Finset ℕ) :
    ∑ x ∈ W, loss f p W x = ∑ i : Fin p.voters.length, (p.voters.get i).weight * ((sat p W i : ℚ) * f (sat p W i)) := by
  have h1 : ∀ x ∈ W, loss f p W x = ∑ i : Fin p.voters.length,
      (if x ∈ appr p i then (p.voters.get i).weight * f (sat p W i) else 0) := by
    intro x hx
    unfold loss
    rw [score_erase f p W x hx, voters_sum_fin]
    rfl
  rw [Finset.sum_congr rfl h1, Finset.sum_comm]
  refine Finset.sum_congr rfl (fun i _ => ?_)
  rw [← Finset.sum_filter, Finset.sum_const, nsmul_eq_mul]
  have : (W.filter (fun x => x ∈ appr p i)).card = sat p W i := by
    unfold sat
    congr 1
    ext x; simp [and_comm]
  rw [this]
  ring

/-! ## C45: PAV satisfies EJR+ -/

theorem pav_EJRplus (p : Profile) (hp : p.WF) (hv : p.voters ≠ []) (k : ℕ) (hk : 1 ≤ k) (W : Finset ℕ)
    (h : ThieleOpt (marginalFct .pav) p k W) : EJRplus p W (total p / k) := by
  intro ℓ G c hl hG hcW hcG
  by_contra hno
  push Not at hno
  have hf := marginalFct_nonneg .pav (by simp)
  set f := marginalFct .pav with hfd
  have ht := total_pos hp hv
  have hkq : (0 : ℚ) < k := by exact_mod_cast hk
  have hlq : (0 : ℚ) < ℓ := by exact_mod_cast hl
  set q := total p / k with hq
  have hqpos : 0 < q := div_pos ht hkq
  -- the gain of adding `c` is at least the quota
  have hgain : q ≤ gain f p W c := by
    have h1 := gain_ge_group f hf p hp W c hcW G hcG (1 / ℓ) (by
      intro i hi
      have := hno i hi
      rw [hfd]
      simp only [marginalFct]
      rw [if_neg (by omega)]
      refine one_div_le_one_div_of_le (by positivity) ?_
      exact_mod_cast this)
    have h2 : q = (ℓ : ℚ) * q * (1 / ℓ) := by field_simp
    have h3 : (ℓ : ℚ) * q * (1 / ℓ) ≤ wt p G * (1 / ℓ) := mul_le_mul_of_nonneg_right hG (by positivity)
    linarith
  -- the average loss in the enlarged committee is smaller than the quota
  set V := insert c W with hV
  have hcard : V.card = k + 1 := by rw [hV, Finset.card_insert_of_notMem hcW, h.1.2]
  have hsum : ∑ x ∈ V, loss f p V x ≤ total p := by
    rw [sum_loss]
    refine Finset.sum_le_sum (fun i _ => ?_)
    have : (sat p V i : ℚ) * f (sat p V i) ≤ 1 := by
      rw [hfd]
      simp only [marginalFct]
      split
      · simp
      · rename_i h0
        have : (sat p V i : ℚ) ≠ 0 := by exact_mod_cast h0
        rw [mul_one_div, div_self this]
    have := mul_le_mul_of_nonneg_left this (weight_pos hp i).le
    linarith
  have hVne : V.Nonempty := ⟨c, by simp [hV]⟩
  obtain ⟨x, hxV, hx⟩ : ∃ x ∈ V, loss f p V x < q := by
    by_contra hall
    push Not at hall
    have h1 : (V.card : ℚ) * q ≤ ∑ x ∈ V, loss f p V x := by
      have := Finset.card_nsmul_le_sum V (fun x => loss f p V x) q hall
      simpa [nsmul_eq_mul] using this
    have h2 : (V.card : ℚ) * q = total p + q := by
      rw [hcard, hq]; push_cast; field_simp
    linarith
  have hcom : IsCommittee p k (V.erase x) := by
    refine ⟨?_, by rw [Finset.card_erase_of_mem hxV, hcard]; omega⟩
    intro y hy
    have hy := Finset.mem_of_mem_erase hy
    rw [hV, Finset.mem_insert] at hy
    rcases hy with rfl | hy
    · have hpos : 0 < (ℓ : ℚ) * q := mul_pos hlq hqpos
      obtain ⟨i, hi⟩ := nonempty_of_wt hpos hG
      exact Finset.mem_range.2 (appr_lt hp (hcG i hi))
    · exact h.1.1 hy
  have hopt := h.2 _ hcom
  have e1 : loss f p V x = score f p V - score f p (V.erase x) := rfl
  have e2 : gain f p W c = score f p V - score f p W := rfl
  linarith

/-- C45: every committee returned by PAV (brute force) satisfies EJR+ with the Hare quota. -/
theorem C45_pav_bruteforce (env : Env) (solver : Solver) (p : Profile) (hp : p.WF) (a : Args)
    (hal : prologue env "pav" p a = .ok "brute-force") (cs : List (List ℕ))
    (hcs : computeThieleMethod env "pav" solver p a = .ok cs) :
    ∀ W ∈ cs, EJRplus p W.toFinset (total p / a.k) := by
  intro W hW
  have hv := validCall_of_prologue hal
  have h := C21_bruteforce_optimal env "pav" .pav solver p hp a hal rfl (marginalFct_nonneg .pav (by simp))
  exact pav_EJRplus p hp hv.voters a.k hv.pos _ (answers_mem h hcs hW)

/-- C45: every committee returned by PAV (branch-and-bound) satisfies EJR+ with the Hare quota. -/
theorem C45_pav_bnb (env : Env) (solver : Solver) (p : Profile) (hp : p.WF) (a : Args)
    (hal : prologue env "pav" p a = .ok "branch-and-bound") (cs : List (List ℕ))
    (hcs : computeThieleMethod env "pav" solver p a = .ok cs) :
    ∀ W ∈ cs, EJRplus p W.toFinset (total p / a.k) := by
  intro W hW
  have hv := validCall_of_prologue hal
  have h := C22_bnb_optimal env "pav" .pav solver p hp a hal rfl trivial
  exact pav_EJRplus p hp hv.voters a.k hv.pos _ (answers_mem h hcs hW)

/-- C45: EJR+ implies EJR, PJR and JR. -/
theorem C45_consequences (p : Profile) (W : Finset ℕ) (q : ℚ) (hq : 0 < q) (h : EJRplus p W q) :
    EJR p W q ∧ PJR p W q ∧ JR p W q := ⟨h.ejr hq, (h.ejr hq).pjr, (h.ejr hq).pjr.jr⟩

/-! ## C47: CC and seq-CC satisfy JR -/

theorem ccf (i : ℕ) : marginalFct .cc (i + 1) = if i = 0 then 1 else 0 := by
  simp [marginalFct]

/-- the CC score is the weight of the represented voters -/
theorem cc_score (p : Profile) (W : Finset ℕ) :
    score (marginalFct .cc) p W = wt p (Finset.univ.filter (fun i => sat p W i ≠ 0)) := by
  unfold score wt
  rw [voters_sum_fin, Finset.sum_filter]
  refine Finset.sum_congr rfl (fun i _ => ?_)
  rw [util_sat]
  cases hs : sat p W i with
  | zero => simp
  | succ n =>
    rw [Finset.sum_range_succ']
    simp [ccf]

theorem cc_score_le (p : Profile) (hp : p.WF) (W : Finset ℕ) (G : Group p) (hG : ∀ i ∈ G, sat p W i = 0) :
    score (marginalFct .cc) p W ≤ total p - wt p G := by
  rw [cc_score]
  have h1 : wt p (Finset.univ.filter (fun i => sat p W i ≠ 0)) + wt p G
      = wt p (Finset.univ.filter (fun i => sat p W i ≠ 0) ∪ G) := by
    unfold wt
    rw [Finset.sum_union]
    rw [Finset.disjoint_left]
    intro i hi hiG
    exact (Finset.mem_filter.1 hi).2 (hG i hiG)
  have := wt_le_total hp (Finset.univ.filter (fun i => sat p W i ≠ 0) ∪ G)
  linarith

theorem not_JR {p : Profile} {W : Finset ℕ} {q : ℚ} (h : ¬ JR p W q) :
    ∃ (G : Group p) (c : ℕ), q ≤ wt p G ∧ (∀ i ∈ G, c ∈ appr p i) ∧ ∀ i ∈ G, sat p W i = 0 := by
  unfold JR at h
  push Not at h
  obtain ⟨G, c, h1, h2, h3⟩ := h
  refine ⟨G, c, h1, h2, fun i hi => ?_⟩
  have := h3 i hi
  unfold sat
  rw [Finset.card_eq_zero]
  simpa [Finset.not_nonempty_iff_eq_empty] using this

theorem cc_gain (p : Profile) (hp : p.WF) (W : Finset ℕ) (G : Group p) (c : ℕ) (q : ℚ) (hq : 0 < q) (h1 : q ≤ wt p G)
    (h2 : ∀ i ∈ G, c ∈ appr p i) (h3 : ∀ i ∈ G, sat p W i = 0) : c < p.numCand ∧ c ∉ W ∧ q ≤ gain (marginalFct .cc) p W c := by
  obtain ⟨i0, hi0⟩ := nonempty_of_wt hq h1
  have hcW : c ∉ W := by
    intro hc
    have := h3 i0 hi0
    unfold sat at this
    rw [Finset.card_eq_zero] at this
    have hm : c ∈ appr p i0 ∩ W := by simp [h2 i0 hi0, hc]
    rw [this] at hm
    simp at hm
  refine ⟨appr_lt hp (h2 i0 hi0), hcW, ?_⟩
  have := gain_ge_group (marginalFct .cc) (marginalFct_nonneg .cc (by simp)) p hp W c hcW G h2 1 (by
    intro i hi
    rw [h3 i hi]
    simp [marginalFct])
  linarith

theorem cc_JR (p : Profile) (hp : p.WF) (hv : p.voters ≠ []) (k : ℕ) (hk : 1 ≤ k) (W : Finset ℕ)
    (h : ThieleOpt (marginalFct .cc) p k W) : JR p W (total p / k) := by
  by_contra hno
  obtain ⟨G, c, h1, h2, h3⟩ := not_JR hno
  have ht := total_pos hp hv
  have hkq : (0 : ℚ) < k := by exact_mod_cast hk
  set q := total p / k with hq
  have hqpos : 0 < q := div_pos ht hkq
  obtain ⟨hc, hcW, hgain⟩ := cc_gain p hp W G c q hqpos h1 h2 h3
  set f := marginalFct .cc with hfd
  have hsum : ∑ x ∈ W, loss f p W x ≤ total p - wt p G := by
    rw [sum_loss]
    refine le_trans ?_ (cc_score_le p hp W G h3)
    rw [cc_score]
    unfold wt
    rw [Finset.sum_filter]
    refine Finset.sum_le_sum (fun i _ => ?_)
    have hw := (weight_pos hp i).le
    rw [hfd]
    simp only [marginalFct]
    split
    · rename_i h1
      rw [if_pos (by omega), h1]
      simp
    · split
      · simpa using hw
      · simp
  obtain ⟨x, hxW, hx⟩ : ∃ x ∈ W, loss f p W x < q := by
    by_contra hall
    push Not at hall
    have h4 : (W.card : ℚ) * q ≤ ∑ x ∈ W, loss f p W x := by
      have := Finset.card_nsmul_le_sum W (fun x => loss f p W x) q hall
      simpa [nsmul_eq_mul] using this
    have h5 : (W.card : ℚ) * q = total p := by rw [h.1.2, hq]; field_simp
    linarith
  have hcx : c ∉ W.erase x := fun hm => hcW (Finset.mem_of_mem_erase hm)
  have hcom : IsCommittee p k (insert c (W.erase x)) := by
    refine ⟨?_, ?_⟩
    · intro y hy
      rcases Finset.mem_insert.1 hy with rfl | hy
      · exact Finset.mem_range.2 hc
      · exact h.1.1 (Finset.mem_of_mem_erase hy)
    · rw [Finset.card_insert_of_notMem hcx, Finset.card_erase_of_mem hxW, h.1.2]
      omega
  have hopt := h.2 _ hcom
  have h6 := gain_antitone f (C16_nonneg_nonincreasing .cc trivial).2 p hp (Finset.erase_subset x W) c hcW
  have e1 : loss f p W x = score f p W - score f p (W.erase x) := rfl
  have e2 : gain f p (W.erase x) c = score f p (insert c (W.erase x)) - score f p (W.erase x) := rfl
  linarith

theorem seqcc_JR (p : Profile) (hp : p.WF) (hv : p.voters ≠ []) (k : ℕ) (hk : 1 ≤ k) (W : List ℕ)
    (h : SeqRun (marginalFct .cc) p W) (hlen : W.length = k) : JR p W.toFinset (total p / k) := by
  by_contra hno
  obtain ⟨G, c, h1, h2, h3⟩ := not_JR hno
  have ht := total_pos hp hv
  have hkq : (0 : ℚ) < k := by exact_mod_cast hk
  set q := total p / k with hq
  have hqpos : 0 < q := div_pos ht hkq
  obtain ⟨hc, hcW, hgain⟩ := cc_gain p hp W.toFinset G c q hqpos h1 h2 h3
  set f := marginalFct .cc with hfd
  -- every prefix of the run gained at least `q` per candidate
  have key : ∀ V : List ℕ, SeqRun f p V → V.toFinset ⊆ W.toFinset → (V.length : ℚ) * q ≤ score f p V.toFinset := by
    intro V hV
    induction hV with
    | nil =>
      intro _
      simpa using score_nonneg f (marginalFct_nonneg .cc (by simp)) p hp ∅
    | @snoc V d hV hd hdV hmax ih =>
      intro hsub
      have hsub' : V.toFinset ⊆ W.toFinset := by
        intro x hx
        refine hsub ?_
        simp only [List.mem_toFinset] at hx
        simp [hx]
      have hcV : c ∉ V := fun hm => hcW (hsub' (by simpa using hm))
      have g1 := hmax c hc hcV
      have g2 := gain_antitone f (C16_nonneg_nonincreasing .cc trivial).2 p hp hsub' c hcW
      have g3 := ih hsub'
      have e : (V ++ [d]).toFinset = insert d V.toFinset := by
        ext x; simp
      have e2 : gain f p V.toFinset d = score f p (insert d V.toFinset) - score f p V.toFinset := rfl
      rw [e, List.length_append]
      push_cast
      simp only [List.length_singleton, Nat.cast_one]
      linarith
  have h4 := key W h le_rfl
  have h5 := cc_score_le p hp W.toFinset G h3
  have h6 : (W.length : ℚ) * q = total p := by rw [hlen, hq]; field_simp
  linarith

/-- C47: every committee returned by CC (brute force) satisfies JR with the Hare quota. -/
theorem C47_cc_bruteforce (env : Env) (solver : Solver) (p : Profile) (hp : p.WF) (a : Args)
    (hal : prologue env "cc" p a = .ok "brute-force") (cs : List (List ℕ))
    (hcs : computeThieleMethod env "cc" solver p a = .ok cs) : ∀ W ∈ cs, JR p W.toFinset (total p / a.k) := by
  intro W hW
  have hv := validCall_of_prologue hal
  have h := C21_bruteforce_optimal env "cc" .cc solver p hp a hal rfl (marginalFct_nonneg .cc (by simp))
  exact cc_JR p hp hv.voters a.k hv.pos _ (answers_mem h hcs hW)

/-- C47: every committee returned by CC (branch-and-bound) satisfies JR with the Hare quota. -/
theorem C47_cc_bnb (env : Env) (solver : Solver) (p : Profile) (hp : p.WF) (a : Args)
    (hal : prologue env "cc" p a = .ok "branch-and-bound") (cs : List (List ℕ))
    (hcs : computeThieleMethod env "cc" solver p a = .ok cs) : ∀ W ∈ cs, JR p W.toFinset (total p / a.k) := by
  intro W hW
  have hv := validCall_of_prologue hal
  have h := C22_bnb_optimal env "cc" .cc solver p hp a hal rfl trivial
  exact cc_JR p hp hv.voters a.k hv.pos _ (answers_mem h hcs hW)

/-- C47: every committee returned by seq-CC satisfies JR with the Hare quota. -/
theorem C47_seqcc (env : Env) (p : Profile) (hp : p.WF) (a : Args)
    (hal : prologue env ("seq" ++ "cc") p a = .ok "standard") (cs : List (List ℕ))
    (hcs : computeSeqThieleMethod env "cc" p a = .ok cs) : ∀ W ∈ cs, JR p W.toFinset (total p / a.k) := by
  intro W hW
  have hv := validCall_of_prologue hal
  have h := C27_seqThiele env "cc" .cc p hp a hal rfl (marginalFct_nonneg .cc (by simp))
  obtain ⟨V, h1, h2, h3⟩ := answers_mem h hcs hW
  rw [← h3]
  exact seqcc_JR p hp hv.voters a.k hv.pos V h1 h2

/-- Non-vacuity for C45 and C47: the rules run on a profile where some committees violate JR. -/
example : computeThieleMethod exampleEnv "pav" (fun _ => .error .importError) fourVoters { committeesize := 2, resolute := false }
      = .ok [[0, 1], [0, 2]] ∧
    computeThieleMethod exampleEnv "cc" (fun _ => .error .importError) fourVoters { committeesize := 2, resolute := false }
      = .ok [[0, 1], [0, 2]] ∧
    computeSeqThieleMethod exampleEnv "cc" fourVoters { committeesize := 2, resolute := false } = .ok [[0, 1], [0, 2]] ∧
    checkJR fourVoters [1, 2] none = .ok false := by decide +kernel

end Abc
