import Verif.Model.ILPPhragmen
import Verif.Props.Loads
import Verif.Props.ILPMonroe
import Verif.Props.Checkers

/-!
# C67: the programs of minimax-Phragmén (Gurobi, Python-MIP)
-/

namespace Abc
open Spec

/-! ## The common part of the minimax- and leximax-Phragmén programs -/

/-- The load of voter `i` in a solution. -/
def voterLoad (p : Profile) (x : IVar → ℚ) (i : Fin p.voters.length) : ℚ := ∑ c ∈ appr p i, x (.load i c)

theorem mem_zipIdx_get (p : Profile) (i : Fin p.voters.length) : (p.voters.get i, (i : ℕ)) ∈ p.voters.zipIdx := by
  rw [List.mem_iff_getElem]
  exact ⟨i, by simp, by simp⟩

theorem zipIdx_get {p : Profile} {vi : Voter × ℕ} (h : vi ∈ p.voters.zipIdx) :
    ∃ i : Fin p.voters.length, vi = (p.voters.get i, (i : ℕ)) := by
  obtain ⟨n, hn, rfl⟩ := List.mem_iff_getElem.1 h
  have hn' : n < p.voters.length := by simpa using hn
  exact ⟨⟨n, hn'⟩, by simp⟩

theorem voterLoadExp_eval {p : Profile} (hp : p.WF) (x : IVar → ℚ) (i : Fin p.voters.length) :
    (voterLoadExp (p.voters.get i) i).eval x = voterLoad p x i := by
  unfold voterLoadExp voterLoad
  rw [LinExp.eval_sum, List.map_map]
  have : (p.voters.get i).approved.map (LinExp.eval x ∘ fun c => loadExp (p.voters.get i) i c) =
      (p.voters.get i).approved.map (fun c => x (.load i c)) := by
    refine List.map_congr_left fun c hc => ?_
    simp only [Function.comp, loadExp, hc, not_true_eq_false, if_false, LinExp.eval_var]
  rw [this, ← List.sum_toFinset _ (hp.nodup _ (List.get_mem _ _))]
  rfl

theorem loadSum_eval {p : Profile} (x : IVar → ℚ) (c : ℕ) :
    (LinExp.sum (p.voters.zipIdx.map (fun vi => LinExp.scale vi.1.weight (loadExp vi.1 vi.2 c)))).eval x =
      ∑ i, (p.voters.get i).weight * (if c ∈ appr p i then x (.load i c) else 0) := by
  rw [LinExp.eval_sum, List.map_map, sum_zipIdx_rat]
  refine Finset.sum_congr rfl fun i _ => ?_
  simp only [Function.comp, LinExp.eval_scale, loadExp, mem_appr]
  split <;> simp_all

/-- A feasible solution yields a load distribution in which nobody has more load than in the solution. -/
theorem feas_loads {p : Profile} (hp : p.WF) {P : Program} {x : IVar → ℚ} (hx : Feasible P x)
    (hl : ∀ d ∈ loadVars p, d ∈ P.vars) (hc : ∀ c ∈ loadConstrs p, c ∈ P.constrs) :
    ∃ y, IsLoadDistribution p (solCommittee p x) y ∧ ∀ i, ∑ c ∈ solCommittee p x, y i c ≤ voterLoad p x i := by
  classical
  set A := solCommittee p x with hA
  have hlt : ∀ c ∈ A, c < p.numCand ∧ x (.cand c) = 1 := fun c h => by
    simpa [hA, solCommittee] using h
  have hnn : ∀ (i : Fin p.voters.length) c, c < p.numCand → 0 ≤ x (.load i c) := fun i c hc => by
    have hd := hx.1 _ (hl { v := .load i c, integer := false, lb := 0, ub := some 1 } (by
      unfold loadVars
      refine List.mem_flatMap.2 ⟨c, List.mem_range.2 hc, List.mem_map.2 ⟨i, List.mem_range.2 i.2, rfl⟩⟩))
    exact hd.1
  let L : Fin p.voters.length → ℕ → ℚ := fun i c => if c ∈ appr p i then x (.load i c) else 0
  have hLnn : ∀ i c, c < p.numCand → 0 ≤ L i c := fun i c h => by
    simp only [L]; split
    · exact hnn i c h
    · exact le_rfl
  let S : ℕ → ℚ := fun c => ∑ i, (p.voters.get i).weight * L i c
  have hS : ∀ c ∈ A, 1 ≤ S c := by
    intro c h
    have hcc := hx.2 _ (hc _ (by unfold loadConstrs; exact List.mem_map.2 ⟨c, List.mem_range.2 (hlt c h).1, rfl⟩))
    rw [holds_plain] at hcc
    simp only [RelHolds, loadSum_eval, LinExp.eval_var, (hlt c h).2] at hcc
    exact hcc
  refine ⟨fun i c => if c ∈ A then L i c / S c else 0, ⟨fun i c => ?_, fun i c h => ?_, fun c h => ?_⟩, fun i => ?_⟩
  · split
    · next h => exact div_nonneg (hLnn i c (hlt c h).1) (zero_le_one.trans (hS c h))
    · exact le_rfl
  · split at h
    · next hcA =>
      refine ⟨?_, hcA⟩
      by_contra hni
      exact h (by simp [L, hni])
    · exact absurd rfl h
  · simp only [h, if_true, ← mul_div_assoc]
    rw [← Finset.sum_div, div_eq_one_iff_eq (zero_lt_one.trans_le (hS c h)).ne']
  · calc ∑ c ∈ A, (if c ∈ A then L i c / S c else 0) ≤ ∑ c ∈ A, L i c := by
          refine Finset.sum_le_sum fun c h => ?_
          rw [if_pos h]
          exact div_le_self (hLnn i c (hlt c h).1) (hS c h)
      _ = ∑ c ∈ A with c ∈ appr p i, x (.load i c) := by rw [Finset.sum_filter]
      _ ≤ voterLoad p x i := by
          refine Finset.sum_le_sum_of_subset_of_nonneg (fun c h => (Finset.mem_filter.1 h).2) fun c h _ => hnn i c ?_
          rw [mem_appr] at h
          exact hp.lt _ (List.get_mem _ _) c h

/-- A committee with a load distribution consists of approved candidates. -/
theorem Spec.IsLoadDistribution.subset {p : Profile} {A : Finset ℕ} {y : Fin p.voters.length → ℕ → ℚ}
    (h : IsLoadDistribution p A y) : A ⊆ approvedSet p := by
  intro c hc
  have h1 := h.one c hc
  by_contra hn
  have : ∑ i, (p.voters.get i).weight * y i c = 0 := by
    refine Finset.sum_eq_zero fun i _ => ?_
    by_contra hne
    refine hn ?_
    simp only [approvedSet, Finset.mem_biUnion, Finset.mem_univ, true_and]
    exact ⟨i, (h.approved i c fun e => hne (by rw [e, mul_zero])).1⟩
  rw [this] at h1
  exact zero_ne_one h1

/-- Loads never exceed 1 if all weights are at least 1. -/
theorem Spec.IsLoadDistribution.le_one {p : Profile} (hp : p.WF) (hw : ∀ v ∈ p.voters, 1 ≤ v.weight) {A : Finset ℕ}
    {y : Fin p.voters.length → ℕ → ℚ} (h : IsLoadDistribution p A y) (i : Fin p.voters.length) (c : ℕ) : y i c ≤ 1 := by
  by_cases hc : c ∈ A
  · have h1 := h.one c hc
    have h2 : (p.voters.get i).weight * y i c ≤ 1 := by
      rw [← h1]
      exact Finset.single_le_sum (f := fun i => (p.voters.get i).weight * y i c)
        (fun j _ => mul_nonneg (weight_pos hp j).le (h.nonneg j c)) (Finset.mem_univ i)
    have h3 := hw _ (List.get_mem p.voters i)
    nlinarith [h.nonneg i c]
  · have : y i c = 0 := by
      by_contra hne; exact hc (h.approved i c hne).2
    rw [this]; exact zero_le_one

/-- The values of the load variables describing a load distribution. -/
def loadValue (p : Profile) (y : Fin p.voters.length → ℕ → ℚ) (i c : ℕ) : ℚ :=
  if h : i < p.voters.length then y ⟨i, h⟩ c else 0

theorem loadValue_get {p : Profile} (y : Fin p.voters.length → ℕ → ℚ) (i : Fin p.voters.length) (c : ℕ) :
    loadValue p y i c = y i c := by simp [loadValue]

/-- A load distribution satisfies the common constraints. -/
theorem loads_feas {p : Profile} (hp : p.WF) (hw : ∀ v ∈ p.voters, 1 ≤ v.weight) {A : Finset ℕ}
    {y : Fin p.voters.length → ℕ → ℚ} (h : IsLoadDistribution p A y) {x : IVar → ℚ} (hcand : CandValues p A x)
    (hload : ∀ i c, x (.load i c) = loadValue p y i c) :
    (∀ d ∈ loadVars p, InBounds x d) ∧ (∀ c ∈ loadConstrs p, Holds x c) ∧ ∀ i, voterLoad p x i = ∑ c ∈ A, y i c := by
  classical
  refine ⟨fun d hd => ?_, fun cn hc => ?_, fun i => ?_⟩
  · unfold loadVars at hd
    obtain ⟨c, -, hd⟩ := List.mem_flatMap.1 hd
    obtain ⟨i, hi, rfl⟩ := List.mem_map.1 hd
    have hi' := List.mem_range.1 hi
    have e : x (.load i c) = y ⟨i, hi'⟩ c := by rw [hload]; exact loadValue_get y ⟨i, hi'⟩ c
    refine ⟨?_, fun u hu => ?_, fun h => by simp at h⟩
    · simp only [e]; exact h.nonneg _ c
    · simp only [Option.some.injEq] at hu
      subst hu
      simp only [e]; exact h.le_one hp hw _ c
  · unfold loadConstrs at hc
    obtain ⟨c, -, rfl⟩ := List.mem_map.1 hc
    rw [holds_plain]
    simp only [RelHolds, loadSum_eval, LinExp.eval_var, hcand c]
    have e : ∀ i : Fin p.voters.length, (if c ∈ appr p i then x (.load i c) else 0) = y i c := by
      intro i
      rw [hload, loadValue_get]
      split
      · rfl
      · next hn =>
        by_contra hne
        exact hn (h.approved i c (fun e => hne e.symm)).1
    simp only [e]
    split
    · next hcA => rw [h.one c hcA]
    · exact Finset.sum_nonneg fun i _ => mul_nonneg (weight_pos hp i).le (h.nonneg i c)
  · unfold voterLoad
    rw [← Finset.sum_filter_add_sum_filter_not (appr p i) (· ∈ A)]
    rw [← Finset.sum_filter_add_sum_filter_not A (· ∈ appr p i)]
    have z1 : ∑ c ∈ appr p i with c ∉ A, x (.load i c) = 0 := by
      refine Finset.sum_eq_zero fun c hc => ?_
      rw [hload, loadValue_get]
      by_contra hne
      exact (Finset.mem_filter.1 hc).2 (h.approved i c hne).2
    have z2 : ∑ c ∈ A with c ∉ appr p i, y i c = 0 := by
      refine Finset.sum_eq_zero fun c hc => ?_
      by_contra hne
      exact (Finset.mem_filter.1 hc).2 (h.approved i c hne).1
    rw [z1, z2, add_zero, add_zero]
    refine Finset.sum_congr ?_ fun c _ => by rw [hload, loadValue_get]
    ext c; simp [and_comm]

/-! ## minimax-Phragmén -/

/-- The smallest possible maximal load of a committee (meaningful for committees of approved candidates, see `minLoad_spec`). -/
noncomputable def minLoad (p : Profile) (A : Finset ℕ) : ℚ :=
  open Classical in if h : ∃ m, ∀ t, LoadWithin p A t ↔ m ≤ t then h.choose else 0

theorem minLoad_spec {p : Profile} (hp : p.WF) (hn : p.voters ≠ []) {A : Finset ℕ} (hA : A ⊆ approvedSet p) (hne : A.Nonempty) (t : ℚ) :
    LoadWithin p A t ↔ minLoad p A ≤ t := by
  have h : ∃ m, ∀ t, LoadWithin p A t ↔ m ≤ t := by
    obtain ⟨m, hm, -⟩ := C67_min_load hp hn hA hne
    exact ⟨m, hm⟩
  unfold minLoad
  rw [dif_pos h]
  exact h.choose_spec t

/-- The solution of the minimax-Phragmén program describing a load distribution of `A`. -/
noncomputable def minimaxphragmenSolution (p : Profile) (A : Finset ℕ) (y : Fin p.voters.length → ℕ → ℚ) : IVar → ℚ
  | .cand c => if c ∈ A then 1 else 0
  | .load i c => loadValue p y i c
  | .value => minLoad p A
  | _ => 0

theorem load_le_card {p : Profile} (hp : p.WF) (hw : ∀ v ∈ p.voters, 1 ≤ v.weight) {A : Finset ℕ}
    {y : Fin p.voters.length → ℕ → ℚ} (h : IsLoadDistribution p A y) (i : Fin p.voters.length) : ∑ c ∈ A, y i c ≤ A.card := by
  calc ∑ c ∈ A, y i c ≤ ∑ _c ∈ A, (1 : ℚ) := Finset.sum_le_sum fun c _ => h.le_one hp hw i c
    _ = A.card := by simp

/-- **C67** If all weights are at least 1, the program of minimax-Phragmén encodes the rule: committees of approved candidates, valued
by minus the smallest possible maximal load. -/
theorem C67_minimaxphragmen_program {p : Profile} (hp : p.WF) (hn : p.voters ≠ []) (hw : ∀ v ∈ p.voters, 1 ≤ v.weight) {k : ℕ}
    (hk : 0 < k) :
    Encodes (minimaxphragmenProgram p k) p (fun A => IsCommittee p k A ∧ A ⊆ approvedSet p) (fun A => -minLoad p A) := by
  have hvars : ∀ d ∈ candVars p, d ∈ (minimaxphragmenProgram p k).vars := fun d hd =>
    List.mem_append_left _ (List.mem_append_left _ hd)
  have hlv : ∀ d ∈ loadVars p, d ∈ (minimaxphragmenProgram p k).vars := fun d hd =>
    List.mem_append_left _ (List.mem_append_right _ hd)
  have hcs : ∀ c ∈ loadConstrs p, c ∈ (minimaxphragmenProgram p k).constrs := fun c hc =>
    List.mem_append_left _ (List.mem_cons_of_mem _ hc)
  have hsz : sizeConstr p k ∈ (minimaxphragmenProgram p k).constrs := List.mem_append_left _ List.mem_cons_self
  have hne : ∀ {A}, IsCommittee p k A → A.Nonempty := fun {A} h => Finset.card_pos.1 (by rw [h.2]; exact hk)
  refine ⟨fun x hx => feas_cand hx hvars, fun x hx => ?_, fun A hA => ?_⟩
  · obtain ⟨y, hy, hle⟩ := feas_loads hp hx hlv hcs
    have hcom := feas_committee hx hvars hsz
    refine ⟨⟨hcom, hy.subset⟩, ?_⟩
    change (LinExp.scale (-1) (.var .value)).eval x ≤ _
    rw [LinExp.eval_scale, LinExp.eval_var, neg_one_mul, neg_le_neg_iff, ← minLoad_spec hp hn hy.subset (hne hcom)]
    refine ⟨y, hy, fun i => (hle i).trans ?_⟩
    have hc := hx.2 _ (List.mem_append_right _ (List.mem_map.2 ⟨_, mem_zipIdx_get p i, rfl⟩))
    rw [holds_plain] at hc
    simpa only [RelHolds, voterLoadExp_eval hp, LinExp.eval_var] using hc
  · obtain ⟨hcom, hsub⟩ := hA
    obtain ⟨y, hy, hle⟩ := (minLoad_spec hp hn hsub (hne hcom) _).2 le_rfl
    have hcand : CandValues p A (minimaxphragmenSolution p A y) := fun _ => rfl
    obtain ⟨f1, f2, f3⟩ := loads_feas hp hw hy hcand (fun _ _ => rfl)
    have h0 : 0 ≤ minLoad p A := ((C67_load_iff hp hn A _).1 ((minLoad_spec hp hn hsub (hne hcom) _).2 le_rfl)).1
    have hk' : minLoad p A ≤ k := (minLoad_spec hp hn hsub (hne hcom) _).1
      ⟨y, hy, fun i => (load_le_card hp hw hy i).trans_eq (by rw [hcom.2])⟩
    refine ⟨minimaxphragmenSolution p A y, ⟨fun d hd => ?_, fun c hc => ?_⟩, hcand.sol hcom, ?_⟩
    · rcases List.mem_append.1 hd with hd | hd
      · rcases List.mem_append.1 hd with hd | hd
        · exact hcand.vars d hd
        · exact f1 d hd
      · rw [List.mem_singleton] at hd
        subst hd
        refine ⟨h0, fun u hu => ?_, fun h => by simp [loadBoundVar] at h⟩
        simp only [loadBoundVar, Option.some.injEq] at hu
        subst hu
        exact hk'
    · rcases List.mem_append.1 hc with hc | hc
      · rcases List.mem_cons.1 hc with rfl | hc
        · exact hcand.size hcom
        · exact f2 c hc
      · obtain ⟨vi, hvi, rfl⟩ := List.mem_map.1 hc
        obtain ⟨i, rfl⟩ := zipIdx_get hvi
        rw [holds_plain]
        simp only [RelHolds, voterLoadExp_eval hp, LinExp.eval_var, f3]
        exact hle i
    · change (LinExp.scale (-1) (.var .value)).eval _ = _
      rw [LinExp.eval_scale, LinExp.eval_var, neg_one_mul]
      rfl

theorem approved_card (p : Profile) : p.approvedCandidates.Nodup ∧ p.approvedCandidates.toFinset = approvedSet p := by
  obtain ⟨h1, h2⟩ := approvedCandidates_lists p
  refine ⟨h1, ?_⟩
  ext c
  rw [List.mem_toFinset, h2]
  simp only [approvedSet, Finset.mem_biUnion, Finset.mem_univ, true_and]

theorem approvedSet_lt {p : Profile} (hp : p.WF) : approvedSet p ⊆ Finset.range p.numCand := by
  intro c hc
  simp only [approvedSet, Finset.mem_biUnion, Finset.mem_univ, true_and, mem_appr] at hc
  obtain ⟨i, hi⟩ := hc
  exact Finset.mem_range.2 (hp.lt _ (List.get_mem _ _) c hi)

theorem approvedSet_card (p : Profile) : (approvedSet p).card = p.approvedCandidates.length := by
  obtain ⟨h1, h2⟩ := approved_card p
  rw [← h2, List.toFinset_card_of_nodup h1]

/-- With enough approved candidates, minimax-Phragmén optimality in terms of `minLoad`. -/
theorem minimaxphragmenOpt_iff {p : Profile} (hp : p.WF) (hn : p.voters ≠ []) {k : ℕ} (hk : 0 < k)
    (hen : k ≤ (approvedSet p).card) (ε : ℚ) (A : Finset ℕ) :
    MinimaxPhragmenOpt ε p k A ↔ (IsCommittee p k A ∧ A ⊆ approvedSet p) ∧
      ∀ B, (IsCommittee p k B ∧ B ⊆ approvedSet p) → -minLoad p B - ε ≤ -minLoad p A := by
  have hne : ∀ {A}, IsCommittee p k A → A.Nonempty := fun {A} h => Finset.card_pos.1 (by rw [h.2]; exact hk)
  unfold MinimaxPhragmenOpt LoadCommittee
  constructor
  · rintro ⟨⟨hA, hor⟩, h⟩
    have hsub : A ⊆ approvedSet p := by
      rcases hor with h | h
      · exact h
      · exact (Finset.eq_of_subset_of_card_le h (by rw [hA.2]; exact hen)).symm.subset
    refine ⟨⟨hA, hsub⟩, fun B hB => ?_⟩
    have := h B _ hB.1 ((minLoad_spec hp hn hB.2 (hne hB.1) _).2 le_rfl)
    rw [minLoad_spec hp hn hsub (hne hA)] at this
    linarith
  · rintro ⟨⟨hA, hsub⟩, h⟩
    refine ⟨⟨hA, Or.inl hsub⟩, fun B t hB hBt => ?_⟩
    have hBs : B ⊆ approvedSet p := by
      obtain ⟨y, hy, -⟩ := hBt
      exact hy.subset
    rw [minLoad_spec hp hn hBs (hne hB)] at hBt
    rw [minLoad_spec hp hn hsub (hne hA)]
    have := h B ⟨hB, hBs⟩
    linarith

theorem exists_approved_committee {p : Profile} (hp : p.WF) {k : ℕ} (hen : k ≤ (approvedSet p).card) :
    ∃ A, IsCommittee p k A ∧ A ⊆ approvedSet p := by
  obtain ⟨A, hA, hc⟩ := Finset.exists_subset_card_eq hen
  exact ⟨A, ⟨hA.trans (approvedSet_lt hp), hc⟩, hA⟩

/-- **C67** Gurobi and Python-MIP on minimax-Phragmén, enough approved candidates, all weights at least 1. -/
theorem C67_ilp_minimaxphragmen {solve : Program → SolveResult} (hs : ExactSolver solve) (p : Profile) (hp : p.WF)
    (hw : ∀ v ∈ p.voters, 1 ≤ v.weight) (a : Args) (hv : ValidCall p a) (hen : a.k ≤ p.approvedCandidates.length) :
    Answers a (ilpMinimaxphragmen solve p a.k a.resolute a.maxNum) (MinimaxPhragmenOpt cmpAccuracy p a.k) := by
  have hen' : a.k ≤ (approvedSet p).card := by rw [approvedSet_card]; exact hen
  obtain ⟨cs, m, e, -, -, -, -, hA⟩ := C61_enumeration (score := none) hs thrMip_pos thrMip_le hv
    (C67_minimaxphragmen_program hp hv.voters hw hv.pos) (fun A hA => hA.1) (fun f hf => by simp at hf)
    (exists_approved_committee hp hen')
  unfold ilpMinimaxphragmen
  rw [if_neg (by omega), e]
  rw [show MinimaxPhragmenOpt cmpAccuracy p a.k = _ from
    funext fun A => propext (minimaxphragmenOpt_iff hp hv.voters hv.pos hen' cmpAccuracy A)]
  exact hA

/-! ## Too few approved candidates -/

/-- **C67** Fewer than `k` approved candidates: one committee (resolute) or each committee containing all approved candidates exactly once;
`max_num_of_committees` has no effect, and the result is not put into the usual order. -/
theorem C67_too_few_approved (p : Profile) (hp : p.WF) (k : ℕ) (hk : k ≤ p.numCand) (hfew : p.approvedCandidates.length < k)
    (resolute : Bool) (ε : ℚ) :
    (∀ W ∈ tooFewApproved p k resolute, W.Nodup ∧ MinimaxPhragmenOpt ε p k W.toFinset) ∧
    ((tooFewApproved p k resolute).map List.toFinset).Nodup ∧
    (resolute = true → (tooFewApproved p k resolute).length = 1) ∧
    (resolute = false → ∀ A, MinimaxPhragmenOpt ε p k A ↔ ∃ W ∈ tooFewApproved p k resolute, W.toFinset = A) := by
  classical
  obtain ⟨hnd, hset⟩ := approved_card p
  set ap := p.approvedCandidates with hap
  set rem := p.candidates.filter (fun c => decide (c ∉ ap)) with hrem
  have hremnd : rem.Nodup := List.nodup_range.filter _
  have hmemrem : ∀ c, c ∈ rem ↔ c < p.numCand ∧ c ∉ ap := fun c => by simp [hrem, Profile.candidates]
  have hlen : p.approvedCandidates.length = ap.length := rfl
  have hopt : ∀ A, MinimaxPhragmenOpt ε p k A ↔ IsCommittee p k A ∧ approvedSet p ⊆ A := by
    intro A
    unfold MinimaxPhragmenOpt LoadCommittee
    constructor
    · rintro ⟨⟨hA, h | h⟩, -⟩
      · have := Finset.card_le_card h
        rw [hA.2, approvedSet_card] at this
        omega
      · exact ⟨hA, h⟩
    · rintro ⟨hA, h⟩
      refine ⟨⟨hA, Or.inr h⟩, fun B t hB hBt => ?_⟩
      obtain ⟨y, hy, -⟩ := hBt
      have := Finset.card_le_card hy.subset
      rw [hB.2, approvedSet_card] at this
      omega
  have hremlen : k - ap.length ≤ rem.length := by
    have : rem.toFinset ∪ ap.toFinset = Finset.range p.numCand := by
      ext c
      simp only [Finset.mem_union, List.mem_toFinset, hmemrem, Finset.mem_range]
      constructor
      · rintro (h | h)
        · exact h.1
        · have := approvedSet_lt hp (hset ▸ List.mem_toFinset.2 h)
          simpa using this
      · intro h; by_cases h' : c ∈ ap
        · exact Or.inr h'
        · exact Or.inl ⟨h, h'⟩
    have h2 := congrArg Finset.card this
    have h3 := Finset.card_union_le rem.toFinset ap.toFinset
    rw [h2, Finset.card_range, List.toFinset_card_of_nodup hremnd, List.toFinset_card_of_nodup hnd] at h3
    omega
  -- committees described by the approved candidates and `k - |approved|` others
  have hext : ∀ e : List ℕ, e.Sublist rem → e.length = k - ap.length →
      (ap ++ e).Nodup ∧ MinimaxPhragmenOpt ε p k (ap ++ e).toFinset := by
    intro e he hl
    have h1 : (ap ++ e).Nodup := by
      rw [List.nodup_append]
      refine ⟨hnd, he.nodup hremnd, ?_⟩
      rintro a ha b hb rfl
      exact ((hmemrem a).1 (he.subset hb)).2 ha
    refine ⟨h1, (hopt _).2 ⟨⟨?_, ?_⟩, ?_⟩⟩
    · intro c hc
      rw [List.mem_toFinset, List.mem_append] at hc
      rcases hc with hc | hc
      · exact approvedSet_lt hp (hset ▸ List.mem_toFinset.2 hc)
      · exact Finset.mem_range.2 ((hmemrem c).1 (he.subset hc)).1
    · rw [List.toFinset_card_of_nodup h1, List.length_append, hl]; omega
    · rw [← hset]
      intro c hc
      rw [List.mem_toFinset] at hc ⊢
      exact List.mem_append_left _ hc
  cases resolute with
  | true =>
    have e : tooFewApproved p k true = [ap ++ rem.take (k - ap.length)] := rfl
    rw [e]
    refine ⟨?_, by simp, by simp, by simp⟩
    intro W hW
    rw [List.mem_singleton] at hW
    subst hW
    exact hext _ (List.take_sublist _ _) (by simp; omega)
  | false =>
    have e : tooFewApproved p k false = (combinations rem (k - ap.length)).map (fun extra => ap ++ extra) := rfl
    rw [e]
    refine ⟨?_, ?_, by simp, fun _ A => ?_⟩
    · intro W hW
      obtain ⟨x, hx, rfl⟩ := List.mem_map.1 hW
      obtain ⟨h1, h2⟩ := mem_combinations.1 hx
      exact hext x h1 h2
    · rw [List.map_map]
      refine List.Nodup.map_on ?_ (combinations_nodup hremnd _)
      intro x hx y hy hxy
      obtain ⟨hx1, hx2⟩ := mem_combinations.1 hx
      obtain ⟨hy1, hy2⟩ := mem_combinations.1 hy
      have hlt : rem.Pairwise (· < ·) := List.pairwise_lt_range.sublist List.filter_sublist
      refine eq_of_lt_toFinset (hlt.sublist hx1) (hlt.sublist hy1) ?_
      have hxy' : (ap ++ x).toFinset = (ap ++ y).toFinset := hxy
      ext c
      have := congrArg (c ∈ ·) hxy'
      simp only [List.mem_toFinset, List.mem_append, eq_iff_iff] at this
      rw [List.mem_toFinset, List.mem_toFinset]
      constructor
      · intro h
        rcases this.1 (Or.inr h) with h' | h'
        · exact absurd h' ((hmemrem c).1 (hx1.subset h)).2
        · exact h'
      · intro h
        rcases this.2 (Or.inr h) with h' | h'
        · exact absurd h' ((hmemrem c).1 (hy1.subset h)).2
        · exact h'
    · constructor
      · intro hA
        obtain ⟨hA, hsub⟩ := (hopt A).1 hA
        refine ⟨ap ++ rem.filter (fun c => decide (c ∈ A)), List.mem_map.2 ⟨_, mem_combinations.2 ⟨List.filter_sublist, ?_⟩, rfl⟩, ?_⟩
        · have h1 : (rem.filter (fun c => decide (c ∈ A))).toFinset = A \ approvedSet p := by
            ext c
            simp only [List.mem_toFinset, List.mem_filter, hmemrem, decide_eq_true_eq, Finset.mem_sdiff, ← hset]
            constructor
            · rintro ⟨⟨-, h1⟩, h2⟩; exact ⟨h2, h1⟩
            · rintro ⟨h1, h2⟩; exact ⟨⟨by simpa using hA.1 h1, h2⟩, h1⟩
          have h2 := congrArg Finset.card h1
          rw [List.toFinset_card_of_nodup (hremnd.filter _), Finset.card_sdiff_of_subset hsub, hA.2, approvedSet_card] at h2
          exact h2
        · ext c
          simp only [List.mem_toFinset, List.mem_append, List.mem_filter, hmemrem, decide_eq_true_eq]
          constructor
          · rintro (h | h)
            · exact hsub (hset ▸ List.mem_toFinset.2 h)
            · exact h.2
          · intro h
            by_cases h' : c ∈ ap
            · exact Or.inl h'
            · exact Or.inr ⟨⟨by simpa using hA.1 h, h'⟩, h⟩
      · rintro ⟨W, hW, rfl⟩
        obtain ⟨x, hx, rfl⟩ := List.mem_map.1 hW
        obtain ⟨h1, h2⟩ := mem_combinations.1 hx
        exact (hext x h1 h2).2

/-! ## Integer weights: the tolerance `10⁻⁷` does not matter -/

/-- All weights are positive integers. -/
def IntegerWeights (p : Profile) : Prop := ∀ v ∈ p.voters, ∃ n : ℕ, v.weight = n

theorem wt_integer {p : Profile} (h : IntegerWeights p) (G : Group p) : ∃ n : ℕ, wt p G = n := by
  classical
  unfold wt
  induction G using Finset.induction_on with
  | empty => exact ⟨0, by simp⟩
  | insert i G hi ih =>
    obtain ⟨n, hn⟩ := ih
    obtain ⟨m, hm⟩ := h _ (List.get_mem p.voters i)
    exact ⟨m + n, by rw [Finset.sum_insert hi, hn, hm]; push_cast; rfl⟩

/-- Two fractions with denominators up to `T` that differ by at most `10⁻⁷`, where `T² < 10⁷`. -/
theorem fraction_gap {a b w w' : ℕ} {T : ℚ} (hw : 0 < w) (hw' : 0 < w') (h1 : (w : ℚ) ≤ T) (h2 : (w' : ℚ) ≤ T) (hT : T ^ 2 < 10 ^ 7)
    (h : (a : ℚ) / w ≤ (b : ℚ) / w' + cmpAccuracy) : (a : ℚ) / w ≤ (b : ℚ) / w' := by
  have p1 : (0 : ℚ) < w := by exact_mod_cast hw
  have p2 : (0 : ℚ) < w' := by exact_mod_cast hw'
  rw [div_le_div_iff₀ p1 p2]
  by_contra hn
  rw [not_le] at hn
  have hn' : b * w + 1 ≤ a * w' := by exact_mod_cast hn
  have hn'' : (b : ℚ) * w + 1 ≤ a * w' := by exact_mod_cast hn'
  have e : (b : ℚ) / w' + cmpAccuracy = (b + cmpAccuracy * w') / w' := by field_simp
  rw [e, div_le_div_iff₀ p1 p2] at h
  have h3 : (1 : ℚ) ≤ cmpAccuracy * (w' * w) := by nlinarith
  have h4 : (w' : ℚ) * w ≤ T ^ 2 := by nlinarith
  have h5 : cmpAccuracy = 1 / 10 ^ 7 := by norm_num [cmpAccuracy, accuracy]
  rw [h5] at h3
  have : (w' : ℚ) * w < 10 ^ 7 := lt_of_le_of_lt h4 hT
  linarith

/-- **C67** With integer weights of total at most 3162 the tolerance of the code does not change the winners. -/
theorem C67_minimaxphragmen_tolerance {p : Profile} (hp : p.WF) (hn : p.voters ≠ []) (hw : IntegerWeights p) (hT : total p ≤ 3162)
    {k : ℕ} (hk : 0 < k) (A : Finset ℕ) : MinimaxPhragmenOpt cmpAccuracy p k A ↔ MinimaxPhragmenOpt 0 p k A := by
  have hne : ∀ {A}, IsCommittee p k A → A.Nonempty := fun {A} h => Finset.card_pos.1 (by rw [h.2]; exact hk)
  by_cases hen : k ≤ (approvedSet p).card
  · rw [minimaxphragmenOpt_iff hp hn hk hen, minimaxphragmenOpt_iff hp hn hk hen]
    refine and_congr_right fun hA => forall_congr' fun B => forall_congr' fun hB => ?_
    constructor
    · intro h
      obtain ⟨m, hm, C, hC, hCn, rfl⟩ := C67_min_load hp hn hA.2 (hne hA.1)
      obtain ⟨m', hm', D, hD, hDn, rfl⟩ := C67_min_load hp hn hB.2 (hne hB.1)
      have e : minLoad p A = _ := le_antisymm ((minLoad_spec hp hn hA.2 (hne hA.1) _).1 ((hm _).2 le_rfl))
        ((hm _).1 ((minLoad_spec hp hn hA.2 (hne hA.1) _).2 le_rfl))
      have e' : minLoad p B = _ := le_antisymm ((minLoad_spec hp hn hB.2 (hne hB.1) _).1 ((hm' _).2 le_rfl))
        ((hm' _).1 ((minLoad_spec hp hn hB.2 (hne hB.1) _).2 le_rfl))
      have w1 := wt_backersOf_pos hp (hC.trans hA.2) hCn
      have w2 := wt_backersOf_pos hp (hD.trans hB.2) hDn
      have l1 := (wt_le_total hp (backersOf p C)).trans hT
      have l2 := (wt_le_total hp (backersOf p D)).trans hT
      obtain ⟨n1, h1⟩ := wt_integer hw (backersOf p C)
      obtain ⟨n2, h2⟩ := wt_integer hw (backersOf p D)
      rw [e, e', h1, h2] at h
      rw [e, e', h1, h2]
      rw [h1] at w1 l1
      rw [h2] at w2 l2
      have := fraction_gap (a := C.card) (b := D.card) (by exact_mod_cast w1) (by exact_mod_cast w2) l1 l2 (by norm_num) (by linarith)
      linarith
    · intro h
      have : (0 : ℚ) < cmpAccuracy := by norm_num [cmpAccuracy, accuracy]
      linarith
  · -- no committee has a load distribution
    have hno : ∀ B t, IsCommittee p k B → ¬ LoadWithin p B t := by
      rintro B t hB ⟨y, hy, -⟩
      have := Finset.card_le_card hy.subset
      rw [hB.2] at this
      exact hen this
    unfold MinimaxPhragmenOpt
    exact and_congr_right fun _ => ⟨fun _ B t hB h => absurd h (hno B t hB), fun _ B t hB h => absurd h (hno B t hB)⟩

/-! ## `compute_minimaxphragmen` -/

theorem minimaxphragmen_alg {env : Env} {p : Profile} {a : Args} {alg : String} (h : prologue env "minimaxphragmen" p a = .ok alg) :
    alg ∈ ["gurobi", "mip-gurobi", "mip-cbc"] :=
  prologue_alg_mem h (ri := ⟨["gurobi", "mip-gurobi", "mip-cbc"], resOpt⟩) rfl

theorem computeMinimaxphragmen_eq {env : Env} {solve : String → Program → SolveResult} {p : Profile} {a : Args} {alg : String}
    (hal : prologue env "minimaxphragmen" p a = .ok alg) :
    computeMinimaxphragmen env solve p a = ilpMinimaxphragmen (solve alg) p a.k a.resolute a.maxNum := by
  unfold computeMinimaxphragmen
  rw [hal]
  simp only [bind, Except.bind]
  have h := minimaxphragmen_alg hal
  simp only [List.mem_cons, List.not_mem_nil, or_false] at h
  rcases h with rfl | rfl | rfl
  · rw [if_pos rfl]
  · rw [if_neg (by decide), if_pos (by decide)]
  · rw [if_neg (by decide), if_pos (by decide)]

/-- **C67** `compute_minimaxphragmen`, all weights positive integers with total at most 3162, at least `k` approved candidates: exactly the
committees minimising the largest load. -/
theorem C67_compute_minimaxphragmen (env : Env) (solve : String → Program → SolveResult) (p : Profile) (hp : p.WF)
    (hw : IntegerWeights p) (hT : total p ≤ 3162) (a : Args) (alg : String)
    (hal : prologue env "minimaxphragmen" p a = .ok alg) (hsolve : ExactSolver (solve alg))
    (hen : a.k ≤ (approvedSet p).card) :
    Answers a (computeMinimaxphragmen env solve p a) (MinimaxPhragmenOpt 0 p a.k) := by
  have hv := validCall_of_prologue hal
  have hw1 : ∀ v ∈ p.voters, 1 ≤ v.weight := by
    intro v hvv
    obtain ⟨n, hn⟩ := hw v hvv
    have := hp.weight v hvv
    rw [hn] at this ⊢
    have h1 : 0 < n := by exact_mod_cast this
    exact_mod_cast h1
  rw [computeMinimaxphragmen_eq hal]
  rw [show MinimaxPhragmenOpt 0 p a.k = MinimaxPhragmenOpt cmpAccuracy p a.k from
    funext fun A => propext (C67_minimaxphragmen_tolerance hp hv.voters hw hT hv.pos A).symm]
  exact C67_ilp_minimaxphragmen hsolve p hp hw1 a hv (by rw [← approvedSet_card]; exact hen)

/-- **C67** The same without a bound on the total weight and with rational weights ≥ 1: the committees whose largest load is smallest up to
`10⁻⁷`. -/
theorem C67_compute_minimaxphragmen_rational (env : Env) (solve : String → Program → SolveResult) (p : Profile) (hp : p.WF)
    (hw : ∀ v ∈ p.voters, 1 ≤ v.weight) (a : Args) (alg : String)
    (hal : prologue env "minimaxphragmen" p a = .ok alg) (hsolve : ExactSolver (solve alg))
    (hen : a.k ≤ (approvedSet p).card) :
    Answers a (computeMinimaxphragmen env solve p a) (MinimaxPhragmenOpt (1 / 10 ^ 7) p a.k) := by
  have hv := validCall_of_prologue hal
  rw [computeMinimaxphragmen_eq hal]
  have : (1 / 10 ^ 7 : ℚ) = cmpAccuracy := by norm_num [cmpAccuracy, accuracy]
  rw [this]
  exact C67_ilp_minimaxphragmen hsolve p hp hw a hv (by rw [← approvedSet_card]; exact hen)

/-- **C67** `compute_minimaxphragmen` with fewer than `k` approved candidates: whatever the solver, `max_num_of_committees` and the weights,
the committees (as sets) are those containing all approved candidates, each once. -/
theorem C67_compute_minimaxphragmen_few (env : Env) (solve : String → Program → SolveResult) (p : Profile) (hp : p.WF)
    (a : Args) (alg : String) (hal : prologue env "minimaxphragmen" p a = .ok alg) (hfew : (approvedSet p).card < a.k) :
    ∃ cs, computeMinimaxphragmen env solve p a = .ok cs ∧ (∀ W ∈ cs, W.Nodup ∧ MinimaxPhragmenOpt 0 p a.k W.toFinset) ∧
      (cs.map List.toFinset).Nodup ∧ (a.resolute = true → cs.length = 1) ∧
      (a.resolute = false → ∀ A, MinimaxPhragmenOpt 0 p a.k A ↔ ∃ W ∈ cs, W.toFinset = A) := by
  have hv := validCall_of_prologue hal
  rw [approvedSet_card] at hfew
  refine ⟨tooFewApproved p a.k a.resolute, ?_, C67_too_few_approved p hp a.k hv.le hfew a.resolute 0⟩
  rw [computeMinimaxphragmen_eq hal]
  unfold ilpMinimaxphragmen
  rw [if_pos hfew]

/-- **C67** (finding) `max_num_of_committees = 1` is ignored if too few candidates are approved. -/
theorem C67_few_ignores_max (solve : String → Program → SolveResult) :
    computeMinimaxphragmen ⟨["gurobi"], fun _ => none, fun _ => none⟩ solve ⟨3, [⟨[0], 1⟩], []⟩
      { committeesize := 2, algorithm := "gurobi", resolute := false, max := some 1 } = .ok [[0, 1], [0, 2]] := by
  rw [computeMinimaxphragmen_eq (alg := "gurobi") (by decide +kernel)]
  unfold ilpMinimaxphragmen
  rw [if_pos (by decide +kernel)]
  decide +kernel

/-- **C67** (finding) If every candidate is approved by voters of total weight less than 1, the program is infeasible (because loads are
bounded by 1) and the code raises RuntimeError although optimal committees exist. -/
theorem C67_small_weights_error {solve : Program → SolveResult} (hs : ExactSolver solve) (p : Profile) (hp : p.WF) (k : ℕ) (hk : 0 < k)
    (hen : k ≤ p.approvedCandidates.length) (hsmall : ∀ c < p.numCand, wt p (backers p c) < 1) (resolute : Bool) (max : Option ℕ) :
    ilpMinimaxphragmen solve p k resolute max = .error .runtimeError := by
  have hinf : solve (minimaxphragmenProgram p k) = .infeasible := by
    refine (hs _).2 ?_
    rintro ⟨x, hx⟩
    have hvars : ∀ d ∈ candVars p, d ∈ (minimaxphragmenProgram p k).vars := fun d hd =>
      List.mem_append_left _ (List.mem_append_left _ hd)
    have hsz : sizeConstr p k ∈ (minimaxphragmenProgram p k).constrs := List.mem_append_left _ List.mem_cons_self
    have hcom := feas_committee hx hvars hsz
    obtain ⟨c, hc⟩ : (solCommittee p x).Nonempty := Finset.card_pos.1 (by rw [hcom.2]; exact hk)
    have hc' : c < p.numCand ∧ x (.cand c) = 1 := by simpa [solCommittee] using hc
    have hcc := hx.2 _ (List.mem_append_left _ (List.mem_cons_of_mem _ (by
      unfold loadConstrs; exact List.mem_map.2 ⟨c, List.mem_range.2 hc'.1, rfl⟩)))
    rw [holds_plain] at hcc
    simp only [RelHolds, loadSum_eval, LinExp.eval_var, hc'.2] at hcc
    have : ∑ i, (p.voters.get i).weight * (if c ∈ appr p i then x (.load i c) else 0) ≤ wt p (backers p c) := by
      unfold wt backers
      rw [Finset.sum_filter]
      refine Finset.sum_le_sum fun i _ => ?_
      split
      · have hd := (hx.1 { v := .load i c, integer := false, lb := 0, ub := some 1 } (List.mem_append_left _ (List.mem_append_right _ (by
          unfold loadVars
          exact List.mem_flatMap.2 ⟨c, List.mem_range.2 hc'.1, List.mem_map.2 ⟨i, List.mem_range.2 i.2, rfl⟩⟩)))).2.1 1 rfl
        have := (weight_pos hp i).le
        dsimp only at hd
        nlinarith
      · simp
    have := hsmall c hc'.1
    linarith
  unfold ilpMinimaxphragmen
  rw [if_neg (by omega)]
  unfold optimizeRule optLoop
  simp only [hinf, List.length_nil, if_true, bind, Except.bind]

/-- Non-vacuity of `C67_compute_minimaxphragmen`. -/
example : ∃ solve : String → Program → SolveResult, (∀ alg, ExactSolver (solve alg)) ∧
    Answers { committeesize := 2, algorithm := "mip-cbc", resolute := false }
      (computeMinimaxphragmen ⟨["mip-cbc"], fun _ => none, fun _ => none⟩ solve ⟨3, [⟨[0, 1], 1⟩, ⟨[1, 2], 2⟩, ⟨[0], 1⟩], []⟩
        { committeesize := 2, algorithm := "mip-cbc", resolute := false })
      (MinimaxPhragmenOpt 0 ⟨3, [⟨[0, 1], 1⟩, ⟨[1, 2], 2⟩, ⟨[0], 1⟩], []⟩ 2) := by
  obtain ⟨solve, hs⟩ := exists_exactSolver
  refine ⟨fun _ => solve, fun _ => hs, ?_⟩
  refine C67_compute_minimaxphragmen _ (fun _ => solve) _ ⟨by decide, by decide, by decide, by decide +kernel⟩ ?_ ?_ _ "mip-cbc"
    (by decide +kernel) hs ?_
  · intro v hv
    simp only [List.mem_cons, List.not_mem_nil, or_false] at hv
    rcases hv with rfl | rfl | rfl
    · exact ⟨1, by norm_num⟩
    · exact ⟨2, by norm_num⟩
    · exact ⟨1, by norm_num⟩
  · decide +kernel
  · rw [approvedSet_card]; decide +kernel

/-- Non-vacuity of `C67_small_weights_error`: one voter of weight 1/2; the only committee has a load distribution with maximal load 2. -/
example : LoadWithin ⟨1, [⟨[0], 1 / 2⟩], []⟩ {0} 2 ∧ wt ⟨1, [⟨[0], 1 / 2⟩], []⟩ (backers ⟨1, [⟨[0], 1 / 2⟩], []⟩ 0) < 1 := by
  refine ⟨⟨fun _ c => if c = 0 then 2 else 0, ⟨fun i c => by split <;> norm_num, fun i c h => ?_, fun c hc => ?_⟩, fun i => ?_⟩, ?_⟩
  · have : c = 0 := by by_contra hne; exact h (by simp [hne])
    subst this
    exact ⟨by rw [Fin.eq_zero i]; decide, by simp⟩
  · simp only [Finset.mem_singleton] at hc
    subst hc
    simp
  · simp
  · decide +kernel

end Abc
