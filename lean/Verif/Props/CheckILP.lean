import Verif.Model.CheckILP
import Verif.Lemmas.Optimum
import Verif.Props.Checkers
import Verif.Props.ILPPhragmen
import Verif.Props.ILPMonroe

/-!
# C60: the integer programs of the checks decide the axioms
-/

namespace Abc

open Spec

/-- The set of voters described by a solution. -/
noncomputable def solGroup (p : Profile) (x : IVar → ℚ) : Group p := by
  classical exact Finset.univ.filter (fun i : Fin p.voters.length => x (.inSet i) = 1)

theorem mem_solGroup {p : Profile} {x : IVar → ℚ} {i : Fin p.voters.length} : i ∈ solGroup p x ↔ x (.inSet i) = 1 := by
  simp [solGroup]

theorem mem_solCommittee {p : Profile} {x : IVar → ℚ} {c : ℕ} : c ∈ solCommittee p x ↔ c < p.numCand ∧ x (.cand c) = 1 := by
  simp [solCommittee]

theorem feas_inSet {P : Program} {p : Profile} {x : IVar → ℚ} (hx : Feasible P x) (hv : ∀ d ∈ inSetVars p, d ∈ P.vars) :
    ∀ i : Fin p.voters.length, x (.inSet i) = 0 ∨ x (.inSet i) = 1 := fun i =>
  inBounds_binary.1 (hx.1 _ (hv _ (List.mem_map.2 ⟨i, List.mem_range.2 i.2, rfl⟩)))

theorem setWeight_eval {p : Profile} {x : IVar → ℚ} (hb : ∀ i : Fin p.voters.length, x (.inSet i) = 0 ∨ x (.inSet i) = 1) :
    (setWeight p).eval x = wt p (solGroup p x) := by
  classical
  unfold setWeight wt solGroup
  rw [LinExp.eval_sum, List.map_map, sum_zipIdx_rat, Finset.sum_filter]
  refine Finset.sum_congr rfl fun i _ => ?_
  simp only [Function.comp, LinExp.eval_scale, LinExp.eval_var]
  rcases hb i with h | h <;> simp [h]

theorem sum_range_fin (n : ℕ) (g : ℕ → ℚ) : ((List.range n).map g).sum = ∑ i : Fin n, g i := by
  rw [sum_range_map, Finset.sum_range]

theorem setCount_eval {p : Profile} {x : IVar → ℚ} (hb : ∀ i : Fin p.voters.length, x (.inSet i) = 0 ∨ x (.inSet i) = 1) :
    (setCount p).eval x = ((solGroup p x).card : ℚ) := by
  classical
  unfold setCount solGroup
  rw [LinExp.eval_sum, List.map_map, sum_range_fin, ← Finset.sum_boole]
  refine Finset.sum_congr rfl fun i _ => ?_
  simp only [Function.comp, LinExp.eval_var]
  rcases hb i with h | h <;> simp [h]

theorem approvedInSet_eval {p : Profile} {x : IVar → ℚ} (hb : ∀ c < p.numCand, x (.cand c) = 0 ∨ x (.cand c) = 1)
    (hp : p.WF) (i : Fin p.voters.length) :
    (approvedInSet p (p.voters.get i)).eval x = ((appr p i ∩ solCommittee p x).card : ℚ) := by
  classical
  unfold approvedInSet Profile.candidates
  rw [LinExp.eval_sum, List.map_map, sum_range_map]
  have : appr p i ∩ solCommittee p x = (Finset.range p.numCand).filter (fun c => c ∈ appr p i ∧ x (.cand c) = 1) := by
    ext c
    simp only [Finset.mem_inter, mem_solCommittee, Finset.mem_filter, Finset.mem_range]
    tauto
  rw [this, ← Finset.sum_boole]
  refine Finset.sum_congr rfl fun c hc => ?_
  simp only [Function.comp, LinExp.eval_scale, LinExp.eval_var, mem_appr]
  rcases hb c (Finset.mem_range.1 hc) with h | h <;> simp [h]

theorem grp_chosenVoters {p : Profile} {x : IVar → ℚ} (hb : ∀ i : Fin p.voters.length, x (.inSet i) = 0 ∨ x (.inSet i) = 1) :
    grp p (chosenVoters p x) = solGroup p x := by
  ext i
  rw [mem_grp, mem_solGroup]
  unfold chosenVoters
  rcases hb i with h | h <;> norm_num [h]

theorem chosenCands_toFinset {p : Profile} {x : IVar → ℚ} (hb : ∀ c < p.numCand, x (.cand c) = 0 ∨ x (.cand c) = 1) :
    (chosenCands p x).toFinset = solCommittee p x := by
  ext c
  rw [mem_solCommittee, List.mem_toFinset]
  unfold chosenCands Profile.candidates
  rw [List.mem_filter, List.mem_range, decide_eq_true_iff]
  refine and_congr_right fun hc => ?_
  rcases hb c hc with h | h <;> norm_num [h]

theorem chosenCands_nodup (p : Profile) (x : IVar → ℚ) : (chosenCands p x).Nodup := List.nodup_range.filter _

/-- Values describing a set of voters `G`, a set of candidates `T`, a number `n` and a set `U`. -/
noncomputable def groupSolution (p : Profile) (G : Group p) (T : Finset ℕ) (n : ℕ) (U : Finset ℕ) : IVar → ℚ := by
  classical exact fun
    | .inSet i => if ∃ j ∈ G, (j : ℕ) = i then 1 else 0
    | .cand c => if c ∈ T then 1 else 0
    | .size => n
    | .inUnion c => if c ∈ U then 1 else 0
    | _ => 0

section groupSolution
variable {p : Profile} {G : Group p} {T : Finset ℕ} {n : ℕ} {U : Finset ℕ}

theorem groupSolution_inSet (i : Fin p.voters.length) [Decidable (i ∈ G)] :
    groupSolution p G T n U (.inSet i) = if i ∈ G then 1 else 0 := by
  classical
  unfold groupSolution
  have : (∃ j ∈ G, (j : ℕ) = i) ↔ i ∈ G := ⟨fun ⟨j, hj, e⟩ => Fin.ext e ▸ hj, fun h => ⟨i, h, rfl⟩⟩
  simp [this]

theorem groupSolution_cand (c : ℕ) : groupSolution p G T n U (.cand c) = if c ∈ T then 1 else 0 := by
  classical
  simp [groupSolution]

theorem groupSolution_inUnion (c : ℕ) : groupSolution p G T n U (.inUnion c) = if c ∈ U then 1 else 0 := by
  classical
  simp [groupSolution]

theorem groupSolution_size : groupSolution p G T n U .size = n := rfl

theorem groupSolution_inSet_binary (i : Fin p.voters.length) :
    groupSolution p G T n U (.inSet i) = 0 ∨ groupSolution p G T n U (.inSet i) = 1 := by
  classical
  rw [groupSolution_inSet]
  split <;> simp

theorem groupSolution_cand_binary (c : ℕ) :
    groupSolution p G T n U (.cand c) = 0 ∨ groupSolution p G T n U (.cand c) = 1 := by
  rw [groupSolution_cand]
  split <;> simp

theorem groupSolution_inUnion_binary (c : ℕ) :
    groupSolution p G T n U (.inUnion c) = 0 ∨ groupSolution p G T n U (.inUnion c) = 1 := by
  rw [groupSolution_inUnion]
  split <;> simp

theorem groupSolution_group : solGroup p (groupSolution p G T n U) = G := by
  classical
  ext i
  rw [mem_solGroup, groupSolution_inSet]
  split <;> simp_all

theorem groupSolution_committee (hT : T ⊆ Finset.range p.numCand) : solCommittee p (groupSolution p G T n U) = T := by
  ext c
  rw [mem_solCommittee, groupSolution_cand]
  constructor
  · rintro ⟨-, h⟩
    by_contra hc
    simp [hc] at h
  · intro h
    exact ⟨Finset.mem_range.1 (hT h), by simp [h]⟩

theorem groupSolution_vars : (∀ d ∈ inSetVars p, InBounds (groupSolution p G T n U) d) ∧
    (∀ d ∈ candVars p, InBounds (groupSolution p G T n U) d) ∧
    ∀ d ∈ p.candidates.map (fun c => binaryVar (.inUnion c)), InBounds (groupSolution p G T n U) d := by
  refine ⟨fun d hd => ?_, fun d hd => ?_, fun d hd => ?_⟩
  · obtain ⟨i, hi, rfl⟩ := List.mem_map.1 hd
    exact inBounds_binary.2 (groupSolution_inSet_binary ⟨i, List.mem_range.1 hi⟩)
  · obtain ⟨c, -, rfl⟩ := List.mem_map.1 hd
    exact inBounds_binary.2 (groupSolution_cand_binary c)
  · obtain ⟨c, -, rfl⟩ := List.mem_map.1 hd
    exact inBounds_binary.2 (groupSolution_inUnion_binary c)

end groupSolution

/-- With a program without objective, an exact solver decides feasibility. -/
theorem solve_feasibility {solve : Program → SolveResult} (hs : ExactSolver solve) {P : Program} (ho : P.obj = .num 0) :
    (∃ x, solve P = .optimal x ∧ Feasible P x) ∨ (solve P = .infeasible ∧ ¬ ∃ x, Feasible P x) := by
  by_cases h : ∃ x, Feasible P x
  · obtain ⟨x, hx⟩ := h
    obtain ⟨y, hy, hy'⟩ := (hs P).1 ⟨x, hx, fun z _ => by rw [ho]; simp⟩
    exact Or.inl ⟨y, hy, hy'.1⟩
  · exact Or.inr ⟨(hs P).2 h, h⟩

/-- The check reports a violation iff the program is feasible. -/
theorem solveCheck_spec {ω : Type} {solve : Program → SolveResult} (hs : ExactSolver solve) {P : Program} (ho : P.obj = .num 0)
    (info : (IVar → ℚ) → ω) :
    ∃ r, solveCheck solve P info = .ok r ∧ (r = none ↔ ¬ ∃ x, Feasible P x) ∧ ∀ w, r = some w → ∃ x, Feasible P x ∧ w = info x := by
  unfold solveCheck
  rcases solve_feasibility hs ho with ⟨x, e, hx⟩ | ⟨e, hx⟩
  · rw [e]
    exact ⟨_, rfl, by simpa using ⟨x, hx⟩, fun w hw => ⟨x, hx, (Option.some.inj hw).symm⟩⟩
  · rw [e]
    exact ⟨_, rfl, by simpa using hx, fun w hw => by simp at hw⟩

/-! ## EJR and PJR -/

/-- The size of the group and the joint candidates described by a feasible solution. -/
theorem cohesive_of_feasible {P : Program} {p : Profile} {q : ℚ} {b : ℕ} {x : IVar → ℚ} (hx : Feasible P x)
    (hv1 : ellVar ∈ P.vars) (hv2 : ∀ d ∈ inSetVars p, d ∈ P.vars) (hv3 : ∀ d ∈ candVars p, d ∈ P.vars)
    (hc1 : ∀ c ∈ cohesiveConstrs p b q, c ∈ P.constrs) (hc2 : ∀ c ∈ cutConstrs p, c ∈ P.constrs) :
    ∃ l : ℕ, x .size = l ∧ Cohesive p q l (solGroup p x) (solCommittee p x) := by
  have hb := feas_inSet hx hv2
  have hb' := feas_cand hx hv3
  obtain ⟨h0, -, h2⟩ := hx.1 _ hv1
  obtain ⟨z, hz⟩ := h2 rfl
  change x .size = (z : ℚ) at hz
  change (0 : ℚ) ≤ x .size at h0
  rw [hz] at h0
  have hz0 : 0 ≤ z := by exact_mod_cast h0
  lift z to ℕ using hz0 with l
  have hl : x .size = (l : ℚ) := by rw [hz]; norm_cast
  have e1 := holds_plain.1 (hx.2 _ (hc1 _ (List.mem_cons_self)))
  have e2 := holds_plain.1 (hx.2 _ (hc1 _ (List.mem_cons_of_mem _ (List.mem_cons_of_mem _ List.mem_cons_self))))
  have e3 := holds_plain.1 (hx.2 _ (hc2 _ (List.mem_cons_self)))
  simp only [RelHolds, LinExp.eval_var, LinExp.eval_num, LinExp.eval_scale, setWeight_eval hb, sum_range_cand hb', hl] at e1 e2 e3
  refine ⟨l, hl, by exact_mod_cast e1, by linarith, by exact_mod_cast e3, fun i hi c hc => ?_⟩
  by_contra hno
  obtain ⟨hlt, hc1'⟩ := mem_solCommittee.1 hc
  have := holds_plain.1 (hx.2 _ (hc2 _ (List.mem_cons_of_mem _ (List.mem_flatMap.2 ⟨_, mem_zipIdx_get p i,
    List.mem_map.2 ⟨c, List.mem_filter.2 ⟨List.mem_range.2 hlt, by
      rw [decide_eq_true_iff]; exact fun h => hno (mem_appr.2 h)⟩, rfl⟩⟩))))
  simp only [RelHolds, LinExp.eval_var, LinExp.eval_num, LinExp.eval_sub, hc1', mem_solGroup.1 hi] at this
  linarith

/-- A cohesive group gives values satisfying these constraints. -/
theorem feasible_of_cohesive {p : Profile} {q : ℚ} {b l : ℕ} {G : Group p} {T U : Finset ℕ} (hco : Cohesive p q l G T)
    (hT : T ⊆ Finset.range p.numCand) (hl : l ≤ b) :
    InBounds (groupSolution p G T l U) ellVar ∧
    (∀ c ∈ cohesiveConstrs p b q, Holds (groupSolution p G T l U) c) ∧ ∀ c ∈ cutConstrs p, Holds (groupSolution p G T l U) c := by
  obtain ⟨h1, h2, h3, h4⟩ := hco
  refine ⟨⟨?_, by simp [ellVar], fun _ => ⟨l, ?_⟩⟩, fun c hc => ?_, fun c hc => ?_⟩
  · change (0 : ℚ) ≤ groupSolution p G T l U .size
    rw [groupSolution_size]
    positivity
  · change groupSolution p G T l U .size = _
    rw [groupSolution_size]
    norm_cast
  · unfold cohesiveConstrs at hc
    simp only [List.mem_cons, List.not_mem_nil, or_false] at hc
    rcases hc with rfl | rfl | rfl <;> rw [holds_plain] <;>
      simp only [RelHolds, LinExp.eval_var, LinExp.eval_num, LinExp.eval_scale, setWeight_eval groupSolution_inSet_binary,
        groupSolution_group, groupSolution_size]
    · exact_mod_cast h1
    · exact_mod_cast hl
    · linarith
  · unfold cutConstrs at hc
    rcases List.mem_cons.1 hc with rfl | hc
    · rw [holds_plain]
      simp only [RelHolds, LinExp.eval_var, sum_range_cand (fun c _ => groupSolution_cand_binary c), groupSolution_committee hT,
        groupSolution_size]
      exact_mod_cast h3
    · obtain ⟨vi, hvi, hc⟩ := List.mem_flatMap.1 hc
      obtain ⟨i, rfl⟩ := zipIdx_get hvi
      obtain ⟨d, hd, rfl⟩ := List.mem_map.1 hc
      have hd' : d ∉ appr p i := by
        have := (List.mem_filter.1 hd).2
        rw [decide_eq_true_iff] at this
        exact fun h => this (mem_appr.1 h)
      classical
      rw [holds_plain]
      simp only [RelHolds, LinExp.eval_var, LinExp.eval_num, LinExp.eval_sub, groupSolution_cand, groupSolution_inSet]
      by_cases hi : i ∈ G
      · have : d ∉ T := fun h => hd' (h4 i hi h)
        simp [hi, this]
      · simp only [hi, if_false]
        split <;> norm_num

theorem round_nat (l : ℕ) : (⌊(l : ℚ) + 1 / 2⌋).toNat = l := by
  have : ⌊(l : ℚ) + 1 / 2⌋ = (l : ℤ) := by
    rw [Int.floor_eq_iff]
    constructor <;> push_cast <;> linarith
  rw [this]
  simp

theorem cohesive_subset {p : Profile} (hp : p.WF) {q : ℚ} (hq : 0 < q) {l : ℕ} {G : Group p} {T : Finset ℕ} (h : Cohesive p q l G T) :
    T ⊆ Finset.range p.numCand := by
  obtain ⟨h1, h2, -, h4⟩ := h
  have : (0 : ℚ) < l * q := mul_pos (by exact_mod_cast h1) hq
  obtain ⟨i, hi⟩ := nonempty_of_wt this h2
  exact fun c hc => Finset.mem_range.2 (appr_lt hp (h4 i hi hc))

/-- A larger quota makes it harder to be cohesive. -/
theorem cohesive_mono {p : Profile} {q hi : ℚ} (h : q ≤ hi) {l : ℕ} {G : Group p} {T : Finset ℕ} (hco : Cohesive p hi l G T) :
    Cohesive p q l G T :=
  ⟨hco.1, (mul_le_mul_of_nonneg_left h (by positivity)).trans hco.2.1, hco.2.2⟩

theorem cohesive_le_numCand {p : Profile} (hp : p.WF) {q : ℚ} (hq : 0 < q) {l : ℕ} {G : Group p} {T : Finset ℕ} (h : Cohesive p q l G T) :
    l ≤ p.numCand :=
  h.2.2.1.trans ((Finset.card_le_card (cohesive_subset hp hq h)).trans (by simp))

/-- The Gurobi check of EJR with a bound `b` on `ell`. -/
theorem ejr_program_bound {solve : Program → SolveResult} (hs : ExactSolver solve) (p : Profile) (hp : p.WF) (W : List ℕ) (q : ℚ)
    (hq : 0 < q) (b : ℕ) (hi : ℚ) (hqi : q ≤ hi)
    (hbl : ∀ l : ℕ, l ≤ p.numCand → (l : ℚ) * hi ≤ total p → l ≤ b) :
    ∃ r, solveCheck solve (ejrProgram p W q b) (cohesiveInfo p) = .ok r ∧ (r = none → EJR p W.toFinset hi) ∧ (EJR p W.toFinset q → r = none) ∧
      ∀ w, r = some w → Cohesive p q w.ell (grp p w.group) w.joint.toFinset ∧ ∀ i ∈ grp p w.group, sat p W.toFinset i < w.ell := by
  have hsound : ∀ x, Feasible (ejrProgram p W q b) x → ∃ l : ℕ, x .size = l ∧ Cohesive p q l (solGroup p x) (solCommittee p x) ∧
      ∀ i ∈ solGroup p x, sat p W.toFinset i < l := by
    intro x hx
    obtain ⟨l, hl, hco⟩ := cohesive_of_feasible (b := b) (q := q) (p := p) hx List.mem_cons_self
      (fun d hd => List.mem_cons_of_mem _ (List.mem_append_left _ hd)) (fun d hd => List.mem_cons_of_mem _ (List.mem_append_right _ hd))
      (fun c hc => List.mem_append_left _ (List.mem_append_left _ hc)) (fun c hc => List.mem_append_right _ hc)
    refine ⟨l, hl, hco, fun i hi => ?_⟩
    have := holds_guard.1 (hx.2 _ (List.mem_append_left _ (List.mem_append_right _ (List.mem_map.2 ⟨_, mem_zipIdx_get p i, rfl⟩))))
      (mem_solGroup.1 hi)
    simp only [RelHolds, LinExp.eval_num, LinExp.eval_var, hl, sat_eq hp] at this
    exact_mod_cast this
  have hcompl : ∀ l G T, Cohesive p hi l G T → (∀ i ∈ G, sat p W.toFinset i < l) → ∃ x, Feasible (ejrProgram p W q b) x := by
    intro l G T hco hbad
    have hT := cohesive_subset hp (hq.trans_le hqi) hco
    obtain ⟨f1, f2, f3⟩ := feasible_of_cohesive (U := ∅) (cohesive_mono hqi hco) hT (hbl l (cohesive_le_numCand hp (hq.trans_le hqi) hco) (hco.2.1.trans (wt_le_total hp G)))
    obtain ⟨v1, v2, -⟩ := groupSolution_vars (p := p) (G := G) (T := T) (n := l) (U := ∅)
    refine ⟨groupSolution p G T l ∅, fun d hd => ?_, fun c hc => ?_⟩
    · rcases List.mem_cons.1 hd with rfl | hd
      · exact f1
      · rcases List.mem_append.1 hd with hd | hd
        · exact v1 d hd
        · exact v2 d hd
    · rcases List.mem_append.1 hc with hc | hc
      · rcases List.mem_append.1 hc with hc | hc
        · exact f2 c hc
        · obtain ⟨vi, hvi, rfl⟩ := List.mem_map.1 hc
          obtain ⟨i, rfl⟩ := zipIdx_get hvi
          rw [holds_guard]
          intro hi
          have hiG : i ∈ G := by rw [← mem_solGroup, groupSolution_group] at hi; exact hi
          simp only [RelHolds, LinExp.eval_num, LinExp.eval_var, groupSolution_size, sat_eq hp]
          exact_mod_cast hbad i hiG
      · exact f3 c hc
  obtain ⟨r, h1, h2, h3⟩ := solveCheck_spec hs (P := ejrProgram p W q b) rfl (cohesiveInfo p)
  refine ⟨r, h1, fun hr l G T hco => ?_, fun h => h2.2 ?_, fun w hw => ?_⟩
  · by_contra hno
    push Not at hno
    exact h2.1 hr (hcompl l G T hco hno)
  · rintro ⟨x, hx⟩
    obtain ⟨l, -, hco, hbad⟩ := hsound x hx
    obtain ⟨i, hi, hle⟩ := h l _ _ hco
    exact absurd (hbad i hi) (by omega)
  · obtain ⟨x, hx, rfl⟩ := h3 w hw
    obtain ⟨l, hl, hco, hbad⟩ := hsound x hx
    have hbi := feas_inSet (p := p) hx (fun d hd => List.mem_cons_of_mem _ (List.mem_append_left _ hd))
    have hbc := feas_cand (p := p) hx (fun d hd => List.mem_cons_of_mem _ (List.mem_append_right _ hd))
    simp only [cohesiveInfo, hl, round_nat, grp_chosenVoters hbi, chosenCands_toFinset hbc]
    exact ⟨hco, hbad⟩

/-- **C60** The Gurobi check of EJR: for all weights it reports no violation iff the committee satisfies EJR, and a reported violation
is a cohesive group violating EJR. -/
theorem C60_EJR_program {solve : Program → SolveResult} (hs : ExactSolver solve) (p : Profile) (hp : p.WF) (W : List ℕ) (q : ℚ)
    (hq : 0 < q) : ∃ r, checkEJRGurobi solve p W q = .ok r ∧ (r = none ↔ EJR p W.toFinset q) ∧
      ∀ w, r = some w → Cohesive p q w.ell (grp p w.group) w.joint.toFinset ∧ ∀ i ∈ grp p w.group, sat p W.toFinset i < w.ell := by
  obtain ⟨b, hb, hbl⟩ := ellUpperBound_spec p hp q hq
  obtain ⟨r, h1, h2, h3, h4⟩ := ejr_program_bound hs p hp W q hq b q le_rfl (fun l _ h => (hbl l).2 h)
  exact ⟨r, by unfold checkEJRGurobi; rw [hb]; exact h1, ⟨h2, h3⟩, h4⟩

/-- The Gurobi check of PJR with a bound `b` on `ell`. -/
theorem pjr_program_bound {solve : Program → SolveResult} (hs : ExactSolver solve) (p : Profile) (hp : p.WF) (W : List ℕ)
    (hW : W.Nodup) (hlt : ∀ c ∈ W, c < p.numCand) (q : ℚ)
    (hq : 0 < q) (b : ℕ) (hi : ℚ) (hqi : q ≤ hi)
    (hbl : ∀ l : ℕ, l ≤ p.numCand → (l : ℚ) * hi ≤ total p → l ≤ b) :
    ∃ r, solveCheck solve (pjrProgram p W q b) (cohesiveInfo p) = .ok r ∧ (r = none → PJR p W.toFinset hi) ∧ (PJR p W.toFinset q → r = none) ∧
      ∀ w, r = some w → Cohesive p q w.ell (grp p w.group) w.joint.toFinset ∧
        ((grp p w.group).biUnion (appr p) ∩ W.toFinset).card < w.ell := by
  classical
  have hun : ∀ (x : IVar → ℚ), (LinExp.sum (W.map (fun c => LinExp.var (.inUnion c)))).eval x = ∑ c ∈ W.toFinset, x (.inUnion c) := by
    intro x
    rw [LinExp.eval_sum, List.map_map, List.sum_toFinset _ hW]
    congr 1
    exact List.map_congr_left fun c _ => LinExp.eval_var x _
  have hsound : ∀ x, Feasible (pjrProgram p W q b) x → ∃ l : ℕ, x .size = l ∧ Cohesive p q l (solGroup p x) (solCommittee p x) ∧
      ((solGroup p x).biUnion (appr p) ∩ W.toFinset).card < l := by
    intro x hx
    obtain ⟨l, hl, hco⟩ := cohesive_of_feasible (b := b) (q := q) (p := p) hx List.mem_cons_self
      (fun d hd => List.mem_cons_of_mem _ (List.mem_append_left _ (List.mem_append_left _ hd)))
      (fun d hd => List.mem_cons_of_mem _ (List.mem_append_left _ (List.mem_append_right _ hd)))
      (fun c hc => List.mem_append_left _ (List.mem_append_left _ (List.mem_append_left _ hc)))
      (fun c hc => List.mem_append_left _ (List.mem_append_left _ (List.mem_append_right _ hc)))
    refine ⟨l, hl, hco, ?_⟩
    have hU : ∀ c < p.numCand, x (.inUnion c) = 0 ∨ x (.inUnion c) = 1 := fun c hc =>
      inBounds_binary.1 (hx.1 _ (List.mem_cons_of_mem _ (List.mem_append_right _ (List.mem_map.2 ⟨c, List.mem_range.2 hc, rfl⟩))))
    have hlast := holds_plain.1 (hx.2 _ (List.mem_append_right _ List.mem_cons_self))
    simp only [RelHolds, LinExp.eval_add, LinExp.eval_num, LinExp.eval_var, hl, hun] at hlast
    have hle : (((solGroup p x).biUnion (appr p) ∩ W.toFinset).card : ℚ) ≤ ∑ c ∈ W.toFinset, x (.inUnion c) := by
      rw [Finset.inter_comm, ← Finset.filter_mem_eq_inter, ← Finset.sum_boole]
      refine Finset.sum_le_sum fun c hc => ?_
      have hc' := hlt c (List.mem_toFinset.1 hc)
      split
      · rename_i h
        obtain ⟨i, hi, hci⟩ := Finset.mem_biUnion.1 h
        have := holds_plain.1 (hx.2 _ (List.mem_append_left _ (List.mem_append_right _ (List.mem_flatMap.2 ⟨_, mem_zipIdx_get p i,
          List.mem_map.2 ⟨c, mem_appr.1 hci, rfl⟩⟩))))
        simp only [RelHolds, LinExp.eval_var, mem_solGroup.1 hi] at this
        exact this
      · rcases hU c hc' with h | h <;> rw [h]
        norm_num
    have : (((solGroup p x).biUnion (appr p) ∩ W.toFinset).card : ℚ) + 1 ≤ l := by linarith
    exact_mod_cast this
  have hcompl : ∀ l G T, Cohesive p hi l G T → (G.biUnion (appr p) ∩ W.toFinset).card < l → ∃ x, Feasible (pjrProgram p W q b) x := by
    intro l G T hco hbad
    have hT := cohesive_subset hp (hq.trans_le hqi) hco
    obtain ⟨f1, f2, f3⟩ := feasible_of_cohesive (U := G.biUnion (appr p)) (cohesive_mono hqi hco) hT (hbl l (cohesive_le_numCand hp (hq.trans_le hqi) hco) (hco.2.1.trans (wt_le_total hp G)))
    obtain ⟨v1, v2, v3⟩ := groupSolution_vars (p := p) (G := G) (T := T) (n := l) (U := G.biUnion (appr p))
    refine ⟨groupSolution p G T l (G.biUnion (appr p)), fun d hd => ?_, fun c hc => ?_⟩
    · rcases List.mem_cons.1 hd with rfl | hd
      · exact f1
      · rcases List.mem_append.1 hd with hd | hd
        · rcases List.mem_append.1 hd with hd | hd
          · exact v1 d hd
          · exact v2 d hd
        · exact v3 d hd
    · rcases List.mem_append.1 hc with hc | hc
      · rcases List.mem_append.1 hc with hc | hc
        · rcases List.mem_append.1 hc with hc | hc
          · exact f2 c hc
          · exact f3 c hc
        · obtain ⟨vi, hvi, hc⟩ := List.mem_flatMap.1 hc
          obtain ⟨i, rfl⟩ := zipIdx_get hvi
          obtain ⟨d, hd, rfl⟩ := List.mem_map.1 hc
          rw [holds_plain]
          simp only [RelHolds, LinExp.eval_var, groupSolution_inUnion, groupSolution_inSet]
          by_cases hi : i ∈ G
          · have : d ∈ G.biUnion (appr p) := Finset.mem_biUnion.2 ⟨i, hi, mem_appr.2 hd⟩
            simp only [this, hi, if_true]
            exact le_rfl
          · simp only [hi, if_false]
            split <;> norm_num
      · simp only [List.mem_singleton] at hc
        subst hc
        rw [holds_plain]
        simp only [RelHolds, LinExp.eval_add, LinExp.eval_num, LinExp.eval_var, hun, groupSolution_size, groupSolution_inUnion]
        rw [Finset.sum_boole, Finset.filter_mem_eq_inter, Finset.inter_comm]
        exact_mod_cast hbad
  obtain ⟨r, h1, h2, h3⟩ := solveCheck_spec hs (P := pjrProgram p W q b) rfl (cohesiveInfo p)
  refine ⟨r, h1, fun hr l G T hco => ?_, fun h => h2.2 ?_, fun w hw => ?_⟩
  · by_contra hno
    push Not at hno
    exact h2.1 hr (hcompl l G T hco hno)
  · rintro ⟨x, hx⟩
    obtain ⟨l, -, hco, hbad⟩ := hsound x hx
    have := h l _ _ hco
    omega
  · obtain ⟨x, hx, rfl⟩ := h3 w hw
    obtain ⟨l, hl, hco, hbad⟩ := hsound x hx
    have hbi := feas_inSet (p := p) hx (fun d hd => List.mem_cons_of_mem _ (List.mem_append_left _ (List.mem_append_left _ hd)))
    have hbc := feas_cand (p := p) hx (fun d hd => List.mem_cons_of_mem _ (List.mem_append_left _ (List.mem_append_right _ hd)))
    simp only [cohesiveInfo, hl, round_nat, grp_chosenVoters hbi, chosenCands_toFinset hbc]
    exact ⟨hco, hbad⟩

/-- **C60** The Gurobi check of PJR. -/
theorem C60_PJR_program {solve : Program → SolveResult} (hs : ExactSolver solve) (p : Profile) (hp : p.WF) (W : List ℕ)
    (hW : W.Nodup) (hlt : ∀ c ∈ W, c < p.numCand) (q : ℚ)
    (hq : 0 < q) : ∃ r, checkPJRGurobi solve p W q = .ok r ∧ (r = none ↔ PJR p W.toFinset q) ∧
      ∀ w, r = some w → Cohesive p q w.ell (grp p w.group) w.joint.toFinset ∧
        ((grp p w.group).biUnion (appr p) ∩ W.toFinset).card < w.ell := by
  obtain ⟨b, hb, hbl⟩ := ellUpperBound_spec p hp q hq
  obtain ⟨r, h1, h2, h3, h4⟩ := pjr_program_bound hs p hp W hW hlt q hq b q le_rfl (fun l _ h => (hbl l).2 h)
  exact ⟨r, by unfold checkPJRGurobi; rw [hb]; exact h1, ⟨h2, h3⟩, h4⟩

/-! ## FJR and the core -/

/-- The constraints common to FJR and the core. -/
theorem afford_of_feasible {P : Program} {p : Profile} {q : ℚ} {x : IVar → ℚ} (hx : Feasible P x)
    (hv2 : ∀ d ∈ inSetVars p, d ∈ P.vars) (hv3 : ∀ d ∈ candVars p, d ∈ P.vars) (hc : ∀ c ∈ affordConstrs p q, c ∈ P.constrs) :
    ((solCommittee p x).card : ℚ) * q ≤ wt p (solGroup p x) ∧ (solGroup p x).Nonempty := by
  have hb := feas_inSet hx hv2
  have hb' := feas_cand hx hv3
  have e1 := holds_plain.1 (hx.2 _ (hc _ (List.mem_cons_self)))
  have e2 := holds_plain.1 (hx.2 _ (hc _ (List.mem_cons_of_mem _ List.mem_cons_self)))
  simp only [RelHolds, LinExp.eval_scale, LinExp.eval_num, setWeight_eval hb, sum_range_cand hb', setCount_eval hb] at e1 e2
  exact ⟨by linarith, Finset.card_pos.1 (by exact_mod_cast e2)⟩

theorem feasible_of_afford {p : Profile} {q : ℚ} {n : ℕ} {G : Group p} {T U : Finset ℕ} (hT : T ⊆ Finset.range p.numCand)
    (h : (T.card : ℚ) * q ≤ wt p G) (hG : G.Nonempty) : ∀ c ∈ affordConstrs p q, Holds (groupSolution p G T n U) c := by
  intro c hc
  unfold affordConstrs at hc
  simp only [List.mem_cons, List.not_mem_nil, or_false] at hc
  rcases hc with rfl | rfl <;> rw [holds_plain] <;>
    simp only [RelHolds, LinExp.eval_num, LinExp.eval_scale, setWeight_eval groupSolution_inSet_binary,
      setCount_eval groupSolution_inSet_binary, sum_range_cand (fun c _ => groupSolution_cand_binary c), groupSolution_group,
      groupSolution_committee hT]
  · linarith
  · exact_mod_cast Finset.card_pos.2 hG

/-- Candidates outside the profile can be dropped. -/
theorem restrict_cands {p : Profile} (hp : p.WF) {q : ℚ} (hq : 0 < q) (G : Group p) (T : Finset ℕ) (h : (T.card : ℚ) * q ≤ wt p G) :
    T ∩ Finset.range p.numCand ⊆ Finset.range p.numCand ∧ ((T ∩ Finset.range p.numCand).card : ℚ) * q ≤ wt p G ∧
    ∀ i, appr p i ∩ (T ∩ Finset.range p.numCand) = appr p i ∩ T := by
  refine ⟨Finset.inter_subset_right, ?_, fun i => ?_⟩
  · have : ((T ∩ Finset.range p.numCand).card : ℚ) ≤ T.card := by exact_mod_cast Finset.card_le_card Finset.inter_subset_left
    nlinarith
  · ext c
    simp only [Finset.mem_inter, Finset.mem_range]
    exact ⟨fun h => ⟨h.1, h.2.1⟩, fun h => ⟨h.1, h.2, appr_lt hp h.1⟩⟩

/-- The Gurobi check of FJR with a bound `b` on the number of candidates. -/
theorem fjr_program_bound {solve : Program → SolveResult} (hs : ExactSolver solve) (p : Profile) (hp : p.WF) (W : List ℕ) (q : ℚ)
    (hq : 0 < q) (b : ℕ) (hi : ℚ) (hqi : q ≤ hi)
    (hbl : ∀ l : ℕ, l ≤ p.numCand → (l : ℚ) * hi ≤ total p → l ≤ b) :
    ∃ r, solveCheck solve (fjrProgram p W q b) (fun x => (⟨(⌊x .size + 1 / 2⌋).toNat, chosenCands p x, chosenVoters p x⟩ : FJRInfo)) = .ok r ∧
      (r = none → FJR p W.toFinset hi) ∧ (FJR p W.toFinset q → r = none) ∧
      ∀ w, r = some w → (grp p w.group).Nonempty ∧ 1 ≤ w.beta ∧ (w.joint.length : ℚ) * q ≤ wt p (grp p w.group) ∧
        ∀ i ∈ grp p w.group, w.beta ≤ (appr p i ∩ w.joint.toFinset).card ∧ sat p W.toFinset i < w.beta := by
  have hv2 : ∀ d ∈ inSetVars p, d ∈ (fjrProgram p W q b).vars := fun d hd => List.mem_append_left _ (List.mem_append_left _ hd)
  have hv3 : ∀ d ∈ candVars p, d ∈ (fjrProgram p W q b).vars := fun d hd => List.mem_append_left _ (List.mem_append_right _ hd)
  have hsound : ∀ x, Feasible (fjrProgram p W q b) x → ∃ l : ℕ, x .size = l ∧ (solGroup p x).Nonempty ∧ 1 ≤ l ∧
      ((solCommittee p x).card : ℚ) * q ≤ wt p (solGroup p x) ∧
      ∀ i ∈ solGroup p x, l ≤ (appr p i ∩ solCommittee p x).card ∧ sat p W.toFinset i < l := by
    intro x hx
    obtain ⟨ha, hne⟩ := afford_of_feasible (q := q) hx hv2 hv3
      (fun c hc => List.mem_append_left _ (List.mem_cons_of_mem _ hc))
    obtain ⟨h0, -, h2⟩ := hx.1 _ (List.mem_append_right _ List.mem_cons_self)
    obtain ⟨z, hz⟩ := h2 rfl
    change x .size = (z : ℚ) at hz
    change (1 : ℚ) ≤ x .size at h0
    rw [hz] at h0
    have hz0 : 1 ≤ z := by exact_mod_cast h0
    lift z to ℕ using (by omega) with l
    have hl : x .size = (l : ℚ) := by rw [hz]; norm_cast
    refine ⟨l, hl, hne, by omega, ha, fun i hi => ?_⟩
    have hi1 := mem_solGroup.1 hi
    have e1 := holds_plain.1 (hx.2 _ (List.mem_append_right _ (List.mem_flatMap.2 ⟨_, mem_zipIdx_get p i, List.mem_cons_self⟩)))
    have e2 := holds_plain.1 (hx.2 _ (List.mem_append_right _ (List.mem_flatMap.2 ⟨_, mem_zipIdx_get p i,
      List.mem_cons_of_mem _ List.mem_cons_self⟩)))
    simp only [RelHolds, LinExp.eval_num, LinExp.eval_var, LinExp.eval_scale, LinExp.eval_sub, hl, hi1, sat_eq hp,
      approvedInSet_eval (feas_cand hx hv3) hp] at e1 e2
    constructor
    · have : (l : ℚ) ≤ (appr p i ∩ solCommittee p x).card := by linarith
      exact_mod_cast this
    · have : (sat p W.toFinset i : ℚ) + 1 ≤ l := by linarith
      exact_mod_cast this
  have hcompl : ∀ (G : Group p) (T : Finset ℕ) (β : ℕ), G.Nonempty → 1 ≤ β → (T.card : ℚ) * hi ≤ wt p G →
      (∀ i ∈ G, β ≤ (appr p i ∩ T).card) → (∀ i ∈ G, sat p W.toFinset i < β) → ∃ x, Feasible (fjrProgram p W q b) x := by
    intro G T β hG hβ haff hin hbad
    obtain ⟨t1, t2, t3⟩ := restrict_cands hp (hq.trans_le hqi) G T haff
    generalize hT' : T ∩ Finset.range p.numCand = T' at t1 t2 t3
    have hin' : ∀ i ∈ G, β ≤ (appr p i ∩ T').card := fun i hi => by rw [t3]; exact hin i hi
    have hβT : β ≤ T'.card := by
      obtain ⟨i, hi⟩ := hG
      exact (hin' i hi).trans (Finset.card_le_card Finset.inter_subset_right)
    have hβb : β ≤ b := hβT.trans (hbl _ ((Finset.card_le_card t1).trans (by simp)) (t2.trans (wt_le_total hp G)))
    obtain ⟨v1, v2, -⟩ := groupSolution_vars (p := p) (G := G) (T := T') (n := β) (U := ∅)
    refine ⟨groupSolution p G T' β ∅, fun d hd => ?_, fun c hc => ?_⟩
    · rcases List.mem_append.1 hd with hd | hd
      · rcases List.mem_append.1 hd with hd | hd
        · exact v1 d hd
        · exact v2 d hd
      · simp only [List.mem_singleton] at hd
        subst hd
        refine ⟨?_, fun u hu => ?_, fun _ => ⟨β, ?_⟩⟩
        · change (1 : ℚ) ≤ groupSolution p G T' β ∅ .size
          rw [groupSolution_size]
          exact_mod_cast hβ
        · have : u = b := by simpa using hu.symm
          subst this
          change groupSolution p G T' β ∅ .size ≤ _
          rw [groupSolution_size]
          exact_mod_cast hβb
        · change groupSolution p G T' β ∅ .size = _
          rw [groupSolution_size]
          norm_cast
    · rcases List.mem_append.1 hc with hc | hc
      · rcases List.mem_cons.1 hc with rfl | hc
        · rw [holds_plain]
          simp only [RelHolds, LinExp.eval_var, sum_range_cand (fun c _ => groupSolution_cand_binary c), groupSolution_committee t1,
            groupSolution_size]
          exact_mod_cast hβT
        · exact feasible_of_afford t1 ((mul_le_mul_of_nonneg_left hqi (by positivity)).trans t2) hG c hc
      · obtain ⟨vi, hvi, hc⟩ := List.mem_flatMap.1 hc
        obtain ⟨i, rfl⟩ := zipIdx_get hvi
        classical
        have hβ' : (1 : ℚ) ≤ β := by exact_mod_cast hβ
        have hβb' : (β : ℚ) ≤ b := by exact_mod_cast hβb
        simp only [List.mem_cons, List.not_mem_nil, or_false] at hc
        rcases hc with rfl | rfl <;> rw [holds_plain] <;>
          simp only [RelHolds, LinExp.eval_num, LinExp.eval_var, LinExp.eval_scale, LinExp.eval_sub, groupSolution_size, sat_eq hp,
            approvedInSet_eval (fun c _ => groupSolution_cand_binary c) hp, groupSolution_committee t1, groupSolution_inSet]
        · split
          · rename_i hi
            have : (sat p W.toFinset i : ℚ) + 1 ≤ β := by exact_mod_cast hbad i hi
            linarith
          · linarith
        · split
          · rename_i hi
            have : (β : ℚ) ≤ (appr p i ∩ T').card := by exact_mod_cast hin' i hi
            linarith
          · have : (0 : ℚ) ≤ (appr p i ∩ T').card := by positivity
            linarith
  obtain ⟨r, h1, h2, h3⟩ := solveCheck_spec hs (P := fjrProgram p W q b) rfl
    (fun x => (⟨(⌊x .size + 1 / 2⌋).toNat, chosenCands p x, chosenVoters p x⟩ : FJRInfo))
  refine ⟨r, h1, fun hr G T β hG hβ ha hin => ?_, fun h => h2.2 ?_, fun w hw => ?_⟩
  · by_contra hno
    push Not at hno
    exact h2.1 hr (hcompl G T β hG hβ ha hin hno)
  · rintro ⟨x, hx⟩
    obtain ⟨l, -, hne, hl, ha, hin⟩ := hsound x hx
    obtain ⟨i, hi, hle⟩ := h _ _ l hne hl ha (fun i hi => (hin i hi).1)
    exact absurd (hin i hi).2 (by omega)
  · obtain ⟨x, hx, rfl⟩ := h3 w hw
    obtain ⟨l, hl, hne, hl1, ha, hin⟩ := hsound x hx
    have hbi := feas_inSet (p := p) hx hv2
    have hbc := feas_cand (p := p) hx hv3
    have hlen : (chosenCands p x).length = (solCommittee p x).card := by
      rw [← chosenCands_toFinset hbc, List.toFinset_card_of_nodup (chosenCands_nodup p x)]
    simp only [hl, round_nat, grp_chosenVoters hbi, chosenCands_toFinset hbc, hlen]
    exact ⟨hne, hl1, ha, hin⟩

/-- **C60** The Gurobi check of FJR. -/
theorem C60_FJR_program {solve : Program → SolveResult} (hs : ExactSolver solve) (p : Profile) (hp : p.WF) (W : List ℕ) (q : ℚ)
    (hq : 0 < q) : ∃ r, checkFJRGurobi solve p W q = .ok r ∧ (r = none ↔ FJR p W.toFinset q) ∧
      ∀ w, r = some w → (grp p w.group).Nonempty ∧ 1 ≤ w.beta ∧ (w.joint.length : ℚ) * q ≤ wt p (grp p w.group) ∧
        ∀ i ∈ grp p w.group, w.beta ≤ (appr p i ∩ w.joint.toFinset).card ∧ sat p W.toFinset i < w.beta := by
  obtain ⟨b, hb, hbl⟩ := ellUpperBound_spec p hp q hq
  obtain ⟨r, h1, h2, h3, h4⟩ := fjr_program_bound hs p hp W q hq b q le_rfl (fun l _ h => (hbl l).2 h)
  exact ⟨r, by unfold checkFJRGurobi; rw [hb]; exact h1, ⟨h2, h3⟩, h4⟩

/-- **C60** The Gurobi check of the core. -/
theorem C60_core_program {solve : Program → SolveResult} (hs : ExactSolver solve) (p : Profile) (hp : p.WF) (W : List ℕ) (q : ℚ)
    (hq : 0 < q) : ∃ r, checkCoreGurobi solve p W q = .ok r ∧ (r = none ↔ Core p W.toFinset q) ∧
      ∀ g o, r = some (g, o) → (grp p g).Nonempty ∧ (o.length : ℚ) * q ≤ wt p (grp p g) ∧
        ∀ i ∈ grp p g, sat p W.toFinset i < (appr p i ∩ o.toFinset).card := by
  have hv2 : ∀ d ∈ inSetVars p, d ∈ (coreProgram p W q).vars := fun d hd => List.mem_append_left _ hd
  have hv3 : ∀ d ∈ candVars p, d ∈ (coreProgram p W q).vars := fun d hd => List.mem_append_right _ hd
  have hsound : ∀ x, Feasible (coreProgram p W q) x → (solGroup p x).Nonempty ∧
      ((solCommittee p x).card : ℚ) * q ≤ wt p (solGroup p x) ∧
      ∀ i ∈ solGroup p x, sat p W.toFinset i < (appr p i ∩ solCommittee p x).card := by
    intro x hx
    obtain ⟨ha, hne⟩ := afford_of_feasible (q := q) hx hv2 hv3 (fun c hc => List.mem_append_left _ hc)
    refine ⟨hne, ha, fun i hi => ?_⟩
    have := holds_guard.1 (hx.2 _ (List.mem_append_right _ (List.mem_map.2 ⟨_, mem_zipIdx_get p i, rfl⟩))) (mem_solGroup.1 hi)
    simp only [RelHolds, LinExp.eval_num, sat_eq hp, approvedInSet_eval (feas_cand hx hv3) hp] at this
    exact_mod_cast this
  have hcompl : ∀ (G : Group p) (T : Finset ℕ), G.Nonempty → (T.card : ℚ) * q ≤ wt p G →
      (∀ i ∈ G, sat p W.toFinset i < (appr p i ∩ T).card) → ∃ x, Feasible (coreProgram p W q) x := by
    intro G T hG haff hbad
    obtain ⟨t1, t2, t3⟩ := restrict_cands hp hq G T haff
    generalize hT' : T ∩ Finset.range p.numCand = T' at t1 t2 t3
    obtain ⟨v1, v2, -⟩ := groupSolution_vars (p := p) (G := G) (T := T') (n := 0) (U := ∅)
    refine ⟨groupSolution p G T' 0 ∅, fun d hd => ?_, fun c hc => ?_⟩
    · rcases List.mem_append.1 hd with hd | hd
      · exact v1 d hd
      · exact v2 d hd
    · rcases List.mem_append.1 hc with hc | hc
      · exact feasible_of_afford t1 t2 hG c hc
      · obtain ⟨vi, hvi, rfl⟩ := List.mem_map.1 hc
        obtain ⟨i, rfl⟩ := zipIdx_get hvi
        rw [holds_guard]
        intro hi
        have hiG : i ∈ G := by rw [← mem_solGroup, groupSolution_group] at hi; exact hi
        simp only [RelHolds, LinExp.eval_num, sat_eq hp, approvedInSet_eval (fun c _ => groupSolution_cand_binary c) hp,
          groupSolution_committee t1, t3]
        exact_mod_cast hbad i hiG
  obtain ⟨r, h1, h2, h3⟩ := solveCheck_spec hs (P := coreProgram p W q) rfl (fun x => (chosenVoters p x, chosenCands p x))
  refine ⟨r, h1, h2.trans ⟨fun h G T hG ha => ?_, ?_⟩, fun g o hw => ?_⟩
  · by_contra hno
    push Not at hno
    exact h (hcompl G T hG ha hno)
  · rintro h ⟨x, hx⟩
    obtain ⟨hne, ha, hin⟩ := hsound x hx
    obtain ⟨i, hi, hle⟩ := h _ _ hne ha
    exact absurd (hin i hi) (by omega)
  · obtain ⟨x, hx, e⟩ := h3 _ hw
    obtain ⟨rfl, rfl⟩ := Prod.mk.inj e
    have hbi := feas_inSet (p := p) hx hv2
    have hbc := feas_cand (p := p) hx hv3
    have hlen : (chosenCands p x).length = (solCommittee p x).card := by
      rw [← chosenCands_toFinset hbc, List.toFinset_card_of_nodup (chosenCands_nodup p x)]
    rw [grp_chosenVoters hbi, chosenCands_toFinset hbc, hlen]
    exact hsound x hx

/-! ## Pareto optimality -/

theorem paretoUtility_eval (x : IVar → ℚ) (k i : ℕ) : (paretoUtility k i).eval x = ∑ j ∈ Finset.range k, x (.utility i (j + 1)) := by
  unfold paretoUtility
  rw [LinExp.eval_sum, List.map_map, sum_range_map]
  exact Finset.sum_congr rfl fun j _ => LinExp.eval_var x _

/-- Values describing a committee `X` that is at least as good for everybody, and better for the voters in `G`. -/
noncomputable def paretoSolution (p : Profile) (X : Finset ℕ) (G : Group p) : IVar → ℚ := by
  classical exact fun
    | .utility i j => if j ≤ utilAt p X i then 1 else 0
    | v => groupSolution p G X 0 ∅ v

theorem paretoSolution_inSet (p : Profile) (X : Finset ℕ) (G : Group p) (i : ℕ) :
    paretoSolution p X G (.inSet i) = groupSolution p G X 0 ∅ (.inSet i) := rfl

theorem paretoSolution_cand (p : Profile) (X : Finset ℕ) (G : Group p) (c : ℕ) :
    paretoSolution p X G (.cand c) = groupSolution p G X 0 ∅ (.cand c) := rfl

theorem paretoSolution_group (p : Profile) (X : Finset ℕ) (G : Group p) : solGroup p (paretoSolution p X G) = G :=
  (Finset.ext fun i => by rw [mem_solGroup, mem_solGroup, paretoSolution_inSet] : _ = solGroup p (groupSolution p G X 0 ∅)).trans
    groupSolution_group

theorem paretoSolution_committee (p : Profile) {X : Finset ℕ} (G : Group p) (hX : X ⊆ Finset.range p.numCand) :
    solCommittee p (paretoSolution p X G) = X :=
  (Finset.ext fun i => by rw [mem_solCommittee, mem_solCommittee, paretoSolution_cand] :
    _ = solCommittee p (groupSolution p G X 0 ∅)).trans (groupSolution_committee hX)

theorem paretoSolution_utility {p : Profile} {X : Finset ℕ} {k : ℕ} (hX : X.card = k) (G : Group p) (i : Fin p.voters.length) :
    (paretoUtility k i).eval (paretoSolution p X G) = (util (p.voters.get i) X : ℚ) := by
  rw [paretoUtility_eval]
  have h1 : utilAt p X i = util (p.voters.get i) X := utilAt_eq (mem_zipIdx_get p i)
  have h2 : util (p.voters.get i) X ≤ k := by rw [← hX]; exact Finset.card_le_card Finset.inter_subset_right
  have := sum_first_if h2 (fun _ => 1)
  simp only [Finset.sum_const, Finset.card_range, nsmul_eq_mul, mul_one] at this
  rw [← this]
  refine Finset.sum_congr rfl fun j _ => ?_
  simp [paretoSolution, h1, Nat.lt_iff_add_one_le]

/-- **C60** The Gurobi check of Pareto optimality: it reports no violation iff the committee is Pareto optimal, and a reported committee
has the same size and dominates the given one. -/
theorem C60_pareto_program {solve : Program → SolveResult} (hs : ExactSolver solve) (p : Profile) (hp : p.WF) (W : List ℕ)
    (hW : W.Nodup) : ∃ r, checkParetoGurobi solve p W = .ok r ∧ (r = none ↔ ParetoOptimal p W.toFinset) ∧
      ∀ X, r = some X → X.Nodup ∧ IsCommittee p W.length X.toFinset ∧ Dominates p X.toFinset W.toFinset := by
  have hv2 : ∀ d ∈ inSetVars p, d ∈ (paretoProgram p W).vars := fun d hd => List.mem_append_right _ hd
  have hv3 : ∀ d ∈ candVars p, d ∈ (paretoProgram p W).vars := fun d hd => List.mem_append_left _ (List.mem_append_right _ hd)
  have hvu : ∀ i : Fin p.voters.length, ∀ j < W.length, binaryVar (.utility i (j + 1)) ∈ (paretoProgram p W).vars := fun i j hj =>
    List.mem_append_left _ (List.mem_append_left _ (List.mem_flatMap.2 ⟨i, List.mem_range.2 i.2,
      List.mem_map.2 ⟨j, List.mem_range.2 hj, rfl⟩⟩))
  have hsound : ∀ x, Feasible (paretoProgram p W) x →
      IsCommittee p W.length (solCommittee p x) ∧ Dominates p (solCommittee p x) W.toFinset := by
    intro x hx
    have hb := feas_inSet hx hv2
    have hb' := feas_cand hx hv3
    refine ⟨feas_committee hx hv3 (List.mem_append_right _ List.mem_cons_self), ?_⟩
    have key : ∀ i : Fin p.voters.length, (util (p.voters.get i) W.toFinset : ℚ) + x (.inSet i)
        ≤ (util (p.voters.get i) (solCommittee p x) : ℚ) := by
      intro i
      have e1 := holds_plain.1 (hx.2 _ (List.mem_append_left _ (List.mem_append_left _ (List.mem_append_left _
        (List.mem_map.2 ⟨_, mem_zipIdx_get p i, rfl⟩)))))
      have e2 := holds_plain.1 (hx.2 _ (List.mem_append_left _ (List.mem_append_right _
        (List.mem_map.2 ⟨_, mem_zipIdx_get p i, rfl⟩))))
      simp only [RelHolds, LinExp.eval_add, LinExp.eval_num, LinExp.eval_var, approved_sum hp (List.get_mem _ i) hb', sat_eq hp] at e1 e2
      rw [← e1]
      exact e2
    have e3 := holds_plain.1 (hx.2 _ (List.mem_append_left _ (List.mem_append_left _ (List.mem_append_right _ List.mem_cons_self))))
    simp only [RelHolds, LinExp.eval_num, setCount_eval hb] at e3
    obtain ⟨i, hi⟩ : (solGroup p x).Nonempty := Finset.card_pos.1 (by exact_mod_cast e3)
    refine ⟨fun v hv => ?_, p.voters.get i, List.get_mem _ _, ?_⟩
    · obtain ⟨j, rfl⟩ := List.mem_iff_get.1 hv
      have : (0 : ℚ) ≤ x (.inSet j) := by rcases hb j with h | h <;> rw [h] <;> norm_num
      have h2 : (util (p.voters.get j) W.toFinset : ℚ) ≤ util (p.voters.get j) (solCommittee p x) := by linarith [key j]
      exact_mod_cast h2
    · have h2 := key i
      rw [mem_solGroup.1 hi] at h2
      exact_mod_cast h2
  have hcompl : ∀ X, IsCommittee p W.length X → Dominates p X W.toFinset → ∃ x, Feasible (paretoProgram p W) x := by
    rintro X hX ⟨h1, v, hv, h2⟩
    classical
    obtain ⟨i₀, rfl⟩ := List.mem_iff_get.1 hv
    obtain ⟨v1, v2, -⟩ := groupSolution_vars (p := p) (G := {i₀}) (T := X) (n := 0) (U := ∅)
    refine ⟨paretoSolution p X {i₀}, fun d hd => ?_, fun c hc => ?_⟩
    · rcases List.mem_append.1 hd with hd | hd
      · rcases List.mem_append.1 hd with hd | hd
        · obtain ⟨i, -, hd⟩ := List.mem_flatMap.1 hd
          obtain ⟨j, -, rfl⟩ := List.mem_map.1 hd
          refine inBounds_binary.2 ?_
          by_cases h : j + 1 ≤ utilAt p X i
          · exact Or.inr (if_pos h)
          · exact Or.inl (if_neg h)
        · obtain ⟨c, -, rfl⟩ := List.mem_map.1 hd
          refine inBounds_binary.2 ?_
          rw [paretoSolution_cand]
          exact groupSolution_cand_binary c
      · obtain ⟨i, hi, rfl⟩ := List.mem_map.1 hd
        refine inBounds_binary.2 ?_
        rw [paretoSolution_inSet]
        exact groupSolution_inSet_binary ⟨i, List.mem_range.1 hi⟩
    · have hcb : ∀ c < p.numCand, paretoSolution p X {i₀} (.cand c) = 0 ∨ paretoSolution p X {i₀} (.cand c) = 1 := fun c _ => by
        rw [paretoSolution_cand]; exact groupSolution_cand_binary c
      have hib : ∀ i : Fin p.voters.length, paretoSolution p X {i₀} (.inSet i) = 0 ∨ paretoSolution p X {i₀} (.inSet i) = 1 := fun i => by
        rw [paretoSolution_inSet]; exact groupSolution_inSet_binary i
      rcases List.mem_append.1 hc with hc | hc
      · rcases List.mem_append.1 hc with hc | hc
        · rcases List.mem_append.1 hc with hc | hc
          · obtain ⟨vi, hvi, rfl⟩ := List.mem_map.1 hc
            obtain ⟨i, rfl⟩ := zipIdx_get hvi
            rw [holds_plain]
            simp only [RelHolds, approved_sum hp (List.get_mem _ i) hcb, paretoSolution_utility hX.2,
              paretoSolution_committee p {i₀} hX.1]
          · simp only [List.mem_singleton] at hc
            subst hc
            rw [holds_plain]
            simp only [RelHolds, LinExp.eval_num, setCount_eval hib, paretoSolution_group]
            simp
        · obtain ⟨vi, hvi, rfl⟩ := List.mem_map.1 hc
          obtain ⟨i, rfl⟩ := zipIdx_get hvi
          rw [holds_plain]
          simp only [RelHolds, LinExp.eval_num, LinExp.eval_add, LinExp.eval_var, paretoSolution_utility hX.2, sat_eq hp,
            paretoSolution_inSet, groupSolution_inSet, Finset.mem_singleton]
          split
          · rename_i hi
            subst hi
            exact_mod_cast h2
          · rw [add_zero]
            exact_mod_cast h1 _ (List.get_mem _ i)
      · simp only [List.mem_singleton] at hc
        subst hc
        unfold sizeConstr
        rw [holds_plain]
        simp only [RelHolds, LinExp.eval_num, sum_range_cand hcb, paretoSolution_committee p {i₀} hX.1, hX.2]
  -- the objective is bounded
  have hfin : Finitary (paretoProgram p W) := by
    refine ⟨fun d hd _ => ?_, fun c hc b hb => ?_⟩
    · have : ∃ v, d = binaryVar v := by
        rcases List.mem_append.1 hd with hd | hd
        · rcases List.mem_append.1 hd with hd | hd
          · obtain ⟨i, -, hd⟩ := List.mem_flatMap.1 hd
            obtain ⟨j, -, rfl⟩ := List.mem_map.1 hd
            exact ⟨_, rfl⟩
          · obtain ⟨c, -, rfl⟩ := List.mem_map.1 hd
            exact ⟨_, rfl⟩
        · obtain ⟨i, -, rfl⟩ := List.mem_map.1 hd
          exact ⟨_, rfl⟩
      obtain ⟨v, rfl⟩ := this
      exact ⟨1, rfl⟩
    · exfalso
      rcases List.mem_append.1 hc with hc | hc
      · rcases List.mem_append.1 hc with hc | hc
        · rcases List.mem_append.1 hc with hc | hc
          · obtain ⟨vi, -, rfl⟩ := List.mem_map.1 hc
            simp at hb
          · simp only [List.mem_singleton] at hc
            subst hc
            simp at hb
        · obtain ⟨vi, -, rfl⟩ := List.mem_map.1 hc
          simp at hb
      · simp only [List.mem_singleton] at hc
        subst hc
        simp [sizeConstr] at hb
  have hbound : ∀ x, Feasible (paretoProgram p W) x → (paretoProgram p W).obj.eval x ≤ ∑ i : Fin p.voters.length, (W.length : ℚ) := by
    intro x hx
    change LinExp.eval x (LinExp.sum _) ≤ _
    rw [LinExp.eval_sum, List.map_map, sum_zipIdx_rat]
    refine Finset.sum_le_sum fun i _ => ?_
    simp only [Function.comp, paretoUtility_eval]
    calc ∑ j ∈ Finset.range W.length, x (.utility i (j + 1)) ≤ ∑ j ∈ Finset.range W.length, (1 : ℚ) :=
          Finset.sum_le_sum fun j hj => by
            rcases inBounds_binary.1 (hx.1 _ (hvu i j (Finset.mem_range.1 hj))) with h | h <;> rw [h]
            norm_num
      _ = W.length := by simp
  have hcard : W.toFinset.card = W.length := List.toFinset_card_of_nodup hW
  have hopt : (¬ ∃ x, Feasible (paretoProgram p W) x) ↔ ParetoOptimal p W.toFinset := by
    unfold ParetoOptimal
    rw [hcard]
    constructor
    · intro h X hX hd
      exact h (hcompl X hX hd)
    · rintro h ⟨x, hx⟩
      obtain ⟨h1, h2⟩ := hsound x hx
      exact h _ h1 h2
  unfold checkParetoGurobi solveCheck
  rcases solve_iff hs hfin hbound with ⟨x, e, hx⟩ | ⟨e, hx⟩
  · rw [e]
    refine ⟨_, rfl, by rw [← hopt]; simpa using ⟨x, hx.1⟩, fun X hX => ?_⟩
    obtain rfl := Option.some.inj hX
    rw [chosenCands_toFinset (feas_cand hx.1 hv3)]
    exact ⟨chosenCands_nodup p x, hsound x hx.1⟩
  · rw [e]
    exact ⟨_, rfl, by simpa using hopt.1 hx, fun X hX => by simp at hX⟩

end Abc
