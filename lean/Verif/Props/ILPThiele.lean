import Verif.Props.Enumeration
import Verif.Props.BranchAndBound

/-!
# C62: the integer programs of the Thiele methods (Gurobi, Python-MIP) and of CC (OR-Tools) encode the rules
-/

namespace Abc
open Spec

/-! ## Common parts -/

theorem inBounds_binary {x : IVar → ℚ} {w : IVar} : InBounds x (binaryVar w) ↔ x w = 0 ∨ x w = 1 := by
  unfold InBounds binaryVar
  simp only [Option.some.injEq, forall_eq', true_imp_iff]
  constructor
  · rintro ⟨h0, h1, z, hz⟩
    rw [hz] at h0 h1 ⊢
    have h0' : (0 : ℤ) ≤ z := by exact_mod_cast h0
    have h1' : z ≤ (1 : ℤ) := by exact_mod_cast h1
    have : z = 0 ∨ z = 1 := by omega
    rcases this with rfl | rfl <;> simp
  · rintro (h | h) <;> rw [h]
    · exact ⟨le_refl _, by norm_num, 0, by simp⟩
    · exact ⟨by norm_num, le_refl _, 1, by simp⟩

theorem holds_plain {x : IVar → ℚ} {l r : LinExp} {rel : Rel} :
    Holds x { lhs := l, rel := rel, rhs := r } ↔ RelHolds rel (l.eval x) (r.eval x) := by
  unfold Holds
  simp

theorem feas_cand {P : Program} {p : Profile} {x : IVar → ℚ} (hx : Feasible P x) (hv : ∀ d ∈ candVars p, d ∈ P.vars) :
    ∀ c < p.numCand, x (.cand c) = 0 ∨ x (.cand c) = 1 := by
  intro c hc
  refine inBounds_binary.1 (hx.1 _ (hv _ ?_))
  unfold candVars Profile.candidates
  exact List.mem_map.2 ⟨c, List.mem_range.2 hc, rfl⟩

theorem sum_range_cand {p : Profile} {x : IVar → ℚ} (hb : ∀ c < p.numCand, x (.cand c) = 0 ∨ x (.cand c) = 1) :
    (candSum p.candidates).eval x = ((solCommittee p x).card : ℚ) := by
  rw [eval_candSum, sum_cand_eq_card (l := p.candidates) (List.nodup_range) (fun c hc => hb c (by simpa [Profile.candidates] using hc))]
  congr 2
  ext c
  simp [solCommittee, Profile.candidates]

theorem feas_committee {P : Program} {p : Profile} {k : ℕ} {x : IVar → ℚ} (hx : Feasible P x)
    (hv : ∀ d ∈ candVars p, d ∈ P.vars) (hc : sizeConstr p k ∈ P.constrs) : IsCommittee p k (solCommittee p x) := by
  refine ⟨fun c hc => (Finset.mem_filter.1 hc).1, ?_⟩
  have h := hx.2 _ hc
  unfold sizeConstr at h
  rw [holds_plain] at h
  simp only [RelHolds, sum_range_cand (feas_cand hx hv), LinExp.eval_num] at h
  exact_mod_cast h

/-- The values of the candidate variables for a given committee. -/
def CandValues (_p : Profile) (A : Finset ℕ) (x : IVar → ℚ) : Prop := ∀ c, x (.cand c) = if c ∈ A then 1 else 0

theorem CandValues.binary {p : Profile} {A : Finset ℕ} {x : IVar → ℚ} (h : CandValues p A x) (c : ℕ) :
    x (.cand c) = 0 ∨ x (.cand c) = 1 := by
  rw [h c]; split <;> simp

theorem CandValues.sol {p : Profile} {A : Finset ℕ} {x : IVar → ℚ} (h : CandValues p A x) {k : ℕ} (hA : IsCommittee p k A) :
    solCommittee p x = A := by
  ext c
  unfold solCommittee
  rw [Finset.mem_filter, h c]
  constructor
  · rintro ⟨-, h2⟩
    by_contra hc
    rw [if_neg hc] at h2
    exact absurd h2 (by norm_num)
  · intro hc
    exact ⟨hA.1 hc, by rw [if_pos hc]⟩

theorem CandValues.vars {p : Profile} {A : Finset ℕ} {x : IVar → ℚ} (h : CandValues p A x) : ∀ d ∈ candVars p, InBounds x d := by
  intro d hd
  unfold candVars at hd
  obtain ⟨c, -, rfl⟩ := List.mem_map.1 hd
  exact inBounds_binary.2 (h.binary c)

theorem CandValues.size {p : Profile} {A : Finset ℕ} {x : IVar → ℚ} (h : CandValues p A x) {k : ℕ} (hA : IsCommittee p k A) :
    Holds x (sizeConstr p k) := by
  unfold sizeConstr
  rw [holds_plain]
  simp only [RelHolds, sum_range_cand (fun c _ => h.binary c), h.sol hA, hA.2, LinExp.eval_num]

/-- The sum over a voter's approved candidates is the voter's utility. -/
theorem approved_sum {p : Profile} (hp : p.WF) {v : Voter} (hv : v ∈ p.voters) {x : IVar → ℚ}
    (hb : ∀ c < p.numCand, x (.cand c) = 0 ∨ x (.cand c) = 1) :
    (candSum v.approved).eval x = (util v (solCommittee p x) : ℚ) := by
  rw [eval_candSum, sum_cand_eq_card (hp.nodup v hv) (fun c hc => hb c (hp.lt v hv c hc))]
  congr 2
  ext c
  simp only [Finset.mem_filter, List.mem_toFinset, solCommittee, Voter.A, Finset.mem_inter, Finset.mem_range]
  exact ⟨fun h => ⟨h.1, hp.lt v hv c h.1, h.2⟩, fun h => ⟨h.1, h.2.2⟩⟩

theorem mem_voters_of_zipIdx {p : Profile} {vi : Voter × ℕ} (h : vi ∈ p.voters.zipIdx) : vi.1 ∈ p.voters := by
  have := List.mem_map_of_mem (f := Prod.fst) h
  rwa [List.zipIdx_map_fst] at this

theorem voters_map_zipIdx {β : Type} (p : Profile) (g : Voter → β) : p.voters.map g = p.voters.zipIdx.map (fun vi => g vi.1) := by
  conv_lhs => rw [← List.zipIdx_map_fst 0 p.voters]
  rw [List.map_map]; rfl

/-! ## Thiele methods -/

theorem sum_range_map {α : Type} [AddCommMonoid α] (m : ℕ) (g : ℕ → α) : ((List.range m).map g).sum = ∑ x ∈ Finset.range m, g x := by
  rw [← List.sum_toFinset _ List.nodup_range]
  congr 1
  ext i; simp

theorem utilityObj_eval (f : ℕ → ℚ) (p : Profile) (k : ℕ) (x : IVar → ℚ) :
    (utilityObj f p k).eval x = (p.voters.zipIdx.map (fun vi => vi.1.weight *
      ∑ j ∈ Finset.range (maxInCommittee k vi.1), f (j + 1) * x (.utility vi.2 (j + 1)))).sum := by
  unfold utilityObj
  rw [LinExp.eval_sum]
  induction p.voters.zipIdx with
  | nil => simp
  | cons vi l ih =>
    simp only [List.flatMap_cons, List.map_append, List.sum_append, List.map_cons, List.sum_cons, ih]
    congr 1
    rw [List.map_map, sum_range_map, Finset.mul_sum]
    refine Finset.sum_congr rfl fun j _ => ?_
    simp only [Function.comp, LinExp.eval_scale, LinExp.eval_var]
    ring

/-- Among `t` of the first `m` values of a non-increasing function the first `t` have the largest sum. -/
theorem sum_le_first {f : ℕ → ℚ} {m : ℕ} (hf : ∀ i j, i ≤ j → j < m → f j ≤ f i) {T : Finset ℕ} (hT : T ⊆ Finset.range m) :
    ∑ i ∈ T, f i ≤ ∑ i ∈ Finset.range T.card, f i := by
  classical
  rcases Nat.eq_zero_or_pos T.card with h0 | hpos
  · rw [Finset.card_eq_zero] at h0; simp [h0]
  set t := T.card with ht
  have htm : t ≤ m := by simpa using Finset.card_le_card hT
  have e1 : ∑ i ∈ T, f i = ∑ i ∈ T ∩ Finset.range t, f i + ∑ i ∈ T \ Finset.range t, f i := by
    rw [← Finset.sum_union (by
      rw [Finset.disjoint_left]; intro i hi hi'
      exact (Finset.mem_sdiff.1 hi').2 (Finset.mem_inter.1 hi).2)]
    congr 1; ext i; simp only [Finset.mem_union, Finset.mem_inter, Finset.mem_sdiff]; tauto
  have e2 : ∑ i ∈ Finset.range t, f i = ∑ i ∈ T ∩ Finset.range t, f i + ∑ i ∈ Finset.range t \ T, f i := by
    rw [← Finset.sum_union (by
      rw [Finset.disjoint_left]; intro i hi hi'
      exact (Finset.mem_sdiff.1 hi').2 (Finset.mem_inter.1 hi).1)]
    congr 1; ext i; simp only [Finset.mem_union, Finset.mem_inter, Finset.mem_sdiff]; tauto
  have hc : (T \ Finset.range t).card = (Finset.range t \ T).card := by
    have h1 := Finset.card_sdiff_add_card_inter T (Finset.range t)
    have h2 := Finset.card_sdiff_add_card_inter (Finset.range t) T
    rw [Finset.inter_comm] at h2
    rw [Finset.card_range] at h2
    omega
  have h1 : ∑ i ∈ T \ Finset.range t, f i ≤ (T \ Finset.range t).card • f (t - 1) := by
    refine Finset.sum_le_card_nsmul _ _ _ fun i hi => ?_
    rw [Finset.mem_sdiff, Finset.mem_range] at hi
    exact hf _ _ (by omega) (by simpa using hT hi.1)
  have h2 : (Finset.range t \ T).card • f (t - 1) ≤ ∑ i ∈ Finset.range t \ T, f i := by
    refine Finset.card_nsmul_le_sum _ _ _ fun i hi => ?_
    rw [Finset.mem_sdiff, Finset.mem_range] at hi
    exact hf _ _ (by omega) (by omega)
  rw [e1, e2, ← hc] at *
  linarith

/-- The 0/1 version of `sum_le_first`. -/
theorem sum_binary_le {f u : ℕ → ℚ} {m t : ℕ} (hf : ∀ i j, i ≤ j → j < m → f j ≤ f i)
    (hu : ∀ j < m, u j = 0 ∨ u j = 1) (ht : ∑ j ∈ Finset.range m, u j = t) :
    ∑ j ∈ Finset.range m, f j * u j ≤ ∑ j ∈ Finset.range t, f j := by
  classical
  set T := (Finset.range m).filter (fun j => u j = 1) with hT
  have e1 : ∑ j ∈ Finset.range m, f j * u j = ∑ j ∈ T, f j := by
    rw [hT, Finset.sum_filter]
    refine Finset.sum_congr rfl fun j hj => ?_
    rcases hu j (by simpa using hj) with h | h <;> simp [h]
  have e2 : (T.card : ℚ) = t := by
    rw [← ht, hT, ← Finset.sum_boole]
    refine Finset.sum_congr rfl fun j hj => ?_
    rcases hu j (by simpa using hj) with h | h <;> simp [h]
  have e3 : T.card = t := by exact_mod_cast e2
  rw [e1, ← e3]
  exact sum_le_first hf (Finset.filter_subset _ _)

/-- The values of the utility variables are consistent with the committee. -/
theorem utility_facts {p : Profile} (hp : p.WF) {k : ℕ} {x : IVar → ℚ} (hb : ∀ c < p.numCand, x (.cand c) = 0 ∨ x (.cand c) = 1)
    (hu : ∀ d ∈ utilityVars p k, InBounds x d) (hc : ∀ c ∈ utilityConstrs p k, Holds x c) {vi : Voter × ℕ}
    (hvi : vi ∈ p.voters.zipIdx) :
    (∀ j < maxInCommittee k vi.1, x (.utility vi.2 (j + 1)) = 0 ∨ x (.utility vi.2 (j + 1)) = 1) ∧
    ∑ j ∈ Finset.range (maxInCommittee k vi.1), x (.utility vi.2 (j + 1)) = (util vi.1 (solCommittee p x) : ℚ) := by
  constructor
  · intro j hj
    refine inBounds_binary.1 (hu _ ?_)
    unfold utilityVars
    exact List.mem_flatMap.2 ⟨vi, hvi, List.mem_map.2 ⟨j, List.mem_range.2 hj, rfl⟩⟩
  · have := hc _ (List.mem_map.2 ⟨vi, hvi, rfl⟩)
    rw [holds_plain] at this
    simp only [RelHolds] at this
    rw [approved_sum hp (mem_voters_of_zipIdx hvi) hb, LinExp.eval_sum, List.map_map, sum_range_map] at this
    rw [← this]
    simp

/-- The utility of the voter at position `i`. -/
def utilAt (p : Profile) (A : Finset ℕ) (i : ℕ) : ℕ := (p.voters[i]?.map (fun v => util v A)).getD 0

theorem utilAt_eq {p : Profile} {A : Finset ℕ} {vi : Voter × ℕ} (hvi : vi ∈ p.voters.zipIdx) : utilAt p A vi.2 = util vi.1 A := by
  have : p.voters[vi.2]? = some vi.1 := List.mem_zipIdx_iff_getElem?.1 hvi
  simp only [utilAt, this, Option.map_some, Option.getD_some]

/-- The solution describing committee `A`: utility variable `(i, j)` is 1 iff voter `i` approves at least `j` members. -/
def thieleSolution (p : Profile) (A : Finset ℕ) : IVar → ℚ
  | .cand c => if c ∈ A then 1 else 0
  | .utility i j => if j ≤ utilAt p A i then 1 else 0
  | _ => 0

theorem thieleSolution_cand (p : Profile) (A : Finset ℕ) : CandValues p A (thieleSolution p A) := fun _ => rfl

theorem thieleSolution_utility {p : Profile} {A : Finset ℕ} {vi : Voter × ℕ} (hvi : vi ∈ p.voters.zipIdx) (j : ℕ) :
    thieleSolution p A (.utility vi.2 j) = if j ≤ util vi.1 A then 1 else 0 := by
  simp only [thieleSolution, utilAt_eq hvi]

theorem util_le_max {p : Profile} {k : ℕ} {A : Finset ℕ} (hA : IsCommittee p k A) (v : Voter) :
    util v A ≤ maxInCommittee k v := by
  unfold util maxInCommittee
  refine le_min ?_ ?_
  · refine (Finset.card_le_card Finset.inter_subset_left).trans ?_
    unfold Voter.A
    exact List.toFinset_card_le _
  · exact hA.2 ▸ Finset.card_le_card Finset.inter_subset_right

theorem sum_first_if {m t : ℕ} (h : t ≤ m) (g : ℕ → ℚ) :
    ∑ j ∈ Finset.range m, g j * (if j + 1 ≤ t then 1 else 0) = ∑ j ∈ Finset.range t, g j := by
  classical
  have : ∀ j ∈ Finset.range m, g j * (if j + 1 ≤ t then (1 : ℚ) else 0) = if j ∈ Finset.range t then g j else 0 := by
    intro j _
    by_cases hj : j < t
    · rw [if_pos (by omega), if_pos (by simpa using hj), mul_one]
    · rw [if_neg (by omega), if_neg (by simpa using hj), mul_zero]
  rw [Finset.sum_congr rfl this, ← Finset.sum_filter]
  congr 1
  ext j
  simp only [Finset.mem_filter, Finset.mem_range]
  omega

theorem thieleSolution_feasible {p : Profile} (hp : p.WF) {k : ℕ} {A : Finset ℕ} (hA : IsCommittee p k A) :
    (∀ d ∈ candVars p ++ utilityVars p k, InBounds (thieleSolution p A) d) ∧
    (∀ c ∈ sizeConstr p k :: utilityConstrs p k, Holds (thieleSolution p A) c) ∧
    ∀ f, (utilityObj f p k).eval (thieleSolution p A) = score f p A := by
  have hcand := thieleSolution_cand p A
  refine ⟨?_, ?_, ?_⟩
  · intro d hd
    rcases List.mem_append.1 hd with h | h
    · exact hcand.vars d h
    · unfold utilityVars at h
      obtain ⟨vi, hvi, h⟩ := List.mem_flatMap.1 h
      obtain ⟨j, -, rfl⟩ := List.mem_map.1 h
      rw [inBounds_binary, thieleSolution_utility hvi]
      split <;> simp
  · intro c hc
    rcases List.mem_cons.1 hc with rfl | h
    · exact hcand.size hA
    · unfold utilityConstrs at h
      obtain ⟨vi, hvi, rfl⟩ := List.mem_map.1 h
      rw [holds_plain]
      simp only [RelHolds]
      rw [approved_sum hp (mem_voters_of_zipIdx hvi) (fun c _ => hcand.binary c), hcand.sol hA, LinExp.eval_sum, List.map_map,
        sum_range_map]
      have := sum_first_if (util_le_max hA vi.1) (fun _ => 1)
      simp only [one_mul, Finset.sum_const, Finset.card_range, nsmul_eq_mul, mul_one] at this
      rw [← this]
      refine Finset.sum_congr rfl fun j _ => ?_
      simp only [Function.comp, LinExp.eval_var, thieleSolution_utility hvi]
  · intro f
    rw [utilityObj_eval]
    unfold score
    rw [voters_map_zipIdx]
    congr 1
    refine List.map_congr_left fun vi hvi => ?_
    congr 1
    rw [← sum_first_if (util_le_max hA vi.1)]
    refine Finset.sum_congr rfl fun j _ => ?_
    rw [thieleSolution_utility hvi]

/-- **C62** The program of the Thiele methods encodes the rule: its feasible solutions describe the committees of size `k`, and the best
objective value over the solutions describing a committee is the Thiele score — provided the marginal scores `f 1, …, f k` are
non-increasing. -/
theorem C62_thiele_program {f : ℕ → ℚ} {p : Profile} (hp : p.WF) {k : ℕ} (hf : ∀ i j, i ≤ j → j < k → f (j + 1) ≤ f (i + 1)) :
    Encodes (thieleProgram f p k) p (IsCommittee p k) (score f p) := by
  have hvars : ∀ d ∈ candVars p, d ∈ (thieleProgram f p k).vars := fun d hd => List.mem_append_left _ hd
  refine ⟨fun x hx => feas_cand hx hvars, fun x hx => ⟨feas_committee hx hvars (List.mem_cons_self), ?_⟩, fun A hA => ?_⟩
  · have hb := feas_cand hx hvars
    change (utilityObj f p k).eval x ≤ _
    rw [utilityObj_eval]
    unfold score
    rw [voters_map_zipIdx]
    refine List.sum_le_sum fun vi hvi => ?_
    obtain ⟨h1, h2⟩ := utility_facts hp hb (fun d hd => hx.1 d (List.mem_append_right _ hd))
      (fun c hc => hx.2 c (List.mem_cons_of_mem _ hc)) hvi
    have hw := (hp.weight _ (mem_voters_of_zipIdx hvi)).le
    refine mul_le_mul_of_nonneg_left ?_ hw
    refine sum_binary_le (f := fun j => f (j + 1)) (u := fun j => x (.utility vi.2 (j + 1))) ?_ h1 h2
    intro i j hij hj
    exact hf i j hij (lt_of_lt_of_le hj (min_le_right _ _))
  · obtain ⟨h1, h2, h3⟩ := thieleSolution_feasible hp hA
    exact ⟨_, ⟨h1, h2⟩, (thieleSolution_cand p A).sol hA, h3 f⟩

/-- The monotonicity check of the code. -/
theorem scoreValues_antitone {f : ℕ → ℚ} {k : ℕ}
    (h : ((scoreValues f k).zip (scoreValues f k).tail).all
      (fun ab => decide (ab.1 > ab.2 ∨ (ab.1 = ab.2 ∧ ab.2 = 0))) = true) :
    ∀ i j, i ≤ j → j < k → f (j + 1) ≤ f (i + 1) := by
  have step : ∀ i, i + 1 < k → f (i + 2) ≤ f (i + 1) := by
    intro i hi
    rw [List.all_eq_true] at h
    have hz : (f (i + 1), f (i + 2)) ∈ (scoreValues f k).zip (scoreValues f k).tail := by
      refine List.mem_iff_getElem?.2 ⟨i, ?_⟩
      rw [List.getElem?_zip_eq_some]
      simp only [scoreValues, List.getElem?_map, List.getElem?_tail, List.getElem?_range hi,
        List.getElem?_range (show i < k by omega), Option.map_some, true_and]
    have := h _ hz
    simp only [gt_iff_lt, decide_eq_true_eq] at this
    rcases this with h | ⟨h, -⟩
    · exact h.le
    · exact h.ge
  intro i j hij hj
  induction j, hij using Nat.le_induction with
  | base => exact le_refl _
  | succ j hij ih => exact (step j hj).trans (ih (by omega))

theorem thrMip_pos : (0 : ℚ) < thrMip := by unfold thrMip; norm_num
theorem thrMip_le : thrMip ≤ 1 := by unfold thrMip; norm_num
theorem thrCp_pos : (0 : ℚ) < thrCp := by unfold thrCp; norm_num
theorem thrCp_le : thrCp ≤ 1 := by unfold thrCp; norm_num

theorem cmpTol_some (f : List ℕ → Except Err ℚ) : cmpTol (some f) = 0 := by simp [cmpTol]

theorem exists_committee {p : Profile} {k : ℕ} (h : k ≤ p.numCand) : ∃ A, IsCommittee p k A :=
  ⟨Finset.range k, by simpa using h, by simp⟩

/-- `sorted_committees` applied to the result of the loop. -/
theorem enumeration_sorted {solve : Program → SolveResult} {thr : ℚ} {f : List ℕ → Except Err ℚ} {p : Profile} {a : Args}
    {v : Finset ℕ → ℚ} {P : Program} {F : Finset ℕ → Prop} (hs : ExactSolver solve) (h0 : 0 < thr) (h1 : thr ≤ 1)
    (hv : ValidCall p a) (hE : Encodes P p F v) (hF : ∀ A, F A → IsCommittee p a.k A)
    (hsc : ∀ W : List ℕ, W.Pairwise (· < ·) → F W.toFinset → f W = .ok (v W.toFinset)) (hne : ∃ A, F A) :
    Answers a (do let r ← optimizeRule solve thr (some f) p a.k a.resolute a.maxNum P; sortedCommittees r.1)
      (fun A => F A ∧ ∀ B, F B → v B ≤ v A) := by
  obtain ⟨cs, m, e, -, -, -, -, hA⟩ := C61_enumeration (score := some f) hs h0 h1 hv hE hF
    (fun g hg W hW hFW => by rw [← Option.some.inj hg]; exact hsc W hW hFW) hne
  rw [e]
  simp only [cmpTol_some, sub_zero] at hA
  exact hA

/-- **C62** Gurobi and Python-MIP on Thiele methods: if the scores `f 1, …, f k` are strictly decreasing or zero (what the code checks) and
`f 1 > 0`, the result answers the call as the Thiele method defined by `f` should. -/
theorem C62_ilp_thiele {solve : Program → SolveResult} (hs : ExactSolver solve) (f : ℕ → ℚ) (p : Profile) (hp : p.WF) (a : Args)
    (hv : ValidCall p a) (hpos : 0 < f 1)
    (hf : ∀ i, 1 ≤ i → i < a.k → f (i + 1) < f i ∨ (f i = 0 ∧ f (i + 1) = 0)) :
    Answers a (ilpThiele solve f p a.k a.resolute a.maxNum) (ThieleOpt f p a.k) := by
  have hchk : ((scoreValues f a.k).zip (scoreValues f a.k).tail).all
      (fun ab => decide (ab.1 > ab.2 ∨ (ab.1 = ab.2 ∧ ab.2 = 0))) = true := by
    rw [List.all_eq_true]
    intro ab hab
    obtain ⟨i, hi⟩ := List.mem_iff_getElem?.1 hab
    rw [List.getElem?_zip_eq_some] at hi
    simp only [scoreValues, List.getElem?_map, List.getElem?_tail, Option.map_eq_some_iff, List.getElem?_eq_some_iff,
      List.length_range, List.getElem_range, exists_prop] at hi
    obtain ⟨⟨j, ⟨h1, rfl⟩, h2⟩, j', ⟨h3, rfl⟩, h4⟩ := hi
    have := hf (i + 1) (by omega) (by omega)
    simp only [decide_eq_true_eq]
    rw [← h2, ← h4]
    rcases this with h | ⟨h, h'⟩
    · exact Or.inl h
    · exact Or.inr ⟨by rw [h, h'], h'⟩
  have hmin : ∃ q, pyMin ((scoreValues f a.k).filter (fun q => decide (q > 0))) = .ok q := by
    have hmem : f 1 ∈ (scoreValues f a.k).filter (fun q => decide (q > 0)) := by
      rw [List.mem_filter]
      exact ⟨List.mem_map.2 ⟨0, List.mem_range.2 hv.pos, rfl⟩, by simpa using hpos⟩
    cases hl : (scoreValues f a.k).filter (fun q => decide (q > 0)) with
    | nil => rw [hl] at hmem; simp at hmem
    | cons y ys => exact ⟨_, rfl⟩
  obtain ⟨q, hq⟩ := hmin
  have := enumeration_sorted hs thrMip_pos thrMip_le hv (C62_thiele_program hp (scoreValues_antitone hchk)) (fun A hA => hA)
    (f := fun W => .ok (thieleScore f p W)) (fun W _ _ => by rw [thieleScore_eq]) (exists_committee hv.le)
  unfold ilpThiele
  rw [if_neg (by simp only [hchk, not_true_eq_false, not_false_eq_true])]
  simp only [hq]
  exact this

/-- The marginal functions for which the code's check succeeds for every committee size. -/
theorem proper_scores {s : ScoreId} (hs : s = .pav ∨ s = .slav ∨ s = .cc ∨ ∃ b, 1 < b ∧ s = .geom b) :
    0 < marginalFct s 1 ∧ ∀ i, 1 ≤ i → marginalFct s (i + 1) < marginalFct s i ∨
      (marginalFct s i = 0 ∧ marginalFct s (i + 1) = 0) := by
  rcases hs with rfl | rfl | rfl | ⟨b, hb, rfl⟩
  · refine ⟨by norm_num [marginalFct], fun i hi => Or.inl ?_⟩
    have : (1 : ℚ) ≤ i := by exact_mod_cast hi
    simp only [marginalFct, Nat.add_eq_zero_iff, one_ne_zero, and_false, if_false, show i ≠ 0 by omega]
    apply one_div_lt_one_div_of_lt <;> push_cast <;> linarith
  · refine ⟨by norm_num [marginalFct], fun i hi => Or.inl ?_⟩
    have : (1 : ℚ) ≤ i := by exact_mod_cast hi
    simp only [marginalFct, Nat.add_eq_zero_iff, one_ne_zero, and_false, if_false, show i ≠ 0 by omega]
    apply one_div_lt_one_div_of_lt <;> push_cast <;> linarith
  · refine ⟨by norm_num [marginalFct], fun i hi => ?_⟩
    simp only [marginalFct]
    by_cases h1 : i = 1
    · left; rw [if_neg (by omega), if_pos h1]; norm_num
    · right; exact ⟨if_neg h1, if_neg (by omega)⟩
  · refine ⟨by norm_num [marginalFct], fun i hi => Or.inl ?_⟩
    have hb0 : (0 : ℚ) < b := by linarith
    simp only [marginalFct, Nat.add_eq_zero_iff, one_ne_zero, and_false, if_false, show i ≠ 0 by omega]
    apply one_div_lt_one_div_of_lt (by positivity)
    obtain ⟨j, rfl⟩ : ∃ j, i = j + 1 := ⟨i - 1, by omega⟩
    simp only [Nat.add_sub_cancel]
    rw [pow_succ]
    have : (0 : ℚ) < b ^ j := by positivity
    nlinarith

/-! ## CC with OR-Tools -/

theorem score_cc (p : Profile) (A : Finset ℕ) :
    score (marginalFct .cc) p A = (p.voters.map (fun v => v.weight * (if 1 ≤ util v A then 1 else 0))).sum := by
  unfold score
  congr 1
  refine List.map_congr_left fun v _ => ?_
  congr 1
  by_cases h : 1 ≤ util v A
  · rw [if_pos h, Finset.sum_eq_single 0]
    · simp [marginalFct]
    · intro i _ hi; simp [marginalFct, hi]
    · intro h0; simp at h0; omega
  · have : util v A = 0 := by omega
    simp [this]

/-- The solution of `_ortools_cc` describing committee `A`. -/
def ccSolution (p : Profile) (A : Finset ℕ) : IVar → ℚ
  | .cand c => if c ∈ A then 1 else 0
  | .satisfied i => if 1 ≤ utilAt p A i then 1 else 0
  | _ => 0

theorem ccObj_eval (p : Profile) (x : IVar → ℚ) :
    (LinExp.sum (p.voters.zipIdx.map (fun vi => LinExp.scale vi.1.weight (.var (.satisfied vi.2))))).eval x =
      (p.voters.zipIdx.map (fun vi => vi.1.weight * x (.satisfied vi.2))).sum := by
  rw [LinExp.eval_sum, List.map_map]
  congr 1
  refine List.map_congr_left fun vi _ => ?_
  simp

/-- **C62** The program of `_ortools_cc` encodes Chamberlin–Courant. -/
theorem C62_cc_program {p : Profile} (hp : p.WF) {k : ℕ} :
    Encodes (ccProgram p k) p (IsCommittee p k) (score (marginalFct .cc) p) := by
  have hvars : ∀ d ∈ candVars p, d ∈ (ccProgram p k).vars := fun d hd => List.mem_append_left _ hd
  refine ⟨fun x hx => feas_cand hx hvars, fun x hx => ⟨feas_committee hx hvars (List.mem_cons_self), ?_⟩, fun A hA => ?_⟩
  · have hb := feas_cand hx hvars
    change (LinExp.sum _).eval x ≤ _
    rw [ccObj_eval, score_cc, voters_map_zipIdx]
    refine List.sum_le_sum fun vi hvi => ?_
    have hv := mem_voters_of_zipIdx hvi
    refine mul_le_mul_of_nonneg_left ?_ (hp.weight _ hv).le
    have hbin : x (.satisfied vi.2) = 0 ∨ x (.satisfied vi.2) = 1 := by
      refine inBounds_binary.1 (hx.1 _ (List.mem_append_right _ (List.mem_map.2 ⟨vi.2, ?_, rfl⟩)))
      have := (List.mem_zipIdx_iff_getElem?.1 hvi)
      rw [List.mem_range]
      exact (List.getElem?_eq_some_iff.1 this).1
    have hc := hx.2 _ (List.mem_cons_of_mem _ (List.mem_map.2 ⟨vi, hvi, rfl⟩))
    rw [holds_plain] at hc
    simp only [RelHolds, approved_sum hp hv hb, LinExp.eval_var] at hc
    by_cases h : 1 ≤ util vi.1 (solCommittee p x)
    · rw [if_pos h]; rcases hbin with h | h <;> rw [h]; norm_num
    · rw [if_neg h]
      have h0 : util vi.1 (solCommittee p x) = 0 := by omega
      rw [h0] at hc; simpa using hc
  · have hcand : CandValues p A (ccSolution p A) := fun _ => rfl
    have hs : ∀ vi ∈ p.voters.zipIdx, ccSolution p A (.satisfied vi.2) = if 1 ≤ util vi.1 A then 1 else 0 := by
      intro vi hvi
      simp only [ccSolution, utilAt_eq hvi]
    refine ⟨ccSolution p A, ⟨?_, ?_⟩, hcand.sol hA, ?_⟩
    · intro d hd
      rcases List.mem_append.1 hd with h | h
      · exact hcand.vars d h
      · obtain ⟨i, -, rfl⟩ := List.mem_map.1 h
        rw [inBounds_binary]
        simp only [ccSolution]
        split <;> simp
    · intro c hc
      rcases List.mem_cons.1 hc with rfl | h
      · exact hcand.size hA
      · obtain ⟨vi, hvi, rfl⟩ := List.mem_map.1 h
        rw [holds_plain]
        simp only [RelHolds, LinExp.eval_var]
        rw [approved_sum hp (mem_voters_of_zipIdx hvi) (fun c _ => hcand.binary c), hcand.sol hA, hs vi hvi]
        split
        · rename_i h; exact_mod_cast h
        · positivity
    · change (LinExp.sum _).eval _ = _
      rw [ccObj_eval, score_cc, voters_map_zipIdx]
      congr 1
      refine List.map_congr_left fun vi hvi => ?_
      rw [hs vi hvi]

/-- **C62** OR-Tools on CC: TypeError unless all weights are integers; otherwise the result answers the call as CC should. -/
theorem C62_ortools_cc {solve : Program → SolveResult} (hs : ExactSolver solve) (p : Profile) (hp : p.WF) (a : Args)
    (hv : ValidCall p a) :
    ((∀ v ∈ p.voters, ∃ z : ℤ, v.weight = z) →
      Answers a (ortoolsCC solve p a.k a.resolute a.maxNum) (ThieleOpt (marginalFct .cc) p a.k)) ∧
    ((¬ ∀ v ∈ p.voters, ∃ z : ℤ, v.weight = z) → ortoolsCC solve p a.k a.resolute a.maxNum = .error .typeError) := by
  have hint : ∀ q : ℚ, q.den = 1 ↔ ∃ z : ℤ, q = z := fun q =>
    ⟨fun h => ⟨q.num, ((Rat.den_eq_one_iff q).1 h).symm⟩, fun ⟨z, h⟩ => by rw [h]; rfl⟩
  have hall : p.voters.all (fun v => decide (v.weight.den = 1)) = true ↔ ∀ v ∈ p.voters, ∃ z : ℤ, v.weight = z := by
    rw [List.all_eq_true]
    refine forall₂_congr fun v _ => ?_
    rw [decide_eq_true_eq, hint]
  unfold ortoolsCC
  constructor
  · intro h
    rw [if_neg (by rw [hall.2 h]; simp)]
    exact enumeration_sorted hs thrCp_pos thrCp_le hv (C62_cc_program hp) (fun A hA => hA)
      (f := fun W => .ok (thieleScore (marginalFct .cc) p W)) (fun W _ _ => by rw [thieleScore_eq]) (exists_committee hv.le)
  · intro h
    rw [if_pos (by rw [hall]; exact h)]

end Abc

namespace Abc
open Spec

theorem answers_get {a : Args} {r : Except Err (List (List ℕ))} {S : Finset ℕ → Prop} (h : Answers a r S) (hS : ∃ A, S A)
    (hmax : ∀ n, a.max = some n → 1 ≤ n) : ∃ cs c, r = .ok cs ∧ pyGet cs 0 = .ok c := by
  unfold Answers at h
  cases hr : a.resolute with
  | true =>
    rw [hr] at h
    obtain ⟨W, rfl, -⟩ := h
    exact ⟨[W], W, rfl, rfl⟩
  | false =>
    rw [hr] at h
    cases hm : a.max with
    | none =>
      rw [hm] at h
      obtain ⟨cs, rfl, -, h3⟩ := h
      obtain ⟨A, hA⟩ := hS
      obtain ⟨W, hW, -⟩ := (h3 A).2 hA
      obtain ⟨c, _, _, e⟩ := pyGet_zero_of_ne_nil (List.ne_nil_of_mem hW)
      exact ⟨cs, c, rfl, e⟩
    | some n =>
      rw [hm] at h
      obtain ⟨cs, rfl, -, -, F, hF, hl⟩ := h
      obtain ⟨A, hA⟩ := hS
      have hpos : 0 < F.card := Finset.card_pos.2 ⟨A, (hF A).2 hA⟩
      have := hmax n hm
      have hne : cs ≠ [] := by
        rintro rfl
        simp at hl; omega
      obtain ⟨c, _, _, e⟩ := pyGet_zero_of_ne_nil hne
      exact ⟨cs, c, rfl, e⟩

theorem answers_then_get {a : Args} {r : Except Err (List (List ℕ))} {S : Finset ℕ → Prop} (h : Answers a r S) (hS : ∃ A, S A)
    (hmax : ∀ n, a.max = some n → 1 ≤ n) :
    Answers a (do let cs ← r; let _ ← pyGet cs 0; Except.ok cs) S := by
  obtain ⟨cs, c, rfl, e⟩ := answers_get h hS hmax
  simp only [bind, Except.bind, e]
  exact h

/-- A finite non-empty family has a maximal element. -/
theorem exists_opt {p : Profile} {k : ℕ} (hk : k ≤ p.numCand) (v : Finset ℕ → ℚ) :
    ∃ A, IsCommittee p k A ∧ ∀ B, IsCommittee p k B → v B ≤ v A := by
  obtain ⟨A, hA, hmax⟩ := (Finset.powersetCard k (Finset.range p.numCand)).exists_max_image v
    ⟨Finset.range k, by simpa [Finset.mem_powersetCard] using hk⟩
  exact ⟨A, Finset.mem_powersetCard.1 hA, fun B hB => hmax B (Finset.mem_powersetCard.2 hB)⟩

/-- **C62** `compute_thiele_method` for PAV, SLAV, CC and `b`-geometric rules (`b > 1`) with *any* of its algorithms — with an exact
solver — returns exactly the committees with maximal Thiele score (one of them if `resolute`, `min n …` of them with
`max_num_of_committees = n`). -/
theorem C62_compute_thiele (env : Env) (sid : String) (s : ScoreId) (solve : String → Program → SolveResult) (p : Profile)
    (hp : p.WF) (a : Args) (alg : String) (hal : prologue env sid p a = .ok alg) (hsid : env.scoreId sid = .ok s)
    (hsolve : ExactSolver (solve alg)) (hs : s = .pav ∨ s = .slav ∨ s = .cc ∨ ∃ b, 1 < b ∧ s = .geom b)
    (halg : alg ∈ thieleAlgorithms ∨ (alg = "ortools-cp" ∧ sid = "cc" ∧ s = .cc ∧ ∀ v ∈ p.voters, ∃ z : ℤ, v.weight = z)) :
    Answers a (computeThieleMethod env sid (thieleSolver solve sid (marginalFct s) p a) p a)
      (ThieleOpt (marginalFct s) p a.k) := by
  have hv := validCall_of_prologue hal
  obtain ⟨hpos, hdec⟩ := proper_scores hs
  have hex := exists_opt hv.le (score (marginalFct s) p)
  have hilp := C62_ilp_thiele hsolve (marginalFct s) p hp a hv hpos (fun i h1 _ => hdec i h1)
  have key : ∀ r, Answers a r (ThieleOpt (marginalFct s) p a.k) →
      (alg ≠ "branch-and-bound") → (alg ≠ "brute-force") → thieleSolver solve sid (marginalFct s) p a alg = r →
      Answers a (computeThieleMethod env sid (thieleSolver solve sid (marginalFct s) p a) p a)
        (ThieleOpt (marginalFct s) p a.k) := by
    intro r hr h1 h2 h3
    unfold computeThieleMethod
    rw [hal, hsid]
    have := answers_then_get hr hex hv.max
    simp only [bind, Except.bind] at this ⊢
    rw [if_neg h1, if_neg h2, h3]
    exact this
  rcases halg with h | ⟨rfl, rfl, rfl, hint⟩
  · simp only [thieleAlgorithms, List.mem_cons, List.not_mem_nil, or_false] at h
    rcases h with rfl | rfl | rfl | rfl | rfl
    · exact key _ hilp (by decide) (by decide) (by unfold thieleSolver; rw [if_pos (by decide)])
    · exact key _ hilp (by decide) (by decide) (by unfold thieleSolver; rw [if_pos (by decide)])
    · exact key _ hilp (by decide) (by decide) (by unfold thieleSolver; rw [if_pos (by decide)])
    · refine C22_bnb_optimal env sid s _ p hp a hal hsid ?_
      rcases hs with rfl | rfl | rfl | ⟨b, hb, rfl⟩
      · trivial
      · trivial
      · trivial
      · exact hb.le
    · refine C21_bruteforce_optimal env sid s _ p hp a hal hsid ?_
      intro i
      rcases hs with rfl | rfl | rfl | ⟨b, hb, rfl⟩
      all_goals simp only [marginalFct]
      · split <;> positivity
      · split
        · exact le_refl _
        · rename_i h
          have : (1 : ℚ) ≤ i := by exact_mod_cast Nat.one_le_iff_ne_zero.2 h
          apply one_div_nonneg.2; linarith
      · split <;> norm_num
      · have hb0 : (0 : ℚ) < b := by linarith
        split <;> positivity
  · refine key _ ((C62_ortools_cc hsolve p hp a hv).1 hint) (by decide) (by decide) ?_
    unfold thieleSolver
    rw [if_neg (by decide), if_pos (by decide)]

/-- There is an exact solver. -/
theorem exists_exactSolver : ∃ solve, ExactSolver solve := by
  classical
  refine ⟨fun P => if h : ∃ x, OptimalSol P x then .optimal h.choose
    else if ∃ x, Feasible P x then .other else .infeasible, fun P => ⟨fun h => ⟨h.choose, by simp only [dif_pos h], h.choose_spec⟩, fun h => ?_⟩⟩
  have h1 : ¬ ∃ x, OptimalSol P x := fun ⟨x, hx⟩ => h ⟨x, hx.1⟩
  simp only [dif_neg h1, if_neg h]

/-- The hypotheses are satisfiable: PAV with Gurobi on a profile of three voters. -/
example : ∃ solve : String → Program → SolveResult, (∀ alg, ExactSolver (solve alg)) ∧
    Answers { committeesize := 2, algorithm := "gurobi", resolute := false }
      (computeThieleMethod ⟨["gurobi"], fun _ => none, fun _ => none⟩ "pav"
        (thieleSolver solve "pav" (marginalFct .pav) ⟨3, [⟨[0, 1], 1⟩, ⟨[1, 2], 2⟩, ⟨[0], 1 / 2⟩], []⟩
          { committeesize := 2, algorithm := "gurobi", resolute := false })
        ⟨3, [⟨[0, 1], 1⟩, ⟨[1, 2], 2⟩, ⟨[0], 1 / 2⟩], []⟩ { committeesize := 2, algorithm := "gurobi", resolute := false })
      (ThieleOpt (marginalFct .pav) ⟨3, [⟨[0, 1], 1⟩, ⟨[1, 2], 2⟩, ⟨[0], 1 / 2⟩], []⟩ 2) := by
  obtain ⟨solve, hs⟩ := exists_exactSolver
  refine ⟨fun _ => solve, fun _ => hs, ?_⟩
  exact C62_compute_thiele _ "pav" .pav (fun _ => solve) _
    ⟨by decide, by decide, by decide, by decide +kernel⟩ _ "gurobi" (by decide +kernel) (by decide) hs (Or.inl rfl)
    (Or.inl (by decide))

/-- If the check fails — two consecutive scores with `f (i+1) ≥ f i` that are not both zero — the solver-based algorithms raise ValueError
(for instance `geom1`, or `geom0.5`, for which brute force works). -/
theorem C62_ilp_thiele_rejects (solve : Program → SolveResult) (f : ℕ → ℚ) (p : Profile) (k i : ℕ) (resolute : Bool) (max : Option ℕ)
    (hi : 1 ≤ i) (hik : i < k) (hle : f i ≤ f (i + 1)) (hz : ¬ (f i = 0 ∧ f (i + 1) = 0)) :
    ilpThiele solve f p k resolute max = .error .valueError := by
  unfold ilpThiele
  rw [if_pos]
  rw [List.all_eq_true]
  intro h
  have hz' : (f i, f (i + 1)) ∈ (scoreValues f k).zip (scoreValues f k).tail := by
    refine List.mem_iff_getElem?.2 ⟨i - 1, ?_⟩
    rw [List.getElem?_zip_eq_some]
    simp only [scoreValues, List.getElem?_map, List.getElem?_tail, List.getElem?_range (show i - 1 + 1 < k by omega),
      List.getElem?_range (show i - 1 < k by omega), Option.map_some]
    rw [show i - 1 + 1 = i by omega]
    simp
  have := h _ hz'
  simp only [gt_iff_lt, decide_eq_true_eq] at this
  rcases this with h | ⟨h1, h2⟩
  · exact absurd h (not_lt.2 hle)
  · exact hz ⟨h1.trans h2, h2⟩

end Abc
