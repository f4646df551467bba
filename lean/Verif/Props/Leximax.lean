import Verif.Props.ILPPhragmen
import Verif.Props.ILPMonroe
import Verif.Lemmas.Optimum
import Mathlib.Data.Fin.Tuple.Sort
import Mathlib.Data.List.GetD

/-!
# C70: leximax-Phragmén
-/

namespace Abc

open Spec

/-! ## The program -/

section program
variable {p : Profile} {k : ℕ} {bounds : List ℚ} {ε : ℚ}

theorem lmx_cand : ∀ d ∈ candVars p, d ∈ (leximaxphragmenProgram ε p k bounds).vars := fun d hd =>
  List.mem_append_left _ (List.mem_append_left _ (List.mem_append_left _ hd))

theorem lmx_load : ∀ d ∈ loadVars p, d ∈ (leximaxphragmenProgram ε p k bounds).vars := fun d hd =>
  List.mem_append_left _ (List.mem_append_left _ (List.mem_append_right _ hd))

theorem lmx_bound : ∀ d ∈ boundForVars p, d ∈ (leximaxphragmenProgram ε p k bounds).vars := fun d hd =>
  List.mem_append_left _ (List.mem_append_right _ hd)

theorem lmx_size : sizeConstr p k ∈ (leximaxphragmenProgram ε p k bounds).constrs :=
  List.mem_append_left _ (List.mem_append_left _ (List.mem_append_right _ List.mem_cons_self))

theorem lmx_loadC : ∀ c ∈ loadConstrs p, c ∈ (leximaxphragmenProgram ε p k bounds).constrs := fun c hc =>
  List.mem_append_left _ (List.mem_append_left _ (List.mem_append_right _ (List.mem_cons_of_mem _ hc)))

theorem lmx_boundC : ∀ c ∈ boundForConstrs p, c ∈ (leximaxphragmenProgram ε p k bounds).constrs := fun c hc =>
  List.mem_append_left _ (List.mem_append_left _ (List.mem_append_left _ hc))

theorem boundFor_binary {P : Program} {x : IVar → ℚ} (hx : Feasible P x) (hv : ∀ d ∈ boundForVars p, d ∈ P.vars) {i j : ℕ}
    (hi : i < p.voters.length) (hj : j < p.voters.length) : x (.boundFor i j) = 0 ∨ x (.boundFor i j) = 1 := by
  refine inBounds_binary.1 (hx.1 _ (hv _ ?_))
  unfold boundForVars
  exact List.mem_flatMap.2 ⟨i, List.mem_range.2 hi, List.mem_map.2 ⟨j, List.mem_range.2 hj, rfl⟩⟩

theorem rowSum_eval (n : ℕ) (g : ℕ → IVar) (x : IVar → ℚ) :
    (LinExp.sum ((List.range n).map (fun j => .var (g j)))).eval x = ∑ j ∈ Finset.range n, x (g j) := by
  rw [LinExp.eval_sum, List.map_map, sum_range_map]
  exact Finset.sum_congr rfl fun j _ => LinExp.eval_var x _

/-- The binary variables describe an order of the voters. -/
theorem boundFor_perm {P : Program} {x : IVar → ℚ} (hx : Feasible P x) (hv : ∀ d ∈ boundForVars p, d ∈ P.vars)
    (hc : ∀ c ∈ boundForConstrs p, c ∈ P.constrs) :
    ∃ σ : Equiv.Perm (Fin p.voters.length), ∀ i j : Fin p.voters.length, x (.boundFor i j) = if j = σ i then 1 else 0 := by
  have hb := fun {i j : ℕ} (hi : i < p.voters.length) (hj : j < p.voters.length) => boundFor_binary hx hv hi hj
  have hint : ∀ {i j : ℕ}, i < p.voters.length → j < p.voters.length → 0 ≤ x (.boundFor i j) ∧ ∃ z : ℤ, x (.boundFor i j) = z := by
    intro i j hi hj
    rcases hb hi hj with h | h <;> rw [h]
    · exact ⟨le_rfl, 0, by norm_num⟩
    · exact ⟨zero_le_one, 1, by norm_num⟩
  have hrow : ∀ i < p.voters.length, ∑ j ∈ Finset.range p.voters.length, x (.boundFor i j) = 1 := by
    intro i hi
    have h := hx.2 _ (hc _ (by
      unfold boundForConstrs
      exact List.mem_flatMap.2 ⟨i, List.mem_range.2 hi, List.mem_cons_self⟩))
    rw [holds_plain] at h
    simpa only [RelHolds, rowSum_eval, LinExp.eval_num] using h
  have hcol : ∀ j < p.voters.length, ∑ i ∈ Finset.range p.voters.length, x (.boundFor i j) = 1 := by
    intro i hi
    have h := hx.2 _ (hc _ (by
      unfold boundForConstrs
      exact List.mem_flatMap.2 ⟨i, List.mem_range.2 hi, List.mem_cons_of_mem _ List.mem_cons_self⟩))
    rw [holds_plain] at h
    simpa only [RelHolds, rowSum_eval, LinExp.eval_num] using h
  have h1 : ∀ i : Fin p.voters.length, ∃ j < p.voters.length, ∀ d < p.voters.length, x (.boundFor i d) = if d = j then 1 else 0 :=
    fun i => exists_unique_one (u := fun j => x (.boundFor i j)) (fun j hj => (hint i.2 hj).1) (fun j hj => (hint i.2 hj).2) (hrow i i.2)
  have h2 : ∀ j : Fin p.voters.length, ∃ i < p.voters.length, ∀ d < p.voters.length, x (.boundFor d j) = if d = i then 1 else 0 :=
    fun j => exists_unique_one (u := fun i => x (.boundFor i j)) (fun i hi => (hint hi j.2).1) (fun i hi => (hint hi j.2).2) (hcol j j.2)
  choose f hf1 hf2 using h1
  choose g hg1 hg2 using h2
  let F : Fin p.voters.length → Fin p.voters.length := fun i => ⟨f i, hf1 i⟩
  have hinj : Function.Injective F := by
    intro i i' e
    have e1 : x (.boundFor i (F i)) = 1 := by rw [hf2 i _ (F i).2, if_pos rfl]
    have e2 : x (.boundFor i' (F i)) = 1 := by rw [e, hf2 i' _ (F i').2, if_pos rfl]
    rw [hg2 (F i) _ i.2] at e1
    rw [hg2 (F i) _ i'.2] at e2
    split at e1
    · split at e2
      · next a b => exact Fin.ext (a.trans b.symm)
      · exact absurd e2 (by norm_num)
    · exact absurd e1 (by norm_num)
  refine ⟨Equiv.ofBijective F (Finite.injective_iff_bijective.1 hinj), fun i j => ?_⟩
  rw [hf2 i j j.2]
  simp only [Equiv.ofBijective_apply, F, Fin.ext_iff]

/-- A feasible solution yields a load distribution within the bounds. -/
theorem lmx_sound (hp : p.WF) {x : IVar → ℚ} (hx : Feasible (leximaxphragmenProgram ε p k bounds) x) :
    IsCommittee p k (solCommittee p x) ∧ LoadsWithin p ε bounds (solCommittee p x) (x .value) := by
  refine ⟨feas_committee hx lmx_cand lmx_size, ?_⟩
  obtain ⟨y, hy, hle⟩ := feas_loads hp hx lmx_load lmx_loadC
  obtain ⟨σ, hσ⟩ := boundFor_perm hx lmx_bound lmx_boundC
  refine ⟨y, hy, σ, fun i => (hle (σ i)).trans ?_⟩
  by_cases hi : (i : ℕ) < bounds.length
  · rw [List.getD_eq_getElem _ _ (by simpa using hi), List.getElem_map]
    have hc := hx.2 _ (List.mem_append_left _ (List.mem_append_right _ (List.mem_flatMap.2
      ⟨(bounds[i], (i : ℕ)), List.mem_zipIdx_iff_getElem?.2 (by simp [hi]), List.mem_map.2 ⟨_, mem_zipIdx_get p (σ i), rfl⟩⟩)))
    rw [holds_plain] at hc
    simp only [RelHolds, voterLoadExp_eval hp, LinExp.eval_add, LinExp.eval_num, LinExp.eval_scale, LinExp.eval_sub, LinExp.eval_var,
      hσ, if_true, sub_self, mul_zero, add_zero] at hc
    exact hc
  · rw [List.getD_eq_default _ _ (by simpa using hi)]
    have hc := hx.2 _ (List.mem_append_right _ (List.mem_map.2 ⟨_, mem_zipIdx_get p (σ i), rfl⟩))
    rw [holds_plain] at hc
    simp only [RelHolds, voterLoadExp_eval hp, LinExp.eval_add, LinExp.eval_var, LinExp.eval_sum, List.map_map] at hc
    refine hc.trans_eq ?_
    rw [sum_range_map, Finset.sum_eq_zero, add_zero]
    intro m hm
    rw [Finset.mem_range] at hm
    simp only [Function.comp, LinExp.eval_scale, LinExp.eval_var]
    by_cases hmn : m < p.voters.length
    · rw [show (IVar.boundFor m ↑(σ i)) = .boundFor ((⟨m, hmn⟩ : Fin p.voters.length) : ℕ) (σ i) from rfl, hσ, if_neg, mul_zero]
      intro e
      have := congrArg Fin.val (σ.injective e)
      simp only at this
      omega
    · have := i.2
      omega

/-- The solution describing a load distribution and an order of the voters. -/
noncomputable def lmxSolution (p : Profile) (A : Finset ℕ) (y : Fin p.voters.length → ℕ → ℚ) (σ : Equiv.Perm (Fin p.voters.length)) (v : ℚ) :
    IVar → ℚ
  | .cand c => if c ∈ A then 1 else 0
  | .load i c => loadValue p y i c
  | .boundFor i j => if h : i < p.voters.length ∧ j < p.voters.length then (if (⟨j, h.2⟩ : Fin p.voters.length) = σ ⟨i, h.1⟩ then 1 else 0) else 0
  | .value => v
  | _ => 0

theorem lmxSolution_bound (A : Finset ℕ) (y : Fin p.voters.length → ℕ → ℚ) (σ : Equiv.Perm (Fin p.voters.length)) (v : ℚ)
    (i j : Fin p.voters.length) : lmxSolution p A y σ v (.boundFor i j) = if j = σ i then 1 else 0 := by
  simp [lmxSolution]

theorem Spec.IsLoadDistribution.load_nonneg {A : Finset ℕ} {y : Fin p.voters.length → ℕ → ℚ} (h : IsLoadDistribution p A y)
    (i : Fin p.voters.length) : 0 ≤ loadOf p A y i := Finset.sum_nonneg fun c _ => h.nonneg i c

theorem lmx_complete (hp : p.WF) (hw : ∀ v ∈ p.voters, 1 ≤ v.weight) {A : Finset ℕ} (hA : IsCommittee p k A) {v : ℚ}
    (h : LoadsWithin p ε bounds A v) (h0 : 0 ≤ v) (hk : v ≤ k) (hlen : bounds.length < p.voters.length) :
    ∃ x, Feasible (leximaxphragmenProgram ε p k bounds) x ∧ solCommittee p x = A ∧ x .value = v := by
  obtain ⟨y, hy, σ, hσ⟩ := h
  have hcand : CandValues p A (lmxSolution p A y σ v) := fun _ => rfl
  obtain ⟨f1, f2, f3⟩ := loads_feas hp hw hy hcand (fun _ _ => rfl)
  have hcard : ∀ i, loadOf p A y i ≤ k := fun i => (load_le_card hp hw hy i).trans_eq (by rw [hA.2])
  refine ⟨lmxSolution p A y σ v, ⟨fun d hd => ?_, fun c hc => ?_⟩, hcand.sol hA, rfl⟩
  · rcases List.mem_append.1 hd with hd | hd
    · rcases List.mem_append.1 hd with hd | hd
      · rcases List.mem_append.1 hd with hd | hd
        · exact hcand.vars d hd
        · exact f1 d hd
      · unfold boundForVars at hd
        obtain ⟨i, hi, hd⟩ := List.mem_flatMap.1 hd
        obtain ⟨j, hj, rfl⟩ := List.mem_map.1 hd
        rw [inBounds_binary]
        have := lmxSolution_bound A y σ v ⟨i, List.mem_range.1 hi⟩ ⟨j, List.mem_range.1 hj⟩
        simp only at this
        rw [this]
        split <;> simp
    · rw [List.mem_singleton] at hd
      subst hd
      refine ⟨h0, fun u hu => ?_, fun h => by simp [loadBoundVar] at h⟩
      simp only [loadBoundVar, Option.some.injEq] at hu
      subst hu
      exact hk
  · rcases List.mem_append.1 hc with hc | hc
    · rcases List.mem_append.1 hc with hc | hc
      · rcases List.mem_append.1 hc with hc | hc
        · unfold boundForConstrs at hc
          obtain ⟨i, hi, hc⟩ := List.mem_flatMap.1 hc
          have hi' := List.mem_range.1 hi
          simp only [List.mem_cons, List.not_mem_nil, or_false] at hc
          rcases hc with rfl | rfl
          · rw [holds_plain]
            simp only [RelHolds, rowSum_eval, LinExp.eval_num]
            rw [Finset.sum_range]
            have : ∀ j : Fin p.voters.length, lmxSolution p A y σ v (.boundFor i j) = if j = σ ⟨i, hi'⟩ then 1 else 0 :=
              fun j => lmxSolution_bound A y σ v ⟨i, hi'⟩ j
            simp only [this, Finset.sum_ite_eq', Finset.mem_univ, if_true]
          · rw [holds_plain]
            simp only [RelHolds, rowSum_eval, LinExp.eval_num]
            rw [Finset.sum_range]
            have : ∀ j : Fin p.voters.length, lmxSolution p A y σ v (.boundFor j i) = if j = σ.symm ⟨i, hi'⟩ then 1 else 0 :=
              fun j => by
                rw [show (IVar.boundFor (↑j) i) = .boundFor j ((⟨i, hi'⟩ : Fin p.voters.length) : ℕ) from rfl, lmxSolution_bound]
                simp only [Equiv.eq_symm_apply, eq_comm]
            simp only [this, Finset.sum_ite_eq', Finset.mem_univ, if_true]
        · rcases List.mem_cons.1 hc with rfl | hc
          · exact hcand.size hA
          · exact f2 c hc
      · obtain ⟨bi, hbi, hc⟩ := List.mem_flatMap.1 hc
        obtain ⟨vj, hvj, rfl⟩ := List.mem_map.1 hc
        obtain ⟨j, rfl⟩ := zipIdx_get hvj
        obtain ⟨b, i⟩ := bi
        have hb := List.mem_zipIdx_iff_getElem?.1 hbi
        simp only at hb
        obtain ⟨hi, hbe⟩ := List.getElem?_eq_some_iff.1 hb
        have hin : i < p.voters.length := by omega
        have hσi := hσ ⟨i, hin⟩
        rw [List.getD_eq_getElem _ _ (by simpa using hi), List.getElem_map] at hσi
        simp only at hσi
        rw [hbe] at hσi
        rw [holds_plain]
        simp only [RelHolds, voterLoadExp_eval hp, LinExp.eval_add, LinExp.eval_num, LinExp.eval_scale, LinExp.eval_sub,
          LinExp.eval_var, f3]
        rw [show (IVar.boundFor i ↑j) = .boundFor ((⟨i, hin⟩ : Fin p.voters.length) : ℕ) j from rfl, lmxSolution_bound]
        change loadOf p A y j ≤ _
        split
        · next e => subst e; linarith
        · have := hcard j
          have := hy.load_nonneg (σ ⟨i, hin⟩)
          linarith
    · obtain ⟨vj, hvj, rfl⟩ := List.mem_map.1 hc
      obtain ⟨j, rfl⟩ := zipIdx_get hvj
      rw [holds_plain]
      simp only [RelHolds, voterLoadExp_eval hp, LinExp.eval_add, LinExp.eval_var, LinExp.eval_sum, List.map_map, f3]
      change loadOf p A y j ≤ v + _
      rw [sum_range_map]
      have hnn : ∀ m ∈ Finset.range bounds.length, 0 ≤ ((LinExp.eval (lmxSolution p A y σ v)) ∘
          fun i => LinExp.scale (k : ℚ) (.var (.boundFor i j))) m := by
        intro m hm
        have hm' : m < p.voters.length := by rw [Finset.mem_range] at hm; omega
        simp only [Function.comp, LinExp.eval_scale, LinExp.eval_var]
        rw [show (IVar.boundFor m ↑j) = .boundFor ((⟨m, hm'⟩ : Fin p.voters.length) : ℕ) j from rfl, lmxSolution_bound]
        split <;> simp
      by_cases hj : ((σ.symm j : Fin p.voters.length) : ℕ) < bounds.length
      · have := Finset.single_le_sum hnn (Finset.mem_range.2 hj)
        simp only [Function.comp, LinExp.eval_scale, LinExp.eval_var, lmxSolution_bound, Equiv.apply_symm_apply, if_true, mul_one] at this
        have h2 := hcard j
        simp only [Function.comp, LinExp.eval_scale, LinExp.eval_var]
        linarith
      · have h1 := hσ (σ.symm j)
        rw [List.getD_eq_default _ _ (by simpa using hj), Equiv.apply_symm_apply] at h1
        have := Finset.sum_nonneg hnn
        linarith

end program

/-! ## The bounds -/

section bounds
variable {p : Profile} {k : ℕ} {bounds : List ℚ} {ε : ℚ} {A : Finset ℕ} {v : ℚ}

theorem getD_mono {l : List ℚ} {i : ℕ} {t : ℚ} (h : v ≤ t) : l.getD i v ≤ l.getD i t := by
  by_cases hi : i < l.length
  · rw [List.getD_eq_getElem _ _ hi, List.getD_eq_getElem _ _ hi]
  · rw [List.getD_eq_default _ _ (by omega), List.getD_eq_default _ _ (by omega)]; exact h

theorem Spec.LoadsWithin.mono (h : LoadsWithin p ε bounds A v) {t : ℚ} (hv : v ≤ t) : LoadsWithin p ε bounds A t := by
  obtain ⟨x, hx, σ, hσ⟩ := h
  exact ⟨x, hx, σ, fun i => (hσ i).trans (getD_mono hv)⟩

theorem Spec.LoadsWithin.nonneg (h : LoadsWithin p ε bounds A v) (hlen : bounds.length < p.voters.length) : 0 ≤ v := by
  obtain ⟨x, hx, σ, hσ⟩ := h
  have := hσ ⟨bounds.length, hlen⟩
  rw [List.getD_eq_default _ _ (by simp)] at this
  exact (hx.load_nonneg _).trans this

theorem Spec.LoadsWithin.cap (hp : p.WF) (hw : ∀ v ∈ p.voters, 1 ≤ v.weight) (hA : IsCommittee p k A)
    (h : LoadsWithin p ε bounds A v) : LoadsWithin p ε bounds A (min v k) := by
  obtain ⟨x, hx, σ, hσ⟩ := h
  refine ⟨x, hx, σ, fun i => ?_⟩
  have h1 := hσ i
  by_cases hi : (i : ℕ) < (bounds.map (· + ε)).length
  · rw [List.getD_eq_getElem _ _ hi] at h1 ⊢; exact h1
  · rw [List.getD_eq_default _ _ (by omega)] at h1 ⊢
    exact le_min h1 ((load_le_card hp hw hx _).trans_eq (by rw [hA.2]))

theorem loadsWithin_nil : LoadsWithin p ε [] A v ↔ LoadWithin p A v := by
  constructor
  · rintro ⟨x, hx, σ, hσ⟩
    refine ⟨x, hx, fun i => ?_⟩
    have := hσ (σ.symm i)
    rw [Equiv.apply_symm_apply] at this
    simpa [loadOf] using this
  · rintro ⟨x, hx, h⟩
    exact ⟨x, hx, 1, fun i => by simpa [loadOf] using h i⟩

/-- The bound reached in one level remains possible in the next level. -/
theorem Spec.LoadsWithin.level (hε : 0 ≤ ε) (h : LoadsWithin p ε bounds A v) : LoadsWithin p ε (bounds ++ [v]) A v := by
  obtain ⟨x, hx, σ, hσ⟩ := h
  refine ⟨x, hx, σ, fun i => (hσ i).trans ?_⟩
  rw [List.map_append]
  by_cases hi : (i : ℕ) < (bounds.map (· + ε)).length
  · rw [List.getD_append _ _ _ _ hi]
  · rw [List.getD_append_right _ _ _ _ (by omega), List.getD_eq_default _ _ (by omega)]
    cases (i : ℕ) - (bounds.map (· + ε)).length <;> simp [hε]

/-- The program with the committee fixed. -/
noncomputable def lmxFixed (ε : ℚ) (p : Profile) (k : ℕ) (bounds : List ℚ) (A : Finset ℕ) : Program :=
  { leximaxphragmenProgram ε p k bounds with
    constrs := (leximaxphragmenProgram ε p k bounds).constrs ++ A.toList.map (fun c => { lhs := .var (.cand c), rel := .ge, rhs := .num 1 }) }

theorem lmx_obj (x : IVar → ℚ) : (leximaxphragmenProgram ε p k bounds).obj.eval x = - x .value := by
  change (LinExp.scale (-1) (.var .value)).eval x = _
  rw [LinExp.eval_scale, LinExp.eval_var, neg_one_mul]

theorem lmx_guard {c : Constr} (hc : c ∈ (leximaxphragmenProgram ε p k bounds).constrs) : c.guard = none := by
  simp only [leximaxphragmenProgram, boundForConstrs, loadConstrs, sizeConstr, List.mem_append, List.mem_cons, List.mem_flatMap,
    List.mem_map, List.not_mem_nil, or_false] at hc
  rcases hc with ((⟨_, _, rfl | rfl⟩ | rfl | ⟨_, _, rfl⟩) | ⟨_, _, _, _, rfl⟩) | ⟨_, _, rfl⟩ <;> rfl

/-- Every committee that can be within the bounds has a smallest next bound. -/
theorem exists_nextBound (hp : p.WF) (hw : ∀ v ∈ p.voters, 1 ≤ v.weight) (hA : IsCommittee p k A)
    (hlen : bounds.length < p.voters.length) (h : ∃ v, LoadsWithin p ε bounds A v) :
    ∃ m, ∀ t, LoadsWithin p ε bounds A t ↔ m ≤ t := by
  have hsub : ∀ {x}, Feasible (lmxFixed ε p k bounds A) x → Feasible (leximaxphragmenProgram ε p k bounds) x ∧ solCommittee p x = A := by
    intro x hx
    have hf : Feasible (leximaxphragmenProgram ε p k bounds) x := ⟨hx.1, fun c hc => hx.2 c (List.mem_append_left _ hc)⟩
    refine ⟨hf, ?_⟩
    have hcom := feas_committee hf lmx_cand lmx_size
    symm
    refine Finset.eq_of_subset_of_card_le (fun c hc => ?_) (by rw [hcom.2, hA.2])
    have h1 := hx.2 _ (List.mem_append_right _ (List.mem_map.2 ⟨c, Finset.mem_toList.2 hc, rfl⟩))
    rw [holds_plain] at h1
    simp only [RelHolds, LinExp.eval_var, LinExp.eval_num] at h1
    have hlt : c < p.numCand := by simpa using hA.1 hc
    rw [solCommittee, Finset.mem_filter, Finset.mem_range]
    refine ⟨hlt, ?_⟩
    rcases feas_cand hf lmx_cand c hlt with h0 | h0
    · rw [h0] at h1; exact absurd h1 (by norm_num)
    · exact h0
  have hcomp : ∀ {t}, LoadsWithin p ε bounds A t → ∃ x, Feasible (lmxFixed ε p k bounds A) x ∧ x .value ≤ t := by
    intro t ht
    have ht' := ht.cap hp hw hA
    obtain ⟨x, hx, hs, e⟩ := lmx_complete hp hw hA ht' (ht'.nonneg hlen) (min_le_right _ _) hlen
    refine ⟨x, ⟨hx.1, fun c hc => ?_⟩, by rw [e]; exact min_le_left _ _⟩
    rcases List.mem_append.1 hc with hc | hc
    · exact hx.2 c hc
    · obtain ⟨d, hd, rfl⟩ := List.mem_map.1 hc
      rw [Finset.mem_toList, ← hs, solCommittee, Finset.mem_filter] at hd
      rw [holds_plain]
      simp only [RelHolds, LinExp.eval_var, LinExp.eval_num, hd.2, le_refl]
  have hfin : Finitary (lmxFixed ε p k bounds A) := by
    refine ⟨fun d hd hi => ?_, fun c hc b hb => ?_⟩
    · simp only [lmxFixed, leximaxphragmenProgram, candVars, loadVars, boundForVars, loadBoundVar, List.mem_append, List.mem_map,
        List.mem_flatMap, List.mem_singleton] at hd
      rcases hd with ((⟨_, _, rfl⟩ | ⟨_, _, _, _, rfl⟩) | ⟨_, _, _, _, rfl⟩) | rfl
      all_goals exact ⟨_, rfl⟩
    · rcases List.mem_append.1 hc with hc | hc
      · rw [lmx_guard hc] at hb; exact absurd hb (by simp)
      · obtain ⟨c, -, rfl⟩ := List.mem_map.1 hc
        simp at hb
  obtain ⟨t, ht⟩ := h
  obtain ⟨x0, hx0, -⟩ := hcomp ht
  have hobj : ∀ x, (lmxFixed ε p k bounds A).obj.eval x = - x .value :=
    lmx_obj (p := p) (k := k) (bounds := bounds) (ε := ε)
  obtain ⟨x, hx, hopt⟩ := exists_optimalSol hfin (B := 0) (fun x hx => by
    obtain ⟨hf, -⟩ := hsub hx
    have := (lmx_sound hp hf).2.nonneg hlen
    rw [hobj]; linarith) ⟨x0, hx0⟩
  refine ⟨x .value, fun t => ⟨fun ht => ?_, fun ht => ?_⟩⟩
  · obtain ⟨y, hy, hyt⟩ := hcomp ht
    have := hopt y hy
    rw [hobj, hobj] at this
    linarith
  · obtain ⟨hf, e⟩ := hsub hx
    have := (lmx_sound hp hf).2
    rw [e] at this
    exact this.mono ht

/-- The smallest next bound of a committee. -/
noncomputable def nextOf (ε : ℚ) (p : Profile) (bounds : List ℚ) (A : Finset ℕ) : ℚ :=
  open Classical in if h : ∃ m, ∀ t, LoadsWithin p ε bounds A t ↔ m ≤ t then h.choose else 0

theorem nextOf_spec (hp : p.WF) (hw : ∀ v ∈ p.voters, 1 ≤ v.weight) (hA : IsCommittee p k A)
    (hlen : bounds.length < p.voters.length) (h : ∃ v, LoadsWithin p ε bounds A v) (t : ℚ) :
    LoadsWithin p ε bounds A t ↔ nextOf ε p bounds A ≤ t := by
  have h := exists_nextBound hp hw hA hlen h
  unfold nextOf
  rw [dif_pos h]
  exact h.choose_spec t

/-- **C70** The program of leximax-Phragmén for the current bounds: the committees that can be within these bounds, valued by minus the
smallest next bound. -/
theorem C70_leximax_program (hp : p.WF) (hw : ∀ v ∈ p.voters, 1 ≤ v.weight) (hlen : bounds.length < p.voters.length) :
    Encodes (leximaxphragmenProgram ε p k bounds) p (fun A => IsCommittee p k A ∧ ∃ v, LoadsWithin p ε bounds A v)
      (fun A => - nextOf ε p bounds A) := by
  refine ⟨fun x hx => feas_cand hx lmx_cand, fun x hx => ?_, fun A hA => ?_⟩
  · obtain ⟨hc, hl⟩ := lmx_sound hp hx
    refine ⟨⟨hc, _, hl⟩, ?_⟩
    rw [lmx_obj, neg_le_neg_iff]
    exact (nextOf_spec hp hw hc hlen ⟨_, hl⟩ _).1 hl
  · have h1 := (nextOf_spec hp hw hA.1 hlen hA.2 _).2 le_rfl
    have hk := (nextOf_spec hp hw hA.1 hlen hA.2 _).1 (h1.cap hp hw hA.1)
    obtain ⟨x, hx, hs, e⟩ := lmx_complete hp hw hA.1 h1 (h1.nonneg hlen) (hk.trans (min_le_right _ _)) hlen
    exact ⟨x, hx, hs, by rw [lmx_obj, e]⟩

theorem Spec.LevelBounds.exists (hp : p.WF) (hn : p.voters ≠ []) (hk : 0 < k) (hen : k ≤ (approvedSet p).card) {δ : ℚ} (hε : 0 ≤ ε)
    (h : LevelBounds ε δ p k bounds) : ∃ B, IsCommittee p k B ∧ ∃ v, LoadsWithin p ε bounds B v := by
  cases h with
  | nil =>
    obtain ⟨A, hA, hs⟩ := exists_approved_committee hp hen
    refine ⟨A, hA, minLoad p A, ?_⟩
    rw [loadsWithin_nil, minLoad_spec hp hn hs (Finset.card_pos.1 (by rw [hA.2]; exact hk))]
  | level _ hnx _ =>
    obtain ⟨⟨B, hB, hl⟩, -⟩ := hnx
    exact ⟨B, hB, _, hl.level hε⟩

end bounds

theorem accuracy_nonneg : (0 : ℚ) ≤ accuracy := by norm_num [accuracy]

theorem isCloseZero_neg {v : ℚ} (h : 0 ≤ v) : isCloseZero (-v) = decide (v ≤ cmpAccuracy) := by
  unfold isCloseZero
  rw [abs_neg, abs_of_nonneg h]
  refine decide_eq_decide.2 ⟨fun hm => ?_, fun hm => hm.trans (le_max_right _ _)⟩
  rcases le_max_iff.1 hm with h1 | h1
  · have : cmpAccuracy * v ≤ 1 / 2 * v := mul_le_mul_of_nonneg_right (by norm_num [cmpAccuracy, accuracy]) h
    have h0 : v ≤ 0 := by linarith
    exact h0.trans (by norm_num [cmpAccuracy, accuracy])
  · exact h1

theorem nextBound_of_max {p : Profile} (hp : p.WF) (hw : ∀ v ∈ p.voters, 1 ≤ v.weight) {k : ℕ} {bounds : List ℚ}
    (hlen : bounds.length < p.voters.length) {m : ℚ} {A : Finset ℕ} (hA : IsCommittee p k A ∧ ∃ v, LoadsWithin p accuracy bounds A v)
    (e : - nextOf accuracy p bounds A = m)
    (hmax : ∀ B, (IsCommittee p k B ∧ ∃ v, LoadsWithin p accuracy bounds B v) → - nextOf accuracy p bounds B ≤ m) :
    IsNextBound accuracy p k bounds (-m) := by
  refine ⟨⟨A, hA.1, (nextOf_spec hp hw hA.1 hlen hA.2 _).2 (by linarith)⟩, fun B t hB ht => ?_⟩
  have h1 := (nextOf_spec hp hw hB hlen ⟨t, ht⟩ _).1 ht
  have h2 := hmax B ⟨hB, t, ht⟩
  linarith

theorem leximaxphragmenLoop_spec {solve : Program → SolveResult} (hs : ExactSolver solve) {p : Profile} (hp : p.WF) (hn : p.voters ≠ [])
    (hw : ∀ v ∈ p.voters, 1 ≤ v.weight) {k : ℕ} (hk : 0 < k) (hkm : k ≤ p.numCand) (hen : k ≤ (approvedSet p).card) (n : ℕ) (bounds : List ℚ)
    (hlen : n + bounds.length + 1 = p.voters.length) (hb : LevelBounds accuracy cmpAccuracy p k bounds) :
    ∃ bs, leximaxphragmenLoop solve p k n bounds = .ok bs ∧ LevelBounds accuracy cmpAccuracy p k bs ∧ bs.length < p.voters.length ∧
      ∀ v, IsNextBound accuracy p k bs v → bs.length + 1 = p.voters.length ∨ v ≤ cmpAccuracy := by
  induction n generalizing bounds with
  | zero => exact ⟨bounds, rfl, hb, by omega, fun v _ => Or.inl (by omega)⟩
  | succ n ih =>
    have hl : bounds.length < p.voters.length := by omega
    obtain ⟨cs, m, e, ⟨A, hA, hAm, hmax⟩, -⟩ := C61_enumeration (score := none) (a := { committeesize := k, resolute := true }) hs thrMip_pos
      thrMip_le ⟨by simp only [Args.k, Int.toNat_natCast]; omega, by simpa [Args.k] using hkm, hn, by simp, by simp⟩
      (by simpa [Args.k] using C70_leximax_program hp hw hl) (fun A hA => hA.1)
      (fun f hf => by simp at hf) (hb.exists hp hn hk hen accuracy_nonneg)
    have hnx := nextBound_of_max hp hw hl hA hAm hmax
    have hnn : 0 ≤ -m := by
      obtain ⟨⟨B, -, hB⟩, -⟩ := hnx
      exact hB.nonneg hl
    have e' : optimizeRule solve thrMip none p k true none (leximaxphragmenProgram accuracy p k bounds) = .ok (cs, m) := by
      simpa [Args.k, Args.maxNum] using e
    unfold leximaxphragmenLoop
    rw [e']
    simp only [bind, Except.bind]
    have hcz := isCloseZero_neg hnn
    rw [neg_neg] at hcz
    rw [hcz]
    by_cases hc : -m ≤ cmpAccuracy
    · rw [if_pos (by simpa using hc)]
      refine ⟨bounds, rfl, hb, hl, fun v hv => Or.inr ?_⟩
      obtain ⟨⟨B, hB1, hB2⟩, -⟩ := hnx
      exact (hv.2 B _ hB1 hB2).trans hc
    · rw [if_neg (by simpa using hc)]
      exact ih (bounds ++ [-m]) (by simp; omega) (.level hb hnx (not_le.1 hc))

/-! ## The bounds are unique -/

theorem Spec.IsNextBound.unique {ε : ℚ} {p : Profile} {k : ℕ} {bounds : List ℚ} {v w : ℚ} (h1 : IsNextBound ε p k bounds v)
    (h2 : IsNextBound ε p k bounds w) : v = w := by
  obtain ⟨⟨B, hB, hl⟩, hmin⟩ := h1
  obtain ⟨⟨C, hC, hm⟩, hmin'⟩ := h2
  exact le_antisymm (hmin C _ hC hm) (hmin' B _ hB hl)

/-- Each bound is the next bound after those before it. -/
theorem Spec.LevelBounds.get {ε δ : ℚ} {p : Profile} {k : ℕ} {bounds : List ℚ} (h : LevelBounds ε δ p k bounds) (i : ℕ)
    (hi : i < bounds.length) : IsNextBound ε p k (bounds.take i) bounds[i] ∧ δ < bounds[i] := by
  induction h with
  | nil => simp at hi
  | @level bs v hb hnx hδ ih =>
    simp only [List.length_append, List.length_singleton] at hi
    rcases Nat.lt_succ_iff_lt_or_eq.1 hi with h | rfl
    · rw [List.getElem_append_left h, List.take_append_of_le_length h.le]
      exact ih h
    · rw [List.getElem_append_right le_rfl, List.take_append_of_le_length le_rfl, List.take_length]
      simpa using ⟨hnx, hδ⟩

theorem Spec.LevelBounds.take_eq {ε δ : ℚ} {p : Profile} {k : ℕ} {b c : List ℚ} (hb : LevelBounds ε δ p k b) (hc : LevelBounds ε δ p k c)
    (i : ℕ) (hib : i ≤ b.length) (hic : i ≤ c.length) : b.take i = c.take i := by
  induction i with
  | zero => simp
  | succ i ih =>
    have e := ih (by omega) (by omega)
    rw [List.take_succ_eq_append_getElem (by omega), List.take_succ_eq_append_getElem (by omega), e]
    congr 2
    have h1 := (hb.get i (by omega)).1
    rw [e] at h1
    exact h1.unique (hc.get i (by omega)).1

/-- The final bounds are unique. -/
theorem levelBounds_unique {ε δ : ℚ} {p : Profile} {k n : ℕ} {b c : List ℚ} (hb : LevelBounds ε δ p k b) (hc : LevelBounds ε δ p k c)
    (hbn : b.length < n) (hcn : c.length < n) {v w : ℚ} (hv : IsNextBound ε p k b v) (hw : IsNextBound ε p k c w)
    (hb1 : b.length + 1 = n ∨ v ≤ δ) (hc1 : c.length + 1 = n ∨ w ≤ δ) : b = c := by
  have key : ∀ {b c : List ℚ} {v : ℚ}, LevelBounds ε δ p k b → LevelBounds ε δ p k c → c.length < n → IsNextBound ε p k b v →
      (b.length + 1 = n ∨ v ≤ δ) → ¬ b.length < c.length := by
    intro b c v hb hc hcn hv hb1 hlt
    obtain ⟨h1, h2⟩ := hc.get b.length hlt
    rw [← hb.take_eq hc b.length le_rfl hlt.le, List.take_length] at h1
    rcases hb1 with h | h
    · omega
    · rw [hv.unique h1] at h
      exact absurd h2 (not_lt.2 h)
  have e : b.length = c.length := by
    have := key hb hc hcn hv hb1
    have := key hc hb hbn hw hc1
    omega
  have := hb.take_eq hc b.length le_rfl e.le
  rwa [List.take_length, e, List.take_length] at this

/-- **C70** Gurobi on leximax-Phragmén, at least `k` approved candidates, all weights at least 1: exactly the committees that win if the
levels are considered one after the other with the tolerances of the code. -/
theorem C70_gurobi_leximaxphragmen {solve : Program → SolveResult} (hs : ExactSolver solve) (p : Profile) (hp : p.WF)
    (hw : ∀ v ∈ p.voters, 1 ≤ v.weight) (a : Args) (hv : ValidCall p a) (hen : a.k ≤ p.approvedCandidates.length) :
    Answers a (gurobiLeximaxphragmen solve p a.k a.resolute a.maxNum) (LevelWinner accuracy cmpAccuracy cmpAccuracy p a.k) := by
  have hen' : a.k ≤ (approvedSet p).card := by rw [approvedSet_card]; exact hen
  have hlpos : 0 < p.voters.length := List.length_pos_iff.2 hv.voters
  obtain ⟨bs, e1, hb, hlen, hlast⟩ := leximaxphragmenLoop_spec hs hp hv.voters hw hv.pos hv.le hen' (p.voters.length - 1) []
    (by simp; omega) .nil
  obtain ⟨cs, m, e, ⟨A, hA, hAm, hmax⟩, -, -, -, hAns⟩ := C61_enumeration (score := none) hs thrMip_pos thrMip_le hv
    (C70_leximax_program hp hw hlen) (fun A hA => hA.1) (fun f hf => by simp at hf) (hb.exists hp hv.voters hv.pos hen' accuracy_nonneg)
  have hnx := nextBound_of_max hp hw hlen hA hAm hmax
  unfold gurobiLeximaxphragmen
  rw [if_neg (by omega), e1]
  simp only [bind, Except.bind]
  rw [e]
  have : (fun A => (IsCommittee p a.k A ∧ ∃ v, LoadsWithin p accuracy bs A v) ∧
      ∀ B, (IsCommittee p a.k B ∧ ∃ v, LoadsWithin p accuracy bs B v) → -nextOf accuracy p bs B - cmpTol none ≤ -nextOf accuracy p bs A) =
      LevelWinner accuracy cmpAccuracy cmpAccuracy p a.k := by
    funext B
    refine propext ⟨fun ⟨h1, h2⟩ => ?_, fun h => ?_⟩
    · refine ⟨bs, -m, hb, hnx, hlen, hlast _ hnx, h1.1, ?_⟩
      rw [nextOf_spec hp hw h1.1 hlen h1.2]
      have := h2 A hA
      simp only [cmpTol, Option.isSome_none, Bool.false_eq_true, if_false] at this
      linarith
    · obtain ⟨bs', v, hb', hnx', hlen', hlast', hB, hBl⟩ := h
      obtain rfl := levelBounds_unique hb' hb hlen' hlen hnx' hnx hlast' (hlast _ hnx)
      obtain rfl := hnx'.unique hnx
      refine ⟨⟨hB, _, hBl⟩, fun C hC => ?_⟩
      rw [nextOf_spec hp hw hB hlen ⟨_, hBl⟩] at hBl
      have := hmax C hC
      simp only [cmpTol, Option.isSome_none, Bool.false_eq_true, if_false]
      linarith
  rw [this] at hAns
  exact hAns

/-! ## Without tolerance: leximax -/

section exact
variable {p : Profile} {k : ℕ}

/-- Sorted loads exist. -/
theorem exists_sortedLoads (A : Finset ℕ) (x : Fin p.voters.length → ℕ → ℚ) : ∃ l, SortedLoads p A x l := by
  refine ⟨fun i => loadOf p A x (Tuple.sort (loadOf p A x) (Fin.rev i)), ?_, Fin.revPerm.trans (Tuple.sort (loadOf p A x)), fun i => by simp⟩
  intro i j hij
  exact Tuple.monotone_sort (loadOf p A x) (Fin.rev_le_rev.2 hij)

/-- If the loads can be ordered to be below a decreasing vector, then the sorted loads are below it. -/
theorem sorted_le {n : ℕ} {l M : Fin n → ℚ} (hl : Antitone l) (hM : Antitone M) (τ : Equiv.Perm (Fin n)) (h : ∀ i, l (τ i) ≤ M i)
    (i : Fin n) : l i ≤ M i := by
  by_contra hcon
  push Not at hcon
  -- the entries `0, …, i` of `l` exceed `M i`, so they are among the first `i` ones after `τ`
  have hsub : (Finset.Iic i).image τ.symm ⊆ Finset.Iio i := by
    intro j hj
    obtain ⟨q, hq, rfl⟩ := Finset.mem_image.1 hj
    rw [Finset.mem_Iio]
    by_contra hge
    push Not at hge
    have h1 := h (τ.symm q)
    rw [Equiv.apply_symm_apply] at h1
    have h2 := hM hge
    have h3 := hl (Finset.mem_Iic.1 hq)
    linarith
  have := Finset.card_le_card hsub
  rw [Finset.card_image_of_injective _ τ.symm.injective, Fin.card_Iic, Fin.card_Iio] at this
  omega

/-- The vector of all bounds. -/
def boundAt (bounds : List ℚ) (v : ℚ) (i : ℕ) : ℚ := bounds.getD i v

theorem map_add_zero (l : List ℚ) : l.map (· + (0 : ℚ)) = l := by simp

theorem levelBounds_antitone {ε δ : ℚ} (hε : 0 ≤ ε) {bounds : List ℚ} {v : ℚ} (hb : LevelBounds ε δ p k bounds)
    (hnx : IsNextBound ε p k bounds v) {i j : ℕ} (h : i ≤ j) : bounds.getD j v ≤ bounds.getD i v := by
  have step : ∀ i, bounds.getD (i + 1) v ≤ bounds.getD i v := by
    intro i
    rcases lt_trichotomy (i + 1) bounds.length with hi | hi | hi
    · rw [List.getD_eq_getElem _ _ hi, List.getD_eq_getElem _ _ (by omega)]
      obtain ⟨⟨⟨B, hB, hl⟩, -⟩, -⟩ := hb.get i (by omega)
      refine (hb.get (i + 1) hi).1.2 B _ hB ?_
      rw [List.take_succ_eq_append_getElem (by omega)]
      exact hl.level hε
    · rw [List.getD_eq_default _ _ (by omega), List.getD_eq_getElem _ _ (by omega)]
      obtain ⟨⟨⟨B, hB, hl⟩, -⟩, -⟩ := hb.get i (by omega)
      refine hnx.2 B _ hB ?_
      have := hl.level hε
      rwa [← List.take_succ_eq_append_getElem (by omega), hi, List.take_length] at this
    · rw [List.getD_eq_default _ _ (by omega), List.getD_eq_default _ _ (by omega)]
  induction j, h using Nat.le_induction with
  | base => exact le_rfl
  | succ j _ ih => exact (step j).trans ih

theorem sorted_loadsWithin {A : Finset ℕ} {x : Fin p.voters.length → ℕ → ℚ} {l : Fin p.voters.length → ℚ} (hx : IsLoadDistribution p A x)
    (hl : SortedLoads p A x l) {bounds : List ℚ} (j : Fin p.voters.length) (hj : bounds.length = j)
    (h : ∀ i < j, l i ≤ bounds.getD i 0) : LoadsWithin p 0 bounds A (l j) := by
  obtain ⟨ha, σ, hσ⟩ := hl
  refine ⟨x, hx, σ, fun i => ?_⟩
  rw [← hσ, map_add_zero]
  by_cases hi : i < j
  · have := h i hi
    have hi' : (i : ℕ) < bounds.length := by rw [hj]; exact hi
    rw [List.getD_eq_getElem _ _ hi'] at this ⊢
    exact this
  · rw [List.getD_eq_default _ _ (by rw [hj]; simpa using hi)]
    exact ha (not_lt.1 hi)

/-- No sorted load vector comes before the vector of the bounds. -/
theorem not_before_bounds {bounds : List ℚ} {v : ℚ} (hb : LevelBounds 0 0 p k bounds) (hnx : IsNextBound 0 p k bounds v)
    (hlast : bounds.length + 1 = p.voters.length ∨ v ≤ 0) {B : Finset ℕ} {y : Fin p.voters.length → ℕ → ℚ}
    {m : Fin p.voters.length → ℚ} (hB : IsCommittee p k B) (hy : IsLoadDistribution p B y) (hm : SortedLoads p B y m) :
    ¬ LexBefore m (fun i => bounds.getD i v) := by
  rintro ⟨j, h1, h2⟩
  dsimp only at h1 h2
  rcases lt_trichotomy (j : ℕ) bounds.length with hj | hj | hj
  · rw [List.getD_eq_getElem _ _ hj] at h2
    have := (hb.get j hj).1.2 B _ hB (sorted_loadsWithin hy hm j (by simp; omega) (fun i hi => by
      have hi' : (i : ℕ) < bounds.length := by have : (i : ℕ) < j := hi; omega
      rw [h1 i hi, List.getD_eq_getElem _ _ hi', List.getD_eq_getElem _ _ (by simp; exact ⟨hi, hi'⟩), List.getElem_take]))
    linarith
  · rw [List.getD_eq_default _ _ (by omega)] at h2
    have := hnx.2 B _ hB (sorted_loadsWithin hy hm j hj.symm (fun i hi => by
      have hi' : (i : ℕ) < bounds.length := by have : (i : ℕ) < j := hi; omega
      rw [h1 i hi, List.getD_eq_getElem _ _ hi', List.getD_eq_getElem _ _ hi']))
    linarith
  · rw [List.getD_eq_default _ _ (by omega)] at h2
    rcases hlast with h | h
    · have := j.2; omega
    · obtain ⟨-, σ, hσ⟩ := hm
      have := hy.load_nonneg (σ j)
      rw [← hσ] at this
      linarith

/-- A committee within the bounds has sorted loads equal to the bounds. -/
theorem sorted_eq_bounds {bounds : List ℚ} {v : ℚ} (hb : LevelBounds 0 0 p k bounds) (hnx : IsNextBound 0 p k bounds v)
    (hlast : bounds.length + 1 = p.voters.length ∨ v ≤ 0) {A : Finset ℕ} (hA : IsCommittee p k A) (hAl : LoadsWithin p 0 bounds A v) :
    ∃ x, IsLoadDistribution p A x ∧ SortedLoads p A x (fun i => bounds.getD i v) := by
  obtain ⟨x, hx, σ, hσ⟩ := hAl
  obtain ⟨l, hl⟩ := exists_sortedLoads A x
  have hl' := hl
  obtain ⟨ha, τ, hτ⟩ := hl
  have hle : ∀ i, l i ≤ bounds.getD i v := by
    refine sorted_le ha (fun i j hij => levelBounds_antitone le_rfl hb hnx hij) (σ.trans τ.symm) fun i => ?_
    rw [hτ, Equiv.trans_apply, Equiv.apply_symm_apply]
    have := hσ i
    rwa [map_add_zero] at this
  refine ⟨x, hx, ?_⟩
  have : l = fun i : Fin p.voters.length => bounds.getD i v := by
    by_contra hne
    -- the first position where they differ
    obtain ⟨i, hi⟩ : ∃ i, l i ≠ bounds.getD i v := by
      by_contra hcon
      push Not at hcon
      exact hne (funext hcon)
    obtain ⟨j, hj, hjm⟩ : ∃ j : Fin p.voters.length, l j ≠ bounds.getD j v ∧ ∀ i < j, l i = bounds.getD i v := by
      classical
      let S := Finset.univ.filter (fun i : Fin p.voters.length => l i ≠ bounds.getD i v)
      have hS : S.Nonempty := ⟨i, Finset.mem_filter.2 ⟨Finset.mem_univ _, hi⟩⟩
      refine ⟨S.min' hS, (Finset.mem_filter.1 (S.min'_mem hS)).2, fun i hi => ?_⟩
      by_contra hc
      exact absurd (S.min'_le i (Finset.mem_filter.2 ⟨Finset.mem_univ _, hc⟩)) (not_le.2 hi)
    exact not_before_bounds hb hnx hlast hA hx hl' ⟨j, hjm, lt_of_le_of_ne (hle j) hj⟩
  rw [← this]
  exact hl'

theorem exists_levelBounds_aux (hnext : ∀ bounds, LevelBounds 0 0 p k bounds → bounds.length < p.voters.length →
    ∃ v, IsNextBound 0 p k bounds v) (n : ℕ) (bounds : List ℚ) (hlen : n + bounds.length + 1 = p.voters.length)
    (hb : LevelBounds 0 0 p k bounds) :
    ∃ bs v, LevelBounds 0 0 p k bs ∧ IsNextBound 0 p k bs v ∧ bs.length < p.voters.length ∧ (bs.length + 1 = p.voters.length ∨ v ≤ 0) := by
  induction n generalizing bounds with
  | zero =>
    obtain ⟨v, hv⟩ := hnext bounds hb (by omega)
    exact ⟨bounds, v, hb, hv, by omega, Or.inl (by omega)⟩
  | succ n ih =>
    obtain ⟨v, hv⟩ := hnext bounds hb (by omega)
    by_cases h0 : v ≤ 0
    · exact ⟨bounds, v, hb, hv, by omega, Or.inr h0⟩
    · exact ih (bounds ++ [v]) (by simp; omega) (.level hb hv (not_le.1 h0))

theorem lexBefore_trichotomy {n : ℕ} {l m : Fin n → ℚ} (h1 : ¬ LexBefore l m) (h2 : ¬ LexBefore m l) : l = m := by
  classical
  by_contra hne
  let S := Finset.univ.filter (fun i : Fin n => l i ≠ m i)
  have hS : S.Nonempty := by
    by_contra hcon
    rw [Finset.not_nonempty_iff_eq_empty, Finset.filter_eq_empty_iff] at hcon
    exact hne (funext fun i => by simpa using hcon (Finset.mem_univ i))
  have hmin : ∀ i < S.min' hS, l i = m i := by
    intro i hi
    by_contra hc
    exact absurd (S.min'_le i (Finset.mem_filter.2 ⟨Finset.mem_univ _, hc⟩)) (not_le.2 hi)
  rcases lt_or_gt_of_ne (Finset.mem_filter.1 (S.min'_mem hS)).2 with h | h
  · exact h1 ⟨_, hmin, h⟩
  · exact h2 ⟨_, fun i hi => (hmin i hi).symm, h⟩

/-- The next bound exists. -/
theorem exists_next (hp : p.WF) (hn : p.voters ≠ []) (hw : ∀ v ∈ p.voters, 1 ≤ v.weight) (hk : 0 < k) (hen : k ≤ (approvedSet p).card)
    {ε δ : ℚ} (hε : 0 ≤ ε) {bounds : List ℚ} (hb : LevelBounds ε δ p k bounds) (hlen : bounds.length < p.voters.length) :
    ∃ v, IsNextBound ε p k bounds v := by
  classical
  obtain ⟨B, hB, hBl⟩ := hb.exists hp hn hk hen hε
  let S := (Finset.powersetCard k (Finset.range p.numCand)).filter (fun A => ∃ v, LoadsWithin p ε bounds A v)
  have hS : ∀ A, A ∈ S ↔ IsCommittee p k A ∧ ∃ v, LoadsWithin p ε bounds A v := fun A => by
    simp [S, Finset.mem_powersetCard, IsCommittee]
  obtain ⟨A, hA, hmin⟩ := Finset.exists_min_image S (nextOf ε p bounds) ⟨B, (hS B).2 ⟨hB, hBl⟩⟩
  rw [hS] at hA
  refine ⟨nextOf ε p bounds A, ⟨A, hA.1, (nextOf_spec hp hw hA.1 hlen hA.2 _).2 le_rfl⟩, fun C t hC ht => ?_⟩
  exact (hmin C ((hS C).2 ⟨hC, t, ht⟩)).trans ((nextOf_spec hp hw hC hlen ⟨t, ht⟩ t).1 ht)

/-- **C70** Considering the levels one after the other without tolerance yields exactly the leximax-Phragmén winners. -/
theorem C70_levels_exact (hp : p.WF) (hn : p.voters ≠ []) (hw : ∀ v ∈ p.voters, 1 ≤ v.weight) (hk : 0 < k)
    (hen : k ≤ (approvedSet p).card) (A : Finset ℕ) : LevelWinner 0 0 0 p k A ↔ LeximaxPhragmen p k A := by
  constructor
  · rintro ⟨bs, v, hb, hnx, hlen, hlast, hA, hAl⟩
    rw [add_zero] at hAl
    obtain ⟨x, hx, hxs⟩ := sorted_eq_bounds hb hnx hlast hA hAl
    exact ⟨hA, x, _, hx, hxs, fun B y m hB hy hm => not_before_bounds hb hnx hlast hB hy hm⟩
  · rintro ⟨hA, x, l, hx, hl, hbest⟩
    have hlpos : 0 < p.voters.length := List.length_pos_iff.2 hn
    obtain ⟨bs, v, hb, hnx, hlen, hlast⟩ := exists_levelBounds_aux (p := p) (k := k)
      (fun bounds hb hlen => exists_next hp hn hw hk hen le_rfl hb hlen) (p.voters.length - 1) [] (by simp; omega) .nil
    obtain ⟨B, hB, hBl⟩ := hnx.1
    obtain ⟨y, hy, hys⟩ := sorted_eq_bounds hb hnx hlast hB hBl
    have e := lexBefore_trichotomy (not_before_bounds hb hnx hlast hA hx hl) (hbest B y _ hB hy hys)
    refine ⟨bs, v, hb, hnx, hlen, hlast, hA, ?_⟩
    rw [add_zero]
    obtain ⟨-, σ, hσ⟩ := hl
    refine ⟨x, hx, σ, fun i => ?_⟩
    rw [map_add_zero, ← hσ, e]

/-- **C70** leximax-Phragmén winners exist. -/
theorem C70_leximax_exists (hp : p.WF) (hn : p.voters ≠ []) (hw : ∀ v ∈ p.voters, 1 ≤ v.weight) (hk : 0 < k)
    (hen : k ≤ (approvedSet p).card) : ∃ A, LeximaxPhragmen p k A := by
  have hlpos : 0 < p.voters.length := List.length_pos_iff.2 hn
  obtain ⟨bs, v, hb, hnx, hlen, hlast⟩ := exists_levelBounds_aux (p := p) (k := k)
    (fun bounds hb hlen => exists_next hp hn hw hk hen le_rfl hb hlen) (p.voters.length - 1) [] (by simp; omega) .nil
  obtain ⟨B, hB, hBl⟩ := hnx.1
  exact ⟨B, (C70_levels_exact hp hn hw hk hen B).1 ⟨bs, v, hb, hnx, hlen, hlast, hB, by rwa [add_zero]⟩⟩

end exact

/-! ## Winners are minimax-Phragmén optimal -/

/-- **C70** With tolerances at most `τ`, every winner is minimax-Phragmén optimal up to `τ`. -/
theorem C70_levels_minimax {p : Profile} {k : ℕ} {ε δ τ : ℚ} (hε : 0 ≤ ε) (hετ : ε ≤ τ) {A : Finset ℕ} (h : LevelWinner ε δ τ p k A) :
    MinimaxPhragmenOpt τ p k A := by
  obtain ⟨bs, v, hb, hnx, hlen, -, hA, x, hx, σ, hσ⟩ := h
  refine ⟨⟨hA, Or.inl hx.subset⟩, fun B t hB ht => ⟨x, hx, fun i => ?_⟩⟩
  have hB' : LoadsWithin p ε [] B t := loadsWithin_nil.2 ht
  -- the first bound is at most `t`
  have hfirst : bs.getD 0 v ≤ t := by
    cases bs with
    | nil => exact hnx.2 B t hB hB'
    | cons b bs =>
      have := (hb.get 0 (by simp)).1
      exact this.2 B t hB hB'
  have hi := hσ (σ.symm i)
  rw [Equiv.apply_symm_apply] at hi
  refine hi.trans ?_
  have hmono := levelBounds_antitone hε hb hnx (Nat.zero_le (σ.symm i : ℕ))
  by_cases hj : ((σ.symm i : Fin p.voters.length) : ℕ) < bs.length
  · rw [List.getD_eq_getElem _ _ (by simpa using hj), List.getElem_map]
    rw [List.getD_eq_getElem _ _ hj] at hmono
    linarith
  · rw [List.getD_eq_default _ _ (by simpa using hj)]
    rw [List.getD_eq_default _ _ (by omega)] at hmono
    linarith

/-- **C70** leximax-Phragmén winners are minimax-Phragmén winners. -/
theorem C70_leximax_minimax {p : Profile} (hp : p.WF) (hn : p.voters ≠ []) (hw : ∀ v ∈ p.voters, 1 ≤ v.weight) {k : ℕ} (hk : 0 < k)
    (hen : k ≤ (approvedSet p).card) {A : Finset ℕ} (h : LeximaxPhragmen p k A) : MinimaxPhragmenOpt 0 p k A :=
  C70_levels_minimax le_rfl le_rfl ((C70_levels_exact hp hn hw hk hen A).2 h)

/-! ## `compute_leximaxphragmen` -/

theorem leximaxphragmen_alg {env : Env} {p : Profile} {a : Args} {alg : String} (h : prologue env "leximaxphragmen" p a = .ok alg) :
    alg = "gurobi" := by
  have := prologue_alg_mem h (ri := ⟨["gurobi"], resOpt⟩) rfl
  simpa using this

theorem computeLeximaxphragmen_eq {env : Env} {solve : String → Program → SolveResult} {p : Profile} {a : Args} {alg : String}
    (hal : prologue env "leximaxphragmen" p a = .ok alg) :
    computeLeximaxphragmen env solve p a = gurobiLeximaxphragmen (solve alg) p a.k a.resolute a.maxNum := by
  unfold computeLeximaxphragmen
  rw [hal]
  obtain rfl := leximaxphragmen_alg hal
  simp only [bind, Except.bind, Bool.false_eq_true, false_and, if_false, if_true]
  cases gurobiLeximaxphragmen (solve "gurobi") p a.k a.resolute a.maxNum <;> rfl

/-- **C70** `compute_leximaxphragmen`, weights at least 1, at least `k` approved candidates: the winners of the level-by-level optimisation
with the tolerances of the code. -/
theorem C70_compute_leximaxphragmen (env : Env) (solve : String → Program → SolveResult) (p : Profile) (hp : p.WF)
    (hw : ∀ v ∈ p.voters, 1 ≤ v.weight) (a : Args) (alg : String) (hal : prologue env "leximaxphragmen" p a = .ok alg)
    (hsolve : ExactSolver (solve alg)) (hen : a.k ≤ (approvedSet p).card) :
    Answers a (computeLeximaxphragmen env solve p a) (LevelWinner (1 / 10 ^ 8) (1 / 10 ^ 7) (1 / 10 ^ 7) p a.k) := by
  have hv := validCall_of_prologue hal
  rw [computeLeximaxphragmen_eq hal]
  have e1 : (1 / 10 ^ 7 : ℚ) = cmpAccuracy := by norm_num [cmpAccuracy, accuracy]
  have e2 : (1 / 10 ^ 8 : ℚ) = accuracy := by norm_num [accuracy]
  rw [e1, e2]
  exact C70_gurobi_leximaxphragmen hsolve p hp hw a hv (by rw [← approvedSet_card]; exact hen)

/-- **C70** Every committee returned by `compute_leximaxphragmen` (weights at least 1) minimises the largest load up to `10⁻⁷`, and
exactly if all weights are integers of total at most 3162. -/
theorem C70_winner_minimax {p : Profile} (hp : p.WF) (hn : p.voters ≠ []) {k : ℕ} (hk : 0 < k) {A : Finset ℕ}
    (h : LevelWinner (1 / 10 ^ 8) (1 / 10 ^ 7) (1 / 10 ^ 7) p k A) :
    MinimaxPhragmenOpt (1 / 10 ^ 7) p k A ∧ (IntegerWeights p → total p ≤ 3162 → MinimaxPhragmenOpt 0 p k A) := by
  have h1 := C70_levels_minimax (by norm_num) (by norm_num) h
  refine ⟨h1, fun hi hT => ?_⟩
  have e1 : (1 / 10 ^ 7 : ℚ) = cmpAccuracy := by norm_num [cmpAccuracy, accuracy]
  rw [e1] at h1
  exact (C67_minimaxphragmen_tolerance hp hn hi hT hk A).1 h1

/-- **C70** Fewer than `k` approved candidates: as for minimax-Phragmén, the committees containing all approved candidates. -/
theorem C70_compute_leximaxphragmen_few (env : Env) (solve : String → Program → SolveResult) (p : Profile) (hp : p.WF)
    (a : Args) (alg : String) (hal : prologue env "leximaxphragmen" p a = .ok alg) (hfew : (approvedSet p).card < a.k) :
    ∃ cs, computeLeximaxphragmen env solve p a = .ok cs ∧ (∀ W ∈ cs, W.Nodup ∧ IsCommittee p a.k W.toFinset ∧ approvedSet p ⊆ W.toFinset) ∧
      (cs.map List.toFinset).Nodup ∧ (a.resolute = true → cs.length = 1) ∧
      (a.resolute = false → ∀ A, (IsCommittee p a.k A ∧ approvedSet p ⊆ A) ↔ ∃ W ∈ cs, W.toFinset = A) := by
  have hv := validCall_of_prologue hal
  have hfew' := hfew
  rw [approvedSet_card] at hfew
  have key : ∀ A, MinimaxPhragmenOpt 0 p a.k A ↔ IsCommittee p a.k A ∧ approvedSet p ⊆ A := by
    intro A
    constructor
    · rintro ⟨⟨hA, hor⟩, -⟩
      refine ⟨hA, hor.resolve_left fun hs => ?_⟩
      have := Finset.card_le_card hs
      rw [hA.2] at this
      omega
    · rintro ⟨hA, hs⟩
      refine ⟨⟨hA, Or.inr hs⟩, fun B t hB ⟨y, hy, _⟩ => ?_⟩
      have := Finset.card_le_card hy.subset
      rw [hB.2] at this
      omega
  obtain ⟨h1, h2, h3, h4⟩ := C67_too_few_approved p hp a.k hv.le hfew a.resolute 0
  refine ⟨tooFewApproved p a.k a.resolute, ?_, fun W hW => ⟨(h1 W hW).1, (key _).1 (h1 W hW).2⟩, h2, h3, fun hr A => ?_⟩
  · rw [computeLeximaxphragmen_eq hal]
    unfold gurobiLeximaxphragmen
    rw [if_pos hfew]
  · rw [← key]; exact h4 hr A

/-- **C70** `lexicographic_tiebreaking=True` requires `resolute=True`. -/
theorem C70_lexicographic_rejects (env : Env) (solve : String → Program → SolveResult) (p : Profile) (a : Args) (alg : String)
    (hal : prologue env "leximaxphragmen" p a = .ok alg) (hr : a.resolute = false) :
    computeLeximaxphragmen env solve p a true = .error .valueError := by
  unfold computeLeximaxphragmen
  rw [hal]
  simp [bind, Except.bind, hr]

/-- **C70** With `lexicographic_tiebreaking=True` the returned committee is the first one, in the order of the printed committees, of all
winning committees. -/
theorem C70_lexicographic (env : Env) (solve : String → Program → SolveResult) (p : Profile) (hp : p.WF)
    (hw : ∀ v ∈ p.voters, 1 ≤ v.weight) (a : Args) (alg : String) (hal : prologue env "leximaxphragmen" p a = .ok alg)
    (hsolve : ExactSolver (solve alg)) (hen : a.k ≤ (approvedSet p).card) (hr : a.resolute = true) :
    ∃ W, computeLeximaxphragmen env solve p a true = .ok [W] ∧ W.Pairwise (· < ·) ∧
      LevelWinner (1 / 10 ^ 8) (1 / 10 ^ 7) (1 / 10 ^ 7) p a.k W.toFinset ∧
      ∀ V : List ℕ, V.Pairwise (· < ·) → LevelWinner (1 / 10 ^ 8) (1 / 10 ^ 7) (1 / 10 ^ 7) p a.k V.toFinset → strKey W ≤ strKey V := by
  have hv := validCall_of_prologue hal
  have e1 : (1 / 10 ^ 7 : ℚ) = cmpAccuracy := by norm_num [cmpAccuracy, accuracy]
  have e2 : (1 / 10 ^ 8 : ℚ) = accuracy := by norm_num [accuracy]
  rw [e1, e2]
  have hmax : a.maxNum = none := by simp [Args.maxNum, hv.excl hr]
  have hA := C70_gurobi_leximaxphragmen hsolve p hp hw { a with resolute := false, max := none }
    ⟨hv.pos, hv.le, hv.voters, by simp, by simp⟩ (by rw [← approvedSet_card]; exact hen)
  obtain ⟨cs, e, hcan, hcs⟩ := hA
  obtain ⟨out, e', hout, hperm⟩ := sortedCommittees_of_lt hcan.asc hcan.nodup
  have hlpos : 0 < p.voters.length := List.length_pos_iff.2 hv.voters
  obtain ⟨A, hA⟩ : ∃ A, LevelWinner accuracy cmpAccuracy cmpAccuracy p a.k A := by
    obtain ⟨bs, -, hb, hlen, hlast⟩ := leximaxphragmenLoop_spec hsolve hp hv.voters hw hv.pos hv.le hen (p.voters.length - 1) []
      (by simp; omega) .nil
    obtain ⟨v, hnx⟩ := exists_next hp hv.voters hw hv.pos hen accuracy_nonneg hb hlen
    obtain ⟨B, hB, hBl⟩ := hnx.1
    exact ⟨B, bs, v, hb, hnx, hlen, hlast v hnx, hB, hBl.mono (by norm_num [cmpAccuracy, accuracy])⟩
  obtain ⟨W0, hW0, -⟩ := (hcs A).2 hA
  cases hc : out with
  | nil =>
    subst hc
    exact absurd (hperm.mem_iff.2 hW0) (by simp)
  | cons W rest =>
    subst hc
    have hmem : ∀ V, V ∈ W :: rest ↔ V ∈ cs := fun V => hperm.mem_iff
    refine ⟨W, ?_, hout.asc W List.mem_cons_self, (hcs _).1 ⟨W, (hmem W).1 List.mem_cons_self, rfl⟩, fun V hV hVw => ?_⟩
    · unfold computeLeximaxphragmen
      rw [hal]
      obtain rfl := leximaxphragmen_alg hal
      simp only [bind, Except.bind, hr, not_true_eq_false, and_false, if_false, if_true, hmax]
      have e0 : gurobiLeximaxphragmen (solve "gurobi") p a.k false none = .ok cs := e
      rw [e0]
      simp only
      rw [e']
      rfl
    · obtain ⟨V', hV', eV⟩ := (hcs _).2 hVw
      have : V' = V := eq_of_lt_toFinset (hcan.asc V' hV') hV eV
      subst this
      rcases List.mem_cons.1 ((hmem V').2 hV') with rfl | h
      · exact List.le_refl _
      · exact (List.pairwise_cons.1 hout.sorted).1 V' h

/-- **C70** (finding) The printed order is not the lexicographic order of the numbers: `{0, 1, 10}` is chosen instead of `{0, 1, 2}`. -/
theorem C70_lexicographic_finding (solve : String → Program → SolveResult) :
    computeLeximaxphragmen ⟨["gurobi"], fun _ => none, fun _ => none⟩ solve ⟨11, [⟨[0, 1], 1⟩], []⟩
      { committeesize := 3, algorithm := "gurobi", resolute := true } true = .ok [[0, 1, 10]] := by
  have hal : prologue ⟨["gurobi"], fun _ => none, fun _ => none⟩ "leximaxphragmen" ⟨11, [⟨[0, 1], 1⟩], []⟩
      { committeesize := 3, algorithm := "gurobi", resolute := true } = .ok "gurobi" := by decide +kernel
  unfold computeLeximaxphragmen
  rw [hal]
  unfold gurobiLeximaxphragmen
  simp only [bind, Except.bind, not_true_eq_false, and_false, if_false, if_true]
  rw [if_pos (by decide +kernel)]
  decide +kernel

/-! ## What the tolerances do -/

/-- Candidate 0 is approved by voters of weights 999999 and 1, candidate 1 by one voter of weight 1000000. -/
def toleranceExample : Profile := ⟨2, [⟨[0], 999999⟩, ⟨[0], 1⟩, ⟨[1], 1000000⟩], []⟩

theorem toleranceExample_wf : toleranceExample.WF := ⟨by decide, by decide +kernel, by decide +kernel, by decide +kernel⟩

/-- The load of the example, for the only candidate `c` of a committee. -/
theorem toleranceExample_load {c : ℕ} (hc : c = 0 ∨ c = 1) {x : Fin toleranceExample.voters.length → ℕ → ℚ}
    (hx : IsLoadDistribution toleranceExample {c} x) :
    (c = 0 → 999999 * x ⟨0, by decide⟩ 0 + x ⟨1, by decide⟩ 0 = 1) ∧ (c = 1 → 1000000 * x ⟨2, by decide⟩ 1 = 1) := by
  have h1 := hx.one c (by simp)
  change ∑ i : Fin 3, _ = _ at h1
  rw [Fin.sum_univ_three] at h1
  have hz : ∀ i, c ∉ appr toleranceExample i → x i c = 0 := fun i hi => by
    by_contra h
    exact hi (hx.approved i c h).1
  constructor
  · rintro rfl
    have h3 : x ⟨2, by decide⟩ 0 = 0 := hz _ (by decide)
    change (999999 : ℚ) * x ⟨0, by decide⟩ 0 + 1 * x ⟨1, by decide⟩ 0 + 1000000 * x ⟨2, by decide⟩ 0 = 1 at h1
    rw [h3] at h1
    linarith
  · rintro rfl
    have h3 : x ⟨0, by decide⟩ 1 = 0 := hz _ (by decide)
    have h4 : x ⟨1, by decide⟩ 1 = 0 := hz _ (by decide)
    change (999999 : ℚ) * x ⟨0, by decide⟩ 1 + 1 * x ⟨1, by decide⟩ 1 + 1000000 * x ⟨2, by decide⟩ 1 = 1 at h1
    rw [h3, h4] at h1
    linarith

theorem toleranceExample_committee {B : Finset ℕ} (h : IsCommittee toleranceExample 1 B) : ∃ c, (c = 0 ∨ c = 1) ∧ B = {c} := by
  obtain ⟨c, rfl⟩ := Finset.card_eq_one.1 h.2
  refine ⟨c, ?_, rfl⟩
  have : c < 2 := Finset.mem_range.1 (h.1 (Finset.mem_singleton_self c))
  omega

/-- A distribution of the load of candidate 0: everything on the first voter. -/
def exampleLoad0 (i : Fin toleranceExample.voters.length) (c : ℕ) : ℚ := if (i : ℕ) = 0 ∧ c = 0 then 1 / 999999 else 0

/-- The distribution of the load of candidate 1. -/
def exampleLoad1 (i : Fin toleranceExample.voters.length) (c : ℕ) : ℚ := if (i : ℕ) = 2 ∧ c = 1 then 1 / 1000000 else 0

theorem exampleLoad0_ok : IsLoadDistribution toleranceExample {0} exampleLoad0 := by
  refine ⟨fun i c => ?_, fun i c h => ?_, fun c hc => ?_⟩
  · unfold exampleLoad0; split <;> norm_num
  · unfold exampleLoad0 at h
    split at h
    · next hc =>
      obtain ⟨h0, rfl⟩ := hc
      obtain rfl : i = ⟨0, by decide⟩ := Fin.ext h0
      exact ⟨by decide, by simp⟩
    · exact absurd rfl h
  · rw [Finset.mem_singleton] at hc
    subst hc
    change ∑ i : Fin 3, _ = _
    rw [Fin.sum_univ_three]
    change (999999 : ℚ) * (1 / 999999) + 1 * 0 + 1000000 * 0 = 1
    norm_num

theorem exampleLoad1_ok : IsLoadDistribution toleranceExample {1} exampleLoad1 := by
  refine ⟨fun i c => ?_, fun i c h => ?_, fun c hc => ?_⟩
  · unfold exampleLoad1; split <;> norm_num
  · unfold exampleLoad1 at h
    split at h
    · next hc =>
      obtain ⟨h0, rfl⟩ := hc
      obtain rfl : i = ⟨2, by decide⟩ := Fin.ext h0
      exact ⟨by decide, by simp⟩
    · exact absurd rfl h
  · rw [Finset.mem_singleton] at hc
    subst hc
    change ∑ i : Fin 3, _ = _
    rw [Fin.sum_univ_three]
    change (999999 : ℚ) * 0 + 1 * 0 + 1000000 * (1 / 1000000) = 1
    norm_num

theorem exampleCommittee {c : ℕ} (hc : c = 0 ∨ c = 1) : IsCommittee toleranceExample 1 {c} := by
  refine ⟨fun d hd => ?_, by simp⟩
  rw [Finset.mem_singleton] at hd
  rcases hc with rfl | rfl <;> subst hd <;> decide

/-- The first bound. -/
theorem example_bound0 (ε : ℚ) : IsNextBound ε toleranceExample 1 [] (1 / 1000000) := by
  refine ⟨⟨{1}, exampleCommittee (Or.inr rfl), loadsWithin_nil.2 ⟨exampleLoad1, exampleLoad1_ok, fun i => ?_⟩⟩, fun B t hB ht => ?_⟩
  · rw [Finset.sum_singleton]
    unfold exampleLoad1
    split <;> norm_num
  · obtain ⟨c, hc, rfl⟩ := toleranceExample_committee hB
    obtain ⟨x, hx, hle⟩ := loadsWithin_nil.1 ht
    simp only [Finset.sum_singleton] at hle
    obtain ⟨h0, h1⟩ := toleranceExample_load hc hx
    rcases hc with rfl | rfl
    · have := hle ⟨0, by decide⟩
      have := hle ⟨1, by decide⟩
      have := h0 rfl
      linarith
    · have := hle ⟨2, by decide⟩
      have := h1 rfl
      linarith

theorem example_swap (i : Fin toleranceExample.voters.length) :
    exampleLoad1 (Equiv.swap ⟨0, by decide⟩ ⟨2, by decide⟩ i) 1 = if (i : ℕ) = 0 then 1 / 1000000 else 0 := by
  revert i; decide +kernel

/-- The second bound. -/
theorem example_bound1 {ε : ℚ} (hε : 0 ≤ ε) : IsNextBound ε toleranceExample 1 [1 / 1000000] 0 := by
  refine ⟨⟨{1}, exampleCommittee (Or.inr rfl), exampleLoad1, exampleLoad1_ok, Equiv.swap ⟨0, by decide⟩ ⟨2, by decide⟩, fun i => ?_⟩,
    fun B t hB ht => ht.nonneg (by decide)⟩
  unfold loadOf
  rw [Finset.sum_singleton]
  rw [example_swap]
  by_cases hi : (i : ℕ) = 0
  · rw [if_pos hi, hi]
    change (1 / 1000000 : ℚ) ≤ 1 / 1000000 + ε
    linarith
  · rw [if_neg hi, List.getD_eq_default _ _ (by simp; omega)]

theorem example_levels {ε δ : ℚ} (hδ : δ < 1 / 1000000) : LevelBounds ε δ toleranceExample 1 [1 / 1000000] :=
  .level (bounds := []) .nil (example_bound0 ε) hδ

/-- **C70** (finding) The tolerances of the code are not harmless: in this profile with integer weights, the only leximax-Phragmén committee
is `{1}`, but `{0}` is a winner for the code as well. -/
theorem C70_tolerance_finding :
    (∀ A, LeximaxPhragmen toleranceExample 1 A ↔ A = {1}) ∧ LevelWinner (1 / 10 ^ 8) (1 / 10 ^ 7) (1 / 10 ^ 7) toleranceExample 1 {0} ∧
      LevelWinner (1 / 10 ^ 8) (1 / 10 ^ 7) (1 / 10 ^ 7) toleranceExample 1 {1} := by
  have hn : toleranceExample.voters ≠ [] := by decide
  have hw : ∀ v ∈ toleranceExample.voters, 1 ≤ v.weight := by decide +kernel
  have hen : 1 ≤ (approvedSet toleranceExample).card := by decide +kernel
  have hex := C70_leximax_exists toleranceExample_wf hn hw one_pos hen
  have hno : ¬ LeximaxPhragmen toleranceExample 1 {0} := by
    rw [← C70_levels_exact toleranceExample_wf hn hw one_pos hen]
    rintro ⟨bs, v, hb, hnx, hlen, hlast, hA, hAl⟩
    obtain rfl := levelBounds_unique hb (example_levels (by norm_num)) hlen (by decide) hnx (example_bound1 le_rfl) hlast (Or.inr le_rfl)
    obtain rfl := hnx.unique (example_bound1 le_rfl)
    obtain ⟨x, hx, σ, hσ⟩ := hAl
    have h0 := (toleranceExample_load (Or.inl rfl) hx).1 rfl
    have hnn0 := hx.nonneg ⟨0, by decide⟩ 0
    have hnn1 := hx.nonneg ⟨1, by decide⟩ 0
    have hload : ∀ i, loadOf toleranceExample {0} x i = x i 0 := fun i => by simp [loadOf]
    have hlate : ∀ i : Fin toleranceExample.voters.length, ((σ.symm i : Fin _) : ℕ) ≠ 0 → x i 0 ≤ 0 := by
      intro i hi
      have := hσ (σ.symm i)
      rw [Equiv.apply_symm_apply, hload] at this
      rw [List.getD_eq_default _ _ (by simp; omega)] at this
      simpa using this
    have hall : ∀ i : Fin toleranceExample.voters.length, x i 0 ≤ 1 / 1000000 := by
      intro i
      by_cases hi : ((σ.symm i : Fin _) : ℕ) = 0
      · have := hσ (σ.symm i)
        rw [Equiv.apply_symm_apply, hload, hi] at this
        simpa using this
      · exact (hlate i hi).trans (by norm_num)
    by_cases h1 : ((σ.symm ⟨1, by decide⟩ : Fin toleranceExample.voters.length) : ℕ) = 0
    · have h2 : ((σ.symm ⟨0, by decide⟩ : Fin toleranceExample.voters.length) : ℕ) ≠ 0 := by
        intro h2
        have := σ.symm.injective (Fin.ext (h1.trans h2.symm))
        exact absurd this (by decide)
      have := hlate _ h2
      have := hall ⟨1, by decide⟩
      linarith
    · have := hlate _ h1
      have := hall ⟨0, by decide⟩
      linarith
  refine ⟨fun A => ⟨fun h => ?_, fun h => ?_⟩, ?_, ?_⟩
  · obtain ⟨c, hc, rfl⟩ := toleranceExample_committee h.1
    rcases hc with rfl | rfl
    · exact absurd h hno
    · rfl
  · obtain ⟨B, hB⟩ := hex
    obtain ⟨c, hc, rfl⟩ := toleranceExample_committee hB.1
    rcases hc with rfl | rfl
    · exact absurd hB hno
    · rw [h]; exact hB
  · refine ⟨[1 / 1000000], 0, example_levels (by norm_num), example_bound1 (by norm_num), by decide, Or.inr (by norm_num),
      exampleCommittee (Or.inl rfl), exampleLoad0, exampleLoad0_ok, 1, fun i => ?_⟩
    unfold loadOf
    rw [Finset.sum_singleton]
    change Fin 3 at i
    obtain ⟨i, hi⟩ := i
    have : i = 0 ∨ i = 1 ∨ i = 2 := by omega
    rcases this with rfl | rfl | rfl
    · change (1 / 999999 : ℚ) ≤ 1 / 1000000 + 1 / 10 ^ 8
      norm_num
    · change (0 : ℚ) ≤ 0 + 1 / 10 ^ 7
      norm_num
    · change (0 : ℚ) ≤ 0 + 1 / 10 ^ 7
      norm_num
  · refine ⟨[1 / 1000000], 0, example_levels (by norm_num), example_bound1 (by norm_num), by decide, Or.inr (by norm_num),
      exampleCommittee (Or.inr rfl), exampleLoad1, exampleLoad1_ok, Equiv.swap ⟨0, by decide⟩ ⟨2, by decide⟩, fun i => ?_⟩
    unfold loadOf
    rw [Finset.sum_singleton]
    rw [example_swap]
    by_cases hi : (i : ℕ) = 0
    · rw [if_pos hi, hi]
      change (1 / 1000000 : ℚ) ≤ 1 / 1000000 + 1 / 10 ^ 8
      norm_num
    · rw [if_neg hi, List.getD_eq_default _ _ (by simp; omega)]
      norm_num

/-- **C70** (finding) So, with an exact solver, the code returns both committees although `{1}` is the only leximax-Phragmén committee. -/
theorem C70_tolerance_code (solve : String → Program → SolveResult) (hs : ExactSolver (solve "gurobi")) :
    computeLeximaxphragmen ⟨["gurobi"], fun _ => none, fun _ => none⟩ solve toleranceExample
      { committeesize := 1, algorithm := "gurobi", resolute := false } = .ok [[0], [1]] := by
  have hal : prologue ⟨["gurobi"], fun _ => none, fun _ => none⟩ "leximaxphragmen" toleranceExample
      { committeesize := 1, algorithm := "gurobi", resolute := false } = .ok "gurobi" := by decide +kernel
  obtain ⟨cs, e, hc, hmem⟩ := C70_compute_leximaxphragmen _ solve toleranceExample toleranceExample_wf (by decide +kernel) _ _ hal hs
    (by decide +kernel)
  rw [e]
  congr 1
  refine canonical_ext hc ⟨by decide, by decide, by decide +kernel⟩ fun A => ?_
  rw [hmem]
  constructor
  · intro h
    obtain ⟨-, -, -, -, -, -, hA, -⟩ := h
    obtain ⟨c, hc, rfl⟩ := toleranceExample_committee hA
    rcases hc with rfl | rfl
    · exact ⟨[0], by simp, by simp⟩
    · exact ⟨[1], by simp, by simp⟩
  · rintro ⟨W, hW, rfl⟩
    simp only [List.mem_cons, List.not_mem_nil, or_false] at hW
    rcases hW with rfl | rfl
    · exact C70_tolerance_finding.2.1
    · exact C70_tolerance_finding.2.2

end Abc
