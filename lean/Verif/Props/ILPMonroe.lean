import Verif.Props.ILPMinimaxav
import Verif.Props.Monroe

/-!
# C62: the integer programs of Monroe's rule (Gurobi, Python-MIP, OR-Tools) encode the rule
-/

namespace Abc
open Spec

theorem sum_zipIdx_rat {α : Type} (l : List α) (g : α × ℕ → ℚ) :
    (l.zipIdx.map g).sum = ∑ i : Fin l.length, g (l.get i, (i : ℕ)) := by
  have h : l.zipIdx = List.ofFn (fun i : Fin l.length => (l.get i, (i : ℕ))) := by
    apply List.ext_getElem
    · simp
    · intro n h1 h2
      simp
  rw [h, List.map_ofFn, List.sum_ofFn]
  rfl

theorem districtHigh_eq (p : Profile) {k : ℕ} (hk : 0 < k) : districtHigh p k = (p.voters.length + k - 1) / k := by
  unfold districtHigh
  by_cases h : p.voters.length % k = 0
  · rw [balanced_dvd hk h]; simp [h]
  · rw [balanced_not_dvd hk h]; simp [h]

theorem partitionSum_eval (p : Profile) (c : ℕ) (x : IVar → ℚ) :
    (partitionSum p c).eval x = ∑ i : Fin p.voters.length, x (.partition c i) := by
  unfold partitionSum
  rw [LinExp.eval_sum, List.map_map, sum_range_map, Finset.sum_range]
  simp

theorem monroeSat_eval (p : Profile) (x : IVar → ℚ) :
    (monroeSat p).eval x = ∑ i : Fin p.voters.length, ∑ c ∈ Finset.range p.numCand,
      (if c ∈ appr p i then 1 else 0) * x (.partition c i) := by
  unfold monroeSat
  rw [LinExp.eval_sum]
  have : ∀ l : List (Voter × ℕ), ((l.flatMap (fun vi => p.candidates.map (fun c =>
      LinExp.scale (if c ∈ vi.1.approved then 1 else 0) (.var (.partition c vi.2))))).map (LinExp.eval x)).sum =
      (l.map (fun vi => ∑ c ∈ Finset.range p.numCand, (if c ∈ vi.1.approved then 1 else 0) * x (.partition c vi.2))).sum := by
    intro l
    induction l with
    | nil => rfl
    | cons vi l ih =>
      simp only [List.flatMap_cons, List.map_append, List.sum_append, List.map_cons, List.sum_cons, ih]
      congr 1
      rw [List.map_map]
      unfold Profile.candidates
      rw [sum_range_map]
      simp
  rw [this, sum_zipIdx_rat]
  refine Finset.sum_congr rfl fun i _ => Finset.sum_congr rfl fun c _ => ?_
  simp only [mem_appr]

/-- The constraints shared by the three programs. -/
structure MonroeFeas (p : Profile) (k : ℕ) (x : IVar → ℚ) : Prop where
  nonneg : ∀ c < p.numCand, ∀ i : Fin p.voters.length, 0 ≤ x (.partition c i)
  int : ∀ c < p.numCand, ∀ i : Fin p.voters.length, ∃ z : ℤ, x (.partition c i) = z
  one : ∀ i : Fin p.voters.length, ∑ c ∈ Finset.range p.numCand, x (.partition c i) = 1
  low : ∀ c < p.numCand, x (.cand c) = 1 → (districtLow p k : ℚ) ≤ ∑ i : Fin p.voters.length, x (.partition c i)
  high : ∀ c < p.numCand, x (.cand c) = 1 → ∑ i : Fin p.voters.length, x (.partition c i) ≤ (districtHigh p k : ℚ)
  out : ∀ c < p.numCand, x (.cand c) = 0 → ∀ i : Fin p.voters.length, x (.partition c i) ≤ 0
  sat : x .value ≤ (monroeSat p).eval x

/-- Non-negative integers with sum 1: exactly one of them is 1, the others are 0. -/
theorem exists_unique_one {m : ℕ} {u : ℕ → ℚ} (h0 : ∀ c < m, 0 ≤ u c) (hz : ∀ c < m, ∃ z : ℤ, u c = z)
    (h1 : ∑ c ∈ Finset.range m, u c = 1) : ∃ c < m, ∀ d < m, u d = if d = c then 1 else 0 := by
  classical
  have hex : ∃ c < m, u c ≠ 0 := by
    by_contra hcon
    push Not at hcon
    rw [Finset.sum_eq_zero (fun c hc => hcon c (by simpa using hc))] at h1
    exact absurd h1 (by norm_num)
  obtain ⟨c, hc, hne⟩ := hex
  have hge : 1 ≤ u c := by
    obtain ⟨z, hz⟩ := hz c hc
    have h := h0 c hc
    rw [hz] at h hne ⊢
    have h' : (0 : ℤ) ≤ z := by exact_mod_cast h
    have hne' : z ≠ 0 := by exact_mod_cast hne
    have : (1 : ℤ) ≤ z := by omega
    exact_mod_cast this
  have hsplit := Finset.add_sum_erase (Finset.range m) u (Finset.mem_range.2 hc)
  have hrest : 0 ≤ ∑ d ∈ (Finset.range m).erase c, u d :=
    Finset.sum_nonneg fun d hd => h0 d (by simpa using Finset.mem_of_mem_erase hd)
  have hzero : ∑ d ∈ (Finset.range m).erase c, u d = 0 := by linarith
  refine ⟨c, hc, fun d hd => ?_⟩
  by_cases hdc : d = c
  · subst hdc; rw [if_pos rfl]; linarith
  · rw [if_neg hdc]
    exact (Finset.sum_eq_zero_iff_of_nonneg (fun d hd => h0 d (by simpa using Finset.mem_of_mem_erase hd))).1 hzero d
      (Finset.mem_erase.2 ⟨hdc, Finset.mem_range.2 hd⟩)

theorem sum_eq_card {n : ℕ} (φ : Fin n → ℕ) (c : ℕ) :
    ∑ i : Fin n, (if c = φ i then (1 : ℚ) else 0) = ((Finset.univ.filter (fun i => φ i = c)).card : ℚ) := by
  rw [Finset.sum_boole]
  congr 2
  ext i
  simp [eq_comm]

theorem sat_eq_represented (p : Profile) (x : IVar → ℚ) (φ : Fin p.voters.length → ℕ) (hφ : ∀ i, φ i < p.numCand)
    (h : ∀ i : Fin p.voters.length, ∀ d < p.numCand, x (.partition d i) = if d = φ i then 1 else 0) :
    (monroeSat p).eval x = (represented p φ : ℚ) := by
  rw [monroeSat_eval]
  unfold represented
  rw [← Finset.sum_boole]
  refine Finset.sum_congr rfl fun i _ => ?_
  rw [Finset.sum_eq_single (φ i)]
  · rw [h i _ (hφ i)]; simp
  · intro d hd hne
    rw [h i d (by simpa using hd), if_neg hne, mul_zero]
  · intro hn
    exact absurd (Finset.mem_range.2 (hφ i)) hn

/-- From a solution to a balanced assignment. -/
theorem MonroeFeas.assignment {p : Profile} {k : ℕ} (hk : 0 < k) {x : IVar → ℚ} (h : MonroeFeas p k x)
    (hb : ∀ c < p.numCand, x (.cand c) = 0 ∨ x (.cand c) = 1) (hA : IsCommittee p k (solCommittee p x)) :
    ∃ φ, Balanced p (solCommittee p x) φ ∧ x .value ≤ (represented p φ : ℚ) := by
  classical
  have hex : ∀ i : Fin p.voters.length, ∃ c < p.numCand, ∀ d < p.numCand, x (.partition d i) = if d = c then 1 else 0 :=
    fun i => exists_unique_one (u := fun c => x (.partition c i)) (fun c hc => h.nonneg c hc i) (fun c hc => h.int c hc i) (h.one i)
  choose φ hφ1 hφ2 using hex
  have hmem : ∀ i, φ i ∈ solCommittee p x := by
    intro i
    rw [solCommittee, Finset.mem_filter]
    refine ⟨Finset.mem_range.2 (hφ1 i), ?_⟩
    rcases hb _ (hφ1 i) with h0 | h0
    · have h1 := h.out _ (hφ1 i) h0 i
      rw [hφ2 i _ (hφ1 i), if_pos rfl] at h1
      exact absurd h1 (by norm_num)
    · exact h0
  have hcount : ∀ c < p.numCand, ∑ i : Fin p.voters.length, x (.partition c i) =
      ((Finset.univ.filter (fun i => φ i = c)).card : ℚ) := by
    intro c hc
    rw [← sum_eq_card]
    exact Finset.sum_congr rfl fun i _ => hφ2 i c hc
  refine ⟨φ, ⟨hmem, fun c hc => ?_⟩, ?_⟩
  · rw [solCommittee, Finset.mem_filter, Finset.mem_range] at hc
    have h1 := h.low c hc.1 hc.2
    have h2 := h.high c hc.1 hc.2
    rw [hcount c hc.1] at h1 h2
    rw [hA.2, ← districtHigh_eq p hk]
    exact ⟨by exact_mod_cast h1, by exact_mod_cast h2⟩
  · rw [← sat_eq_represented p x φ hφ1 hφ2]
    exact h.sat

/-- The solution describing `A` with the assignment `φ`. -/
def monroeSolution (p : Profile) (A : Finset ℕ) (φ : Fin p.voters.length → ℕ) : IVar → ℚ
  | .cand c => if c ∈ A then 1 else 0
  | .partition c i => if h : i < p.voters.length then (if c = φ ⟨i, h⟩ then 1 else 0) else 0
  | .value => represented p φ
  | _ => 0

theorem monroeSolution_partition (p : Profile) (A : Finset ℕ) (φ : Fin p.voters.length → ℕ) (c : ℕ) (i : Fin p.voters.length) :
    monroeSolution p A φ (.partition c i) = if c = φ i then 1 else 0 := by
  simp only [monroeSolution, dif_pos i.2]

theorem monroeSolution_feas {p : Profile} {k : ℕ} (hk : 0 < k) {A : Finset ℕ} (hA : IsCommittee p k A)
    {φ : Fin p.voters.length → ℕ} (hφ : Balanced p A φ) : MonroeFeas p k (monroeSolution p A φ) := by
  have hlt : ∀ i, φ i < p.numCand := fun i => by simpa using hA.1 (hφ.1 i)
  have hcard : ∀ c, ∑ i : Fin p.voters.length, monroeSolution p A φ (.partition c i) =
      ((Finset.univ.filter (fun i => φ i = c)).card : ℚ) := by
    intro c
    rw [← sum_eq_card]
    exact Finset.sum_congr rfl fun i _ => monroeSolution_partition p A φ c i
  have hin : ∀ c, monroeSolution p A φ (.cand c) = 1 → c ∈ A := by
    intro c hc
    by_contra hn
    simp only [monroeSolution, if_neg hn] at hc
    exact absurd hc (by norm_num)
  constructor
  · intro c _ i; rw [monroeSolution_partition]; split <;> norm_num
  · intro c _ i; rw [monroeSolution_partition]; split
    · exact ⟨1, by simp⟩
    · exact ⟨0, by simp⟩
  · intro i
    rw [Finset.sum_congr rfl (fun c _ => monroeSolution_partition p A φ c i)]
    rw [Finset.sum_ite_eq' (Finset.range p.numCand) (φ i), if_pos (Finset.mem_range.2 (hlt i))]
  · intro c _ hc
    rw [hcard]
    have := (hφ.2 c (hin c hc)).1
    rw [hA.2] at this
    exact_mod_cast this
  · intro c _ hc
    rw [hcard, districtHigh_eq p hk]
    have := (hφ.2 c (hin c hc)).2
    rw [hA.2] at this
    exact_mod_cast this
  · intro c _ hc i
    rw [monroeSolution_partition]
    split
    · rename_i h
      subst h
      simp only [monroeSolution, if_pos (hφ.1 i)] at hc
      exact absurd hc (by norm_num)
    · exact le_refl _
  · rw [sat_eq_represented p _ φ hlt (fun i d _ => monroeSolution_partition p A φ d i)]
    rfl

/-- The value of a committee: its Monroe score. -/
noncomputable def monroeValue (p : Profile) (A : Finset ℕ) : ℚ := (monroeNum p A : ℚ)

/-- A program whose feasible solutions satisfy the shared constraints, and for which the canonical solutions are feasible, encodes Monroe's
rule. -/
theorem monroe_encodes {P : Program} {p : Profile} {k : ℕ} (hk : 0 < k) (hvars : ∀ d ∈ candVars p, d ∈ P.vars)
    (hsize : sizeConstr p k ∈ P.constrs) (hobj : P.obj = .var .value) (hsound : ∀ x, Feasible P x → MonroeFeas p k x)
    (hcomplete : ∀ A φ, IsCommittee p k A → Balanced p A φ → Feasible P (monroeSolution p A φ)) :
    Encodes P p (IsCommittee p k) (monroeValue p) := by
  have hne : ∀ A, IsCommittee p k A → A.Nonempty := fun A hA => Finset.card_pos.1 (by rw [hA.2]; exact hk)
  refine ⟨fun x hx => feas_cand hx hvars, fun x hx => ⟨feas_committee hx hvars hsize, ?_⟩, fun A hA => ?_⟩
  · have hA := feas_committee hx hvars hsize
    obtain ⟨φ, hφ, hle⟩ := (hsound x hx).assignment hk (feas_cand hx hvars) hA
    obtain ⟨m, hm⟩ := exists_monroeScore p _ (hne _ hA)
    rw [hobj, LinExp.eval_var]
    unfold monroeValue
    rw [monroeNum_eq hm]
    refine hle.trans ?_
    have := hm.2 φ hφ
    exact_mod_cast this
  · obtain ⟨m, hm⟩ := exists_monroeScore p A (hne A hA)
    obtain ⟨φ, hφ, hr⟩ := hm.1
    have hcand : CandValues p A (monroeSolution p A φ) := fun _ => rfl
    refine ⟨_, hcomplete A φ hA hφ, hcand.sol hA, ?_⟩
    rw [hobj, LinExp.eval_var]
    unfold monroeValue
    rw [monroeNum_eq hm, ← hr]
    simp [monroeSolution]

theorem partitionConstr_eval (p : Profile) (i : ℕ) (x : IVar → ℚ) :
    (LinExp.sum (p.candidates.map (fun c => .var (.partition c i)))).eval x = ∑ c ∈ Finset.range p.numCand, x (.partition c i) := by
  unfold Profile.candidates
  rw [LinExp.eval_sum, List.map_map, sum_range_map]
  simp

theorem districtLow_le (p : Profile) (k : ℕ) : (districtLow p k : ℚ) ≤ p.voters.length := by
  unfold districtLow
  exact_mod_cast Nat.div_le_self _ _

theorem mem_partitionConstrs {p : Profile} (i : Fin p.voters.length) :
    ({ lhs := LinExp.sum (p.candidates.map (fun c => .var (.partition c i))), rel := .eq, rhs := .num 1 } : Constr)
      ∈ partitionConstrs p := by
  unfold partitionConstrs
  exact List.mem_map.2 ⟨i, List.mem_range.2 i.2, rfl⟩

theorem monroeSolution_partitionConstrs {p : Profile} {k : ℕ} {x : IVar → ℚ} (h : MonroeFeas p k x) :
    ∀ c ∈ partitionConstrs p, Holds x c := by
  intro c hc
  unfold partitionConstrs at hc
  obtain ⟨i, hi, rfl⟩ := List.mem_map.1 hc
  rw [holds_plain]
  simp only [RelHolds, partitionConstr_eval, LinExp.eval_num]
  exact h.one ⟨i, List.mem_range.1 hi⟩

theorem monroeSolution_value (p : Profile) (A : Finset ℕ) (φ : Fin p.voters.length → ℕ) :
    InBounds (monroeSolution p A φ) (monroeValueVar p) := by
  unfold InBounds monroeValueVar
  refine ⟨by simp [monroeSolution], fun u hu => ?_, fun _ => ⟨represented p φ, by simp [monroeSolution]⟩⟩
  rw [← Option.some.inj hu]
  simp only [monroeSolution]
  exact_mod_cast represented_le p φ

theorem satConstr_iff {p : Profile} {x : IVar → ℚ} : Holds x (monroeSatConstr p) ↔ x .value ≤ (monroeSat p).eval x := by
  unfold monroeSatConstr
  rw [holds_plain]
  simp only [RelHolds, LinExp.eval_var]

/-- **C62** The programs of Gurobi (`binary = false`) and Python-MIP (`binary = true`) encode Monroe's rule. -/
theorem C62_monroe_program (binary : Bool) (p : Profile) {k : ℕ} (hk : 0 < k) :
    Encodes (monroeProgram binary p k) p (IsCommittee p k) (monroeValue p) := by
  refine monroe_encodes hk (fun d hd => List.mem_append_left _ hd) (List.mem_append_left _ (List.mem_append_left _ List.mem_cons_self)) rfl ?_ ?_
  · intro x hx
    have hcs : ∀ c < p.numCand, ∀ t ∈ ([{ lhs := partitionSum p c, rel := .ge, rhs := LinExp.sub (.num (districtLow p k)) (LinExp.scale p.voters.length (LinExp.sub (.num 1) (.var (.cand c)))) }, { lhs := partitionSum p c, rel := .le, rhs := LinExp.add (.num (districtHigh p k)) (LinExp.scale p.voters.length (LinExp.sub (.num 1) (.var (.cand c)))) }, { lhs := partitionSum p c, rel := .le, rhs := LinExp.scale p.voters.length (.var (.cand c)) }] : List Constr), Holds x t := by
      intro c hc t ht
      refine hx.2 _ (List.mem_append_left _ (List.mem_append_right _ (List.mem_flatMap.2 ⟨c, ?_, ht⟩)))
      simpa [Profile.candidates] using hc
    have hvar : ∀ c < p.numCand, ∀ i : Fin p.voters.length,
        0 ≤ x (.partition c i) ∧ ∃ z : ℤ, x (.partition c i) = z := by
      intro c hc i
      have := hx.1 (if binary then binaryVar (.partition c i) else { v := .partition c i, integer := true, lb := 0 })
        (List.mem_append_right _ (List.mem_cons_of_mem _ (List.mem_flatMap.2 ⟨c, by simpa [Profile.candidates] using hc,
          List.mem_map.2 ⟨i, List.mem_range.2 i.2, rfl⟩⟩)))
      cases binary with
      | true => exact ⟨this.1, this.2.2 rfl⟩
      | false => exact ⟨this.1, this.2.2 rfl⟩
    have hnn : ∀ c < p.numCand, ∀ i : Fin p.voters.length, 0 ≤ x (.partition c i) := fun c hc i => (hvar c hc i).1
    constructor
    · exact hnn
    · exact fun c hc i => (hvar c hc i).2
    · intro i
      have := hx.2 _ (List.mem_append_left _ (List.mem_append_left _ (List.mem_cons_of_mem _ (mem_partitionConstrs i))))
      rw [holds_plain] at this
      simpa only [RelHolds, partitionConstr_eval, LinExp.eval_num] using this
    · intro c hc h1
      have := hcs c hc _ (List.mem_cons_self)
      rw [holds_plain] at this
      simp only [RelHolds, partitionSum_eval, LinExp.eval_sub, LinExp.eval_num, LinExp.eval_scale, LinExp.eval_var, h1] at this
      linarith
    · intro c hc h1
      have := hcs c hc _ (List.mem_cons_of_mem _ List.mem_cons_self)
      rw [holds_plain] at this
      simp only [RelHolds, partitionSum_eval, LinExp.eval_sub, LinExp.eval_add, LinExp.eval_num, LinExp.eval_scale, LinExp.eval_var, h1] at this
      linarith
    · intro c hc h0 i
      have := hcs c hc _ (List.mem_cons_of_mem _ (List.mem_cons_of_mem _ List.mem_cons_self))
      rw [holds_plain] at this
      simp only [RelHolds, partitionSum_eval, LinExp.eval_scale, LinExp.eval_var, h0, mul_zero] at this
      exact (Finset.single_le_sum (fun j _ => hnn c hc j) (Finset.mem_univ i)).trans this
    · exact satConstr_iff.1 (hx.2 _ (List.mem_append_right _ (List.mem_singleton_self _)))
  · intro A φ hA hφ
    have hf := monroeSolution_feas hk hA hφ
    have hcand : CandValues p A (monroeSolution p A φ) := fun _ => rfl
    constructor
    · intro d hd
      rcases List.mem_append.1 hd with h | h
      · exact hcand.vars d h
      rcases List.mem_cons.1 h with rfl | h
      · exact monroeSolution_value p A φ
      obtain ⟨c, hc, h⟩ := List.mem_flatMap.1 h
      obtain ⟨i, hi, rfl⟩ := List.mem_map.1 h
      have hval := monroeSolution_partition p A φ c ⟨i, List.mem_range.1 hi⟩
      simp only at hval
      cases binary with
      | true =>
        rw [if_pos rfl, inBounds_binary, hval]
        split <;> simp
      | false =>
        rw [if_neg (by simp)]
        refine ⟨?_, by simp, fun _ => ?_⟩
        · simp only [hval]; split <;> norm_num
        · simp only [hval]; split
          · exact ⟨1, by simp⟩
          · exact ⟨0, by simp⟩
    · intro t ht
      rcases List.mem_append.1 ht with ht | ht
      · rcases List.mem_append.1 ht with ht | ht
        · rcases List.mem_cons.1 ht with rfl | ht
          · exact hcand.size hA
          · exact monroeSolution_partitionConstrs hf t ht
        · obtain ⟨c, hc, ht⟩ := List.mem_flatMap.1 ht
          have hcl : c < p.numCand := by simpa [Profile.candidates] using hc
          have hS0 : 0 ≤ ∑ i : Fin p.voters.length, monroeSolution p A φ (.partition c i) :=
            Finset.sum_nonneg fun i _ => hf.nonneg c hcl i
          have hSn : ∑ i : Fin p.voters.length, monroeSolution p A φ (.partition c i) ≤ p.voters.length := by
            have : ∑ i : Fin p.voters.length, monroeSolution p A φ (.partition c i) ≤ ∑ _i : Fin p.voters.length, (1 : ℚ) :=
              Finset.sum_le_sum fun i _ => by rw [monroeSolution_partition]; split <;> norm_num
            simpa using this
          have hlow := districtLow_le p k
          have hhigh : (0 : ℚ) ≤ districtHigh p k := by positivity
          simp only [List.mem_cons, List.not_mem_nil, or_false] at ht
          rcases hcand.binary c with h0 | h1
          · have hz : ∑ i : Fin p.voters.length, monroeSolution p A φ (.partition c i) ≤ 0 :=
              Finset.sum_nonpos fun i _ => hf.out c hcl h0 i
            rcases ht with rfl | rfl | rfl <;> rw [holds_plain] <;>
              simp only [RelHolds, partitionSum_eval, LinExp.eval_sub, LinExp.eval_add, LinExp.eval_num, LinExp.eval_scale,
                LinExp.eval_var, h0] <;> linarith
          · have hl := hf.low c hcl h1
            have hh := hf.high c hcl h1
            rcases ht with rfl | rfl | rfl <;> rw [holds_plain] <;>
              simp only [RelHolds, partitionSum_eval, LinExp.eval_sub, LinExp.eval_add, LinExp.eval_num, LinExp.eval_scale,
                LinExp.eval_var, h1] <;> linarith
      · rw [List.mem_singleton] at ht
        subst ht
        exact satConstr_iff.2 hf.sat

theorem holds_guard {x : IVar → ℚ} {l r : LinExp} {rel : Rel} {b : IVar} :
    Holds x { lhs := l, rel := rel, rhs := r, guard := some b } ↔ (x b = 1 → RelHolds rel (l.eval x) (r.eval x)) := by
  unfold Holds
  simp

/-- **C62** The program of OR-Tools encodes Monroe's rule. -/
theorem C62_monroe_program_cp (p : Profile) {k : ℕ} (hk : 0 < k) :
    Encodes (monroeProgramCp p k) p (IsCommittee p k) (monroeValue p) := by
  refine monroe_encodes hk (fun d hd => List.mem_append_left _ hd) (List.mem_append_left _ (List.mem_append_left _ List.mem_cons_self)) rfl ?_ ?_
  · intro x hx
    have hcs : ∀ c < p.numCand, ∀ t ∈ ([{ lhs := partitionSum p c, rel := .ge, rhs := .num (districtLow p k), guard := some (.cand c) },
       { lhs := partitionSum p c, rel := .le, rhs := .num (districtHigh p k), guard := some (.cand c) }] ++
      (List.range p.voters.length).map (fun j => { lhs := .var (.partition c j), rel := .le, rhs := .var (.cand c) }) : List Constr),
        Holds x t := by
      intro c hc t ht
      refine hx.2 _ (List.mem_append_left _ (List.mem_append_right _ (List.mem_flatMap.2 ⟨c, ?_, ht⟩)))
      simpa [Profile.candidates] using hc
    have hvar : ∀ c < p.numCand, ∀ i : Fin p.voters.length, x (.partition c i) = 0 ∨ x (.partition c i) = 1 := by
      intro c hc i
      exact inBounds_binary.1 (hx.1 _
        (List.mem_append_right _ (List.mem_cons_of_mem _ (List.mem_flatMap.2 ⟨c, by simpa [Profile.candidates] using hc,
          List.mem_map.2 ⟨i, List.mem_range.2 i.2, rfl⟩⟩))))
    constructor
    · intro c hc i; rcases hvar c hc i with h | h <;> rw [h]; norm_num
    · intro c hc i; rcases hvar c hc i with h | h <;> rw [h]
      · exact ⟨0, by simp⟩
      · exact ⟨1, by simp⟩
    · intro i
      have := hx.2 _ (List.mem_append_left _ (List.mem_append_left _ (List.mem_cons_of_mem _ (mem_partitionConstrs i))))
      rw [holds_plain] at this
      simpa only [RelHolds, partitionConstr_eval, LinExp.eval_num] using this
    · intro c hc h1
      have := hcs c hc _ (List.mem_append_left _ List.mem_cons_self)
      rw [holds_guard] at this
      simpa only [RelHolds, partitionSum_eval, LinExp.eval_num] using this h1
    · intro c hc h1
      have := hcs c hc _ (List.mem_append_left _ (List.mem_cons_of_mem _ List.mem_cons_self))
      rw [holds_guard] at this
      simpa only [RelHolds, partitionSum_eval, LinExp.eval_num] using this h1
    · intro c hc h0 i
      have := hcs c hc _ (List.mem_append_right _ (List.mem_map.2 ⟨i, List.mem_range.2 i.2, rfl⟩))
      rw [holds_plain] at this
      simpa only [RelHolds, LinExp.eval_var, h0] using this
    · exact satConstr_iff.1 (hx.2 _ (List.mem_append_right _ (List.mem_singleton_self _)))
  · intro A φ hA hφ
    have hf := monroeSolution_feas hk hA hφ
    have hcand : CandValues p A (monroeSolution p A φ) := fun _ => rfl
    constructor
    · intro d hd
      rcases List.mem_append.1 hd with h | h
      · exact hcand.vars d h
      rcases List.mem_cons.1 h with rfl | h
      · exact monroeSolution_value p A φ
      obtain ⟨c, hc, h⟩ := List.mem_flatMap.1 h
      obtain ⟨i, hi, rfl⟩ := List.mem_map.1 h
      have hval := monroeSolution_partition p A φ c ⟨i, List.mem_range.1 hi⟩
      simp only at hval
      rw [inBounds_binary, hval]
      split <;> simp
    · intro t ht
      rcases List.mem_append.1 ht with ht | ht
      · rcases List.mem_append.1 ht with ht | ht
        · rcases List.mem_cons.1 ht with rfl | ht
          · exact hcand.size hA
          · exact monroeSolution_partitionConstrs hf t ht
        · obtain ⟨c, hc, ht⟩ := List.mem_flatMap.1 ht
          have hcl : c < p.numCand := by simpa [Profile.candidates] using hc
          rcases List.mem_append.1 ht with ht | ht
          · simp only [List.mem_cons, List.not_mem_nil, or_false] at ht
            rcases ht with rfl | rfl <;> rw [holds_guard] <;> intro h1 <;>
              simp only [RelHolds, partitionSum_eval, LinExp.eval_num]
            · exact hf.low c hcl h1
            · exact hf.high c hcl h1
          · obtain ⟨i, hi, rfl⟩ := List.mem_map.1 ht
            rw [holds_plain]
            simp only [RelHolds, LinExp.eval_var]
            have hval := monroeSolution_partition p A φ c ⟨i, List.mem_range.1 hi⟩
            simp only at hval
            rcases hcand.binary c with h0 | h1
            · rw [h0]; exact hf.out c hcl h0 ⟨i, List.mem_range.1 hi⟩
            · rw [h1, hval]; split <;> norm_num
      · rw [List.mem_singleton] at ht
        subst ht
        exact satConstr_iff.2 hf.sat

theorem monroeOpt_iff (p : Profile) {k : ℕ} (hk : 0 < k) (A : Finset ℕ) :
    MonroeOpt p k A ↔ IsCommittee p k A ∧ ∀ B, IsCommittee p k B → monroeValue p B ≤ monroeValue p A := by
  have hne : ∀ A, IsCommittee p k A → A.Nonempty := fun A hA => Finset.card_pos.1 (by rw [hA.2]; exact hk)
  unfold MonroeOpt monroeValue
  refine and_congr_right fun hA => ?_
  obtain ⟨m, hm⟩ := exists_monroeScore p A (hne A hA)
  rw [monroeNum_eq hm]
  constructor
  · rintro ⟨φ, hφ, hopt⟩ B hB
    obtain ⟨n, hn⟩ := exists_monroeScore p B (hne B hB)
    rw [monroeNum_eq hn]
    obtain ⟨⟨ψ, hψ, rfl⟩, -⟩ := hn
    have h1 := hopt B ψ hB hψ
    have h2 := hm.2 φ hφ
    exact_mod_cast h1.trans h2
  · intro h
    obtain ⟨φ, hφ, hr⟩ := hm.1
    refine ⟨φ, hφ, fun B ψ hB hψ => ?_⟩
    obtain ⟨n, hn⟩ := exists_monroeScore p B (hne B hB)
    have h1 := h B hB
    rw [monroeNum_eq hn] at h1
    have h2 : n ≤ m := by exact_mod_cast h1
    have h3 := hn.2 ψ hψ
    omega

/-- **C62** `compute_monroe` with any accepted algorithm — solvers, matchings and flows being exact — returns exactly Monroe's committees
(unit weights; other weights are rejected with ValueError). -/
theorem C62_compute_monroe (env : Env) (matching : List MEdge → List MEdge) (hmat : ExactMatching matching)
    (minCost : FlowNet → Except Err ℕ) (hmin : ExactMinCost minCost) (solve : String → Program → SolveResult) (p : Profile)
    (a : Args) (alg : String) (hal : prologue env "monroe" p a = .ok alg) (hsolve : ExactSolver (solve alg)) :
    (p.hasUnitWeights = true →
      Answers a (computeMonroe env matching minCost (monroeSolver solve matching minCost p a) p a) (MonroeOpt p a.k)) ∧
    (p.hasUnitWeights = false →
      computeMonroe env matching minCost (monroeSolver solve matching minCost p a) p a = .error .valueError) := by
  have hv := validCall_of_prologue hal
  have hne : ∀ A, IsCommittee p a.k A → A.Nonempty := fun A hA => Finset.card_pos.1 (by rw [hA.2]; exact hv.pos)
  constructor
  swap
  · intro hu
    unfold computeMonroe
    simp [hal, bind, Except.bind, hu]
  intro hu
  have hex : ∃ A, MonroeOpt p a.k A := by
    obtain ⟨A, hA⟩ := exists_opt hv.le (monroeValue p)
    exact ⟨A, (monroeOpt_iff p hv.pos A).2 hA⟩
  have hsc : ∀ W : List ℕ, W.Pairwise (· < ·) → IsCommittee p a.k W.toFinset →
      monroeScoreQ matching minCost p W = .ok (monroeValue p W.toFinset) := by
    intro W hlt hW
    have hWne : W ≠ [] := by
      rintro rfl
      simpa using hne _ hW
    obtain ⟨m, hm, hs⟩ := C17_monroescore matching hmat minCost hmin p W (nodup_of_lt hlt) hWne
    unfold monroeScoreQ monroeValue
    rw [hm, monroeNum_eq hs]
    simp [bind, Except.bind]
  have hlp : ∀ (thr : ℚ), 0 < thr → thr ≤ 1 → ∀ P, Encodes P p (IsCommittee p a.k) (monroeValue p) →
      Answers a (do
        let r ← optimizeRule (solve alg) thr (some (monroeScoreQ matching minCost p)) p a.k a.resolute a.maxNum P
        sortedCommittees r.1) (MonroeOpt p a.k) := by
    intro thr h0 h1 P hP
    have := enumeration_sorted hsolve h0 h1 hv hP (fun A hA => hA) hsc (exists_committee hv.le)
    rw [show MonroeOpt p a.k = _ from funext fun A => propext (monroeOpt_iff p hv.pos A)]
    exact this
  have key : ∀ r, Answers a r (MonroeOpt p a.k) → (alg ≠ "brute-force") → monroeSolver solve matching minCost p a alg = r →
      Answers a (computeMonroe env matching minCost (monroeSolver solve matching minCost p a) p a) (MonroeOpt p a.k) := by
    intro r hr h1 h3
    obtain ⟨cs, c, rfl, e⟩ := answers_get hr hex hv.max
    have hc : c.Nodup ∧ IsCommittee p a.k c.toFinset := by
      have hmem : c ∈ cs := by
        cases cs with
        | nil => simp [pyGet] at e
        | cons y ys =>
          have : y = c := by simpa [pyGet] using e
          simp [this]
      unfold Answers at hr
      split at hr
      · obtain ⟨W, e', hlt, hW⟩ := hr
        rw [Except.ok.inj e', List.mem_singleton] at hmem
        subst hmem
        exact ⟨nodup_of_lt hlt, hW.1⟩
      · obtain ⟨W, e', hlt, hW⟩ := hr
        rw [← Except.ok.inj e'] at hlt hW
        exact ⟨nodup_of_lt (hlt.asc c hmem), ((hW _).1 ⟨c, hmem, rfl⟩).1⟩
      · obtain ⟨W, e', hlt, hW, -⟩ := hr
        rw [← Except.ok.inj e'] at hlt hW
        exact ⟨nodup_of_lt (hlt.asc c hmem), (hW c hmem).1⟩
    have hcne : c ≠ [] := by
      rintro rfl
      simpa using hne _ hc.2
    obtain ⟨m, hm, -⟩ := C17_monroescore matching hmat minCost hmin p c hc.1 hcne
    unfold computeMonroe
    simp only [hal, bind, Except.bind, hu, not_true_eq_false, if_false, if_neg h1, h3, e, hm]
    exact hr
  have h : alg ∈ ["gurobi", "mip-gurobi", "mip-cbc", "ortools-cp", "brute-force"] :=
    prologue_alg_mem hal (ri := ⟨["gurobi", "mip-gurobi", "mip-cbc", "ortools-cp", "brute-force"], resOpt⟩) rfl
  simp only [List.mem_cons, List.not_mem_nil, or_false] at h
  rcases h with rfl | rfl | rfl | rfl | rfl
  · exact key _ (hlp _ thrMip_pos thrMip_le _ (C62_monroe_program false p hv.pos)) (by decide)
      (by unfold monroeSolver; rw [if_pos (by decide)])
  · exact key _ (hlp _ thrMip_pos thrMip_le _ (C62_monroe_program true p hv.pos)) (by decide)
      (by unfold monroeSolver; rw [if_neg (by decide), if_neg (by decide), if_pos (by decide)])
  · exact key _ (hlp _ thrMip_pos thrMip_le _ (C62_monroe_program true p hv.pos)) (by decide)
      (by unfold monroeSolver; rw [if_neg (by decide), if_neg (by decide), if_pos (by decide)])
  · exact key _ (hlp _ thrCp_pos thrCp_le _ (C62_monroe_program_cp p hv.pos)) (by decide)
      (by unfold monroeSolver; rw [if_neg (by decide), if_pos (by decide)])
  · exact (C26_monroe_optimal env matching hmat minCost hmin _ p a hal).1 hu

/-- The hypotheses are satisfiable: Gurobi on a profile of three voters. -/
example : ∃ (matching : List MEdge → List MEdge) (minCost : FlowNet → Except Err ℕ) (solve : String → Program → SolveResult),
    Answers { committeesize := 2, algorithm := "gurobi", resolute := false }
      (computeMonroe ⟨["gurobi"], fun _ => none, fun _ => none⟩ matching minCost
        (monroeSolver solve matching minCost monroeExample { committeesize := 2, algorithm := "gurobi", resolute := false })
        monroeExample { committeesize := 2, algorithm := "gurobi", resolute := false })
      (MonroeOpt monroeExample 2) := by
  obtain ⟨solve, hs⟩ := exists_exactSolver
  obtain ⟨matching, hm⟩ := exists_exactMatching
  obtain ⟨minCost, hc⟩ := exists_exactMinCost
  exact ⟨matching, minCost, fun _ => solve, (C62_compute_monroe _ matching hm minCost hc (fun _ => solve) _ _ "gurobi"
    (by decide +kernel) hs).1 (by decide +kernel)⟩

end Abc
