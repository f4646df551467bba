import Verif.Lemmas.ILP
import Mathlib.Data.Finset.Max
import Mathlib.Data.Finset.Powerset
import Mathlib.Order.Interval.Finset.Basic
import Mathlib.Data.Int.Interval
import Mathlib.Tactic.Linarith
import Mathlib.Data.Rat.Floor

/-!
# Bounded programs have optimal solutions

A finite union of polyhedra (given by finitely many linear inequalities with rational coefficients) that is not empty and on which a
linear function is bounded above contains a maximiser.
-/

namespace Abc

open Spec

/-- The linear expression is affine in the variables. -/
theorem LinExp.eval_line (e : LinExp) (x d : IVar → ℚ) (t : ℚ) :
    e.eval (fun v => x v + t * d v) = e.eval x + t * (e.eval d - e.const) := by
  unfold LinExp.eval
  generalize e.const = c
  induction e.terms with
  | nil => simp
  | cons a l ih =>
    simp only [List.map_cons, List.sum_cons]
    linarith

/-- The polyhedron of a list of inequalities `e ≤ 0`. -/
def Poly (L : List LinExp) (x : IVar → ℚ) : Prop := ∀ e ∈ L, e.eval x ≤ 0

/-- The inequalities that are tight at `x`. -/
def tight (L : List LinExp) (x : IVar → ℚ) : Finset LinExp := L.toFinset.filter (fun e => e.eval x = 0)

theorem mem_tight {L : List LinExp} {x : IVar → ℚ} {e : LinExp} : e ∈ tight L x ↔ e ∈ L ∧ e.eval x = 0 := by simp [tight]

/-- The objective is determined by the tight inequalities. -/
def Basic (L : List LinExp) (o : LinExp) (x : IVar → ℚ) : Prop :=
  Poly L x ∧ ∀ y, (∀ e ∈ tight L x, e.eval y = 0) → o.eval y = o.eval x

/-- From a point that is not basic one can move to a point with more tight inequalities and a larger objective. -/
theorem improve {L : List LinExp} {o : LinExp} {B : ℚ} (hB : ∀ x, Poly L x → o.eval x ≤ B) {x : IVar → ℚ} (hx : Poly L x)
    (hn : ¬ Basic L o x) : ∃ y, Poly L y ∧ o.eval x ≤ o.eval y ∧ tight L x ⊂ tight L y := by
  unfold Basic at hn
  push Not at hn
  obtain ⟨y, hy, hne⟩ := hn hx
  -- a direction that increases the objective
  obtain ⟨d, hd, ha⟩ : ∃ d : IVar → ℚ, (∀ e ∈ tight L x, e.eval d - e.const = 0) ∧ 0 < o.eval d - o.const := by
    have key : ∀ (s : ℚ) (e : LinExp), e.eval (fun v => 0 + s * (y v - x v)) - e.const = s * (e.eval y - e.eval x) := by
      intro s e
      have h1 := e.eval_line (fun _ => 0) (fun v => y v - x v) s
      have h2 := e.eval_line x (fun v => y v - x v) 1
      have h3 : (fun v => x v + 1 * (y v - x v)) = y := by funext v; ring
      have h4 : e.eval (fun _ => 0) = e.const := by
        unfold LinExp.eval
        simp
      rw [h3] at h2
      rw [h1, h4]
      rw [h2]; ring
    rcases lt_or_gt_of_ne hne with h | h
    · refine ⟨fun v => 0 + (-1) * (y v - x v), fun e he => ?_, ?_⟩
      · rw [key, hy e he, (mem_tight.1 he).2]; ring
      · rw [key]; linarith
    · refine ⟨fun v => 0 + 1 * (y v - x v), fun e he => ?_, ?_⟩
      · rw [key, hy e he, (mem_tight.1 he).2]; ring
      · rw [key]; linarith
  set a := o.eval d - o.const with hadef
  set S := L.toFinset.filter (fun e => 0 < e.eval d - e.const) with hS
  have hSne : S.Nonempty := by
    by_contra hcon
    rw [Finset.not_nonempty_iff_eq_empty] at hcon
    have hray : ∀ t : ℚ, 0 ≤ t → Poly L (fun v => x v + t * d v) := by
      intro t ht e he
      rw [e.eval_line]
      have h1 : e.eval d - e.const ≤ 0 := by
        by_contra h
        push Not at h
        have : e ∈ S := by simp [hS, he]; linarith
        rw [hcon] at this
        simp at this
      nlinarith [hx e he, mul_nonneg ht (neg_nonneg.2 h1)]
    have h1 := hB _ (hray 0 le_rfl)
    have h2 := hB _ (hray ((B - o.eval x + 1) / a) (by
      rw [o.eval_line] at h1
      have : 0 < B - o.eval x + 1 := by linarith
      positivity))
    rw [o.eval_line, ← hadef, div_mul_cancel₀ _ ha.ne'] at h2
    linarith
  obtain ⟨e₀, he₀, hmin⟩ := S.exists_min_image (fun e => -e.eval x / (e.eval d - e.const)) hSne
  have he₀' : e₀ ∈ L ∧ 0 < e₀.eval d - e₀.const := by simpa [hS] using he₀
  have hx0 : e₀.eval x < 0 := by
    refine lt_of_le_of_ne (hx _ he₀'.1) fun h => ?_
    have := hd e₀ (mem_tight.2 ⟨he₀'.1, h⟩)
    linarith [he₀'.2]
  set t := -e₀.eval x / (e₀.eval d - e₀.const) with ht
  have htpos : 0 < t := div_pos (by linarith) he₀'.2
  refine ⟨fun v => x v + t * d v, fun e he => ?_, ?_, ?_⟩
  · rw [e.eval_line]
    rcases le_or_gt (e.eval d - e.const) 0 with h | h
    · nlinarith [hx e he, mul_nonneg htpos.le (neg_nonneg.2 h)]
    · have h1 := hmin e (by simp [hS, he]; linarith)
      rw [le_div_iff₀ h] at h1
      linarith
  · rw [o.eval_line]
    have := mul_pos htpos ha
    linarith
  · rw [Finset.ssubset_iff_of_subset]
    · refine ⟨e₀, mem_tight.2 ⟨he₀'.1, ?_⟩, fun h => by linarith [(mem_tight.1 h).2]⟩
      rw [e₀.eval_line, ht, div_mul_cancel₀ _ he₀'.2.ne']
      ring
    · intro e he
      refine mem_tight.2 ⟨(mem_tight.1 he).1, ?_⟩
      rw [e.eval_line, hd e he, (mem_tight.1 he).2]
      ring

/-- Every point is dominated by a basic point. -/
theorem exists_basic {L : List LinExp} {o : LinExp} {B : ℚ} (hB : ∀ x, Poly L x → o.eval x ≤ B) :
    ∀ (n : ℕ) (x : IVar → ℚ), L.toFinset.card - (tight L x).card = n → Poly L x → ∃ y, Basic L o y ∧ o.eval x ≤ o.eval y := by
  intro n
  induction n using Nat.strong_induction_on with
  | _ n ih =>
    intro x hn hx
    by_cases hb : Basic L o x
    · exact ⟨x, hb, le_rfl⟩
    · obtain ⟨y, hy, hxy, hlt⟩ := improve hB hx hb
      have h1 := Finset.card_lt_card hlt
      have h2 : (tight L y).card ≤ L.toFinset.card := Finset.card_le_card (Finset.filter_subset _ _)
      obtain ⟨z, hz, hyz⟩ := ih (L.toFinset.card - (tight L y).card) (by omega) y rfl hy
      exact ⟨z, hz, hxy.trans hyz⟩

/-- A non-empty polyhedron on which the objective is bounded has a maximiser. -/
theorem poly_optimum {L : List LinExp} {o : LinExp} {B : ℚ} (hne : ∃ x, Poly L x) (hB : ∀ x, Poly L x → o.eval x ≤ B) :
    ∃ x, Poly L x ∧ ∀ y, Poly L y → o.eval y ≤ o.eval x := by
  classical
  obtain ⟨x₀, hx₀⟩ := hne
  -- the value of a basic point with a given set of tight inequalities
  let val : Finset LinExp → ℚ := fun T => if h : ∃ x, Basic L o x ∧ tight L x = T then o.eval h.choose else 0
  have hval : ∀ x, Basic L o x → val (tight L x) = o.eval x := by
    intro x hx
    have h : ∃ y, Basic L o y ∧ tight L y = tight L x := ⟨x, hx, rfl⟩
    have : val (tight L x) = o.eval h.choose := dif_pos h
    rw [this]
    refine hx.2 _ fun e he => ?_
    rw [← h.choose_spec.2] at he
    exact (mem_tight.1 he).2
  let S := L.toFinset.powerset.filter (fun T => ∃ x, Basic L o x ∧ tight L x = T)
  have hmem : ∀ x, Basic L o x → tight L x ∈ S := fun x hx =>
    Finset.mem_filter.2 ⟨Finset.mem_powerset.2 (Finset.filter_subset _ _), x, hx, rfl⟩
  obtain ⟨z, hz, -⟩ := exists_basic hB _ x₀ rfl hx₀
  obtain ⟨T, hT, hmax⟩ := S.exists_max_image val ⟨_, hmem z hz⟩
  obtain ⟨-, x, hx, rfl⟩ := Finset.mem_filter.1 hT
  refine ⟨x, hx.1, fun y hy => ?_⟩
  obtain ⟨w, hw, hyw⟩ := exists_basic hB _ y rfl hy
  have := hmax _ (hmem w hw)
  rw [hval w hw, hval x hx] at this
  exact hyw.trans this

/-- A finite union of polyhedra. -/
def PolyUnion (S : (IVar → ℚ) → Prop) : Prop := ∃ LL : List (List LinExp), ∀ x, S x ↔ ∃ L ∈ LL, Poly L x

theorem PolyUnion.congr {S T : (IVar → ℚ) → Prop} (h : PolyUnion S) (e : ∀ x, T x ↔ S x) : PolyUnion T := by
  obtain ⟨LL, hL⟩ := h
  exact ⟨LL, fun x => (e x).trans (hL x)⟩

theorem polyUnion_le (e f : LinExp) : PolyUnion (fun x => e.eval x ≤ f.eval x) :=
  ⟨[[LinExp.sub e f]], fun x => by simp [Poly]⟩

theorem PolyUnion.or {S T : (IVar → ℚ) → Prop} (hS : PolyUnion S) (hT : PolyUnion T) : PolyUnion (fun x => S x ∨ T x) := by
  obtain ⟨LL, hL⟩ := hS
  obtain ⟨MM, hM⟩ := hT
  refine ⟨LL ++ MM, fun x => ?_⟩
  simp only [hL, hM, List.mem_append, or_and_right, exists_or]

theorem PolyUnion.and {S T : (IVar → ℚ) → Prop} (hS : PolyUnion S) (hT : PolyUnion T) : PolyUnion (fun x => S x ∧ T x) := by
  obtain ⟨LL, hL⟩ := hS
  obtain ⟨MM, hM⟩ := hT
  refine ⟨LL.flatMap (fun L => MM.map (fun M => L ++ M)), fun x => ?_⟩
  simp only [hL, hM]
  constructor
  · rintro ⟨⟨L, h1, h2⟩, M, h3, h4⟩
    refine ⟨L ++ M, List.mem_flatMap.2 ⟨L, h1, List.mem_map.2 ⟨M, h3, rfl⟩⟩, fun e he => ?_⟩
    rcases List.mem_append.1 he with h | h
    · exact h2 e h
    · exact h4 e h
  · rintro ⟨K, h1, h2⟩
    obtain ⟨L, hl, h3⟩ := List.mem_flatMap.1 h1
    obtain ⟨M, hm, rfl⟩ := List.mem_map.1 h3
    exact ⟨⟨L, hl, fun e he => h2 e (List.mem_append_left _ he)⟩, M, hm, fun e he => h2 e (List.mem_append_right _ he)⟩

theorem polyUnion_true : PolyUnion (fun _ => True) := ⟨[[]], fun x => by simp [Poly]⟩

theorem polyUnion_false : PolyUnion (fun _ => False) := ⟨[], fun x => by simp⟩

theorem polyUnion_eq (e f : LinExp) : PolyUnion (fun x => e.eval x = f.eval x) :=
  ((polyUnion_le e f).and (polyUnion_le f e)).congr fun _ => le_antisymm_iff

theorem polyUnion_forall {α : Type} (l : List α) (S : α → (IVar → ℚ) → Prop) (h : ∀ a ∈ l, PolyUnion (S a)) :
    PolyUnion (fun x => ∀ a ∈ l, S a x) := by
  induction l with
  | nil => exact polyUnion_true.congr fun x => by simp
  | cons a l ih =>
    exact ((h a (by simp)).and (ih fun b hb => h b (List.mem_cons_of_mem _ hb))).congr fun x => by simp

theorem polyUnion_exists {α : Type} (l : List α) (S : α → (IVar → ℚ) → Prop) (h : ∀ a ∈ l, PolyUnion (S a)) :
    PolyUnion (fun x => ∃ a ∈ l, S a x) := by
  induction l with
  | nil => exact polyUnion_false.congr fun x => by simp
  | cons a l ih =>
    exact ((h a (by simp)).or (ih fun b hb => h b (List.mem_cons_of_mem _ hb))).congr fun x => by simp

/-- Integer values within bounds. -/
theorem polyUnion_integer (v : IVar) (l u : ℚ) : PolyUnion (fun x => l ≤ x v ∧ x v ≤ u ∧ ∃ z : ℤ, x v = z) := by
  refine (polyUnion_exists (Finset.Icc ⌈l⌉ ⌊u⌋).toList (fun z x => (LinExp.var v).eval x = (LinExp.num (z : ℚ)).eval x)
    fun z _ => polyUnion_eq _ _).congr fun x => ?_
  simp only [LinExp.eval_var, LinExp.eval_num, Finset.mem_toList, Finset.mem_Icc]
  constructor
  · rintro ⟨h1, h2, z, hz⟩
    rw [hz] at h1 h2
    exact ⟨z, ⟨Int.ceil_le.2 h1, Int.le_floor.2 h2⟩, hz⟩
  · rintro ⟨z, ⟨h1, h2⟩, hz⟩
    rw [hz]
    exact ⟨Int.ceil_le.1 h1, Int.le_floor.1 h2, z, rfl⟩

/-- A maximiser in a finite union of polyhedra. -/
theorem PolyUnion.optimum {S : (IVar → ℚ) → Prop} (hS : PolyUnion S) (hne : ∃ x, S x) {o : LinExp} {B : ℚ}
    (hB : ∀ x, S x → o.eval x ≤ B) : ∃ x, S x ∧ ∀ y, S y → o.eval y ≤ o.eval x := by
  obtain ⟨LL, hL⟩ := hS
  have key : ∀ LL : List (List LinExp), (∀ L ∈ LL, ∀ x, Poly L x → o.eval x ≤ B) → (∃ L ∈ LL, ∃ x, Poly L x) →
      ∃ x, (∃ L ∈ LL, Poly L x) ∧ ∀ y, (∃ L ∈ LL, Poly L y) → o.eval y ≤ o.eval x := by
    intro LL
    induction LL with
    | nil => rintro - ⟨L, hL, -⟩; simp at hL
    | cons L LL ih =>
      intro hb hne
      have hb' : ∀ M ∈ LL, ∀ x, Poly M x → o.eval x ≤ B := fun M hM => hb M (List.mem_cons_of_mem _ hM)
      by_cases h1 : ∃ x, Poly L x
      · obtain ⟨x, hx, hxo⟩ := poly_optimum h1 (hb L List.mem_cons_self)
        by_cases h2 : ∃ M ∈ LL, ∃ x, Poly M x
        · obtain ⟨y, ⟨M, hM, hy⟩, hyo⟩ := ih hb' h2
          rcases le_total (o.eval y) (o.eval x) with h | h
          · refine ⟨x, ⟨L, List.mem_cons_self, hx⟩, ?_⟩
            rintro z ⟨K, hK, hz⟩
            rcases List.mem_cons.1 hK with rfl | hK
            · exact hxo z hz
            · exact (hyo z ⟨K, hK, hz⟩).trans h
          · refine ⟨y, ⟨M, List.mem_cons_of_mem _ hM, hy⟩, ?_⟩
            rintro z ⟨K, hK, hz⟩
            rcases List.mem_cons.1 hK with rfl | hK
            · exact (hxo z hz).trans h
            · exact hyo z ⟨K, hK, hz⟩
        · refine ⟨x, ⟨L, List.mem_cons_self, hx⟩, ?_⟩
          rintro z ⟨K, hK, hz⟩
          rcases List.mem_cons.1 hK with rfl | hK
          · exact hxo z hz
          · exact absurd ⟨K, hK, z, hz⟩ h2
      · obtain ⟨M, hM, x, hx⟩ := hne
        rcases List.mem_cons.1 hM with rfl | hM
        · exact absurd ⟨x, hx⟩ h1
        · obtain ⟨y, ⟨M, hM, hy⟩, hyo⟩ := ih hb' ⟨M, hM, x, hx⟩
          refine ⟨y, ⟨M, List.mem_cons_of_mem _ hM, hy⟩, ?_⟩
          rintro z ⟨K, hK, hz⟩
          rcases List.mem_cons.1 hK with rfl | hK
          · exact absurd ⟨z, hz⟩ h1
          · exact hyo z ⟨K, hK, hz⟩
  obtain ⟨x₀, hx₀⟩ := hne
  obtain ⟨L₀, h₀, h₀'⟩ := (hL x₀).1 hx₀
  obtain ⟨x, hx, ho⟩ := key LL (fun L hLm x hx => hB x ((hL x).2 ⟨L, hLm, hx⟩)) ⟨L₀, h₀, x₀, h₀'⟩
  exact ⟨x, (hL x).2 hx, fun y hy => ho y ((hL y).1 hy)⟩

/-- The program has bounded integer variables, and its guards are among them. -/
structure Finitary (P : Program) : Prop where
  bounded : ∀ d ∈ P.vars, d.integer = true → ∃ u, d.ub = some u
  guards : ∀ c ∈ P.constrs, ∀ b, c.guard = some b → ∃ d ∈ P.vars, d.v = b ∧ d.integer = true

theorem polyUnion_rel (r : Rel) (e f : LinExp) : PolyUnion (fun x => RelHolds r (e.eval x) (f.eval x)) := by
  cases r with
  | le => exact polyUnion_le e f
  | ge => exact polyUnion_le f e
  | eq => exact polyUnion_eq e f

theorem polyUnion_feasible {P : Program} (h : Finitary P) : PolyUnion (Feasible P) := by
  have hvars : PolyUnion (fun x => ∀ d ∈ P.vars, InBounds x d) := by
    refine polyUnion_forall _ _ fun d hd => ?_
    cases hi : d.integer with
    | true =>
      obtain ⟨u, hu⟩ := h.bounded d hd hi
      exact (polyUnion_integer d.v d.lb u).congr fun x => by simp [InBounds, hi, hu]
    | false =>
      cases hu : d.ub with
      | none => exact (polyUnion_le (.num d.lb) (.var d.v)).congr fun x => by simp [InBounds, hi, hu]
      | some u =>
        exact ((polyUnion_le (.num d.lb) (.var d.v)).and (polyUnion_le (.var d.v) (.num u))).congr fun x => by
          simp [InBounds, hi, hu]
  -- a guarded constraint, using that the guard is an integer variable
  have hcon : PolyUnion (fun x => ∀ c ∈ P.constrs, (∃ b, c.guard = some b ∧ (x b ≤ 0 ∨ 2 ≤ x b)) ∨
      RelHolds c.rel (c.lhs.eval x) (c.rhs.eval x)) := by
    refine polyUnion_forall _ _ fun c hc => ?_
    cases hg : c.guard with
    | none => exact (polyUnion_rel c.rel c.lhs c.rhs).congr fun x => by simp
    | some b =>
      exact (((polyUnion_le (.var b) (.num 0)).or (polyUnion_le (.num 2) (.var b))).or (polyUnion_rel c.rel c.lhs c.rhs)).congr
        fun x => by simp
  refine (hvars.and hcon).congr fun x => ?_
  refine and_congr_right fun hv => forall_congr' fun c => forall_congr' fun hc => ?_
  constructor
  · intro hh
    by_cases h1 : ∀ b, c.guard = some b → x b = 1
    · exact Or.inr (hh h1)
    · push Not at h1
      obtain ⟨b, hb, hne⟩ := h1
      obtain ⟨d, hd, rfl, hi⟩ := h.guards c hc b hb
      obtain ⟨z, hz⟩ := (hv d hd).2.2 hi
      refine Or.inl ⟨d.v, hb, ?_⟩
      rw [hz] at hne ⊢
      have hz1 : z ≠ 1 := fun e => hne (by rw [e]; norm_num)
      rcases lt_or_gt_of_ne hz1 with h | h
      · left; exact_mod_cast (by omega : z ≤ 0)
      · right; exact_mod_cast (by omega : 2 ≤ z)
  · rintro (⟨b, hb, hx⟩ | hr) hh
    · have := hh b hb
      rcases hx with h | h <;> linarith
    · exact hr

/-- **Existence of optimal solutions.** A feasible program whose integer variables are bounded and whose objective is bounded on the
feasible solutions has an optimal solution; so an exact solver returns one. -/
theorem exists_optimalSol {P : Program} (h : Finitary P) {B : ℚ} (hB : ∀ x, Feasible P x → P.obj.eval x ≤ B)
    (hne : ∃ x, Feasible P x) : ∃ x, OptimalSol P x :=
  (polyUnion_feasible h).optimum hne hB

theorem solve_iff {solve : Program → SolveResult} (hs : ExactSolver solve) {P : Program} (h : Finitary P) {B : ℚ}
    (hB : ∀ x, Feasible P x → P.obj.eval x ≤ B) :
    (∃ x, solve P = .optimal x ∧ OptimalSol P x) ∨ (solve P = .infeasible ∧ ¬ ∃ x, Feasible P x) := by
  by_cases hne : ∃ x, Feasible P x
  · exact Or.inl ((hs P).1 (exists_optimalSol h hB hne))
  · exact Or.inr ⟨(hs P).2 hne, hne⟩

end Abc
