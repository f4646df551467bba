import Mathlib.Combinatorics.Hall.Finite
import Mathlib.Algebra.BigOperators.Ring.Finset
import Mathlib.Algebra.Order.BigOperators.Ring.Finset
import Mathlib.Data.Fintype.Sigma
import Mathlib.Algebra.BigOperators.Field
import Mathlib.Data.Finite.Prod
import Mathlib.Data.Fintype.Prod
import Mathlib.Data.Fintype.EquivFin
import Mathlib.Data.Fintype.Option
import Mathlib.Data.Rat.Defs
import Mathlib.Algebra.Order.Field.Rat
import Mathlib.Tactic.Linarith
import Mathlib.Tactic.FieldSimp
import Mathlib.Tactic.Positivity

/-!
# A fractional version of Hall's theorem

Goods `c ∈ A`, each demanding the amount `s`; agents `i` with capacity `cap i`, able to serve `c` if `R i c`.
-/

namespace Abc

/-- Finitely many non-negative rationals have a common denominator. -/
theorem common_denominator {ι : Type} (S : Finset ι) (q : ι → ℚ) (h : ∀ i ∈ S, 0 ≤ q i) :
    ∃ D : ℕ, 0 < D ∧ ∀ i ∈ S, ∃ m : ℕ, q i * D = m := by
  classical
  induction S using Finset.induction_on with
  | empty => exact ⟨1, one_pos, by simp⟩
  | insert a S ha ih =>
    obtain ⟨D, hD, hm⟩ := ih (fun i hi => h i (Finset.mem_insert_of_mem hi))
    refine ⟨D * (q a).den, Nat.mul_pos hD (q a).den_pos, fun i hi => ?_⟩
    rcases Finset.mem_insert.1 hi with rfl | hi
    · refine ⟨D * (q i).num.toNat, ?_⟩
      have h0 : 0 ≤ (q i).num := Rat.num_nonneg.2 (h i (Finset.mem_insert_self _ _))
      have h1 : ((q i).num.toNat : ℚ) = (q i).num := by exact_mod_cast congrArg (Int.cast (R := ℚ)) (Int.toNat_of_nonneg h0)
      push_cast
      rw [h1, mul_comm (D : ℚ), ← mul_assoc, Rat.mul_den_eq_num, mul_comm]
    · obtain ⟨m, hm⟩ := hm i hi
      exact ⟨m * (q a).den, by push_cast; rw [← mul_assoc, hm]⟩

/-- Fractional Hall theorem: if every set of goods `C` has `|C| · s` capacity available, all demands can be served. -/
theorem fractional_hall {ι : Type} [Fintype ι] [DecidableEq ι] (R : ι → ℕ → Prop) [∀ i c, Decidable (R i c)] (cap : ι → ℚ)
    (hcap : ∀ i, 0 ≤ cap i) (A : Finset ℕ) (s : ℚ) (hs : 0 ≤ s)
    (h : ∀ C ⊆ A, (C.card : ℚ) * s ≤ ∑ i with ∃ c ∈ C, R i c, cap i) :
    ∃ f : ι → ℕ → ℚ, (∀ i c, 0 ≤ f i c) ∧ (∀ i c, f i c ≠ 0 → R i c ∧ c ∈ A) ∧ (∀ c ∈ A, ∑ i, f i c = s) ∧
      ∀ i, ∑ c ∈ A, f i c ≤ cap i := by
  classical
  -- a common denominator for the capacities and the demand
  obtain ⟨D, hD, hm⟩ := common_denominator (Finset.univ : Finset (Option ι)) (fun o => o.elim s cap)
    (fun o _ => by cases o <;> simp [hs, hcap])
  have hmi : ∀ i, ∃ m : ℕ, cap i * D = m := fun i => hm (some i) (Finset.mem_univ _)
  choose m hm' using hmi
  obtain ⟨d, hd⟩ := hm none (Finset.mem_univ _)
  simp only [Option.elim] at hd
  have hDq : (0 : ℚ) < D := by exact_mod_cast hD
  -- units of goods and units of capacity
  let t : (A × Fin d) → Finset (Σ i, Fin (m i)) := fun x => Finset.univ.filter (fun y => R y.1 x.1)
  have hall : ∀ S : Finset (A × Fin d), S.card ≤ (S.biUnion t).card := by
    intro S
    let C : Finset ℕ := S.image (fun x => x.1.1)
    have hCA : C ⊆ A := by
      intro c hc
      obtain ⟨x, -, rfl⟩ := Finset.mem_image.1 hc
      exact x.1.2
    have h1 : S.card ≤ C.card * d := by
      have : S.card ≤ (C ×ˢ (Finset.univ : Finset (Fin d))).card := by
        refine Finset.card_le_card_of_injOn (fun x => (x.1.1, x.2)) (fun x hx => ?_) (fun x _ y _ e => ?_)
        · simp only [Finset.coe_product, Finset.coe_univ, Set.mem_prod, Finset.mem_coe, Set.mem_univ, and_true]
          exact Finset.mem_image.2 ⟨x, hx, rfl⟩
        · simp only [Prod.mk.injEq] at e
          exact Prod.ext (Subtype.ext e.1) e.2
      simpa using this
    have h2 : (S.biUnion t).card = ∑ i with ∃ c ∈ C, R i c, m i := by
      have : S.biUnion t = (Finset.univ.filter (fun i => ∃ c ∈ C, R i c)).sigma (fun i => (Finset.univ : Finset (Fin (m i)))) := by
        ext y
        simp only [t, C, Finset.mem_biUnion, Finset.mem_filter, Finset.mem_univ, true_and, Finset.mem_sigma, and_true,
          Finset.mem_image]
        constructor
        · rintro ⟨x, hx, hr⟩; exact ⟨_, ⟨x, hx, rfl⟩, hr⟩
        · rintro ⟨_, ⟨x, hx, rfl⟩, hr⟩; exact ⟨x, hx, hr⟩
      rw [this, Finset.card_sigma]
      simp
    have h3 := h C hCA
    have h4 : ((C.card * d : ℕ) : ℚ) ≤ ((∑ i with ∃ c ∈ C, R i c, m i : ℕ) : ℚ) := by
      push_cast
      rw [← hd, ← mul_assoc]
      refine (mul_le_mul_of_nonneg_right h3 hDq.le).trans_eq ?_
      rw [Finset.sum_mul]
      exact Finset.sum_congr rfl fun i _ => hm' i
    have h5 : C.card * d ≤ ∑ i with ∃ c ∈ C, R i c, m i := by exact_mod_cast h4
    omega
  obtain ⟨g, hg, hgt⟩ := (Finset.all_card_le_biUnion_card_iff_existsInjective' t).1 hall
  have hgR : ∀ x, R (g x).1 x.1 := fun x => by
    have := hgt x
    simpa [t] using this
  -- the number of units of `c` served by `i`
  let N : ι → ℕ → ℕ := fun i c => ((Finset.univ : Finset (A × Fin d)).filter (fun x => x.1.1 = c ∧ (g x).1 = i)).card
  refine ⟨fun i c => (N i c : ℚ) / D, fun i c => by positivity, fun i c hne => ?_, fun c hc => ?_, fun i => ?_⟩
  · have : N i c ≠ 0 := by
      intro h0; apply hne; simp [h0]
    obtain ⟨x, hx⟩ := Finset.card_pos.1 (Nat.pos_of_ne_zero this)
    simp only [Finset.mem_filter, Finset.mem_univ, true_and] at hx
    obtain ⟨rfl, rfl⟩ := hx
    exact ⟨hgR x, x.1.2⟩
  · have : ∑ i, N i c = d := by
      have e : ∑ i, N i c = ((Finset.univ : Finset (A × Fin d)).filter (fun x => x.1.1 = c)).card := by
        rw [Finset.card_eq_sum_card_fiberwise (f := fun x => (g x).1) (t := Finset.univ) (by intro x _; simp)]
        refine Finset.sum_congr rfl fun i _ => ?_
        simp only [N, Finset.filter_filter]
      rw [e]
      have : ((Finset.univ : Finset (A × Fin d)).filter (fun x => x.1.1 = c)) =
          ((Finset.univ : Finset (Fin d)).map ⟨fun j => ((⟨c, hc⟩ : A), j), fun a b e => (Prod.ext_iff.1 e).2⟩) := by
        ext x
        simp only [Finset.mem_filter, Finset.mem_univ, true_and, Finset.mem_map]
        constructor
        · intro e; exact ⟨x.2, Prod.ext (Subtype.ext e.symm) rfl⟩
        · rintro ⟨j, rfl⟩; rfl
      rw [this, Finset.card_map, Finset.card_univ, Fintype.card_fin]
    rw [← Finset.sum_div, div_eq_iff hDq.ne', hd]
    exact_mod_cast this
  · have : ∑ c ∈ A, N i c ≤ m i := by
      have e : ∑ c ∈ A, N i c = ((Finset.univ : Finset (A × Fin d)).filter (fun x => (g x).1 = i)).card := by
        rw [Finset.card_eq_sum_card_fiberwise (f := fun x => x.1.1) (t := A) (by intro x _; exact x.1.2)]
        refine Finset.sum_congr rfl fun c _ => ?_
        simp only [N, Finset.filter_filter, and_comm]
      rw [e]
      have h1 : ((Finset.univ : Finset (A × Fin d)).filter (fun x => (g x).1 = i)).card =
          (((Finset.univ : Finset (A × Fin d)).filter (fun x => (g x).1 = i)).image g).card :=
        (Finset.card_image_of_injective _ hg).symm
      have h2 : (((Finset.univ : Finset (A × Fin d)).filter (fun x => (g x).1 = i)).image g) ⊆
          ({i} : Finset ι).sigma (fun i => (Finset.univ : Finset (Fin (m i)))) := by
        intro y hy
        obtain ⟨x, hx, rfl⟩ := Finset.mem_image.1 hy
        simp only [Finset.mem_filter, Finset.mem_univ, true_and] at hx
        simp [hx]
      rw [h1]
      refine (Finset.card_le_card h2).trans ?_
      rw [Finset.card_sigma]; simp
    rw [← Finset.sum_div, div_le_iff₀ hDq, hm']
    exact_mod_cast this

end Abc
