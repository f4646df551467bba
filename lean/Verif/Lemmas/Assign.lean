import Verif.Lemmas.Groups
import Verif.Spec.Monroe
import Verif.Lemmas.Lists

/-!
# Extending partial assignments of voters to candidates
-/

namespace Abc
open Spec

/-- A partial assignment that respects capacities `cap` with total capacity `n` extends to a complete one that uses all
capacities. -/
theorem extend_assignment {n : ℕ} (W : Finset ℕ) (cap : ℕ → ℕ) (hcap : ∑ c ∈ W, cap c = n) :
    ∀ (m : ℕ) (S : Finset (Fin n)) (φ : Fin n → ℕ), n - S.card = m → (∀ i ∈ S, φ i ∈ W) →
      (∀ c ∈ W, (S.filter (fun i => φ i = c)).card ≤ cap c) →
      ∃ ψ : Fin n → ℕ, (∀ i ∈ S, ψ i = φ i) ∧ (∀ i, ψ i ∈ W) ∧
        ∀ c ∈ W, (Finset.univ.filter (fun i => ψ i = c)).card = cap c := by
  intro m
  induction m with
  | zero =>
    intro S φ hm hW hle
    have hS : S = Finset.univ := by
      refine Finset.eq_univ_of_card S ?_
      have := Finset.card_le_univ S
      simp only [Fintype.card_fin] at *
      omega
    subst hS
    refine ⟨φ, fun _ _ => rfl, fun i => hW i (Finset.mem_univ i), ?_⟩
    have hsum : ∑ c ∈ W, (Finset.univ.filter (fun i => φ i = c)).card = n := by
      rw [← Finset.card_eq_sum_card_fiberwise (fun i hi => hW i (Finset.mem_univ i))]
      simp
    intro c hc
    by_contra hne
    have hlt := lt_of_le_of_ne (hle c hc) hne
    have := Finset.sum_lt_sum hle ⟨c, hc, hlt⟩
    omega
  | succ m ih =>
    intro S φ hm hW hle
    have hlt : S.card < n := by omega
    have hsum : ∑ c ∈ W, (S.filter (fun i => φ i = c)).card = S.card :=
      (Finset.card_eq_sum_card_fiberwise (fun i hi => hW i hi)).symm
    obtain ⟨c, hc, hcl⟩ : ∃ c ∈ W, (S.filter (fun i => φ i = c)).card < cap c := by
      by_contra hno
      have hno : ∀ c ∈ W, cap c ≤ (S.filter (fun i => φ i = c)).card := by
        intro c hc
        by_contra h
        exact hno ⟨c, hc, not_le.1 h⟩
      have := Finset.sum_le_sum hno
      omega
    obtain ⟨i, hi⟩ : ∃ i, i ∉ S := by
      by_contra hno
      have hno : S = Finset.univ := Finset.eq_univ_of_forall (fun i => by by_contra h; exact hno ⟨i, h⟩)
      rw [hno, Finset.card_univ, Fintype.card_fin] at hlt
      exact lt_irrefl _ hlt
    have hih := ih (insert i S) (Function.update φ i c) (by rw [Finset.card_insert_of_notMem hi]; omega) ?_ ?_
    · obtain ⟨ψ, h1, h2, h3⟩ := hih
      refine ⟨ψ, ?_, h2, h3⟩
      intro j hj
      rw [h1 j (Finset.mem_insert_of_mem hj), Function.update_of_ne]
      rintro rfl
      exact hi hj
    · intro j hj
      rcases Finset.mem_insert.1 hj with rfl | hj'
      · rw [Function.update_self]; exact hc
      · rw [Function.update_of_ne (by rintro rfl; exact hi hj')]; exact hW j hj'
    · intro d hd
      have hSd : (S.filter (fun j => Function.update φ i c j = d)) = S.filter (fun j => φ j = d) := by
        refine Finset.filter_congr ?_
        intro j hj
        rw [Function.update_of_ne (by rintro rfl; exact hi hj)]
      rw [Finset.filter_insert, Function.update_self]
      split
      · next h =>
        subst h
        rw [Finset.card_insert_of_notMem (by simp [hi]), hSd]
        exact hcl
      · rw [hSd]; exact hle d hd

/-- Sizes of the districts of a balanced assignment: if `k` divides `n` they are all `n / k`. -/
theorem balanced_dvd {n k : ℕ} (hk : 0 < k) (h : n % k = 0) : (n + k - 1) / k = n / k := by
  obtain ⟨m, rfl⟩ := Nat.dvd_of_mod_eq_zero h
  rw [Nat.mul_div_cancel_left _ hk, Nat.add_sub_assoc hk, Nat.mul_add_div hk]
  rw [Nat.div_eq_of_lt (by omega)]
  omega

theorem balanced_not_dvd {n k : ℕ} (hk : 0 < k) (h : n % k ≠ 0) : (n + k - 1) / k = n / k + 1 := by
  have e := Nat.div_add_mod n k
  have hlt := Nat.mod_lt n hk
  have : n + k - 1 = k * (n / k + 1) + (n % k - 1) := by
    rw [Nat.mul_add]; omega
  have h0 : (n % k - 1) / k = 0 := Nat.div_eq_of_lt (by omega)
  rw [this, Nat.mul_add_div hk, h0]

end Abc
