import Verif.Props.FloatAccuracySep

/-!
# C94: Equal Shares with "float-fractions" and with fractions
-/

namespace Abc
open Spec

section
variable {F : Type} {A : Arith F} {p : Profile}

/-! ## The start -/

theorem map_voters_ofFn {β : Type} (g : Voter → β) (p : Profile) : p.voters.map g = List.ofFn (fun i => g (p.voters.get i)) := by
  conv_lhs => rw [← List.ofFn_get p.voters, List.map_ofFn]
  rfl

theorem fTotalWeight_total (hA : Sound A) {k : ℕ} (hm : Moderate p k) : A.val (fTotalWeight A p) = total p := by
  rw [fTotalWeight_exact hA hm, (num_sum hm p.voters (List.Sublist.refl _)).1]
  unfold total
  rw [← List.sum_ofFn, voters_map_ofFn]

/-- start budgets with a relative error of 9 · 2⁻⁵³ -/
theorem mesRel_start (hp : p.WF) (B : ℕ) (y : Fin p.voters.length → F)
    (h : ∀ i, |A.val (y i) - budgetOf p (B / total p) i| ≤ 9 / 2 ^ 53 * budgetOf p (B / total p) i) :
    MesRel A p B [] y (budgetOf p (B / total p)) := by
  have ht0 : 0 ≤ total p := Finset.sum_nonneg (fun i _ => (weight_pos hp i).le)
  have hb0 : ∀ i, 0 ≤ budgetOf p (B / total p) i := fun i =>
    mul_nonneg (weight_pos hp i).le (div_nonneg (by positivity) ht0)
  refine ⟨.start, ?_, ?_⟩
  · intro i
    have h1 := (abs_le.1 (h i)).1
    have h2 := hb0 i
    norm_num at h1
    linarith
  · refine (Finset.sum_le_sum (fun i _ => h i)).trans ?_
    rw [← Finset.mul_sum]
    have hsum : ∑ i, budgetOf p (B / total p) i ≤ B := by
      unfold budgetOf
      rw [← Finset.sum_mul]
      change total p * _ ≤ _
      rcases ht0.lt_or_eq with ht | ht
      · rw [mul_div_cancel₀ _ ht.ne']
      · rw [← ht]; simp
    have := mul_le_mul_of_nonneg_left hsum (show (0 : ℚ) ≤ 9 / 2 ^ 53 by norm_num)
    refine this.trans (le_of_eq ?_)
    unfold budgetError
    simp only [List.length_nil]
    push_cast
    ring

/-- The start budgets of Equal Shares. -/
theorem fStart_none (hA : Sound A) (hS : SignedAccurate A) (hp : p.WF) (hne : p.voters ≠ []) {k : ℕ} (hm : Moderate p k) :
    ∃ y, fStartBudget A p k none = .ok (List.ofFn y) ∧ MesRel A p k [] y (budgetOf p (k / total p)) := by
  refine ⟨fun i => A.div (A.mul (A.weight (p.voters.get i).weight) (A.int k)) (fTotalWeight A p), ?_, ?_⟩
  · rw [fStartBudget_none hA hp hne, map_voters_ofFn]
  · have hT := fTotalWeight_total hA hm
    have hTpos : 0 < total p := by rw [← hT]; exact fTotalWeight_pos hA hp hne
    refine mesRel_start hp k _ ?_
    intro i
    have hw := weight_pos hp i
    have h1 := hS.mul (A.weight (p.voters.get i).weight) (A.int k)
    have h2 := hS.div (A.mul (A.weight (p.voters.get i).weight) (A.int k)) (fTotalWeight A p) (by rw [hT]; exact hTpos.ne')
    rw [hA.val_weight, hA.val_int] at h1
    rw [hT] at h2
    unfold budgetOf
    set w := (p.voters.get i).weight with hwd
    set m := A.val (A.mul (A.weight w) (A.int k)) with hm'
    set d := A.val (A.div (A.mul (A.weight w) (A.int k)) (fTotalWeight A p)) with hd
    set t := w * ((k : ℚ) / total p) with ht
    have ht0 : 0 ≤ t := by positivity
    have e1 : |m / total p - t| ≤ 4 / 2 ^ 53 * t := by
      have e : m / total p - t = (m - w * ((k : ℤ) : ℚ)) / total p := by
        rw [ht]; push_cast; field_simp
      rw [e, abs_div, abs_of_pos hTpos, div_le_iff₀ hTpos]
      refine h1.trans (le_of_eq ?_)
      rw [abs_of_nonneg (by positivity), ht]
      push_cast
      field_simp
    have e2 : |m / total p| ≤ (1 + 4 / 2 ^ 53) * t := by
      have := abs_le.1 e1
      rw [abs_le]
      constructor <;> (norm_num at this ⊢; linarith [this.1, this.2])
    have e3 := abs_sub_le d (m / total p) t
    norm_num at e1 e2 h2 ⊢
    linarith

/-- The start budgets for an increment. -/
theorem fStart_some (hA : Sound A) (hS : SignedAccurate A) (hp : p.WF) {k B : ℕ} {f : F} (hf : A.val f = B / total p) (hf0 : A.val f ≠ 0) :
    ∃ y, fStartBudget A p k (some f) = .ok (List.ofFn y) ∧ MesRel A p B [] y (budgetOf p (B / total p)) := by
  refine ⟨fun i => A.mul (A.weight (p.voters.get i).weight) f, ?_, ?_⟩
  · unfold fStartBudget
    simp only [Option.filter, hf0, ne_eq, not_false_eq_true, decide_true, if_true]
    rw [map_voters_ofFn]
  · refine mesRel_start hp B _ ?_
    intro i
    have h1 := hS.mul (A.weight (p.voters.get i).weight) f
    rw [hA.val_weight, hf] at h1
    have ht0 : 0 ≤ total p := Finset.sum_nonneg (fun i _ => (weight_pos hp i).le)
    have h0 : 0 ≤ (p.voters.get i).weight * ((B : ℚ) / total p) := mul_nonneg (weight_pos hp i).le (div_nonneg (by positivity) ht0)
    rw [abs_of_nonneg h0] at h1
    refine h1.trans ?_
    unfold budgetOf
    gcongr
    norm_num

/-! ## The algorithm -/

/-- Floats and fractions give the same result if they do so in the completion. -/
theorem fEqualShares_eq (hA : Sound A) (hS : SignedAccurate A) (hAc : Accurate A) {ord : List (Voter × F) → List (Voter × F)}
    (hord : Rearranges ord) (hp : p.WF) {k B : ℕ} (hm : Moderate p k) (hk1 : 1 ≤ k) (hfew : FewRoundingsShares p k B)
    (hsep : SharesSeparated p k B) (r : Bool) (completion : Completion) (max : Option ℕ) {pf : Option F} {pe : Option ℚ}
    (hstart : ∃ y, fStartBudget A p k pf = .ok (List.ofFn y) ∧ MesRel A p B [] y (budgetOf p (B / total p)))
    (hstart' : startBudget p k pe = List.ofFn (budgetOf p (B / total p)))
    (hcomp : ∀ W y x, MesRel A p B W y x → W.length < k → MESDone p W x →
      fMesComplete A p k r completion (W, List.ofFn y) = mesComplete p k r completion W (List.ofFn x)) :
    fEqualSharesAlgorithm A ord p k r max completion pf = equalSharesAlgorithm p k r max completion pe := by
  obtain ⟨y, h1, h2⟩ := hstart
  unfold fEqualSharesAlgorithm equalSharesAlgorithm
  simp only [h1, hstart', bind, Except.bind]
  rw [fCompletionLoop_eq hA hS hAc hord hp hm hk1 hfew hsep r completion _ y h2 hcomp]

/-! ## The increments -/

theorem fIncrementRange_eq (hA : Sound A) {k : ℕ} (hm : Moderate p k) : fIncrementRange A p k = incrementRange p k := by
  have hTe := fTotalWeight_exact hA hm
  have hTs := (sum_weights_exact hA hm p.voters (List.Sublist.refl _)).2
  set T := (p.voters.map (fun v => v.weight.num)).sum with hTd
  have hk2 : (k : ℤ) ≤ 2 ^ 53 := by have := hm.seats; omega
  have hmulT : A.val (A.mul (A.int k) (fTotalWeight A p)) = ((k * T : ℤ) : ℚ) := by
    refine le_antisymm ?_ ?_
    · have := hA.mul_le_left (A.int k) (fTotalWeight A p) k T (by omega) hk2 hTs.1 (by nlinarith) (by nlinarith) (by rw [hA.val_int]) hTe.le
      push_cast at this ⊢
      exact this
    · have := hA.mul_ge (A.int k) (fTotalWeight A p) k T (by omega) hk2 hTs.1 (by nlinarith) (by nlinarith) (by rw [hA.val_int]) hTe.ge
      push_cast at this ⊢
      exact this
  have hadd : k * T + 1 ≤ 2 ^ 53 → A.val (A.add (A.mul (A.int k) (fTotalWeight A p)) (A.int 1)) = ((k * T + 1 : ℤ) : ℚ) := by
    intro hsz
    refine le_antisymm ?_ ?_
    · have := hA.add_le (A.mul (A.int k) (fTotalWeight A p)) (A.int 1) (k * T) 1 (mul_nonneg (by omega) hTs.1) (by norm_num) hsz hmulT.le
        (by rw [hA.val_int])
      push_cast at this ⊢
      exact this
    · have := hA.add_ge (A.mul (A.int k) (fTotalWeight A p)) (A.int 1) (k * T) 1 (mul_nonneg (by omega) hTs.1) (by norm_num) hsz hmulT.ge
        (by rw [hA.val_int])
      push_cast at this ⊢
      exact this
  have hsz : k * T + 1 ≤ 2 ^ 53 := by
    rcases hTs.1.lt_or_eq with h | h
    · nlinarith
    · rw [← h]; norm_num
  unfold fIncrementRange incrementRange
  rw [hadd hsz, totalWeight_eq, ← fTotalWeight_total hA hm, hTe]
  push_cast
  rfl

theorem fIncrementLoop_eq (hA : Sound A) (hS : SignedAccurate A) (hAc : Accurate A) (hF : FractionExact A)
    {ord : List (Voter × F) → List (Voter × F)} (hord : Rearranges ord) (hp : p.WF) (hne : p.voters ≠ []) {k : ℕ} (hm : Moderate p k)
    (hk1 : 1 ≤ k) (incs : List ℕ) (hfew : ∀ B ∈ incs, FewRoundingsShares p k B) (hsep : ∀ B ∈ incs, SharesSeparated p k B)
    (hpos : ∀ B ∈ incs, 0 < B) : fIncrementLoop A ord p k incs = incrementLoop p k incs := by
  induction incs with
  | nil => rfl
  | cons inc incs ih =>
    obtain ⟨f, f1, f2⟩ := fraction_ok hF hp hne hm hA inc
    have hTe := fTotalWeight_exact hA hm
    rw [fTotalWeight_total hA hm] at hTe
    rw [← hTe] at f2
    have hTpos : 0 < total p := by rw [← fTotalWeight_total hA hm]; exact fTotalWeight_pos hA hp hne
    have hincq : (0 : ℚ) < (inc : ℚ) := by exact_mod_cast hpos inc (by simp)
    have hf0 : A.val f ≠ 0 := by rw [f2]; exact (div_pos hincq hTpos).ne'
    unfold fIncrementLoop incrementLoop
    have he := fEqualShares_eq hA hS hAc hord hp hm hk1 (hfew inc (by simp)) (hsep inc (by simp)) true .none none (pf := some f)
      (pe := some ((inc : ℚ) / p.totalWeight)) (fStart_some hA hS hp f2 hf0)
      (by rw [totalWeight_eq]; exact startBudget_some p k _ (div_pos hincq hTpos).ne') (fun _ _ _ _ _ _ => rfl)
    simp only [f1, he, bind, Except.bind]
    rw [ih (fun B hB => hfew B (by simp [hB])) (fun B hB => hsep B (by simp [hB])) (fun B hB => hpos B (by simp [hB]))]

end

end Abc
