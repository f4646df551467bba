import Verif.Props.LeximaxJustified
import Verif.Props.MaximinPriceable

/-!
# leximax-Phragmén (without tolerances) is priceable
-/

namespace Abc
open Spec

variable {p : Profile} {k : ℕ}

/-- Replacing member `d` by candidate `c`, whose load is distributed according to `e`. -/
theorem exists_exchange {A : Finset ℕ} (hA : IsCommittee p k A) {x : Fin p.voters.length → ℕ → ℚ} (hx : IsLoadDistribution p A x)
    {c d : ℕ} (hcn : c < p.numCand) (hcA : c ∉ A) (hdA : d ∈ A) {e : Fin p.voters.length → ℚ} (he0 : ∀ i, 0 ≤ e i)
    (hea : ∀ i, e i ≠ 0 → c ∈ appr p i) (he1 : ∑ i, (p.voters.get i).weight * e i = 1) :
    ∃ B y, IsCommittee p k B ∧ IsLoadDistribution p B y ∧ ∀ i, loadOf p B y i = loadOf p A x i - x i d + e i := by
  set y : Fin p.voters.length → ℕ → ℚ := fun i c' => if c' = c then e i else if c' = d then 0 else x i c' with hy
  refine ⟨insert c (A.erase d), y, ⟨?_, ?_⟩, ⟨fun i c' => ?_, fun i c' h => ?_, fun c' hc' => ?_⟩, fun i => ?_⟩
  · intro c' hc'
    rcases Finset.mem_insert.1 hc' with rfl | h
    · exact Finset.mem_range.2 hcn
    · exact hA.1 (Finset.mem_of_mem_erase h)
  · rw [Finset.card_insert_of_notMem (fun h => hcA (Finset.mem_of_mem_erase h)), Finset.card_erase_of_mem hdA, hA.2]
    have : 0 < A.card := Finset.card_pos.2 ⟨d, hdA⟩
    have := hA.2
    omega
  · rw [hy]; dsimp only
    split
    · exact he0 i
    · split
      · exact le_rfl
      · exact hx.nonneg i c'
  · rw [hy] at h; dsimp only at h
    split at h
    · next hc => subst hc; exact ⟨hea i h, Finset.mem_insert_self _ _⟩
    · split at h
      · exact absurd rfl h
      · next h1 h2 =>
        have := hx.approved i c' h
        exact ⟨this.1, Finset.mem_insert_of_mem (Finset.mem_erase.2 ⟨h2, this.2⟩)⟩
  · rcases Finset.mem_insert.1 hc' with rfl | h
    · rw [← he1]
      exact Finset.sum_congr rfl fun i _ => by rw [hy]; simp
    · rw [← hx.one c' (Finset.mem_of_mem_erase h)]
      refine Finset.sum_congr rfl fun i _ => ?_
      rw [hy]; dsimp only
      rw [if_neg (fun h' : c' = c => hcA (h' ▸ Finset.mem_of_mem_erase h)), if_neg (Finset.ne_of_mem_erase h)]
  · unfold loadOf
    rw [Finset.sum_insert (fun h => hcA (Finset.mem_of_mem_erase h))]
    have h1 : ∑ c' ∈ A.erase d, y i c' = ∑ c' ∈ A.erase d, x i c' := by
      refine Finset.sum_congr rfl fun c' hc' => ?_
      rw [hy]; dsimp only
      rw [if_neg (fun h : c' = c => hcA (h ▸ Finset.mem_of_mem_erase hc')), if_neg (Finset.ne_of_mem_erase hc')]
    have h2 := Finset.add_sum_erase A (x i) hdA
    have h3 : y i c = e i := by rw [hy]; simp
    rw [h1, h3]
    linarith

/-- If fewer voters have the largest load then the sorted loads come first in the lexicographic order. -/
theorem lexBefore_of_fewer {n : ℕ} {l m : Fin n → ℚ} (hl : Antitone l) {f g : Fin n → ℚ} {σ τ : Equiv.Perm (Fin n)}
    (hf : ∀ i, l i = f (σ i)) (hg : ∀ i, m i = g (τ i)) {M : ℚ} (hfM : ∀ i, f i ≤ M) (hgM : ∀ i, g i ≤ M)
    (hsub : ∀ i, g i = M → f i = M) {j : Fin n} (hj : f j = M) (hj' : g j ≠ M) : LexBefore m l := by
  by_contra hcon
  have key : ∀ i : Fin n, l i = M → m i = M := by
    intro i
    induction i using WellFoundedLT.induction with
    | _ i ih =>
      intro hi
      by_contra hne
      refine hcon ⟨i, fun j hji => ?_, ?_⟩
      · have : l j = M := le_antisymm (by rw [hf]; exact hfM _) (hi ▸ hl hji.le)
        rw [this, ih j hji this]
      · rw [hi]
        exact lt_of_le_of_ne (by rw [hg]; exact hgM _) hne
  have hcard : ∀ {l f : Fin n → ℚ} {σ : Equiv.Perm (Fin n)}, (∀ i, l i = f (σ i)) →
      (Finset.univ.filter fun i => l i = M).card = (Finset.univ.filter fun i => f i = M).card := by
    intro l f σ h
    refine Finset.card_equiv σ fun i => ?_
    simp [h i]
  have h1 : (Finset.univ.filter fun i => l i = M).card ≤ (Finset.univ.filter fun i => m i = M).card :=
    Finset.card_le_card fun i hi => by
      simp only [Finset.mem_filter, Finset.mem_univ, true_and] at hi ⊢
      exact key i hi
  rw [hcard hf, hcard hg] at h1
  have h2 : (Finset.univ.filter fun i => g i = M).card < (Finset.univ.filter fun i => f i = M).card := by
    refine Finset.card_lt_card ⟨fun i hi => ?_, fun h => ?_⟩
    · simp only [Finset.mem_filter, Finset.mem_univ, true_and] at hi ⊢
      exact hsub i hi
    · have := h (show j ∈ Finset.univ.filter fun i => f i = M by simp [hj])
      simp only [Finset.mem_filter, Finset.mem_univ, true_and] at this
      exact hj' this
  omega

/-- Committees of leximax-Phragmén are priceable: every voter pays in proportion to the load. -/
theorem leximax_priceable (hp : p.WF) (hn : p.voters ≠ []) (hk : 0 < k) {A : Finset ℕ} (h : LeximaxPhragmen p k A) : Priceable p A := by
  obtain ⟨hA, x, l, hx, ⟨hl, σ, hσ⟩, hbest⟩ := h
  have hne : (Finset.univ : Finset (Fin p.voters.length)).Nonempty :=
    ⟨⟨0, List.length_pos_iff.2 hn⟩, Finset.mem_univ _⟩
  obtain ⟨j, -, hj⟩ := Finset.exists_max_image Finset.univ (loadOf p A x) hne
  set M := loadOf p A x j with hM
  have hM0 : 0 ≤ M := hx.load_nonneg j
  have hjM : ∀ i, loadOf p A x i ≤ M := fun i => hj i (Finset.mem_univ _)
  have hMpos : 0 < M := by
    rcases hM0.lt_or_eq with h | h
    · exact h
    · exfalso
      have h1 := load_total hx
      have h2 : ∀ i, loadOf p A x i = 0 := fun i => le_antisymm (h ▸ hjM i) (hx.load_nonneg i)
      simp only [h2, mul_zero, Finset.sum_const_zero, hA.2] at h1
      have : (k : ℚ) ≠ 0 := by exact_mod_cast hk.ne'
      exact this h1.symm
  have hAn : ∀ c ∈ A, c < p.numCand := fun c hc => Finset.mem_range.1 (hA.1 hc)
  have hpaid : ∀ i, ∑ c ∈ A, (p.voters.get i).weight * x i c = (p.voters.get i).weight * loadOf p A x i := fun i => by
    rw [← Finset.mul_sum]; rfl
  have hzero : ∀ i c, c ∉ A → x i c = 0 := fun i c hc => by
    by_contra h
    exact hc (hx.approved i c h).2
  refine ⟨M, fun i c => (p.voters.get i).weight * x i c, ⟨hM0, fun i c => mul_nonneg (weight_pos hp i).le (hx.nonneg i c),
    fun i c h => (hx.approved i c (right_ne_zero_of_mul h)).1, fun i => ?_, hx.one, fun c _ hc => ?_⟩, fun c hc hcA => ?_⟩
  · rw [← Finset.sum_subset hA.1 fun c _ hc => by rw [hzero i c hc, mul_zero], hpaid]
    exact mul_le_mul_of_nonneg_left (hjM i) (weight_pos hp i).le
  · exact Finset.sum_eq_zero fun i _ => by rw [hzero i c hc, mul_zero]
  · -- the supporters of `c` cannot have more than 1 left
    have hleft : ∀ i, leftAfter p A M (fun i c => (p.voters.get i).weight * x i c) i
        = (p.voters.get i).weight * (M - loadOf p A x i) := fun i => by
      unfold leftAfter
      rw [hpaid]; ring
    simp only [hleft]
    by_contra hcon
    push Not at hcon
    set L := ∑ i with c ∈ appr p i, (p.voters.get i).weight * (M - loadOf p A x i) with hL
    have hL0 : 0 < L := lt_trans one_pos hcon
    obtain ⟨d, hdA, hd⟩ : ∃ d ∈ A, 0 < x j d := by
      by_contra h
      push Not at h
      have : M ≤ 0 := Finset.sum_nonpos h
      linarith
    obtain ⟨B, y, hB, hy, hload⟩ := exists_exchange (e := fun i => if c ∈ appr p i then (M - loadOf p A x i) / L else 0) hA hx hc hcA hdA
      (fun i => by
        split
        · exact div_nonneg (sub_nonneg.2 (hjM i)) hL0.le
        · exact le_rfl)
      (fun i hi => by
        by_contra h
        rw [if_neg h] at hi
        exact hi rfl)
      (by
        simp only [mul_ite, mul_zero]
        rw [← Finset.sum_filter]
        simp only [← mul_div_assoc]
        rw [← Finset.sum_div, ← hL, div_self hL0.ne'])
    obtain ⟨m, hm, τ, hτ⟩ := exists_sortedLoads (p := p) B y
    have hshare : ∀ i, (if c ∈ appr p i then (M - loadOf p A x i) / L else 0) ≤ M - loadOf p A x i := fun i => by
      split
      · exact div_le_self (sub_nonneg.2 (hjM i)) hcon.le
      · exact sub_nonneg.2 (hjM i)
    have hshare' : ∀ i, loadOf p A x i < M → (if c ∈ appr p i then (M - loadOf p A x i) / L else 0) < M - loadOf p A x i := fun i hi => by
      split
      · exact div_lt_self (sub_pos.2 hi) hcon
      · exact sub_pos.2 hi
    refine hbest B y m hB hy ⟨hm, τ, hτ⟩ (lexBefore_of_fewer hl hσ hτ hjM (fun i => ?_) (fun i hi => ?_) (j := j) rfl ?_)
    · have h1 := hload i
      have h2 := hshare i
      have h3 := hx.nonneg i d
      linarith
    · by_contra hne
      have h1 := hload i
      have h2 := hshare' i (lt_of_le_of_ne (hjM i) hne)
      have h3 := hx.nonneg i d
      linarith
    · intro h
      have h1 := hload j
      have h2 := hshare j
      linarith

end Abc
