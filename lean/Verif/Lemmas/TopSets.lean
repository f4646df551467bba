import Verif.Props.Separable

/-!
# Sets with the highest scores that contain a given set
-/

namespace Abc
open Spec

/-- `A` has `k` elements, contains `W`, and no exchange outside `W` improves the score. -/
structure TopSet (s : ℕ → ℚ) (U W : Finset ℕ) (k : ℕ) (A : Finset ℕ) : Prop where
  sub : A ⊆ U
  sup : W ⊆ A
  card : A.card = k
  exch : ∀ x ∈ A, x ∉ W → ∀ y ∈ U, y ∉ A → s y ≤ s x

theorem sum_le_of_forall_le (s : ℕ → ℚ) {X Y : Finset ℕ} (hc : X.card = Y.card) (h : ∀ x ∈ X, ∀ y ∈ Y, s x ≤ s y) :
    ∑ c ∈ X, s c ≤ ∑ c ∈ Y, s c := by
  by_cases hY : Y.Nonempty
  · obtain ⟨z, hz, hmin⟩ := Finset.exists_min_image Y s hY
    calc ∑ c ∈ X, s c ≤ ∑ _c ∈ X, s z := Finset.sum_le_sum (fun x hx => h x hx z hz)
      _ = ∑ _c ∈ Y, s z := by rw [Finset.sum_const, Finset.sum_const, hc]
      _ ≤ _ := Finset.sum_le_sum hmin
  · rw [Finset.not_nonempty_iff_eq_empty] at hY
    rw [hY, Finset.card_empty, Finset.card_eq_zero] at hc
    rw [hc, hY]

theorem topSet_iff (s : ℕ → ℚ) (U W : Finset ℕ) (k : ℕ) (A : Finset ℕ) :
    TopSet s U W k A ↔ (A ⊆ U ∧ A.card = k) ∧ W ⊆ A ∧
      ∀ B, (B ⊆ U ∧ B.card = k) → W ⊆ B → ∑ c ∈ B, s c ≤ ∑ c ∈ A, s c := by
  constructor
  · intro h
    refine ⟨⟨h.sub, h.card⟩, h.sup, ?_⟩
    rintro B ⟨hBU, hBk⟩ hWB
    rw [← Finset.sum_inter_add_sum_sdiff B A s, ← Finset.sum_inter_add_sum_sdiff A B s, Finset.inter_comm B A]
    refine add_le_add le_rfl (sum_le_of_forall_le s ?_ ?_)
    · have h1 := Finset.card_inter_add_card_sdiff B A
      have h2 := Finset.card_inter_add_card_sdiff A B
      rw [Finset.inter_comm] at h1
      have := h.card
      omega
    · intro y hy x hx
      rw [Finset.mem_sdiff] at hx hy
      exact h.exch x hx.1 (fun hW => hx.2 (hWB hW)) y (hBU hy.1) hy.2
  · rintro ⟨⟨h1, h2⟩, h3, h4⟩
    refine ⟨h1, h3, h2, ?_⟩
    intro x hx hxW y hy hyA
    have hyx : y ∉ A.erase x := fun h => hyA (Finset.mem_of_mem_erase h)
    have := h4 (insert y (A.erase x)) ⟨?_, ?_⟩ ?_
    · rw [Finset.sum_insert hyx] at this
      have := Finset.add_sum_erase A s hx
      linarith
    · intro z hz
      rcases Finset.mem_insert.1 hz with rfl | hz
      · exact hy
      · exact h1 (Finset.mem_of_mem_erase hz)
    · rw [Finset.card_insert_of_notMem hyx, Finset.card_erase_of_mem hx]
      have : 0 < A.card := Finset.card_pos.2 ⟨x, hx⟩
      omega
    · intro z hz
      exact Finset.mem_insert_of_mem (Finset.mem_erase.2 ⟨fun e => hxW (e ▸ hz), h3 hz⟩)

theorem sepOpt_iff_topSet (r : SepRule) (p : Profile) (k : ℕ) (A : Finset ℕ) :
    SepOpt r p k A ↔ TopSet (candScore r p) (Finset.range p.numCand) ∅ k A := by
  rw [topSet_iff]
  unfold SepOpt IsCommittee
  simp

/-- removing an element of minimal score from a top set -/
theorem TopSet.erase {s : ℕ → ℚ} {U : Finset ℕ} {j : ℕ} {T : Finset ℕ} (h : TopSet s U ∅ (j + 1) T) {x : ℕ} (hx : x ∈ T)
    (hmin : ∀ z ∈ T, s x ≤ s z) : TopSet s U ∅ j (T.erase x) := by
  refine ⟨fun z hz => h.sub (Finset.mem_of_mem_erase hz), by simp, by rw [Finset.card_erase_of_mem hx, h.card]; rfl, ?_⟩
  intro z hz _ y hy hyT
  by_cases hyx : y = x
  · rw [hyx]; exact hmin z (Finset.mem_of_mem_erase hz)
  · exact h.exch z (Finset.mem_of_mem_erase hz) (by simp) y hy (fun h' => hyT (Finset.mem_erase.2 ⟨hyx, h'⟩))

/-- The number of candidates `j` from which the AV phase takes its candidates is still too small to reach `k`. -/
def TooFew (s : ℕ → ℚ) (U W : Finset ℕ) (k j : ℕ) : Prop := ∀ T, TopSet s U ∅ j T → (W ∪ T).card < k

theorem union_card_le {s : ℕ → ℚ} {U W : Finset ℕ} {k j : ℕ} (h : j + W.card = k ∨ ∃ i, j = i + 1 ∧ TooFew s U W k i)
    {T : Finset ℕ} (hT : TopSet s U ∅ j T) : (W ∪ T).card ≤ k := by
  rcases h with h | ⟨i, rfl, h⟩
  · have := Finset.card_union_le W T
    rw [hT.card] at this
    omega
  · have hne : T.Nonempty := by
      rw [← Finset.card_pos, hT.card]; omega
    obtain ⟨x, hx, hmin⟩ := Finset.exists_min_image T s hne
    have h1 := h _ (hT.erase hx hmin)
    have h2 : W ∪ T ⊆ insert x (W ∪ T.erase x) := by
      intro z hz
      by_cases hzx : z = x
      · simp [hzx]
      · rcases Finset.mem_union.1 hz with hz | hz
        · simp [hz]
        · simp [hz, hzx]
    have h3 := Finset.card_le_card h2
    have h4 := Finset.card_insert_le x (W ∪ T.erase x)
    omega

theorem unions_eq {s : ℕ → ℚ} {U W : Finset ℕ} {k j : ℕ} (hWU : W ⊆ U)
    (h : j + W.card = k ∨ ∃ i, j = i + 1 ∧ TooFew s U W k i)
    (hex : ∃ T, TopSet s U ∅ j T ∧ (W ∪ T).card = k) (A : Finset ℕ) :
    TopSet s U W k A ↔ ∃ T, TopSet s U ∅ j T ∧ (W ∪ T).card = k ∧ W ∪ T = A := by
  have fwd : ∀ T, TopSet s U ∅ j T → (W ∪ T).card = k → TopSet s U W k (W ∪ T) := by
    intro T hT hk
    refine ⟨Finset.union_subset hWU hT.sub, Finset.subset_union_left, hk, ?_⟩
    intro x hx hxW y hy hyA
    rcases Finset.mem_union.1 hx with hx | hx
    · exact absurd hx hxW
    · exact hT.exch x hx (by simp) y hy (fun h => hyA (Finset.mem_union_right _ h))
  constructor
  swap
  · rintro ⟨T, h1, h2, rfl⟩
    exact fwd T h1 h2
  intro hA
  obtain ⟨T0, hT0, hk0⟩ := hex
  have hA0 := fwd T0 hT0 hk0
  set D := A \ W with hD
  set D0 := T0 \ W with hD0
  have hDc : D.card + W.card = k := by
    rw [hD, Finset.card_sdiff_add_card_eq_card hA.sup, hA.card]
  have hD0c : D0.card + W.card = k := by
    rw [hD0, ← hk0, Finset.union_comm]
    exact Finset.card_sdiff_add_card T0 W
  -- minimal score element outside W
  have hminz : ∀ x ∈ T0, x ∈ W → ∃ z ∈ D0, s z < s x := by
    intro x hx hxW
    rcases h with h | ⟨i, rfl, h⟩
    · exfalso
      have h1 : D0.card = T0.card := by rw [hT0.card]; omega
      have h2 : D0 = T0 := Finset.eq_of_subset_of_card_le Finset.sdiff_subset (by omega)
      rw [← h2, hD0, Finset.mem_sdiff] at hx
      exact hx.2 hxW
    · obtain ⟨z, hz, hmin⟩ := Finset.exists_min_image T0 s ⟨x, hx⟩
      by_cases hzW : z ∈ W
      · exfalso
        have h1 := h _ (hT0.erase hz hmin)
        have : W ∪ T0.erase z = W ∪ T0 := by
          ext y
          simp only [Finset.mem_union, Finset.mem_erase]
          constructor
          · rintro (h | h)
            · exact Or.inl h
            · exact Or.inr h.2
          · rintro (h | h)
            · exact Or.inl h
            · by_cases hyz : y = z
              · exact Or.inl (hyz ▸ hzW)
              · exact Or.inr ⟨hyz, h⟩
        rw [this] at h1
        omega
      · refine ⟨z, Finset.mem_sdiff.2 ⟨hz, hzW⟩, lt_of_le_of_ne (hmin x hx) ?_⟩
        intro he
        -- x is also a minimum
        have h1 := h _ (hT0.erase hx (fun y hy => he ▸ hmin y hy))
        have : W ∪ T0.erase x = W ∪ T0 := by
          ext y
          simp only [Finset.mem_union, Finset.mem_erase]
          constructor
          · rintro (h | h)
            · exact Or.inl h
            · exact Or.inr h.2
          · rintro (h | h)
            · exact Or.inl h
            · by_cases hyz : y = x
              · exact Or.inl (hyz ▸ hxW)
              · exact Or.inr ⟨hyz, h⟩
        rw [this] at h1
        omega
  have hswap : ∀ {X Y : Finset ℕ}, X.card = Y.card → ∀ y ∈ X, y ∉ Y → ∃ y' ∈ Y, y' ∉ X := by
    intro X Y hXY y hy hyY
    by_contra hcon
    push Not at hcon
    have : Y = X := Finset.eq_of_subset_of_card_le hcon (by omega)
    exact hyY (this ▸ hy)
  have hDmem : ∀ x, x ∈ D ↔ x ∈ A ∧ x ∉ W := fun x => Finset.mem_sdiff
  have hD0mem : ∀ x, x ∈ D0 ↔ x ∈ T0 ∧ x ∉ W := fun x => Finset.mem_sdiff
  refine ⟨D ∪ (T0 ∩ W), ⟨?_, by simp, ?_, ?_⟩, ?_⟩
  · intro x hx
    rcases Finset.mem_union.1 hx with hx | hx
    · exact hA.sub ((hDmem x).1 hx).1
    · exact hT0.sub (Finset.mem_inter.1 hx).1
  · rw [Finset.card_union_of_disjoint]
    · have := Finset.card_inter_add_card_sdiff T0 W
      rw [hT0.card] at this
      change _ + D0.card = j at this
      omega
    · rw [Finset.disjoint_left]
      intro x hx hx'
      exact ((hDmem x).1 hx).2 (Finset.mem_inter.1 hx').2
  · intro x hx _ y hy hyT
    have hyD : y ∉ D := fun h => hyT (Finset.mem_union_left _ h)
    have hyTW : ¬ (y ∈ T0 ∧ y ∈ W) := fun h => hyT (Finset.mem_union_right _ (Finset.mem_inter.2 h))
    rcases Finset.mem_union.1 hx with hx | hx
    · obtain ⟨hxA, hxW⟩ := (hDmem x).1 hx
      by_cases hyA : y ∈ A
      · have hyW : y ∈ W := by
          by_contra hyW
          exact hyD ((hDmem y).2 ⟨hyA, hyW⟩)
        have hyT0 : y ∉ T0 := fun h => hyTW ⟨h, hyW⟩
        by_cases hxT : x ∈ T0
        · exact hT0.exch x hxT (by simp) y hy hyT0
        · obtain ⟨y2, hy2, hy2D⟩ := hswap (by omega) x hx (fun h => hxT ((hD0mem x).1 h).1)
          obtain ⟨g1, g2⟩ := (hD0mem y2).1 hy2
          have a1 := hT0.exch y2 g1 (by simp) y hy hyT0
          have a2 := hA.exch x hxA hxW y2 (hT0.sub g1) (fun h => hy2D ((hDmem y2).2 ⟨h, g2⟩))
          exact a1.trans a2
      · exact hA.exch x hxA hxW y hy hyA
    · obtain ⟨hxT, hxW⟩ := Finset.mem_inter.1 hx
      by_cases hyT0 : y ∈ T0
      · have hyW : y ∉ W := fun h => hyTW ⟨hyT0, h⟩
        have hyA : y ∉ A := fun h => hyD ((hDmem y).2 ⟨h, hyW⟩)
        obtain ⟨z, hz, hzx⟩ := hminz x hxT hxW
        obtain ⟨y', hy', hy'D0⟩ := hswap (by omega) y ((hD0mem y).2 ⟨hyT0, hyW⟩) hyD
        obtain ⟨g1, g2⟩ := (hDmem y').1 hy'
        obtain ⟨k1, k2⟩ := (hD0mem z).1 hz
        have a1 := hA.exch y' g1 g2 y hy hyA
        have a2 := hT0.exch z k1 (by simp) y' (hA.sub g1) (fun h => hy'D0 ((hD0mem y').2 ⟨h, g2⟩))
        linarith
      · exact hT0.exch x hxT (by simp) y hy hyT0
  · have e : W ∪ (D ∪ T0 ∩ W) = A := by
      ext x
      simp only [Finset.mem_union, Finset.mem_inter, hDmem]
      constructor
      · rintro (h | h | h)
        · exact hA.sup h
        · exact h.1
        · exact hA.sup h.2
      · intro h
        by_cases hW : x ∈ W
        · exact Or.inl hW
        · exact Or.inr (Or.inl ⟨h, hW⟩)
    exact ⟨by rw [e]; exact hA.card, e⟩

end Abc
