import Verif.Lemmas.Dfs

/-!
# `max`/`min` of a list of scores and tied candidates
-/

namespace Abc
open Spec

theorem foldl_min_le (l : List ℚ) (a x : ℚ) (h : x = a ∨ x ∈ l) : l.foldl min a ≤ x := by
  induction l generalizing a x with
  | nil => simp at h; simp [h]
  | cons b l ih =>
    simp only [List.foldl_cons]
    rcases h with rfl | h
    · exact (ih (min x b) _ (Or.inl rfl)).trans (min_le_left _ _)
    · rcases List.mem_cons.1 h with rfl | h
      · exact (ih (min a x) _ (Or.inl rfl)).trans (min_le_right _ _)
      · exact ih _ _ (Or.inr h)

theorem foldl_max_mem (l : List ℚ) (a : ℚ) : l.foldl max a = a ∨ l.foldl max a ∈ l := by
  induction l generalizing a with
  | nil => simp
  | cons b l ih =>
    simp only [List.foldl_cons]
    rcases ih (max a b) with h | h
    · rw [h]
      rcases max_choice a b with h' | h' <;> rw [h'] <;> simp
    · right; exact List.mem_cons_of_mem _ h

theorem foldl_min_mem (l : List ℚ) (a : ℚ) : l.foldl min a = a ∨ l.foldl min a ∈ l := by
  induction l generalizing a with
  | nil => simp
  | cons b l ih =>
    simp only [List.foldl_cons]
    rcases ih (min a b) with h | h
    · rw [h]
      rcases min_choice a b with h' | h' <;> rw [h'] <;> simp
    · right; exact List.mem_cons_of_mem _ h

theorem le_listMax {l : List ℚ} {x : ℚ} (h : x ∈ l) : x ≤ listMax l := by
  cases l with
  | nil => simp at h
  | cons a l =>
    refine le_foldl_max l a x ?_
    simpa using h

theorem listMax_mem {l : List ℚ} (h : l ≠ []) : listMax l ∈ l := by
  cases l with
  | nil => exact absurd rfl h
  | cons a l =>
    have := foldl_max_mem l a
    simpa [listMax] using this

theorem listMin_le {l : List ℚ} {x : ℚ} (h : x ∈ l) : listMin l ≤ x := by
  cases l with
  | nil => simp at h
  | cons a l =>
    refine foldl_min_le l a x ?_
    simpa using h

theorem listMin_mem {l : List ℚ} (h : l ≠ []) : listMin l ∈ l := by
  cases l with
  | nil => exact absurd rfl h
  | cons a l =>
    have := foldl_min_mem l a
    simpa [listMin] using this

theorem getD_mem {l : List ℚ} {c : ℕ} (h : c < l.length) : l.getD c 0 ∈ l := by
  simp [List.getD_eq_getElem?_getD, h]

theorem exists_getD_of_mem {l : List ℚ} {x : ℚ} (h : x ∈ l) : ∃ c < l.length, l.getD c 0 = x := by
  obtain ⟨i, hi, rfl⟩ := List.getElem_of_mem h
  exact ⟨i, hi, by simp [List.getD_eq_getElem?_getD, hi]⟩

theorem getD_le_listMax {l : List ℚ} {c : ℕ} (h : c < l.length) : l.getD c 0 ≤ listMax l := le_listMax (getD_mem h)

theorem listMin_le_getD {l : List ℚ} {c : ℕ} (h : c < l.length) : listMin l ≤ l.getD c 0 := listMin_le (getD_mem h)

theorem exists_getD_listMax {l : List ℚ} (h : l ≠ []) : ∃ c < l.length, l.getD c 0 = listMax l :=
  exists_getD_of_mem (listMax_mem h)

theorem exists_getD_listMin {l : List ℚ} (h : l ≠ []) : ∃ c < l.length, l.getD c 0 = listMin l :=
  exists_getD_of_mem (listMin_mem h)

theorem mem_tiedMax {l : List ℚ} {c : ℕ} : c ∈ tiedMax l ↔ c < l.length ∧ ∀ d < l.length, l.getD d 0 ≤ l.getD c 0 := by
  unfold tiedMax
  simp only [List.mem_filter, List.mem_range, decide_eq_true_eq]
  refine and_congr_right fun hc => ?_
  constructor
  · intro h d hd
    rw [h]
    exact getD_le_listMax hd
  · intro h
    have hne : l ≠ [] := by rintro rfl; simp at hc
    obtain ⟨d, hd, he⟩ := exists_getD_listMax hne
    exact le_antisymm (getD_le_listMax hc) (he ▸ h d hd)

theorem mem_tiedMin {l : List ℚ} {c : ℕ} : c ∈ tiedMin l ↔ c < l.length ∧ ∀ d < l.length, l.getD c 0 ≤ l.getD d 0 := by
  unfold tiedMin
  simp only [List.mem_filter, List.mem_range, decide_eq_true_eq]
  refine and_congr_right fun hc => ?_
  constructor
  · intro h d hd
    rw [h]
    exact listMin_le_getD hd
  · intro h
    have hne : l ≠ [] := by rintro rfl; simp at hc
    obtain ⟨d, hd, he⟩ := exists_getD_listMin hne
    exact le_antisymm (he ▸ h d hd) (listMin_le_getD hc)

theorem tiedMax_lt (l : List ℚ) : (tiedMax l).Pairwise (· < ·) := (pairwise_lt_range _).filter _
theorem tiedMin_lt (l : List ℚ) : (tiedMin l).Pairwise (· < ·) := (pairwise_lt_range _).filter _

theorem tiedMax_ne_nil {l : List ℚ} (h : l ≠ []) : tiedMax l ≠ [] := by
  obtain ⟨c, hc, he⟩ := exists_getD_listMax h
  refine List.ne_nil_of_mem (a := c) ?_
  unfold tiedMax
  simp only [List.mem_filter, List.mem_range, decide_eq_true_eq]
  exact ⟨hc, he⟩

theorem tiedMin_ne_nil {l : List ℚ} (h : l ≠ []) : tiedMin l ≠ [] := by
  obtain ⟨c, hc, he⟩ := exists_getD_listMin h
  refine List.ne_nil_of_mem (a := c) ?_
  unfold tiedMin
  simp only [List.mem_filter, List.mem_range, decide_eq_true_eq]
  exact ⟨hc, he⟩

/-- the first element of an ascending list is its minimum -/
theorem head_le_of_lt {l : List ℕ} {x : ℕ} (h : l.Pairwise (· < ·)) (hx : pyGet l 0 = .ok x) :
    x ∈ l ∧ ∀ y ∈ l, x ≤ y := by
  cases l with
  | nil => simp [pyGet] at hx
  | cons a l =>
    have : a = x := by simpa [pyGet] using hx
    subst this
    refine ⟨by simp, ?_⟩
    intro y hy
    rcases List.mem_cons.1 hy with rfl | hy
    · exact le_rfl
    · exact (List.rel_of_pairwise_cons h hy).le

theorem le_getLast_of_lt {l : List ℕ} {x : ℕ} (h : l.Pairwise (· < ·)) (hx : l.getLast? = some x) :
    x ∈ l ∧ ∀ y ∈ l, y ≤ x := by
  obtain ⟨ys, rfl⟩ := List.getLast?_eq_some_iff.1 hx
  refine ⟨by simp, ?_⟩
  intro y hy
  rw [List.pairwise_append] at h
  rcases List.mem_append.1 hy with hy | hy
  · exact (h.2.2 y hy x (by simp)).le
  · simp at hy; omega

/-- there is a candidate outside a committee that is not full -/
theorem exists_not_mem {p : Profile} {W : List ℕ} (hlen : W.length < p.numCand) : ∃ c < p.numCand, c ∉ W := by
  by_contra h
  push Not at h
  have : Finset.range p.numCand ⊆ W.toFinset := by
    intro c hc
    exact List.mem_toFinset.2 (h c (by simpa using hc))
  have := Finset.card_le_card this
  have h2 := List.toFinset_card_le W
  simp at this
  omega

end Abc
