import Verif.Model.Preferences

/-!
# Helper lemmas on lists, sorting, combinations
-/

namespace Abc

/-! ## `sortNat` -/

theorem sortNat_perm (l : List ℕ) : (sortNat l).Perm l := List.perm_insertionSort _ l

theorem mem_sortNat {l : List ℕ} {x : ℕ} : x ∈ sortNat l ↔ x ∈ l := (sortNat_perm l).mem_iff

theorem sortNat_length (l : List ℕ) : (sortNat l).length = l.length := (sortNat_perm l).length_eq

theorem sortNat_pairwise (l : List ℕ) : (sortNat l).Pairwise (· ≤ ·) :=
  List.pairwise_insertionSort _ l

theorem sortNat_nodup {l : List ℕ} : (sortNat l).Nodup ↔ l.Nodup := (sortNat_perm l).nodup_iff

theorem pairwise_lt_of_le_nodup {l : List ℕ} (h : l.Pairwise (· ≤ ·)) (hn : l.Nodup) :
    l.Pairwise (· < ·) := by
  refine (h.and hn).imp ?_
  rintro a b ⟨h1, h2⟩
  omega

/-- A canonical committee: strictly ascending. -/
theorem sortNat_lt {l : List ℕ} (h : l.Nodup) : (sortNat l).Pairwise (· < ·) :=
  pairwise_lt_of_le_nodup (sortNat_pairwise l) (sortNat_nodup.2 h)

theorem sortNat_eq_of_perm {l l' : List ℕ} (h : l.Perm l') : sortNat l = sortNat l' :=
  List.Perm.eq_of_pairwise' (r := (· ≤ ·)) (sortNat_pairwise l) (sortNat_pairwise l')
    ((sortNat_perm l).trans (h.trans (sortNat_perm l').symm))

theorem sortNat_of_pairwise {l : List ℕ} (h : l.Pairwise (· ≤ ·)) : sortNat l = l :=
  List.Perm.eq_of_pairwise' (r := (· ≤ ·)) (sortNat_pairwise l) h (sortNat_perm l)

theorem sortNat_of_lt {l : List ℕ} (h : l.Pairwise (· < ·)) : sortNat l = l :=
  sortNat_of_pairwise (h.imp le_of_lt)

theorem nodup_of_lt {l : List ℕ} (h : l.Pairwise (· < ·)) : l.Nodup :=
  h.imp (fun h => by omega)

theorem sortNat_toFinset (l : List ℕ) : (sortNat l).toFinset = l.toFinset := by
  ext x; simp [mem_sortNat]

theorem eq_of_lt_toFinset {l l' : List ℕ} (h : l.Pairwise (· < ·)) (h' : l'.Pairwise (· < ·))
    (he : l.toFinset = l'.toFinset) : l = l' := by
  have hp : l.Perm l' := by
    rw [List.perm_ext_iff_of_nodup (nodup_of_lt h) (nodup_of_lt h')]
    intro a
    have := Finset.ext_iff.1 he a
    simpa using this
  rw [← sortNat_of_lt h, ← sortNat_of_lt h', sortNat_eq_of_perm hp]

theorem toFinset_card_of_lt {l : List ℕ} (h : l.Pairwise (· < ·)) : l.toFinset.card = l.length :=
  List.toFinset_card_of_nodup (nodup_of_lt h)

/-- every finite set has a canonical list -/
theorem exists_lt_list (s : Finset ℕ) : ∃ l : List ℕ, l.Pairwise (· < ·) ∧ l.toFinset = s :=
  ⟨sortNat s.toList, sortNat_lt s.nodup_toList, by simp [sortNat_toFinset]⟩

/-! ## `inter` -/

theorem mem_inter {a b : List ℕ} {x : ℕ} : x ∈ inter a b ↔ x ∈ a ∧ x ∈ b := by
  simp [inter]

theorem inter_length {a b : List ℕ} (h : a.Nodup) : (inter a b).length = (a.toFinset ∩ b.toFinset).card := by
  have hn : (inter a b).Nodup := h.filter _
  rw [← List.toFinset_card_of_nodup hn]
  congr 1
  ext x
  simp [mem_inter]

theorem inter_length_congr {a b b' : List ℕ} (h : ∀ x, x ∈ b ↔ x ∈ b') : inter a b = inter a b' := by
  unfold inter
  congr 1
  funext x
  simp [h x]

theorem inter_length_le (a b : List ℕ) : (inter a b).length ≤ a.length := List.length_filter_le _ _

/-! ## `setAdd` -/

theorem mem_setAdd {α : Type} [DecidableEq α] {s : List α} {x y : α} : y ∈ setAdd s x ↔ y ∈ s ∨ y = x := by
  unfold setAdd
  split
  · constructor
    · exact Or.inl
    · rintro (h | rfl) <;> assumption
  · simp

theorem setAdd_nodup {α : Type} [DecidableEq α] {s : List α} {x : α} (h : s.Nodup) : (setAdd s x).Nodup := by
  unfold setAdd
  split
  · exact h
  · rename_i hx
    rw [List.nodup_append]
    refine ⟨h, by simp, ?_⟩
    intro a ha b hb
    simp only [List.mem_singleton] at hb
    subst hb
    rintro rfl
    exact hx ha

theorem mem_foldl_setAdd {α : Type} [DecidableEq α] {l s : List α} {y : α} :
    y ∈ l.foldl setAdd s ↔ y ∈ s ∨ y ∈ l := by
  induction l generalizing s with
  | nil => simp
  | cons x xs ih => simp only [List.foldl_cons, ih, mem_setAdd, List.mem_cons]; tauto

theorem foldl_setAdd_nodup {α : Type} [DecidableEq α] {l s : List α} (h : s.Nodup) :
    (l.foldl setAdd s).Nodup := by
  induction l generalizing s with
  | nil => simpa
  | cons x xs ih => exact ih (setAdd_nodup h)

/-! ## `combinations` -/

theorem mem_combinations {α : Type} {xs l : List α} {r : ℕ} :
    l ∈ combinations xs r ↔ l.Sublist xs ∧ l.length = r := by
  induction xs generalizing l r with
  | nil =>
    cases r with
    | zero => simp [combinations]
    | succ r =>
      simp only [combinations, List.not_mem_nil, List.sublist_nil, false_iff, not_and]
      rintro rfl
      simp
  | cons x xs ih =>
    cases r with
    | zero =>
      simp only [combinations, List.mem_singleton, List.length_eq_zero_iff]
      constructor
      · rintro rfl; simp
      · exact fun h => h.2
    | succ r =>
      simp only [combinations, List.mem_append, List.mem_map, ih]
      constructor
      · rintro (⟨a, ⟨h1, h2⟩, rfl⟩ | ⟨h1, h2⟩)
        · exact ⟨h1.cons_cons x, by simp [h2]⟩
        · exact ⟨h1.cons x, h2⟩
      · rintro ⟨h1, h2⟩
        cases h1 with
        | cons _ h => exact Or.inr ⟨h, h2⟩
        | cons_cons _ h =>
          rename_i l'
          exact Or.inl ⟨l', ⟨h, by simpa using h2⟩, rfl⟩

theorem combinations_nodup {α : Type} {xs : List α} (h : xs.Nodup) (r : ℕ) : (combinations xs r).Nodup := by
  induction xs generalizing r with
  | nil => cases r <;> simp [combinations]
  | cons x xs ih =>
    cases r with
    | zero => simp [combinations]
    | succ r =>
      rw [List.nodup_cons] at h
      simp only [combinations]
      rw [List.nodup_append]
      refine ⟨(ih h.2 r).map (fun a b hab => by simpa using hab), ih h.2 (r + 1), ?_⟩
      intro a ha b hb
      simp only [List.mem_map] at ha
      obtain ⟨a', _, rfl⟩ := ha
      rintro rfl
      have := (mem_combinations.1 hb).1
      exact h.1 (this.subset (by simp))

theorem pairwise_lt_range (m : ℕ) : (List.range m).Pairwise (· < ·) := List.pairwise_lt_range

theorem mem_combinations_range {m k : ℕ} {l : List ℕ} :
    l ∈ combinations (List.range m) k ↔ l.Pairwise (· < ·) ∧ (∀ x ∈ l, x < m) ∧ l.length = k := by
  rw [mem_combinations]
  constructor
  · rintro ⟨h1, h2⟩
    exact ⟨(pairwise_lt_range m).sublist h1, fun x hx => by simpa using h1.subset hx, h2⟩
  · rintro ⟨h1, h2, h3⟩
    refine ⟨?_, h3⟩
    have hsub : l ⊆ List.range m := fun x hx => by simpa using h2 x hx
    have hsp : l.Subperm (List.range m) := (nodup_of_lt h1).subperm hsub
    exact List.sublist_of_subperm_of_pairwise (r := (· < ·)) hsp h1 (pairwise_lt_range m)

end Abc
