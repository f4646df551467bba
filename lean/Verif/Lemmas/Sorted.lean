import Verif.Lemmas.Lists
import Init.Data.Nat.ToString

/-!
# The canonical order of committees (`sorted_committees`)
-/

namespace Abc

theorem strNat_injective : Function.Injective strNat := by
  intro a b h
  have ha := @Nat.ofDigitChars_toDigits 10 a (by omega) (by omega)
  have hb := @Nat.ofDigitChars_toDigits 10 b (by omega) (by omega)
  unfold strNat at h
  rw [← ha, h, hb]

theorem strNat_ne_nil (n : ℕ) : strNat n ≠ [] := Nat.toDigits_ne_nil

theorem comma_not_mem_strNat (n : ℕ) : ',' ∉ strNat n := by
  intro h
  have := Nat.isDigit_of_mem_toDigits (by omega) (by omega) h
  revert this
  decide

/-- Joining strings that contain no comma is injective. -/
theorem append_comma_inj {a b u v : List Char} (ha : ',' ∉ a) (hb : ',' ∉ b)
    (h : a ++ ',' :: u = b ++ ',' :: v) : a = b ∧ u = v := by
  induction a generalizing b with
  | nil =>
    cases b with
    | nil => simpa using h
    | cons y b =>
      simp only [List.nil_append, List.cons_append, List.cons.injEq] at h
      exact absurd (by simp [← h.1]) hb
  | cons x a ih =>
    cases b with
    | nil =>
      simp only [List.nil_append, List.cons_append, List.cons.injEq] at h
      exact absurd (by simp [h.1]) ha
    | cons y b =>
      simp only [List.cons_append, List.cons.injEq] at h
      have := ih (b := b) (fun h' => ha (by simp [h'])) (fun h' => hb (by simp [h'])) h.2
      exact ⟨by rw [h.1, this.1], this.2⟩

theorem intersperse_flatten_cons_cons (x y : List Char) (l : List (List Char)) :
    ((x :: y :: l).intersperse [',', ' ']).flatten
      = x ++ ',' :: ' ' :: ((y :: l).intersperse [',', ' ']).flatten := by
  simp [List.intersperse]

theorem join_injective {l l' : List (List Char)} (hl : ∀ x ∈ l, ',' ∉ x ∧ x ≠ []) (hl' : ∀ x ∈ l', ',' ∉ x ∧ x ≠ [])
    (h : (l.intersperse [',', ' ']).flatten = (l'.intersperse [',', ' ']).flatten) : l = l' := by
  induction l generalizing l' with
  | nil =>
    cases l' with
    | nil => rfl
    | cons y l' =>
      cases l' with
      | nil =>
        have := (hl' y (by simp)).2
        simp only [List.intersperse, List.flatten_nil, List.flatten_cons, List.append_nil] at h
        exact absurd h.symm this
      | cons z l' =>
        rw [intersperse_flatten_cons_cons] at h
        simp at h
  | cons x l ih =>
    cases l' with
    | nil =>
      cases l with
      | nil =>
        have := (hl x (by simp)).2
        simp only [List.intersperse, List.flatten_nil, List.flatten_cons, List.append_nil] at h
        exact absurd h this
      | cons z l =>
        rw [intersperse_flatten_cons_cons] at h
        simp at h
    | cons y l' =>
      have hx := (hl x (by simp)).1
      have hy := (hl' y (by simp)).1
      cases l with
      | nil =>
        cases l' with
        | nil => simpa using h
        | cons z l' =>
          rw [intersperse_flatten_cons_cons] at h
          simp only [List.intersperse, List.flatten_nil, List.flatten_cons, List.append_nil] at h
          exact absurd (by rw [h]; simp) hx
      | cons w l =>
        cases l' with
        | nil =>
          rw [intersperse_flatten_cons_cons] at h
          simp only [List.intersperse, List.flatten_nil, List.flatten_cons, List.append_nil] at h
          exact absurd (by rw [← h]; simp) hy
        | cons z l' =>
          rw [intersperse_flatten_cons_cons, intersperse_flatten_cons_cons] at h
          obtain ⟨h1, h2⟩ := append_comma_inj hx hy h
          simp only [List.cons.injEq, true_and] at h2
          rw [h1, ih (fun a ha => hl a (by simp at ha ⊢; tauto)) (fun a ha => hl' a (by simp at ha ⊢; tauto)) h2]

/-- Committees with the same printed form have the same elements. -/
theorem perm_of_strKey_eq {a b : List ℕ} (h : strKey a = strKey b) : a.Perm b := by
  unfold strKey at h
  simp only [List.append_cancel_right_eq, List.append_cancel_left_eq] at h
  have hmem : ∀ (a : List ℕ), ∀ x ∈ (a.map strNat).insertionSort strLe, ',' ∉ x ∧ x ≠ [] := by
    intro a x hx
    rw [(List.perm_insertionSort _ _).mem_iff] at hx
    simp only [List.mem_map] at hx
    obtain ⟨n, _, rfl⟩ := hx
    exact ⟨comma_not_mem_strNat n, strNat_ne_nil n⟩
  have h' := join_injective (hmem a) (hmem b) h
  have hp : (a.map strNat).Perm (b.map strNat) :=
    (List.perm_insertionSort strLe _).symm.trans (h' ▸ List.perm_insertionSort strLe _)
  exact List.map_perm_map_iff strNat_injective |>.1 hp

theorem eq_of_strKey_eq {a b : List ℕ} (ha : a.Pairwise (· < ·)) (hb : b.Pairwise (· < ·))
    (h : strKey a = strKey b) : a = b := by
  rw [← sortNat_of_lt ha, ← sortNat_of_lt hb, sortNat_eq_of_perm (perm_of_strKey_eq h)]

/-! ## the comparison used by `sorted_committees` -/

/-- `a` is printed before (or like) `b` in Python's string order. -/
def keyLe (a b : List ℕ) : Prop := strLe (strKey a) (strKey b)

instance : DecidableRel keyLe := fun a b => inferInstanceAs (Decidable (strLe (strKey a) (strKey b)))

instance : IsTrans (List ℕ) keyLe := ⟨fun _ _ _ => List.le_trans⟩

instance : Std.Total (α := List ℕ) keyLe := ⟨fun _ _ => List.le_total _ _⟩

theorem sortByKey_perm (l : List (List ℕ)) :
    (l.insertionSort (fun a b => strLe (strKey a) (strKey b))).Perm l := List.perm_insertionSort _ _

theorem sortByKey_pairwise (l : List (List ℕ)) :
    (l.insertionSort (fun a b => strLe (strKey a) (strKey b))).Pairwise keyLe :=
  List.pairwise_insertionSort (fun a b => keyLe a b) l

/-- A canonically ordered list is determined by its set of members. -/
theorem sorted_unique {l l' : List (List ℕ)} (hl : l.Pairwise keyLe) (hl' : l'.Pairwise keyLe)
    (hc : ∀ W ∈ l, W.Pairwise (· < ·)) (hp : l.Perm l') : l = l' := by
  refine List.Perm.eq_of_pairwise (le := keyLe) ?_ hl hl' hp
  intro a b ha hb hab hba
  exact eq_of_strKey_eq (hc a ha) (hc b (hp.mem_iff.2 hb)) (List.le_antisymm hab hba)

theorem mapM_mkSet {cs : List (List ℕ)} (h : ∀ W ∈ cs, W.Nodup) :
    cs.mapM mkSet = Except.ok (cs.map sortNat) := by
  induction cs with
  | nil => rfl
  | cons a cs ih =>
    have h1 : mkSet a = .ok (sortNat a) := by simp [mkSet, h a (by simp)]
    rw [List.mapM_cons, h1, ih (fun W hW => h W (by simp [hW]))]
    rfl

theorem mapM_mkSet_error {cs : List (List ℕ)} {W : List ℕ} (hW : W ∈ cs) (h : ¬ W.Nodup) :
    cs.mapM mkSet = Except.error Err.valueError := by
  induction cs with
  | nil => simp at hW
  | cons a cs ih =>
    rw [List.mapM_cons]
    by_cases ha : a.Nodup
    · have h1 : mkSet a = .ok (sortNat a) := by simp [mkSet, ha]
      have hW' : W ∈ cs := by
        simp only [List.mem_cons] at hW
        rcases hW with rfl | hW
        · exact absurd ha h
        · exact hW
      rw [h1, ih hW']
      rfl
    · have h1 : mkSet a = .error Err.valueError := by simp [mkSet, ha]
      rw [h1]
      rfl

theorem sortedCommittees_ok {cs : List (List ℕ)} (h : ∀ W ∈ cs, W.Nodup) :
    sortedCommittees cs = .ok ((cs.map sortNat).insertionSort (fun a b => strLe (strKey a) (strKey b))) := by
  unfold sortedCommittees
  rw [mapM_mkSet h]
  rfl

end Abc
