import Verif.Lemmas.Lists
import Mathlib.Data.List.Lex
import Mathlib.Order.Basic
import Mathlib.Data.Rat.Defs
import Mathlib.Algebra.Order.Ring.Unbundled.Rat

/-!
# Lexicographic optimisation level by level
-/

namespace Abc

/-- `f` is lexicographically smaller than `g` on the first `n` positions. -/
def LexLt {α : Type} [LT α] (n : ℕ) (f g : ℕ → α) : Prop := ∃ i < n, (∀ j < i, f j = g j) ∧ f i < g i

section
variable {α : Type} [LinearOrder α]

theorem lexLt_zero (f g : ℕ → α) : ¬ LexLt 0 f g := by rintro ⟨i, hi, -⟩; omega

theorem lexLt_succ {n : ℕ} {f g : ℕ → α} : LexLt (n + 1) f g ↔ LexLt n f g ∨ ((∀ j < n, f j = g j) ∧ f n < g n) := by
  constructor
  · rintro ⟨i, hi, h1, h2⟩
    rcases Nat.lt_succ_iff_lt_or_eq.1 hi with h | rfl
    · exact Or.inl ⟨i, h, h1, h2⟩
    · exact Or.inr ⟨h1, h2⟩
  · rintro (⟨i, hi, h1, h2⟩ | ⟨h1, h2⟩)
    · exact ⟨i, by omega, h1, h2⟩
    · exact ⟨n, by omega, h1, h2⟩

theorem lexLt_trichotomy {n : ℕ} {f g : ℕ → α} (h1 : ¬ LexLt n f g) (h2 : ¬ LexLt n g f) : ∀ j < n, f j = g j := by
  induction n with
  | zero => intro j hj; omega
  | succ n ih =>
    have e1 : ∀ j < n, f j = g j := ih (fun h => h1 (lexLt_succ.2 (Or.inl h))) (fun h => h2 (lexLt_succ.2 (Or.inl h)))
    intro j hj
    rcases Nat.lt_succ_iff_lt_or_eq.1 hj with h | rfl
    · exact e1 j h
    · rcases lt_trichotomy (f j) (g j) with h | h | h
      · exact absurd (lexLt_succ.2 (Or.inr ⟨e1, h⟩)) h1
      · exact h
      · exact absurd (lexLt_succ.2 (Or.inr ⟨fun i hi => (e1 i hi).symm, h⟩)) h2

theorem lexLt_congr {n : ℕ} {f f' g g' : ℕ → α} (hf : ∀ j < n, f j = f' j) (hg : ∀ j < n, g j = g' j) (h : LexLt n f g) :
    LexLt n f' g' := by
  obtain ⟨i, hi, h1, h2⟩ := h
  refine ⟨i, hi, fun j hj => ?_, ?_⟩
  · rw [← hf j (by omega), ← hg j (by omega)]; exact h1 j hj
  · rw [← hf i hi, ← hg i hi]; exact h2

/-- The lexicographic order on lists. -/
theorem map_range_lt_iff {n : ℕ} {f g : ℕ → α} : (List.range n).map f < (List.range n).map g ↔ LexLt n f g := by
  induction n generalizing f g with
  | zero => simp [lexLt_zero]
  | succ n ih =>
    rw [List.range_succ_eq_map, List.map_cons, List.map_cons, List.map_map, List.map_map, List.cons_lt_cons_iff, ih]
    constructor
    · rintro (h | ⟨h0, i, hi, h1, h2⟩)
      · exact ⟨0, by omega, by intro j hj; omega, h⟩
      · refine ⟨i + 1, by omega, ?_, h2⟩
        intro j hj
        cases j with
        | zero => exact h0
        | succ j => exact h1 j (by omega)
    · rintro ⟨i, hi, h1, h2⟩
      cases i with
      | zero => exact Or.inl h2
      | succ i =>
        exact Or.inr ⟨h1 0 (by omega), i, by omega, fun j hj => h1 (j + 1) (by omega), h2⟩

/-- `A` satisfies `C` and no `B` satisfying `C` is lexicographically larger on the first `n` levels. -/
def LexMax {β : Type} (C : β → Prop) (g : β → ℕ → α) (n : ℕ) (A : β) : Prop := C A ∧ ∀ B, C B → ¬ LexLt n (g A) (g B)

variable {β : Type} {C : β → Prop} {g : β → ℕ → α} {n : ℕ} {A B : β}

theorem lexMax_zero : LexMax C g 0 A ↔ C A := ⟨fun h => h.1, fun h => ⟨h, fun _ _ => lexLt_zero _ _⟩⟩

theorem LexMax.agree (hA : LexMax C g n A) (hB : LexMax C g n B) : ∀ j < n, g A j = g B j :=
  lexLt_trichotomy (hA.2 B hB.1) (hB.2 A hA.1)

theorem LexMax.of_agree (hA : LexMax C g n A) (hB : C B) (h : ∀ j < n, g A j = g B j) : LexMax C g n B :=
  ⟨hB, fun D hD hlt => hA.2 D hD (lexLt_congr (fun j hj => (h j hj).symm) (fun _ _ => rfl) hlt)⟩

theorem lexMax_succ : LexMax C g (n + 1) A ↔ LexMax C g n A ∧ ∀ B, LexMax C g n B → g B n ≤ g A n := by
  constructor
  · intro h
    have hA : LexMax C g n A := ⟨h.1, fun B hB hlt => h.2 B hB (lexLt_succ.2 (Or.inl hlt))⟩
    refine ⟨hA, fun B hB => ?_⟩
    by_contra hcon
    exact h.2 B hB.1 (lexLt_succ.2 (Or.inr ⟨hA.agree hB, not_le.1 hcon⟩))
  · rintro ⟨hA, h⟩
    refine ⟨hA.1, fun B hB hlt => ?_⟩
    rcases lexLt_succ.1 hlt with h1 | ⟨h1, h2⟩
    · exact hA.2 B hB h1
    · exact absurd (h B (hA.of_agree hB h1)) (not_le.2 h2)

theorem LexMax.mono {m : ℕ} (hmn : m ≤ n) (h : LexMax C g n A) : LexMax C g m A := by
  induction n, hmn using Nat.le_induction with
  | base => exact h
  | succ n _ ih => exact ih (lexMax_succ.1 h).1

end

/-! ## Sorted vectors and counting -/

/-- The number of elements that are at most `d`. -/
def cntLe (d : ℕ) (l : List ℕ) : ℕ := l.countP (fun x => decide (x ≤ d))

theorem cntLe_all {d : ℕ} {l : List ℕ} (h : ∀ x ∈ l, x ≤ d) : cntLe d l = l.length := by
  unfold cntLe; rw [List.countP_eq_length]; simpa using h

theorem lt_cnt : ∀ {l l' : List ℕ}, l.length = l'.length → l.Pairwise (· ≥ ·) → l'.Pairwise (· ≥ ·) → l < l' →
    ∃ d, (∀ e, d < e → cntLe e l = cntLe e l') ∧ cntLe d l' < cntLe d l ∧ ∃ x ∈ l', d < x
  | [], [], _, _, _, h => by simp at h
  | a :: l, b :: l', hl, h1, h2, h => by
    rw [List.pairwise_cons] at h1 h2
    rw [List.cons_lt_cons_iff] at h
    rcases h with h | ⟨rfl, h⟩
    · refine ⟨b - 1, fun e he => ?_, ?_, b, by simp, by omega⟩
      · rw [cntLe_all, cntLe_all, hl]
        · intro x hx
          rcases List.mem_cons.1 hx with rfl | hx
          · omega
          · have := h2.1 x hx; omega
        · intro x hx
          rcases List.mem_cons.1 hx with rfl | hx
          · omega
          · have := h1.1 x hx; omega
      · rw [cntLe_all (l := a :: l), hl]
        · unfold cntLe
          rw [List.countP_cons, if_neg (by simp; omega)]
          have := List.countP_le_length (p := fun x => decide (x ≤ b - 1)) (l := l')
          simp only [List.length_cons]; omega
        · intro x hx
          rcases List.mem_cons.1 hx with rfl | hx
          · omega
          · have := h1.1 x hx; omega
    · obtain ⟨d, e1, e2, x, hx, hdx⟩ := lt_cnt (by simpa using hl) h1.2 h2.2 h
      refine ⟨d, fun e he => ?_, ?_, x, by simp [hx], hdx⟩
      · have := e1 e he
        unfold cntLe at this ⊢
        rw [List.countP_cons, List.countP_cons, this]
      · unfold cntLe at e2 ⊢
        rw [List.countP_cons, List.countP_cons]; omega

end Abc
