import Verif.Spec.Text
import Verif.Lemmas.Sorted

/-!
# Lemmas about texts
-/

namespace Abc
open Spec

theorem pyGet_name {names : List Name} {c : ℕ} (h : c < names.length) : pyGet names c = .ok (names.getD c []) := by
  unfold pyGet
  rw [List.getElem?_eq_getElem h]
  simp [List.getD, List.getElem?_eq_getElem h]

theorem mapM_ok_of {α β : Type} {f : α → Except Err β} {g : α → β} {l : List α} (h : ∀ a ∈ l, f a = .ok (g a)) :
    l.mapM f = .ok (l.map g) := by
  induction l with
  | nil => rfl
  | cons a l ih =>
    rw [List.mapM_cons, h a (by simp), ih (fun b hb => h b (by simp [hb]))]
    rfl

theorem strSetOfCandidates_some {names : List Name} {W : List ℕ} (h : ∀ c ∈ W, c < names.length) :
    strSetOfCandidates W (some names) = .ok (setText names W) := by
  unfold strSetOfCandidates setText
  dsimp only
  rw [mapM_ok_of (g := fun c => names.getD c []) (fun c hc => pyGet_name (h c hc))]
  rfl

theorem strLe_pairwise (l : List Name) : (l.insertionSort strLe).Pairwise (· ≤ ·) := by
  have : Std.Total strLe := ⟨fun a b => List.le_total a b⟩
  have : IsTrans (List Char) strLe := ⟨fun _ _ _ => List.le_trans⟩
  exact List.pairwise_insertionSort strLe l

theorem setText_shows (names : List Name) (W : List ℕ) : ShowsSet names W (setText names W) :=
  ⟨_, List.perm_insertionSort _ _, strLe_pairwise _, rfl⟩

theorem lines_intercalate {ls : List Name} (hne : ls ≠ []) (h : ∀ l ∈ ls, '\n' ∉ l) : lines (['\n'].intercalate ls) = ls :=
  List.splitOn_intercalate _ h hne

theorem newline_not_mem_intercalate {l : List Name} (h : ∀ x ∈ l, '\n' ∉ x) : '\n' ∉ [',', ' '].intercalate l := by
  induction l with
  | nil => simp [List.intercalate]
  | cons a l ih =>
    cases l with
    | nil => simpa [List.intercalate] using h a (by simp)
    | cons b l =>
      have := ih (fun x hx => h x (by simp [hx]))
      have ha := h a (by simp)
      simp only [List.intercalate, List.intersperse, List.flatten_cons, List.mem_append] at this ⊢
      rintro (h1 | h1 | h1)
      · exact ha h1
      · revert h1; decide
      · exact this h1

theorem getD_name {names : List Name} {W : List ℕ} (h : ∀ c ∈ W, c < names.length) {x : Name}
    (hx : x ∈ W.map (fun c => names.getD c [])) : x ∈ names := by
  obtain ⟨c, hc, rfl⟩ := List.mem_map.1 hx
  simp [List.getD, List.getElem?_eq_getElem (h c hc)]

theorem newline_not_mem_setText {names : List Name} (hn : ∀ n ∈ names, '\n' ∉ n) {W : List ℕ} (h : ∀ c ∈ W, c < names.length) :
    '\n' ∉ setText names W := by
  have : '\n' ∉ [',', ' '].intercalate ((W.map (fun c => names.getD c [])).insertionSort strLe) := by
    refine newline_not_mem_intercalate fun x hx => ?_
    rw [List.mem_insertionSort] at hx
    exact hn x (getD_name h hx)
  unfold setText
  simp only [List.mem_cons, List.mem_append, List.not_mem_nil, or_false, not_or]
  exact ⟨by decide, this, by decide⟩

/-- With readable names the text determines the set. -/
theorem ShowsSet.perm {names : List Name} (hr : Readable names) {V W : List ℕ} (hV : ∀ c ∈ V, c < names.length)
    (hW : ∀ c ∈ W, c < names.length) {t : Name} (h : ShowsSet names V t) (h' : ShowsSet names W t) : V.Perm W := by
  obtain ⟨l, hl, _, rfl⟩ := h
  obtain ⟨m, hm, _, ht⟩ := h'
  have hlm : l = m := by
    refine join_injective (fun x hx => ?_) (fun x hx => ?_) ?_
    · have := getD_name hV (hl.mem_iff.1 hx)
      exact ⟨hr.comma x this, hr.nonempty x this⟩
    · have := getD_name hW (hm.mem_iff.1 hx)
      exact ⟨hr.comma x this, hr.nonempty x this⟩
    · have := List.append_cancel_right (List.cons.inj ht).2
      exact this
  subst hlm
  have hp := hl.symm.trans hm
  have key : ∀ U : List ℕ, (∀ c ∈ U, c < names.length) → (U.map (fun c => names.getD c [])).map (fun n => names.idxOf n) = U := by
    intro U hU
    rw [List.map_map]
    conv_rhs => rw [← List.map_id U]
    refine List.map_congr_left fun c hc => ?_
    have hc' := hU c hc
    simp only [Function.comp, List.getD, List.getElem?_eq_getElem hc', Option.getD_some, id]
    exact hr.nodup.idxOf_getElem c hc'
  have := hp.map (fun n => names.idxOf n)
  rwa [key V hV, key W hW] at this


theorem intercalate_cons_cons (sep a b : Name) (l : List Name) :
    sep.intercalate (a :: b :: l) = a ++ sep ++ sep.intercalate (b :: l) := by
  simp [List.intercalate, List.intersperse]

theorem intercalate_singleton (sep a : Name) : sep.intercalate [a] = a := by simp [List.intercalate]

theorem intercalate_cons {sep a : Name} {l : List Name} (h : l ≠ []) : sep.intercalate (a :: l) = a ++ sep ++ sep.intercalate l := by
  cases l with
  | nil => exact absurd rfl h
  | cons b l => exact intercalate_cons_cons sep a b l

theorem intercalate_append {sep : Name} {l m : List Name} (hl : l ≠ []) (hm : m ≠ []) :
    sep.intercalate (l ++ m) = sep.intercalate l ++ sep ++ sep.intercalate m := by
  induction l with
  | nil => exact absurd rfl hl
  | cons a l ih =>
    cases l with
    | nil => simp only [List.singleton_append, intercalate_singleton]; exact intercalate_cons hm
    | cons b l =>
      have := ih (by simp)
      rw [List.cons_append] at this
      rw [List.cons_append, List.cons_append, intercalate_cons_cons, this, intercalate_cons_cons]
      simp only [List.append_assoc]

/-- Moving the space behind a line break to the beginning of the lines. -/
theorem space_join {l : List Name} (h : l ≠ []) :
    ' ' :: ['\n', ' '].intercalate l = ['\n'].intercalate (l.map (fun t => ' ' :: t)) := by
  induction l with
  | nil => exact absurd rfl h
  | cons a l ih =>
    cases l with
    | nil => simp [intercalate_singleton]
    | cons b l =>
      have := ih (by simp)
      rw [intercalate_cons_cons, List.map_cons, List.map_cons, intercalate_cons_cons, ← List.map_cons, ← this]
      simp

end Abc
