import Verif.Props.Rules
import Verif.Spec.Rules

/-!
# From a complete sorted list of winners to `Answers`
-/

namespace Abc
open Spec

theorem pyGet_zero_of_ne_nil {α : Type} {l : List α} (h : l ≠ []) : ∃ x rest, l = x :: rest ∧ pyGet l 0 = .ok x := by
  cases l with
  | nil => exact absurd rfl h
  | cons x xs => exact ⟨x, xs, rfl, rfl⟩

theorem maxNum_some {a : Args} {n : ℕ} (h : a.maxNum = some n) : ∃ z, a.max = some z ∧ z.toNat = n := by
  unfold Args.maxNum at h
  cases hz : a.max with
  | none => rw [hz] at h; simp at h
  | some z => rw [hz] at h; exact ⟨z, rfl, by simpa using h⟩

/-- The list both variants of the final block compute. -/
def finalList (a : Args) (out : List (List ℕ)) : List (List ℕ) :=
  if a.resolute then out.take 1 else truncate a.maxNum out

theorem answers_finalList {a : Args} {out : List (List ℕ)} {S : Finset ℕ → Prop} (hc : Canonical out)
    (hS : ∀ A, (∃ W ∈ out, W.toFinset = A) ↔ S A) (hne : out ≠ []) : Answers a (.ok (finalList a out)) S := by
  unfold Answers finalList
  cases hr : a.resolute with
  | true =>
    obtain ⟨x, xs, rfl, -⟩ := pyGet_zero_of_ne_nil hne
    exact ⟨x, by simp, hc.asc x (by simp), (hS _).1 ⟨x, by simp, rfl⟩⟩
  | false =>
    cases hm : a.max with
    | none =>
      simp only [Bool.false_eq_true, if_false, Args.maxNum, hm, Option.map_none, truncate]
      exact ⟨out, rfl, hc, hS⟩
    | some n =>
      simp only [Bool.false_eq_true, if_false, Args.maxNum, hm, Option.map_some, truncate]
      exact returnsSome_of_take hc hS _

theorem finalList_ne_nil {p : Profile} {a : Args} (hv : ValidCall p a) {out : List (List ℕ)} (hne : out ≠ []) :
    finalList a out ≠ [] := by
  unfold finalList
  obtain ⟨x, xs, rfl, -⟩ := pyGet_zero_of_ne_nil hne
  split
  · simp
  · cases hm : a.maxNum with
    | none => simp [truncate]
    | some n =>
      obtain ⟨z, hz, rfl⟩ := maxNum_some hm
      have := hv.max z hz
      simp only [truncate, ne_eq, List.take_eq_nil_iff, reduceCtorEq, or_false]
      omega

/-- sort, truncate, take the first if resolute (e.g. abcrules.py:757-762) -/
theorem finishA {p : Profile} {a : Args} (hv : ValidCall p a) {cs out : List (List ℕ)} (hs : sortedCommittees cs = .ok out)
    (hne : out ≠ []) :
    (do let committees ← sortedCommittees cs
        let committees := truncate a.maxNum committees
        if a.resolute then do
          let c ← pyGet committees 0
          Except.ok [c]
        else .ok committees) = .ok (finalList a out) := by
  simp only [hs, bind, Except.bind, finalList]
  cases hr : a.resolute with
  | false => simp
  | true =>
    have := hv.excl hr
    obtain ⟨x, xs, rfl, -⟩ := pyGet_zero_of_ne_nil hne
    simp [Args.maxNum, this, truncate, pyGet]

/-- case split for: sort, take the first if resolute, truncate (e.g. abcrules.py:1140-1146) -/
theorem finishB {p : Profile} {a : Args} (hv : ValidCall p a) {out : List (List ℕ)} (hne : out ≠ []) :
    (a.resolute = true ∧ ∃ x xs, out = x :: xs ∧ pyGet out 0 = .ok x ∧ truncate a.maxNum [x] = finalList a out) ∨
    (a.resolute = false ∧ truncate a.maxNum out = finalList a out) := by
  unfold finalList
  cases hr : a.resolute with
  | false => simp
  | true =>
    obtain ⟨x, xs, rfl, h⟩ := pyGet_zero_of_ne_nil hne
    exact Or.inl ⟨rfl, x, xs, rfl, h, by simp [Args.maxNum, hv.excl hr, truncate]⟩

theorem finalList_get {p : Profile} {a : Args} (hv : ValidCall p a) {out : List (List ℕ)} (hne : out ≠ []) :
    ∃ x, pyGet (finalList a out) 0 = .ok x ∧ x ∈ out := by
  obtain ⟨x, xs, h1, h2⟩ := pyGet_zero_of_ne_nil (finalList_ne_nil hv hne)
  refine ⟨x, h2, ?_⟩
  have : x ∈ finalList a out := by rw [h1]; simp
  unfold finalList at this
  split at this
  · exact List.mem_of_mem_take this
  · cases hm : a.maxNum with
    | none => rw [hm] at this; exact this
    | some n => rw [hm] at this; exact List.mem_of_mem_take this

/-- the brute-force loop over all committees, with a score `sc` that only depends on the set -/
theorem bruteBest {β : Type} (r : β → β → Prop) [DecidableRel r] [DecidableEq β]
    (hirr : ∀ a, ¬ r a a) (htr : ∀ a b c, r a b → r b c → r a c) (htri : ∀ a b, r a b ∨ a = b ∨ r b a)
    (p : Profile) (k : ℕ) (hk : k ≤ p.numCand) (score : List ℕ → β) (sc : Finset ℕ → β)
    (hsc : ∀ W ∈ combinations p.candidates k, score W = sc W.toFinset) (b0 : β)
    (hb0 : ∀ W ∈ combinations p.candidates k, r (score W) b0 ∨ score W = b0) (S : Finset ℕ → Prop)
    (hS : ∀ A, S A ↔ IsCommittee p k A ∧ ∀ B, IsCommittee p k B → ¬ r (sc B) (sc A)) :
    ∃ out, sortedCommittees ((combinations p.candidates k).foldl (bestStep r score) ([], b0)).1 = .ok out ∧
      Canonical out ∧ (∀ A, (∃ W ∈ out, W.toFinset = A) ↔ S A) ∧ out ≠ [] ∧
      (∃ W ∈ combinations p.candidates k, ((combinations p.candidates k).foldl (bestStep r score) ([], b0)).2 = score W
        ∧ W ∈ out) := by
  set l := combinations p.candidates k with hl
  set st := l.foldl (bestStep r score) ([], b0) with hst
  have hmem := bestFold_eq r score hirr htr htri b0 l hb0
  have hsub := bestFold_sublist r score hirr htr htri b0 l
  rw [← hst] at hsub
  have hlt : ∀ W ∈ st.1, W.Pairwise (· < ·) := fun W hW => combinations_lt (hsub.subset hW)
  have hnd : st.1.Nodup := hsub.nodup (combinations_nodup List.nodup_range k)
  have hchar : ∀ A, (∃ W ∈ st.1, W.toFinset = A) ↔ S A := by
    intro A
    rw [hS]
    constructor
    · rintro ⟨W, hW, rfl⟩
      obtain ⟨h1, h2⟩ := (hmem W).1 hW
      refine ⟨(isCommittee_iff_combinations p k _).2 ⟨W, h1, rfl⟩, ?_⟩
      intro B hB
      obtain ⟨V, hV, rfl⟩ := (isCommittee_iff_combinations p k _).1 hB
      rw [← hsc V hV, ← hsc W h1]
      exact h2 V hV
    · rintro ⟨h1, h2⟩
      obtain ⟨W, hW, rfl⟩ := (isCommittee_iff_combinations p k _).1 h1
      refine ⟨W, (hmem W).2 ⟨hW, ?_⟩, rfl⟩
      intro V hV
      rw [hsc V hV, hsc W hW]
      exact h2 _ ((isCommittee_iff_combinations p k _).2 ⟨V, hV, rfl⟩)
  obtain ⟨out, h1, h2, h3⟩ := sortedCommittees_of_lt hlt hnd
  have hatt : ∃ W ∈ l, st.2 = score W ∧ W ∈ st.1 := by
    obtain ⟨e1, e2, e3, e4⟩ := bestFold_inv r score hirr htr htri b0 l
    rw [← hst] at e1 e2 e3 e4
    have : ∃ W ∈ l, score W = st.2 := by
      rcases e3 with e3 | e3
      · obtain ⟨W, ws, hW⟩ := List.exists_cons_of_ne_nil (combinations_ne_nil hk)
        have hWl : W ∈ l := by rw [hl, hW]; simp
        refine ⟨W, hWl, ?_⟩
        rcases hb0 W hWl with h | h
        · rw [← e3] at h; exact absurd h (e2 W hWl)
        · rw [h, e3]
      · exact e3
    obtain ⟨W, hW, he⟩ := this
    refine ⟨W, hW, he.symm, ?_⟩
    rw [e1]
    simp [hW, he]
  obtain ⟨W0, hW0, he0, hin0⟩ := hatt
  refine ⟨out, h1, h2, ?_, ?_, W0, hW0, he0, h3.mem_iff.2 hin0⟩
  · intro A
    rw [← hchar A]
    constructor
    · rintro ⟨W, hW, e⟩; exact ⟨W, h3.mem_iff.1 hW, e⟩
    · rintro ⟨W, hW, e⟩; exact ⟨W, h3.mem_iff.2 hW, e⟩
  · rintro rfl
    have := h3.mem_iff.2 hin0
    simp at this

theorem sortedCommittees_one {W : List ℕ} (h : W.Nodup) : sortedCommittees [W] = .ok [sortNat W] := by
  rw [sortedCommittees_ok (by simpa using h)]
  rfl

/-- Rules that truncate (or stop collecting) before sorting. -/
theorem answers_sorted {a : Args} {cs : List (List ℕ)} {S : Finset ℕ → Prop} {r : Except Err (List (List ℕ))}
    (hnd : ∀ W ∈ cs, W.Nodup) (hd : (cs.map List.toFinset).Nodup) (hS : ∀ A, (∃ W ∈ cs, W.toFinset = A) ↔ S A)
    (hres : a.resolute = true → ∃ W : List ℕ, W.Nodup ∧ S W.toFinset ∧ r = sortedCommittees [W])
    (hirr : a.resolute = false → r = sortedCommittees (truncate a.maxNum cs)) : Answers a r S := by
  unfold Answers
  cases hr : a.resolute with
  | true =>
    obtain ⟨W, h1, h2, rfl⟩ := hres hr
    rw [sortedCommittees_one h1]
    exact ⟨_, rfl, sortNat_lt h1, by rwa [sortNat_toFinset]⟩
  | false =>
    rw [hirr hr]
    have hsub : (truncate a.maxNum cs).Sublist cs := by
      cases a.maxNum with
      | none => exact List.Sublist.refl _
      | some n => exact List.take_sublist n cs
    obtain ⟨out, h1, h2, h3⟩ := sortedCommittees_canonical (cs := truncate a.maxNum cs)
      (fun W hW => hnd W (hsub.subset hW)) ((hsub.map _).nodup hd)
    rw [h1]
    have hmem : ∀ A, (∃ W ∈ out, W.toFinset = A) ↔ ∃ W ∈ truncate a.maxNum cs, W.toFinset = A := by
      intro A
      have := h3.mem_iff (a := A)
      simpa [List.mem_map] using this
    cases hm : a.max with
    | none =>
      refine ⟨out, rfl, h2, fun A => ?_⟩
      rw [hmem, ← hS A]
      simp [Args.maxNum, hm, truncate]
    | some n =>
      refine ⟨out, rfl, h2, ?_, (cs.map List.toFinset).toFinset, ?_, ?_⟩
      · intro W hW
        obtain ⟨V, hV, he⟩ := (hmem W.toFinset).1 ⟨W, hW, rfl⟩
        exact (hS _).1 ⟨V, hsub.subset hV, he⟩
      · intro A
        rw [← hS A]; simp
      · have := h3.length_eq
        simp only [List.length_map] at this
        rw [this, List.toFinset_card_of_nodup hd, List.length_map]
        simp [Args.maxNum, hm, truncate]

end Abc
