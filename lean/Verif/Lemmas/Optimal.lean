import Verif.Lemmas.Scores
import Verif.Model.Optimal

/-!
# Helper lemmas for brute-force optimisation and for canonical outputs
-/

namespace Abc
open Spec

/-! ## arg-max folds -/

/-- The generic loop: keep the list of best items so far. `r a b` means `a` is strictly better than `b`. -/
def bestStep {C β : Type} (r : β → β → Prop) [DecidableRel r] [DecidableEq β] (score : C → β)
    (st : List C × β) (c : C) : List C × β :=
  if r (score c) st.2 then ([c], score c)
  else if score c = st.2 then (st.1 ++ [c], st.2)
  else st

section best
variable {C β : Type} (r : β → β → Prop) [DecidableRel r] [DecidableEq β] (score : C → β)

theorem bestFold_inv (hirr : ∀ a, ¬ r a a) (htr : ∀ a b c, r a b → r b c → r a c)
    (_htri : ∀ a b, r a b ∨ a = b ∨ r b a) (b0 : β) (l : List C) :
    let st := l.foldl (bestStep r score) ([], b0)
    st.1 = l.filter (fun c => decide (score c = st.2)) ∧ (∀ c ∈ l, ¬ r (score c) st.2) ∧
      (st.2 = b0 ∨ ∃ c ∈ l, score c = st.2) ∧ (st.2 = b0 ∨ r st.2 b0) := by
  induction l using List.reverseRecOn with
  | nil => simp
  | append_singleton l c ih =>
    simp only [List.foldl_append, List.foldl_cons, List.foldl_nil]
    set st := l.foldl (bestStep r score) ([], b0) with hst
    obtain ⟨h1, h2, h3, h4⟩ := ih
    unfold bestStep
    by_cases hr : r (score c) st.2
    · simp only [hr, if_true]
      have hne : ∀ d ∈ l, score d ≠ score c := by
        intro d hd he
        exact h2 d hd (he ▸ hr)
      refine ⟨?_, ?_, Or.inr ⟨c, by simp, rfl⟩, Or.inr ?_⟩
      · rw [List.filter_append]
        have : l.filter (fun d => decide (score d = score c)) = [] := by
          rw [List.filter_eq_nil_iff]
          intro d hd
          simpa using hne d hd
        rw [this]; simp
      · intro d hd
        simp only [List.mem_append, List.mem_singleton] at hd
        rcases hd with hd | rfl
        · intro h
          exact h2 d hd (htr _ _ _ h hr)
        · exact hirr _
      · rcases h4 with h4 | h4
        · rw [← h4]; exact hr
        · exact htr _ _ _ hr h4
    · simp only [hr, if_false]
      by_cases he : score c = st.2
      · simp only [he, if_true]
        refine ⟨?_, ?_, ?_, h4⟩
        · rw [List.filter_append, ← h1]; simp [he]
        · intro d hd
          simp only [List.mem_append, List.mem_singleton] at hd
          rcases hd with hd | rfl
          · exact h2 d hd
          · exact hr
        · exact Or.inr ⟨c, by simp, he⟩
      · simp only [he, if_false]
        refine ⟨?_, ?_, ?_, h4⟩
        · rw [List.filter_append, ← h1]; simp [he]
        · intro d hd
          simp only [List.mem_append, List.mem_singleton] at hd
          rcases hd with hd | rfl
          · exact h2 d hd
          · exact hr
        · rcases h3 with h3 | ⟨d, hd, h3⟩
          · exact Or.inl h3
          · exact Or.inr ⟨d, by simp [hd], h3⟩

/-- The result of the loop: exactly the items to which none is strictly preferable, in order. -/
theorem bestFold_eq (hirr : ∀ a, ¬ r a a) (htr : ∀ a b c, r a b → r b c → r a c)
    (htri : ∀ a b, r a b ∨ a = b ∨ r b a) (b0 : β) (l : List C)
    (hb0 : ∀ c ∈ l, r (score c) b0 ∨ score c = b0) (c : C) :
    c ∈ (l.foldl (bestStep r score) ([], b0)).1 ↔ c ∈ l ∧ ∀ d ∈ l, ¬ r (score d) (score c) := by
  obtain ⟨h1, h2, h3, h4⟩ := bestFold_inv r score hirr htr htri b0 l
  rw [h1]
  simp only [List.mem_filter, decide_eq_true_eq]
  refine and_congr_right ?_
  intro hc
  constructor
  · intro he d hd
    rw [he]
    exact h2 d hd
  · intro h
    have hatt : ∃ d ∈ l, score d = (l.foldl (bestStep r score) ([], b0)).2 := by
      rcases h3 with h3 | h3
      · refine ⟨c, hc, ?_⟩
        rcases hb0 c hc with h5 | h5
        · rw [← h3] at h5
          exact absurd h5 (h2 c hc)
        · rw [h5, h3]
      · exact h3
    obtain ⟨d, hd, he⟩ := hatt
    rcases htri (score d) (score c) with h5 | h5 | h5
    · exact absurd h5 (h d hd)
    · rw [← h5, he]
    · rw [he] at h5
      exact absurd h5 (h2 c hc)

theorem bestFold_sublist (hirr : ∀ a, ¬ r a a) (htr : ∀ a b c, r a b → r b c → r a c)
    (htri : ∀ a b, r a b ∨ a = b ∨ r b a) (b0 : β) (l : List C) :
    (l.foldl (bestStep r score) ([], b0)).1.Sublist l := by
  rw [(bestFold_inv r score hirr htr htri b0 l).1]
  exact List.filter_sublist

end best

/-! ## canonical outputs -/

/-- Sorting duplicate-free committees gives a canonical list. -/
theorem sortedCommittees_canonical {cs : List (List ℕ)} (h : ∀ W ∈ cs, W.Nodup) (hd : (cs.map List.toFinset).Nodup) :
    ∃ out, sortedCommittees cs = .ok out ∧ Canonical out ∧ (out.map List.toFinset).Perm (cs.map List.toFinset) := by
  obtain ⟨out, h1, h2, h3, h4⟩ := C07_sortedCommittees_perm_sorted cs h
  refine ⟨out, h1, ⟨h3, ?_, h4⟩, h2⟩
  exact List.Nodup.of_map _ (h2.nodup_iff.2 hd)

/-- The committees enumerated by `itertools.combinations` are exactly the committees of the right size. -/
theorem isCommittee_iff_combinations (p : Profile) (k : ℕ) (A : Finset ℕ) :
    IsCommittee p k A ↔ ∃ W ∈ combinations p.candidates k, W.toFinset = A := by
  constructor
  · rintro ⟨h1, h2⟩
    obtain ⟨l, hl, rfl⟩ := exists_lt_list A
    refine ⟨l, ?_, rfl⟩
    rw [Profile.candidates, mem_combinations_range]
    refine ⟨hl, ?_, by rw [← h2, toFinset_card_of_lt hl]⟩
    intro x hx
    have := h1 (List.mem_toFinset.2 hx)
    simpa using this
  · rintro ⟨W, hW, rfl⟩
    rw [Profile.candidates, mem_combinations_range] at hW
    refine ⟨?_, by rw [toFinset_card_of_lt hW.1]; exact hW.2.2⟩
    intro x hx
    simpa using hW.2.1 x (List.mem_toFinset.1 hx)

theorem combinations_lt {p : Profile} {k : ℕ} {W : List ℕ} (h : W ∈ combinations p.candidates k) :
    W.Pairwise (· < ·) := by
  rw [Profile.candidates, mem_combinations_range] at h
  exact h.1

theorem combinations_ne_nil {p : Profile} {k : ℕ} (h : k ≤ p.numCand) : combinations p.candidates k ≠ [] := by
  intro he
  have : IsCommittee p k (Finset.range k) := ⟨by simpa using h, by simp⟩
  obtain ⟨W, hW, _⟩ := (isCommittee_iff_combinations p k _).1 this
  rw [he] at hW
  simp at hW

theorem map_toFinset_nodup_of_lt {cs : List (List ℕ)} (h : ∀ W ∈ cs, W.Pairwise (· < ·)) (hn : cs.Nodup) :
    (cs.map List.toFinset).Nodup := by
  refine List.Nodup.map_on ?_ hn
  intro a ha b hb hab
  exact eq_of_lt_toFinset (h a ha) (h b hb) hab

/-- Sorting already canonical committees. -/
theorem sortedCommittees_of_lt {cs : List (List ℕ)} (h : ∀ W ∈ cs, W.Pairwise (· < ·)) (hn : cs.Nodup) :
    ∃ out, sortedCommittees cs = .ok out ∧ Canonical out ∧ out.Perm cs := by
  have h' : ∀ W ∈ cs, W.Nodup := fun W hW => nodup_of_lt (h W hW)
  refine ⟨_, sortedCommittees_ok h', ?_, ?_⟩
  · have hmap : cs.map sortNat = cs := by
      conv_rhs => rw [← List.map_id cs]
      exact List.map_congr_left (fun W hW => sortNat_of_lt (h W hW))
    rw [hmap]
    refine ⟨?_, (sortByKey_perm cs).nodup_iff.2 hn, sortByKey_pairwise cs⟩
    intro W hW
    exact h W ((sortByKey_perm cs).mem_iff.1 hW)
  · have hmap : cs.map sortNat = cs := by
      conv_rhs => rw [← List.map_id cs]
      exact List.map_congr_left (fun W hW => sortNat_of_lt (h W hW))
    rw [hmap]
    exact sortByKey_perm cs

theorem canonical_take {cs : List (List ℕ)} (h : Canonical cs) (n : ℕ) : Canonical (cs.take n) :=
  ⟨fun W hW => h.asc W (List.mem_of_mem_take hW), h.nodup.sublist (List.take_sublist n cs),
    h.sorted.sublist (List.take_sublist n cs)⟩

theorem canonical_singleton {W : List ℕ} (h : W.Pairwise (· < ·)) : Canonical [W] :=
  ⟨by simpa using h, by simp, by simp⟩

/-- A canonical list is determined by the sets it contains. -/
theorem canonical_ext {cs ds : List (List ℕ)} (h : Canonical cs) (h' : Canonical ds)
    (he : ∀ A : Finset ℕ, (∃ W ∈ cs, W.toFinset = A) ↔ (∃ W ∈ ds, W.toFinset = A)) : cs = ds := by
  refine sorted_unique h.sorted h'.sorted h.asc ?_
  rw [List.perm_ext_iff_of_nodup h.nodup h'.nodup]
  intro W
  constructor
  · intro hW
    obtain ⟨V, hV, e⟩ := (he W.toFinset).1 ⟨W, hW, rfl⟩
    rwa [← eq_of_lt_toFinset (h'.asc V hV) (h.asc W hW) e]
  · intro hW
    obtain ⟨V, hV, e⟩ := (he W.toFinset).2 ⟨W, hW, rfl⟩
    rwa [← eq_of_lt_toFinset (h.asc V hV) (h'.asc W hW) e]

/-- Two calls that return the same sets return the same list. -/
theorem Returns.unique {r r' : Except Err (List (List ℕ))} {S : Finset ℕ → Prop} (h : Returns r S) (h' : Returns r' S) :
    r = r' := by
  obtain ⟨cs, rfl, h1, h2⟩ := h
  obtain ⟨ds, rfl, h3, h4⟩ := h'
  rw [canonical_ext h1 h3 (fun A => (h2 A).trans (h4 A).symm)]

theorem Returns.congr {r : Except Err (List (List ℕ))} {S T : Finset ℕ → Prop} (h : Returns r S) (e : ∀ A, S A ↔ T A) :
    Returns r T := by
  obtain ⟨cs, h1, h2, h3⟩ := h
  exact ⟨cs, h1, h2, fun A => (h3 A).trans (e A)⟩

/-- Truncating a complete result gives `min n (number of winners)` winners. -/
theorem returnsSome_of_take {cs : List (List ℕ)} {S : Finset ℕ → Prop} (hc : Canonical cs)
    (hS : ∀ A, (∃ W ∈ cs, W.toFinset = A) ↔ S A) (n : ℕ) : ReturnsSome (.ok (cs.take n)) n S := by
  refine ⟨_, rfl, canonical_take hc n, ?_, (cs.map List.toFinset).toFinset, ?_, ?_⟩
  · intro W hW
    exact (hS _).1 ⟨W, List.mem_of_mem_take hW, rfl⟩
  · intro A
    rw [← hS A]
    simp
  · rw [List.length_take, List.toFinset_card_of_nodup (map_toFinset_nodup_of_lt hc.asc hc.nodup), List.length_map]

/-- The end of the optimisation rules: sort, truncate. -/
theorem finish_returns {cs : List (List ℕ)} {S : Finset ℕ → Prop} (h : ∀ W ∈ cs, W.Pairwise (· < ·)) (hn : cs.Nodup)
    (hS : ∀ A, (∃ W ∈ cs, W.toFinset = A) ↔ S A) :
    ∃ out, sortedCommittees cs = .ok out ∧ Canonical out ∧ ∀ A, (∃ W ∈ out, W.toFinset = A) ↔ S A := by
  obtain ⟨out, h1, h2, h3⟩ := sortedCommittees_of_lt h hn
  refine ⟨out, h1, h2, fun A => ?_⟩
  rw [← hS A]
  constructor
  · rintro ⟨W, hW, e⟩; exact ⟨W, h3.mem_iff.1 hW, e⟩
  · rintro ⟨W, hW, e⟩; exact ⟨W, h3.mem_iff.2 hW, e⟩

end Abc
