import Verif.Lemmas.Sorted
import Verif.Spec.Basic
import Mathlib.Data.Nat.Choose.Basic
import Mathlib.Data.Finset.SymmDiff

/-!
# Properties of `misc.py`: C01, C07, C08, C09, C10, C11, C12
-/

namespace Abc
open Spec

/-! ## C01 -/

/-- C01: `CandidateSet(cands, num_cand)` succeeds iff there are no duplicates, no negative entries and no entry `≥ num_cand`. -/
theorem C01_candidateSet_ok_iff (cands : List ℤ) (numCand : Option ℤ) :
    (∃ s, candidateSet cands numCand = .ok s) ↔
      cands.Nodup ∧ (∀ c ∈ cands, 0 ≤ c) ∧ (∀ n, numCand = some n → ∀ c ∈ cands, c < n) := by
  unfold candidateSet
  split
  · simp_all
  · split
    · rename_i h1 h2
      simp only [reduceCtorEq, exists_false, false_iff, not_and]
      intro _ h
      exact absurd (by simpa using h) h2
    · rename_i h1 h2
      have h2' : ∀ c ∈ cands, 0 ≤ c := by simpa using h2
      cases numCand with
      | none =>
        refine ⟨fun _ => ⟨not_not.1 h1, h2', fun n hn => by simp at hn⟩, fun _ => ⟨_, rfl⟩⟩
      | some n =>
        dsimp only
        split
        · rename_i h3
          simp only [reduceCtorEq, exists_false, false_iff, not_and]
          intro _ _ h
          simp only [ge_iff_le, List.any_eq_true, decide_eq_true_eq] at h3
          obtain ⟨c, hc, hn⟩ := h3
          have := h n rfl c hc
          omega
        · rename_i h3
          refine ⟨fun _ => ⟨not_not.1 h1, h2', ?_⟩, fun _ => ⟨_, rfl⟩⟩
          intro n' hn' c hc
          simp only [ge_iff_le, List.any_eq_true, decide_eq_true_eq, not_exists, not_and, not_le] at h3
          obtain rfl := Option.some.inj hn'
          exact h3 c hc

theorem candidateSet_result {cands : List ℤ} {numCand : Option ℤ} {s : List ℕ}
    (h : candidateSet cands numCand = .ok s) : s = sortNat (cands.map Int.toNat) := by
  unfold candidateSet at h
  split at h
  · simp at h
  · split at h
    · simp at h
    · cases numCand with
      | none => simpa using h.symm
      | some n =>
        dsimp only at h
        split at h
        · simp at h
        · simpa using h.symm

/-- C01: on success the set contains exactly the given candidates (listed ascendingly). -/
theorem C01_candidateSet_elements {cands : List ℤ} {numCand : Option ℤ} {s : List ℕ}
    (h : candidateSet cands numCand = .ok s) :
    s.Pairwise (· < ·) ∧ s.length = cands.length ∧ ∀ c : ℤ, c ∈ cands ↔ ∃ x ∈ s, (x : ℤ) = c := by
  obtain ⟨h1, h2, -⟩ := (C01_candidateSet_ok_iff cands numCand).1 ⟨s, h⟩
  obtain rfl := candidateSet_result h
  have hnd : (cands.map Int.toNat).Nodup := by
    refine List.Nodup.map_on ?_ h1
    intro x hx y hy hxy
    have := h2 x hx
    have := h2 y hy
    omega
  refine ⟨sortNat_lt hnd, by simp [sortNat_length], ?_⟩
  intro c
  simp only [mem_sortNat, List.mem_map, exists_exists_and_eq_and]
  constructor
  · intro hc
    exact ⟨c, hc, by have := h2 c hc; omega⟩
  · rintro ⟨a, ha, rfl⟩
    have := h2 a ha
    rwa [Int.toNat_of_nonneg this]

/-- C01: the only exception is ValueError. -/
theorem C01_candidateSet_error {cands : List ℤ} {numCand : Option ℤ} {e : Err}
    (h : candidateSet cands numCand = .error e) : e = .valueError := by
  unfold candidateSet at h
  split at h
  · simpa using h.symm
  · split at h
    · simpa using h.symm
    · cases numCand with
      | none => simp at h
      | some n =>
        dsimp only at h
        split at h
        · simpa using h.symm
        · simp at h

example : candidateSet [3, 0, 10] (some 11) = .ok [0, 3, 10] := by decide +kernel
example : candidateSet [3, 0, 10] (some 10) = .error .valueError := by decide +kernel
example : candidateSet [3, 0, 3] none = .error .valueError := by decide +kernel

/-! ## C07 -/

/-- C07: with duplicate-free committees `sorted_committees` returns a permutation of the (canonically listed) committees,
ordered by printed form. -/
theorem C07_sortedCommittees_perm_sorted (cs : List (List ℕ)) (h : ∀ W ∈ cs, W.Nodup) :
    ∃ out, sortedCommittees cs = .ok out ∧ (out.map List.toFinset).Perm (cs.map List.toFinset) ∧
      (∀ W ∈ out, W.Pairwise (· < ·)) ∧ out.Pairwise (fun a b => strKey a ≤ strKey b) := by
  refine ⟨_, sortedCommittees_ok h, ?_, ?_, sortByKey_pairwise _⟩
  · refine ((sortByKey_perm _).map _).trans ?_
    rw [List.map_map]
    have : List.toFinset ∘ sortNat = (List.toFinset : List ℕ → Finset ℕ) := by
      funext l; exact sortNat_toFinset l
    rw [this]
  · intro W hW
    rw [(sortByKey_perm _).mem_iff, List.mem_map] at hW
    obtain ⟨V, hV, rfl⟩ := hW
    exact sortNat_lt (h V hV)

/-- C07: a committee with a repeated candidate makes it raise ValueError. -/
theorem C07_sortedCommittees_error (cs : List (List ℕ)) (W : List ℕ) (hW : W ∈ cs) (h : ¬ W.Nodup) :
    sortedCommittees cs = .error .valueError := by
  unfold sortedCommittees
  rw [mapM_mkSet_error hW h]
  rfl

/-- C07: the result depends only on the committees as *sets* and on how often each occurs, not on the order in which the
committees, or the candidates inside them, are listed. -/
theorem C07_sortedCommittees_order_independent (cs cs' : List (List ℕ)) (h : ∀ W ∈ cs, W.Nodup) (h' : ∀ W ∈ cs', W.Nodup)
    (hp : (cs.map List.toFinset).Perm (cs'.map List.toFinset)) : sortedCommittees cs = sortedCommittees cs' := by
  rw [sortedCommittees_ok h, sortedCommittees_ok h']
  congr 1
  have hasc : ∀ ds : List (List ℕ), (∀ W ∈ ds, W.Nodup) →
      ∀ W ∈ (ds.map sortNat).insertionSort (fun a b => strLe (strKey a) (strKey b)), W.Pairwise (· < ·) := by
    intro ds hds W hW
    rw [(sortByKey_perm _).mem_iff, List.mem_map] at hW
    obtain ⟨V, hV, rfl⟩ := hW
    exact sortNat_lt (hds V hV)
  refine sorted_unique (sortByKey_pairwise _) (sortByKey_pairwise _) (hasc cs h) ?_
  refine (sortByKey_perm _).trans (List.Perm.trans ?_ (sortByKey_perm _).symm)
  -- the canonical list is a function of the set
  have key : ∀ ds : List (List ℕ), (∀ W ∈ ds, W.Nodup) →
      ds.map sortNat = (ds.map List.toFinset).map (fun s => sortNat s.toList) := by
    intro ds hds
    rw [List.map_map]
    refine List.map_congr_left ?_
    intro W hW
    exact sortNat_eq_of_perm (List.toFinset_toList (hds W hW)).symm
  rw [key cs h, key cs' h']
  exact hp.map _

/-- C07: printed forms of different committees differ. -/
theorem C07_printed_form_injective (a b : List ℕ) (h : strKey a = strKey b) : a.Perm b :=
  perm_of_strKey_eq h

/-- The key used for sorting is the printed form without candidate names. -/
theorem C07_key_is_printed_form (a : List ℕ) : strSetOfCandidates a none = .ok (strKey a) := rfl

example : sortedCommittees [[2, 10], [9, 1], [0, 2]] = .ok [[0, 2], [1, 9], [2, 10]] := by decide +kernel
-- the order is the string order ("10, 2" < "2, 3"):
example : sortedCommittees [[2, 3], [2, 10]] = .ok [[2, 10], [2, 3]] := by decide +kernel

/-! ## C08 -/

/-- C08: `hamming` is the size of the symmetric difference. -/
theorem C08_hamming_eq_symmDiff (a b : List ℕ) (ha : a.Nodup) (hb : b.Nodup) :
    hamming a b = (symmDiff a.toFinset b.toFinset).card := by
  have e : symmDiff a.toFinset b.toFinset = (a.toFinset \ b.toFinset) ∪ (b.toFinset \ a.toFinset) := rfl
  rw [e, Finset.card_union_of_disjoint]
  · unfold hamming
    simp only [List.length_append]
    congr 1
    · rw [← List.toFinset_card_of_nodup (ha.filter _)]
      congr 1; ext x; simp
    · rw [← List.toFinset_card_of_nodup (hb.filter _)]
      congr 1; ext x; simp
  · rw [Finset.disjoint_left]
    intro x hx hx'
    simp only [Finset.mem_sdiff] at hx hx'
    exact hx'.2 hx.1

/-- C08: `hamming` is 0 iff the sets are equal. -/
theorem C08_hamming_eq_zero_iff (a b : List ℕ) (ha : a.Nodup) (hb : b.Nodup) :
    hamming a b = 0 ↔ a.toFinset = b.toFinset := by
  rw [C08_hamming_eq_symmDiff a b ha hb, Finset.card_eq_zero]
  exact symmDiff_eq_bot

/-- C08: `hamming` is symmetric. -/
theorem C08_hamming_symm (a b : List ℕ) : hamming a b = hamming b a := by
  unfold hamming
  simp only [List.length_append]
  omega

/-- C08: `hamming` satisfies the triangle inequality. -/
theorem C08_hamming_triangle (a b c : List ℕ) (ha : a.Nodup) (hb : b.Nodup) (hc : c.Nodup) :
    hamming a c ≤ hamming a b + hamming b c := by
  rw [C08_hamming_eq_symmDiff a c ha hc, C08_hamming_eq_symmDiff a b ha hb, C08_hamming_eq_symmDiff b c hb hc]
  refine (Finset.card_le_card ?_).trans (Finset.card_union_le _ _)
  intro x hx
  simp only [Finset.mem_union, Finset.mem_symmDiff, List.mem_toFinset] at *
  tauto

example : hamming [0, 1, 2] [2, 3] = 3 := by decide +kernel

/-! ## C09 -/

/-- C09: `dominate` decides Pareto dominance (and raises ValueError exactly on committees with duplicates). -/
theorem C09_dominate_iff (p : Profile) (hp : p.WF) (a b : List ℕ) (ha : a.Nodup) (hb : b.Nodup) :
    ∃ r, dominate p a b = .ok r ∧ (r = true ↔ Dominates p a.toFinset b.toFinset) := by
  have h1 : mkSet a = .ok (sortNat a) := by simp [mkSet, ha]
  have h2 : mkSet b = .ok (sortNat b) := by simp [mkSet, hb]
  have hu : ∀ v ∈ p.voters, ∀ c : List ℕ, (inter v.approved (sortNat c)).length = util v c.toFinset := by
    intro v hv c
    rw [inter_length (hp.nodup v hv), sortNat_toFinset]
    rfl
  unfold dominate
  rw [h1, h2]
  simp only [bind, Except.bind]
  split
  · rename_i h
    refine ⟨false, rfl, ?_⟩
    simp only [List.any_eq_true, decide_eq_true_eq] at h
    obtain ⟨v, hv, hlt⟩ := h
    rw [hu v hv, hu v hv] at hlt
    simp only [Bool.false_eq_true, false_iff]
    intro hd
    have := hd.1 v hv
    omega
  · rename_i h
    refine ⟨_, rfl, ?_⟩
    simp only [List.any_eq_true, decide_eq_true_eq, not_exists, not_and, not_lt] at h
    simp only [gt_iff_lt, List.any_eq_true, decide_eq_true_eq]
    constructor
    · rintro ⟨v, hv, hlt⟩
      rw [hu v hv, hu v hv] at hlt
      refine ⟨?_, v, hv, hlt⟩
      intro w hw
      have := h w hw
      rwa [hu w hw, hu w hw] at this
    · rintro ⟨_, v, hv, hlt⟩
      refine ⟨v, hv, ?_⟩
      rwa [hu v hv, hu v hv]

/-- C09: the relation decided by `dominate` is irreflexive. -/
theorem C09_dominates_irrefl (p : Profile) (W : Finset ℕ) : ¬ Dominates p W W := by
  rintro ⟨_, v, _, h⟩
  omega

/-- C09: … transitive. -/
theorem C09_dominates_trans (p : Profile) (W X Y : Finset ℕ) (h1 : Dominates p W X) (h2 : Dominates p X Y) :
    Dominates p W Y := by
  refine ⟨fun v hv => (h2.1 v hv).trans (h1.1 v hv), ?_⟩
  obtain ⟨v, hv, hlt⟩ := h1.2
  exact ⟨v, hv, (h2.1 v hv).trans_lt hlt⟩

/-- C09: … and asymmetric. -/
theorem C09_dominates_asymm (p : Profile) (W X : Finset ℕ) (h1 : Dominates p W X) : ¬ Dominates p X W :=
  fun h2 => C09_dominates_irrefl p W (C09_dominates_trans p W X W h1 h2)

example : dominate ⟨3, [⟨[0, 1], 1⟩, ⟨[0], 1⟩], []⟩ [0, 2] [1, 2] = .ok true := by decide +kernel

/-! ## C10 -/

/-- C10: `powerset(s, max_size)` contains exactly the sublists (= subsets, for a duplicate-free `s`) with at most `max_size`
elements. -/
theorem C10_mem_powerset {α : Type} (s l : List α) (maxSize : Option ℕ) :
    l ∈ powerset s maxSize ↔ l.Sublist s ∧ l.length ≤ maxSize.getD s.length := by
  simp only [powerset, List.mem_flatMap, List.mem_range, mem_combinations]
  constructor
  · rintro ⟨r, hr, h1, rfl⟩
    exact ⟨h1, by omega⟩
  · rintro ⟨h1, h2⟩
    exact ⟨l.length, by omega, h1, rfl⟩

/-- C10: every subset with at most `max_size` elements is produced, as a set. -/
theorem C10_powerset_complete (s : List ℕ) (maxSize : Option ℕ) (A : Finset ℕ) (hs : s.Nodup) :
    (∃ l ∈ powerset s maxSize, l.toFinset = A ∧ l.Nodup) ↔ A ⊆ s.toFinset ∧ A.card ≤ maxSize.getD s.length := by
  constructor
  · rintro ⟨l, hl, rfl, hn⟩
    rw [C10_mem_powerset] at hl
    refine ⟨?_, by rw [List.toFinset_card_of_nodup hn]; exact hl.2⟩
    intro x hx
    simp only [List.mem_toFinset] at *
    exact hl.1.subset hx
  · rintro ⟨h1, h2⟩
    have hA : (s.filter (fun x => decide (x ∈ A))).toFinset = A := by
      ext x
      simp only [List.toFinset_filter, decide_eq_true_eq, Finset.mem_filter, List.mem_toFinset]
      exact ⟨fun h => h.2, fun h => ⟨by simpa using h1 h, h⟩⟩
    refine ⟨s.filter (fun x => decide (x ∈ A)), ?_, hA, hs.filter _⟩
    rw [C10_mem_powerset]
    refine ⟨List.filter_sublist, ?_⟩
    rw [← List.toFinset_card_of_nodup (hs.filter _), hA]
    exact h2

/-- C10: nothing is produced twice (for a duplicate-free iterable). -/
theorem C10_powerset_nodup {α : Type} (s : List α) (maxSize : Option ℕ) (hs : s.Nodup) :
    (powerset s maxSize).Nodup := by
  unfold powerset
  rw [List.nodup_flatMap]
  refine ⟨fun r _ => combinations_nodup hs r, ?_⟩
  refine List.nodup_range.imp ?_
  intro a b hab
  simp only [Function.onFun]
  intro l h1 h2
  exact hab ((mem_combinations.1 h1).2.symm.trans (mem_combinations.1 h2).2)

/-- C10: the subsets come in order of size. -/
theorem C10_powerset_by_size {α : Type} (s : List α) (maxSize : Option ℕ) :
    (powerset s maxSize).Pairwise (fun a b => a.length ≤ b.length) := by
  unfold powerset
  rw [List.pairwise_flatMap]
  constructor
  · intro r _
    refine List.pairwise_of_forall_mem_list ?_
    intro a ha b hb
    rw [(mem_combinations.1 ha).2, (mem_combinations.1 hb).2]
  · refine List.pairwise_lt_range.imp ?_
    intro a b hab x hx y hy
    rw [(mem_combinations.1 hx).2, (mem_combinations.1 hy).2]
    exact le_of_lt hab

example : powerset [0, 1, 2] (some 2) = [[], [0], [1], [2], [0, 1], [0, 2], [1, 2]] := by decide +kernel

/-! ## C11 -/

/-- C11: `binom` is the binomial coefficient (0 outside its range). -/
theorem C11_binom_eq (n k : ℤ) :
    binom n k = if 0 ≤ k ∧ k ≤ n then (Nat.choose n.toNat k.toNat : ℤ) else 0 := by
  unfold binom
  by_cases h : 0 ≤ k ∧ k ≤ n
  · rw [if_neg (by omega), if_pos h]
    congr 1
    have hle : k.toNat ≤ n.toNat := by omega
    rw [Nat.choose_eq_factorial_div_factorial hle, Nat.div_div_eq_div_mul]
    congr 3
    omega
  · rw [if_pos (by omega), if_neg h]

example : binom 5 2 = 10 ∧ binom 2 5 = 0 ∧ binom (-1) 0 = 0 := by decide +kernel

/-! ## C12 -/

/-- C12: `compare_list_of_committees` compares the two lists as sets of committees. -/
theorem C12_compare_iff (cs ds : List (List ℕ)) :
    compareListOfCommittees cs ds = true ↔ ∀ W, W ∈ cs ↔ W ∈ ds := by
  simp only [compareListOfCommittees, Bool.and_eq_true, List.all_eq_true, decide_eq_true_eq]
  constructor
  · rintro ⟨h1, h2⟩ W
    exact ⟨h2 W, h1 W⟩
  · intro h
    exact ⟨fun W hW => (h W).2 hW, fun W hW => (h W).1 hW⟩

/-- C12: with `resolute=True` verification passes iff the result is exactly one committee, which is expected. -/
theorem C12_verify_resolute (actual expected : List (List ℕ)) :
    verifyExpected actual expected true = .ok () ↔ ∃ W, actual = [W] ∧ W ∈ expected := by
  unfold verifyExpected
  simp only [if_true]
  split
  · rename_i h
    simp only [reduceCtorEq, false_iff, not_exists, not_and]
    rintro W rfl
    simp at h
  · rename_i h
    simp only [ne_eq, not_not] at h
    obtain ⟨a, rfl⟩ := List.length_eq_one_iff.1 h
    simp

/-- C12: with `resolute=False` verification passes iff the lists contain the same committees. -/
theorem C12_verify_irresolute (actual expected : List (List ℕ)) :
    verifyExpected actual expected false = .ok () ↔ ∀ W, W ∈ actual ↔ W ∈ expected := by
  unfold verifyExpected
  simp only [Bool.false_eq_true, if_false]
  rw [← C12_compare_iff]
  split <;> simp_all

example : compareListOfCommittees [[0, 1], [1, 2]] [[1, 2], [0, 1], [1, 2]] = true := by decide +kernel
example : compareListOfCommittees [[0, 1]] [[1, 2], [0, 1]] = false := by decide +kernel

end Abc
