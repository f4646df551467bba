import Verif.Model.Other
import Verif.Spec.Other
import Verif.Lemmas.Run
import Verif.Lemmas.VoterMaps
import Verif.Props.Optimal

/-!
# C43 (Random Serial Dictator) and C44 (E Pluribus Hugo)
-/

namespace Abc
open Spec

/-! ## C43 -/

theorem smallest_zero (S : Finset ℕ) : smallest S 0 = ∅ := by
  unfold smallest
  simp

theorem smallest_insert {a : ℕ} {S : Finset ℕ} (h : ∀ c ∈ S, a < c) (r : ℕ) :
    smallest (insert a S) (r + 1) = insert a (smallest S r) := by
  have ha : a ∉ S := fun h' => lt_irrefl _ (h a h')
  have h0 : S.filter (fun d => d < a) = ∅ := by
    rw [Finset.filter_eq_empty_iff]
    intro d hd
    have := h d hd
    omega
  ext c
  unfold smallest
  simp only [Finset.mem_filter, Finset.mem_insert]
  rw [Finset.filter_insert]
  constructor
  · rintro ⟨rfl | hc, h1⟩
    · exact Or.inl rfl
    · right
      refine ⟨hc, ?_⟩
      rw [if_pos (h c hc), Finset.card_insert_of_notMem (by simp [ha])] at h1
      omega
  · rintro (rfl | ⟨hc, h1⟩)
    · refine ⟨Or.inl rfl, ?_⟩
      rw [if_neg (lt_irrefl _), h0]
      simp
    · refine ⟨Or.inr hc, ?_⟩
      rw [if_pos (h c hc), Finset.card_insert_of_notMem (by simp [ha])]
      omega

theorem smallest_subset (S : Finset ℕ) (r : ℕ) : smallest S r ⊆ S := Finset.filter_subset _ _

theorem setAdd_toFinset (C : List ℕ) (x : ℕ) : (setAdd C x).toFinset = insert x C.toFinset := by
  ext y
  simp only [List.mem_toFinset, mem_setAdd, Finset.mem_insert]
  tauto

theorem foldl_setAdd_toFinset (l C : List ℕ) : (l.foldl setAdd C).toFinset = C.toFinset ∪ l.toFinset := by
  ext y
  simp only [List.mem_toFinset, mem_foldl_setAdd, Finset.mem_union]

theorem rsdAddUntil_spec (k : ℕ) (A : List ℕ) (hA : A.Pairwise (· < ·)) (C : List ℕ) (hC : C.Nodup) (hlt : C.length < k) :
    (rsdAddUntil k A C).Nodup ∧ (rsdAddUntil k A C).toFinset = dictate k C.toFinset A.toFinset := by
  induction A generalizing C with
  | nil =>
    refine ⟨hC, ?_⟩
    unfold rsdAddUntil dictate
    rw [List.toFinset_nil, Finset.union_empty, List.toFinset_card_of_nodup hC, if_pos hlt.le]
  | cons a l ih =>
    rw [List.pairwise_cons] at hA
    unfold rsdAddUntil
    have hCc : C.toFinset.card = C.length := List.toFinset_card_of_nodup hC
    by_cases haC : a ∈ C
    · have hs : setAdd C a = C := by simp [setAdd, haC]
      rw [hs, if_neg hlt.ne]
      obtain ⟨h1, h2⟩ := ih hA.2 C hC hlt
      refine ⟨h1, h2.trans ?_⟩
      unfold dictate
      have e1 : C.toFinset ∪ (a :: l).toFinset = C.toFinset ∪ l.toFinset := by
        ext x
        simp only [Finset.mem_union, List.mem_toFinset, List.mem_cons]
        constructor
        · rintro (h | rfl | h)
          · exact Or.inl h
          · exact Or.inl haC
          · exact Or.inr h
        · rintro (h | h)
          · exact Or.inl h
          · exact Or.inr (Or.inr h)
      have e2 : (a :: l).toFinset \ C.toFinset = l.toFinset \ C.toFinset := by
        ext x
        simp only [Finset.mem_sdiff, List.mem_toFinset, List.mem_cons]
        constructor
        · rintro ⟨rfl | h, h'⟩
          · exact absurd haC h'
          · exact ⟨h, h'⟩
        · rintro ⟨h, h'⟩; exact ⟨Or.inr h, h'⟩
      rw [e1, e2]
    · have hs : setAdd C a = C ++ [a] := by simp [setAdd, haC]
      have hC' : (C ++ [a]).Nodup := by
        rw [← hs]; exact setAdd_nodup hC
      have hal : a ∉ l := fun h => lt_irrefl _ (hA.1 a h)
      have hfin : (C ++ [a]).toFinset = insert a C.toFinset := by rw [← hs]; exact setAdd_toFinset C a
      have e2 : (a :: l).toFinset \ C.toFinset = insert a (l.toFinset \ (C ++ [a]).toFinset) := by
        rw [hfin]
        ext x
        simp only [Finset.mem_sdiff, List.mem_toFinset, List.mem_cons, Finset.mem_insert, not_or]
        constructor
        · rintro ⟨rfl | h, h'⟩
          · exact Or.inl rfl
          · by_cases hxa : x = a
            · exact Or.inl hxa
            · exact Or.inr ⟨h, hxa, h'⟩
        · rintro (rfl | ⟨h, h1, h2⟩)
          · exact ⟨Or.inl rfl, haC⟩
          · exact ⟨Or.inr h, h2⟩
      have hmin : ∀ c ∈ l.toFinset \ (C ++ [a]).toFinset, a < c := by
        intro c hc
        rw [Finset.mem_sdiff, List.mem_toFinset] at hc
        exact hA.1 c hc.1
      have e1 : C.toFinset ∪ (a :: l).toFinset = (C ++ [a]).toFinset ∪ l.toFinset := by
        rw [hfin]
        ext x
        simp only [Finset.mem_union, List.mem_toFinset, List.mem_cons, Finset.mem_insert]
        tauto
      have hk1 : k - C.toFinset.card = (k - (C ++ [a]).toFinset.card) + 1 := by
        rw [hCc, List.toFinset_card_of_nodup hC']
        simp
        omega
      have hdict : dictate k C.toFinset (a :: l).toFinset = dictate k (C ++ [a]).toFinset l.toFinset := by
        unfold dictate
        rw [e1, e2, hk1, smallest_insert hmin]
        congr 1
        rw [hfin]
        ext x
        simp only [Finset.mem_union, Finset.mem_insert]
        tauto
      rw [hs, hdict]
      by_cases hk : (C ++ [a]).length = k
      · rw [if_pos hk]
        refine ⟨hC', ?_⟩
        unfold dictate
        have hc : (C ++ [a]).toFinset.card = k := by rw [List.toFinset_card_of_nodup hC', hk]
        split
        · next h =>
          refine Finset.eq_of_subset_of_card_le Finset.subset_union_left ?_
          rw [hc]; exact h
        · rw [hc, Nat.sub_self, smallest_zero, Finset.union_empty]
      · rw [if_neg hk]
        refine ih hA.2 (C ++ [a]) hC' ?_
        simp at hk ⊢
        omega

theorem rsdDictator_spec (k : ℕ) (A : List ℕ) (hA : A.Pairwise (· < ·)) (C : List ℕ) (hC : C.Nodup) (hlt : C.length < k) :
    (rsdDictator k C A).Nodup ∧ (rsdDictator k C A).toFinset = dictate k C.toFinset A.toFinset := by
  unfold rsdDictator
  split
  · next h =>
    refine ⟨foldl_setAdd_nodup hC, ?_⟩
    rw [foldl_setAdd_toFinset]
    unfold dictate
    rw [if_pos]
    refine (Finset.card_union_le _ _).trans ?_
    rw [List.toFinset_card_of_nodup hC, List.toFinset_card_of_nodup (nodup_of_lt hA)]
    exact h
  · exact rsdAddUntil_spec k A hA C hC hlt

theorem dictate_card_le (k : ℕ) (C A : Finset ℕ) (h : C.card ≤ k) : (dictate k C A).card ≤ k := by
  unfold dictate
  split
  · assumption
  · refine (Finset.card_union_le _ _).trans ?_
    have : ∀ (r : ℕ) (S : Finset ℕ), (smallest S r).card ≤ r := by
      intro r S
      induction S using Finset.induction_on_min generalizing r with
      | empty => simp [smallest]
      | insert a S ha ih =>
        cases r with
        | zero => simp [smallest_zero]
        | succ r =>
          rw [smallest_insert ha]
          refine (Finset.card_insert_le _ _).trans ?_
          have := ih r
          omega
    have := this (k - C.card) (A \ C)
    omega

theorem dictate_full (k : ℕ) (C A : Finset ℕ) (h : C.card = k) : dictate k C A = C := by
  unfold dictate
  split
  · next h' =>
    refine (Finset.eq_of_subset_of_card_le Finset.subset_union_left ?_).symm
    rw [h]; exact h'
  · rw [h, Nat.sub_self, smallest_zero, Finset.union_empty]

theorem foldl_dictate_full (k : ℕ) (As : List (Finset ℕ)) (C : Finset ℕ) (h : C.card = k) : As.foldl (dictate k) C = C := by
  induction As with
  | nil => rfl
  | cons A As ih => rw [List.foldl_cons, dictate_full k C A h, ih]

theorem dictate_subset (k : ℕ) (C A : Finset ℕ) : C ⊆ dictate k C A ∧ dictate k C A ⊆ C ∪ A := by
  unfold dictate
  split
  · exact ⟨Finset.subset_union_left, subset_rfl⟩
  · refine ⟨Finset.subset_union_left, Finset.union_subset_union_right ?_⟩
    exact (smallest_subset _ _).trans Finset.sdiff_subset

theorem foldl_dictate_subset (k : ℕ) (As : List (Finset ℕ)) (C : Finset ℕ) : C ⊆ As.foldl (dictate k) C := by
  induction As generalizing C with
  | nil => exact subset_rfl
  | cons A As ih => exact (dictate_subset k C A).1.trans (ih _)

/-- What `random.sample(population, n)` promises: `n` different members of the population. -/
def Spec.IsSample (sample : List ℕ → ℕ → List ℕ) : Prop :=
  ∀ l n, l.Nodup → n ≤ l.length → (sample l n).length = n ∧ (sample l n).Nodup ∧ ∀ x ∈ sample l n, x ∈ l

theorem rsdLoop_spec (p : Profile) (k : ℕ) (hk : k ≤ p.numCand) (sample : List ℕ → ℕ → List ℕ) (hs : IsSample sample)
    (As : List (List ℕ)) (hAs : ∀ A ∈ As, A.Pairwise (· < ·) ∧ ∀ c ∈ A, c < p.numCand) (C : List ℕ) (hC : C.Nodup)
    (hCl : ∀ c ∈ C, c < p.numCand) (hlt : C.length < k) :
    (rsdLoop p k sample As C).Nodup ∧ (rsdLoop p k sample As C).length = k ∧
      (∀ c ∈ rsdLoop p k sample As C, c < p.numCand) ∧
      (As.map List.toFinset).foldl (dictate k) C.toFinset ⊆ (rsdLoop p k sample As C).toFinset := by
  induction As generalizing C with
  | nil =>
    unfold rsdLoop
    simp only [List.map_nil, List.foldl_nil]
    set rem := p.candidates.filter (fun c => decide (c ∉ C)) with hrem
    have hremn : rem.Nodup := List.nodup_range.filter _
    have hremc : rem.length = p.numCand - C.length := by
      have h1 : rem.toFinset = Finset.range p.numCand \ C.toFinset := by
        ext x
        simp [hrem, Profile.candidates]
      rw [← List.toFinset_card_of_nodup hremn, h1, Finset.card_sdiff_of_subset, Finset.card_range,
        List.toFinset_card_of_nodup hC]
      intro c hc
      exact Finset.mem_range.2 (hCl c (List.mem_toFinset.1 hc))
    obtain ⟨s1, s2, s3⟩ := hs rem (k - C.length) hremn (by omega)
    have hn := foldl_setAdd_nodup (l := sample rem (k - C.length)) hC
    have hfin := foldl_setAdd_toFinset (sample rem (k - C.length)) C
    refine ⟨hn, ?_, ?_, ?_⟩
    · rw [← List.toFinset_card_of_nodup hn, hfin, Finset.card_union_of_disjoint, List.toFinset_card_of_nodup hC,
        List.toFinset_card_of_nodup s2, s1]
      · omega
      · rw [Finset.disjoint_left]
        intro x hx hx'
        have := s3 x (List.mem_toFinset.1 hx')
        simp only [hrem, List.mem_filter, decide_eq_true_eq] at this
        exact this.2 (List.mem_toFinset.1 hx)
    · intro c hc
      rcases mem_foldl_setAdd.1 hc with h | h
      · exact hCl c h
      · have := s3 c h
        simp only [hrem, List.mem_filter, Profile.candidates, List.mem_range] at this
        exact this.1
    · rw [hfin]
      exact Finset.subset_union_left
  | cons A As ih =>
    obtain ⟨hA1, hA2⟩ := hAs A (by simp)
    obtain ⟨h1, h2⟩ := rsdDictator_spec k A hA1 C hC hlt
    have hlt' : ∀ c ∈ rsdDictator k C A, c < p.numCand := by
      intro c hc
      have := (dictate_subset k C.toFinset A.toFinset).2 (h2 ▸ List.mem_toFinset.2 hc)
      rw [Finset.mem_union, List.mem_toFinset, List.mem_toFinset] at this
      rcases this with h | h
      · exact hCl c h
      · exact hA2 c h
    have hle : (rsdDictator k C A).length ≤ k := by
      rw [← List.toFinset_card_of_nodup h1, h2]
      exact dictate_card_le k _ _ (by rw [List.toFinset_card_of_nodup hC]; omega)
    unfold rsdLoop
    rw [List.map_cons, List.foldl_cons, ← h2]
    split
    · next hk' =>
      refine ⟨h1, hk', hlt', ?_⟩
      rw [foldl_dictate_full k _ _ (by rw [List.toFinset_card_of_nodup h1, hk'])]
    · next hk' => exact ih (fun A hA => hAs A (by simp [hA])) _ h1 hlt' (by omega)

/-- C43: on unit-weight profiles, whatever the random generator does, Random Serial Dictator returns exactly one committee of
size `k`; it contains everything the dictators choose one after the other in the order of the shuffle (and only if they leave
seats free, other candidates).  Other weights are rejected with ValueError. -/
theorem C43_rsd (env : Env) (shuffle : List (List ℕ) → List (List ℕ)) (hsh : ∀ l, (shuffle l).Perm l)
    (sample : List ℕ → ℕ → List ℕ) (hs : IsSample sample) (p : Profile) (hp : p.WF) (a : Args)
    (hal : prologue env "rsd" p a = .ok "standard") :
    (p.hasUnitWeights = true → ∃ W As, computeRsd env shuffle sample p a = .ok [W] ∧ W.Pairwise (· < ·) ∧
      IsCommittee p a.k W.toFinset ∧ As.Perm (p.voters.map Voter.A) ∧ dictateAll a.k As ⊆ W.toFinset) ∧
    (p.hasUnitWeights = false → computeRsd env shuffle sample p a = .error .valueError) := by
  have hv := validCall_of_prologue hal
  constructor
  · intro hu
    set As := shuffle (p.voters.map (fun v => sortNat v.approved)) with hAs
    have hperm : As.Perm (p.voters.map (fun v => sortNat v.approved)) := hsh _
    have hAsp : ∀ A ∈ As, A.Pairwise (· < ·) ∧ ∀ c ∈ A, c < p.numCand := by
      intro A hA
      rw [hperm.mem_iff, List.mem_map] at hA
      obtain ⟨v, hv, rfl⟩ := hA
      exact ⟨sortNat_lt (hp.nodup v hv), fun c hc => hp.lt v hv c (mem_sortNat.1 hc)⟩
    obtain ⟨h1, h2, h3, h4⟩ := rsdLoop_spec p a.k hv.le sample hs As hAsp [] List.nodup_nil (by simp) hv.pos
    refine ⟨sortNat (rsdLoop p a.k sample As []), As.map List.toFinset, ?_, sortNat_lt h1, ?_, ?_, ?_⟩
    · unfold computeRsd
      simp only [hal, bind, Except.bind, hu, not_true_eq_false, if_false, if_true, ← hAs]
      exact sortedCommittees_one h1
    · rw [sortNat_toFinset]
      refine ⟨?_, by rw [List.toFinset_card_of_nodup h1, h2]⟩
      intro c hc
      exact Finset.mem_range.2 (h3 c (List.mem_toFinset.1 hc))
    · have := hperm.map List.toFinset
      rw [List.map_map] at this
      refine this.trans (List.Perm.of_eq ?_)
      refine List.map_congr_left ?_
      intro v _
      simp [Voter.A, sortNat_toFinset]
    · rw [sortNat_toFinset]
      simpa [dictateAll] using h4
  · intro hu
    unfold computeRsd
    simp [hal, bind, Except.bind, hu]

/-- C43: the first dictator gets all she wants if possible, and only what she wants otherwise. -/
theorem C43_first_dictator (k : ℕ) (A : Finset ℕ) (As : List (Finset ℕ)) :
    (A.card ≤ k → A ⊆ dictateAll k (A :: As)) ∧
    (k < A.card → dictateAll k (A :: As) ⊆ A ∧ (dictateAll k (A :: As)).card = k) := by
  have hsm : ∀ (r : ℕ) (S : Finset ℕ), r ≤ S.card → (smallest S r).card = r := by
    intro r S
    induction S using Finset.induction_on_min generalizing r with
    | empty => intro h; simp at h; simp [smallest, h]
    | insert a S ha ih =>
      intro hr
      cases r with
      | zero => simp [smallest_zero]
      | succ r =>
        have haS : a ∉ S := fun h => lt_irrefl _ (ha a h)
        rw [Finset.card_insert_of_notMem haS] at hr
        rw [smallest_insert ha, Finset.card_insert_of_notMem (fun h => haS (smallest_subset _ _ h)), ih r (by omega)]
  constructor
  · intro h
    unfold dictateAll
    rw [List.foldl_cons]
    refine Finset.Subset.trans ?_ (foldl_dictate_subset k As _)
    unfold dictate
    rw [Finset.empty_union, if_pos h]
  · intro h
    have hd : dictate k ∅ A = smallest A k := by
      unfold dictate
      rw [Finset.empty_union, if_neg (by omega)]
      simp
    have hc : (dictate k ∅ A).card = k := by rw [hd]; exact hsm k A h.le
    unfold dictateAll
    rw [List.foldl_cons, foldl_dictate_full k As _ hc]
    exact ⟨hd ▸ smallest_subset _ _, hc⟩

/-- non-vacuity -/
example : prologue exampleEnv "rsd" ⟨3, [⟨[2, 1], 1⟩, ⟨[0], 1⟩], []⟩ { committeesize := 2, resolute := true }
    = .ok "standard" := by decide +kernel
example : computeRsd exampleEnv List.reverse (fun l n => l.take n) ⟨3, [⟨[2, 1], 1⟩, ⟨[0], 1⟩], []⟩
    { committeesize := 2, resolute := true } = .ok [[0, 1]] := by decide +kernel
example : IsSample (fun l n => l.take n) := by
  intro l n hl hn
  exact ⟨by simp [hn], hl.sublist (List.take_sublist _ _), fun x hx => List.mem_of_mem_take hx⟩

/-! ## C44 -/

theorem ephSdv_eq (p : Profile) (R : List ℕ) (hR : R.Nodup) (c : ℕ) : ephSdv p R c = sdv p R.toFinset c := by
  unfold ephSdv sdv backers
  rw [sum_filter_map, voters_map_sum, Finset.sum_filter]
  refine Finset.sum_congr rfl (fun i _ => ?_)
  have hl : (R.filter (fun c => decide (c ∈ (p.voters.get i).approved))).length = (appr p i ∩ R.toFinset).card := by
    rw [← List.toFinset_card_of_nodup (hR.filter _)]
    congr 1
    ext x
    simp only [List.mem_toFinset, List.mem_filter, decide_eq_true_eq, Finset.mem_inter, mem_appr]
    tauto
  simp only [decide_eq_true_eq, mem_appr, hl]

/-- being at most the second smallest value -/
theorem le_second_iff (l : List ℚ) (hl : 2 ≤ l.length) :
    ∃ b, pyGet (sortRat l) 1 = .ok b ∧ ∀ x, x ≤ b ↔ l.countP (fun y => decide (y < x)) ≤ 1 := by
  have hperm : (sortRat l).Perm l := List.perm_insertionSort _ l
  have hsort : (sortRat l).Pairwise (· ≤ ·) := List.pairwise_insertionSort _ l
  rcases hs : sortRat l with _ | ⟨a, _ | ⟨b, t⟩⟩
  · rw [hs] at hperm; have := hperm.length_eq; simp at this; omega
  · rw [hs] at hperm; have := hperm.length_eq; simp at this; omega
  · rw [hs] at hperm hsort
    refine ⟨b, rfl, fun x => ?_⟩
    rw [← hperm.countP_eq]
    simp only [List.pairwise_cons, List.mem_cons, forall_eq_or_imp] at hsort
    constructor
    · intro hx
      have ht : t.countP (fun y => decide (y < x)) = 0 := by
        rw [List.countP_eq_zero]
        intro y hy
        have := hsort.2.1 y hy
        simp only [decide_eq_true_eq, not_lt]
        exact hx.trans this
      rw [List.countP_cons, List.countP_cons, ht]
      have : ¬ b < x := not_lt.2 hx
      simp only [this, decide_false, Bool.false_eq_true, if_false, zero_add, add_zero]
      split <;> omega
    · intro h
      by_contra hx
      rw [not_le] at hx
      have : a < x := hsort.1.1.trans_lt hx
      rw [List.countP_cons, List.countP_cons] at h
      simp [hx, this] at h

theorem ephElim_spec (p : Profile) (R : List ℕ) (hR : R.Nodup) (h2 : 2 ≤ R.length) :
    ∃ E, ephElim p R = .ok E ∧ E.Sublist R ∧ E ≠ [] ∧ ∀ c, c ∈ E ↔ EPHElim p R.toFinset c := by
  obtain ⟨b, hb, hbi⟩ := le_second_iff (R.map (ephSdv p R)) (by simpa using h2)
  have hlow : ∀ c, ephSdv p R c ≤ b ↔ SdvLow p R.toFinset c := by
    intro c
    rw [hbi]
    unfold SdvLow
    rw [List.countP_map, List.countP_eq_length_filter]
    have : (R.filter ((fun y => decide (y < ephSdv p R c)) ∘ ephSdv p R)).length =
        (R.toFinset.filter (fun d => sdv p R.toFinset d < sdv p R.toFinset c)).card := by
      rw [← List.toFinset_card_of_nodup (hR.filter _), List.toFinset_filter]
      congr 1
      refine Finset.filter_congr (fun d _ => ?_)
      simp [ephSdv_eq p R hR]
    rw [this]
  set low := R.filter (fun c => decide (ephSdv p R c ≤ b)) with hlowd
  have hlmem : ∀ c, c ∈ low ↔ c ∈ R ∧ SdvLow p R.toFinset c := by
    intro c
    rw [hlowd, List.mem_filter, decide_eq_true_eq, hlow]
  have hne : low ≠ [] := by
    have : R ≠ [] := by rintro rfl; simp at h2
    obtain ⟨m, hm, hmin⟩ := Finset.exists_min_image R.toFinset (sdv p R.toFinset)
      (by rwa [List.toFinset_nonempty_iff])
    refine List.ne_nil_of_mem ((hlmem m).2 ⟨List.mem_toFinset.1 hm, ?_⟩)
    unfold SdvLow
    rw [Finset.filter_eq_empty_iff.2]
    · simp
    · intro d hd
      exact not_lt.2 (hmin d hd)
  obtain ⟨x, xs, hx⟩ := List.exists_cons_of_ne_nil (l := low.map (approversWeight p)) (by simpa using hne)
  have hmin : ∀ y ∈ low, xs.foldl min x ≤ approversWeight p y := by
    intro y hy
    refine foldl_min_le xs x _ ?_
    have : approversWeight p y ∈ x :: xs := hx ▸ List.mem_map_of_mem hy
    simpa using this
  have hatt : ∃ y ∈ low, xs.foldl min x = approversWeight p y := by
    have : xs.foldl min x ∈ low.map (approversWeight p) := by
      rw [hx]
      rcases foldl_min_mem xs x with h | h
      · rw [h]; simp
      · simp [h]
    obtain ⟨y, hy, he⟩ := List.mem_map.1 this
    exact ⟨y, hy, he.symm⟩
  obtain ⟨y, hy, hye⟩ := hatt
  refine ⟨low.filter (fun c => decide (approversWeight p c ≤ xs.foldl min x)), ?_, ?_, ?_, ?_⟩
  · unfold ephElim
    simp only [hb, bind, Except.bind, ← hlowd, hx, pyMin]
  · exact List.filter_sublist.trans (by rw [hlowd]; exact List.filter_sublist)
  · refine List.ne_nil_of_mem (a := y) ?_
    simp [hy, hye]
  · intro c
    rw [List.mem_filter, decide_eq_true_eq]
    unfold EPHElim
    rw [hlmem, List.mem_toFinset, and_assoc]
    refine and_congr_right (fun hc => and_congr_right (fun hl => ?_))
    constructor
    · intro h d hd hld
      rw [← approversWeight_eq, ← approversWeight_eq]
      exact h.trans (hmin d ((hlmem d).2 ⟨List.mem_toFinset.1 hd, hld⟩))
    · intro h
      rw [hye, approversWeight_eq, approversWeight_eq]
      exact h y (List.mem_toFinset.2 ((hlmem y).1 hy).1) ((hlmem y).1 hy).2

theorem EPHWinner.stop_iff {p : Profile} {k : ℕ} {R E : Finset ℕ} (hE : ∀ c, c ∈ E ↔ EPHElim p R c) (h : (R \ E).card ≤ k)
    (W : Finset ℕ) : EPHWinner p k R W ↔ R \ E ⊆ W ∧ W ⊆ R ∧ W.card = k := by
  constructor
  · intro hw
    cases hw with
    | @stop _ E' _ hE' h1 h2 h3 h4 =>
      have : E' = E := by ext c; rw [hE, hE']
      subst this
      exact ⟨h2, h3, h4⟩
    | @next _ E' _ hE' h1 h2 =>
      have : E' = E := by ext c; rw [hE, hE']
      subst this
      omega
  · rintro ⟨h1, h2, h3⟩
    exact .stop hE h h1 h2 h3

theorem EPHWinner.next_iff {p : Profile} {k : ℕ} {R E : Finset ℕ} (hE : ∀ c, c ∈ E ↔ EPHElim p R c) (h : k < (R \ E).card)
    (W : Finset ℕ) : EPHWinner p k R W ↔ EPHWinner p k (R \ E) W := by
  constructor
  · intro hw
    cases hw with
    | @stop _ E' _ hE' h1 h2 h3 h4 =>
      have : E' = E := by ext c; rw [hE, hE']
      subst this
      omega
    | @next _ E' _ hE' h1 h2 =>
      have : E' = E := by ext c; rw [hE, hE']
      subst this
      exact h2
  · exact fun h' => .next hE h h'

theorem filter_notMem_toFinset (R E : List ℕ) : (R.filter (fun c => decide (c ∉ E))).toFinset = R.toFinset \ E.toFinset := by
  ext x
  simp

theorem eq_filter_of_sublist {u E : List ℕ} (hu : u.Sublist E) (hE : E.Nodup) : u = E.filter (fun x => decide (x ∈ u)) := by
  induction hu with
  | slnil => simp
  | @cons l₁ l₂ a hu ih =>
    rw [List.nodup_cons] at hE
    have ha : a ∉ l₁ := fun h => hE.1 (hu.subset h)
    rw [List.filter_cons_of_neg (by simpa using ha)]
    exact ih hE.2
  | @cons_cons l₁ l₂ a hu ih =>
    rw [List.nodup_cons] at hE
    rw [List.filter_cons_of_pos (by simp)]
    congr 1
    refine (ih hE.2).trans (List.filter_congr ?_)
    intro x hx
    have : x ≠ a := by rintro rfl; exact hE.1 hx
    simp [this]

theorem ephLoop_spec (p : Profile) (k : ℕ) (hk : 1 ≤ k) (max : Option ℕ) (fuel : ℕ) (R : List ℕ) (hR : R.Nodup)
    (h2 : 2 ≤ R.length) (hkR : k ≤ R.length) (hf : R.length < fuel) :
    ∃ out, ephLoop p k max fuel R = .ok (truncate max out) ∧ Canonical out ∧ out ≠ [] ∧
      ∀ A, (∃ W ∈ out, W.toFinset = A) ↔ EPHWinner p k R.toFinset A := by
  induction fuel generalizing R with
  | zero => omega
  | succ fuel ih =>
    obtain ⟨E, hE, hsub, hEne, hEmem⟩ := ephElim_spec p R hR h2
    have hEn : E.Nodup := hsub.nodup hR
    have hEsub : E.toFinset ⊆ R.toFinset := fun c hc => List.mem_toFinset.2 (hsub.subset (List.mem_toFinset.1 hc))
    have hEl : E.length ≤ R.length := hsub.length_le
    have hcard : (R.toFinset \ E.toFinset).card = R.length - E.length := by
      rw [Finset.card_sdiff_of_subset hEsub, List.toFinset_card_of_nodup hR, List.toFinset_card_of_nodup hEn]
    have hEf : ∀ c, c ∈ E.toFinset ↔ EPHElim p R.toFinset c := fun c => by rw [List.mem_toFinset]; exact hEmem c
    unfold ephLoop
    simp only [hE, bind, Except.bind]
    by_cases hstop : R.length - E.length ≤ k
    · rw [if_pos hstop]
      have hselsub : ∀ sel ∈ combinations E (R.length - k), sel.Sublist E ∧ sel.length = R.length - k :=
        fun sel hsel => mem_combinations.1 hsel
      have hnd : ∀ W ∈ (combinations E (R.length - k)).map (fun sel => R.filter (fun c => decide (c ∉ sel))), W.Nodup := by
        intro W hW
        obtain ⟨sel, -, rfl⟩ := List.mem_map.1 hW
        exact hR.filter _
      have hd : (((combinations E (R.length - k)).map (fun sel => R.filter (fun c => decide (c ∉ sel)))).map
          List.toFinset).Nodup := by
        rw [List.map_map]
        refine List.Nodup.map_on ?_ (combinations_nodup hEn _)
        intro s hs t ht he
        obtain ⟨s1, -⟩ := hselsub s hs
        obtain ⟨t1, -⟩ := hselsub t ht
        simp only [Function.comp, filter_notMem_toFinset] at he
        have hst : ∀ x ∈ E, x ∈ s ↔ x ∈ t := by
          intro x hx
          have hxR := hsub.subset hx
          have := congrArg (x ∈ ·) he
          simp only [Finset.mem_sdiff, List.mem_toFinset, hxR, true_and, eq_iff_iff] at this
          tauto
        rw [eq_filter_of_sublist s1 hEn, eq_filter_of_sublist t1 hEn]
        refine List.filter_congr (fun x hx => ?_)
        simp [hst x hx]
      obtain ⟨out, h1, hcan, hperm⟩ := sortedCommittees_canonical hnd hd
      have hmem : ∀ A, (∃ W ∈ out, W.toFinset = A) ↔ EPHWinner p k R.toFinset A := by
        intro A
        have hm := hperm.mem_iff (a := A)
        simp only [List.map_map, List.mem_map, Function.comp, filter_notMem_toFinset] at hm
        rw [hm, EPHWinner.stop_iff hEf (by omega)]
        constructor
        · rintro ⟨sel, hsel, rfl⟩
          obtain ⟨s1, s2⟩ := hselsub sel hsel
          refine ⟨Finset.sdiff_subset_sdiff subset_rfl ?_, Finset.sdiff_subset, ?_⟩
          · intro x hx
            exact List.mem_toFinset.2 (s1.subset (List.mem_toFinset.1 hx))
          · rw [Finset.card_sdiff_of_subset, List.toFinset_card_of_nodup hR, List.toFinset_card_of_nodup (s1.nodup hEn), s2]
            · omega
            · intro x hx
              exact List.mem_toFinset.2 (hsub.subset (s1.subset (List.mem_toFinset.1 hx)))
        · rintro ⟨h1, h2, h3⟩
          have hfil : (E.filter (fun c => decide (c ∉ A))).toFinset = R.toFinset \ A := by
            ext x
            simp only [List.mem_toFinset, List.mem_filter, decide_eq_true_eq, Finset.mem_sdiff]
            constructor
            · rintro ⟨h4, h5⟩; exact ⟨hsub.subset h4, h5⟩
            · rintro ⟨h4, h5⟩
              refine ⟨?_, h5⟩
              by_contra h6
              exact h5 (h1 (by simp [h4, h6]))
          refine ⟨E.filter (fun c => decide (c ∉ A)), mem_combinations.2 ⟨List.filter_sublist, ?_⟩, ?_⟩
          · rw [← List.toFinset_card_of_nodup (hEn.filter _), hfil, Finset.card_sdiff_of_subset h2,
              List.toFinset_card_of_nodup hR, h3]
          · rw [hfil, Finset.sdiff_sdiff_eq_self h2]
      refine ⟨out, by simp only [h1], hcan, ?_, hmem⟩
      obtain ⟨W, hW1, hW2, hW3⟩ := Finset.exists_subsuperset_card_eq (s := R.toFinset \ E.toFinset) (t := R.toFinset) (n := k)
        Finset.sdiff_subset (by omega) (by rw [List.toFinset_card_of_nodup hR]; exact hkR)
      obtain ⟨V, hV, -⟩ := (hmem W).2 ((EPHWinner.stop_iff hEf (by omega) W).2 ⟨hW1, hW2, hW3⟩)
      exact List.ne_nil_of_mem hV
    · rw [if_neg hstop]
      have hfn := hR.filter (fun c => decide (c ∉ E))
      have hfl : (R.filter (fun c => decide (c ∉ E))).length = R.length - E.length := by
        rw [← List.toFinset_card_of_nodup hfn, filter_notMem_toFinset, hcard]
      have hEpos : 0 < E.length := List.length_pos_iff.2 hEne
      obtain ⟨out, h1, h2', h3, h4⟩ := ih (R.filter (fun c => decide (c ∉ E))) hfn (by omega) (by omega) (by omega)
      refine ⟨out, h1, h2', h3, fun A => ?_⟩
      rw [h4 A, filter_notMem_toFinset, EPHWinner.next_iff hEf (by omega)]

/-- C44: E Pluribus Hugo with exact fractions, for every iteration order of the candidate set, returns the committees of the
elimination process (if there are at least two candidates). -/
theorem C44_eph (env : Env) (float : Except Err (List (List ℕ))) (p : Profile) (iter : List ℕ) (hiter : iter.Perm p.candidates)
    (a : Args) (alg : String) (hal : prologue env "eph" p a = .ok alg) (hex : ExactAlg env alg) (h2 : 2 ≤ p.numCand) :
    Answers a (computeEph env float iter p a) (EPHWinner p a.k (Finset.range p.numCand)) := by
  have hv := validCall_of_prologue hal
  have hlen : iter.length = p.numCand := by rw [hiter.length_eq]; simp [Profile.candidates]
  have hfin : iter.toFinset = Finset.range p.numCand := by
    ext x
    rw [List.mem_toFinset, hiter.mem_iff]
    simp [Profile.candidates]
  obtain ⟨out, h1, h3, h4, h5⟩ := ephLoop_spec p a.k hv.pos a.effMax (p.numCand + 1) iter
    (hiter.nodup_iff.2 List.nodup_range) (by omega) (hlen ▸ hv.le) (by omega)
  rw [hfin] at h5
  have htr : truncate a.effMax out = finalList a out := by
    unfold Args.effMax finalList
    split <;> rfl
  have hans := resort_answers (answers_finalList (a := a) h3 h5 h4)
  unfold computeEph
  simp only [hal, bind, Except.bind, withFractions_exact hex, h1, htr]
  exact hans

/-- C44: with a single candidate the second smallest score does not exist: IndexError (the only way to elect a committee of
size 1 out of one candidate crashes). -/
theorem C44_single_candidate (env : Env) (float : Except Err (List (List ℕ))) (p : Profile) (a : Args) (alg : String)
    (hal : prologue env "eph" p a = .ok alg) (hex : ExactAlg env alg) (h1 : p.numCand = 1) :
    computeEph env float p.candidates p a = .error .indexError := by
  have hc : p.candidates = [0] := by simp [Profile.candidates, h1, List.range_succ]
  unfold computeEph
  simp only [hal, bind, Except.bind, withFractions_exact hex, h1, hc]
  rfl

/-- the elimination process of C44 always elects committees of the right size -/
theorem C44_winner_committee (p : Profile) (k : ℕ) (R W : Finset ℕ) (h : EPHWinner p k R W) : W ⊆ R ∧ W.card = k := by
  induction h with
  | stop _ _ _ h1 h2 => exact ⟨h1, h2⟩
  | next _ _ _ ih => exact ⟨ih.1.trans Finset.sdiff_subset, ih.2⟩

/-- non-vacuity -/
example : prologue exampleEnv "eph" ⟨4, [⟨[0, 1], 1⟩, ⟨[0, 2], 1⟩, ⟨[3], 2⟩], []⟩
    { committeesize := 2, resolute := false, algorithm := "standard-fractions" } = .ok "standard-fractions" := by decide +kernel
example : computeEph exampleEnv (.error .outOfFuel) [2, 0, 1, 3] ⟨4, [⟨[0, 1], 1⟩, ⟨[0, 2], 1⟩, ⟨[3], 2⟩], []⟩
    { committeesize := 2, resolute := false, algorithm := "standard-fractions" } = .ok [[0, 3]] := by decide +kernel
example : prologue exampleEnv "eph" ⟨1, [⟨[0], 1⟩], []⟩
    { committeesize := 1, resolute := false, algorithm := "standard-fractions" } = .ok "standard-fractions" := by decide +kernel

end Abc
