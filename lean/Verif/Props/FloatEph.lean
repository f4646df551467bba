import Verif.Props.FloatShares
import Verif.Props.Other

/-!
# C75: "float-fractions" returns committees (E Pluribus Hugo)
-/

namespace Abc
open Spec

section
variable {F : Type} {A : Arith F}

theorem fEphElim_ok (hA : Sound A) (p : Profile) (R : List ℕ) (h2 : 2 ≤ R.length) :
    ∃ E, fEphElim A p R = .ok E ∧ E.Sublist R ∧ E ≠ [] := by
  set l := (R.map (fEphSdv A p R)).mergeSort (fun a b => decide (A.val a ≤ A.val b)) with hl
  have hlen : l.length = R.length := by simp [hl]
  obtain ⟨x, y, ys, hxy⟩ : ∃ x y ys, l = x :: y :: ys := by
    match hm : l, hlen with
    | [], h => simp at h; omega
    | [_], h => simp at h; omega
    | x :: y :: ys, _ => exact ⟨x, y, ys, rfl⟩
  have hy : y ∈ R.map (fEphSdv A p R) := by
    have : y ∈ l := by rw [hxy]; simp
    rw [hl] at this
    exact (List.mergeSort_perm _ _).mem_iff.1 this
  have hget : pyGet l 1 = .ok y := by rw [hxy]; rfl
  obtain ⟨d, hd, hdy⟩ := List.mem_map.1 hy
  set elim := R.filter (fun c => decide (A.val (fEphSdv A p R c) ≤ A.val y) || A.isclose (fEphSdv A p R c) y) with helim
  have hde : d ∈ elim := List.mem_filter.2 ⟨hd, by simp [hdy]⟩
  obtain ⟨m, m1, m2, m3⟩ := minOf_spec (A := A) (l := elim.map (fEphAv A p)) (by
    simp only [ne_eq, List.map_eq_nil_iff]
    exact List.ne_nil_of_mem hde)
  obtain ⟨e, he, hem⟩ := List.mem_map.1 m2
  refine ⟨elim.filter (fun c => decide (A.val (fEphAv A p c) ≤ A.val m)), ?_, List.filter_sublist.trans List.filter_sublist, ?_⟩
  · unfold fEphElim
    rw [← hl, hget]
    simp only [bind, Except.bind, ← helim, m1]
  · exact List.ne_nil_of_mem (a := e) (List.mem_filter.2 ⟨he, by simp [hem]⟩)

theorem fEphLoop_spec (hA : Sound A) (p : Profile) (k : ℕ) (hk : 1 ≤ k) (fuel : ℕ) (R : List ℕ) (hR : R.Nodup)
    (h2 : 2 ≤ R.length) (hkR : k ≤ R.length) (hf : R.length < fuel) :
    ∃ out, (∀ max, fEphLoop A p k max fuel R = .ok (truncate max out)) ∧ Canonical out ∧ out ≠ [] ∧
      ∀ W ∈ out, W.toFinset ⊆ R.toFinset ∧ W.toFinset.card = k := by
  induction fuel generalizing R with
  | zero => omega
  | succ fuel ih =>
    obtain ⟨E, hE, hsub, hEne⟩ := fEphElim_ok hA p R h2
    have hEn : E.Nodup := hsub.nodup hR
    have hEsub : E.toFinset ⊆ R.toFinset := fun c hc => List.mem_toFinset.2 (hsub.subset (List.mem_toFinset.1 hc))
    have hEl : E.length ≤ R.length := hsub.length_le
    have hcard : (R.toFinset \ E.toFinset).card = R.length - E.length := by
      rw [Finset.card_sdiff_of_subset hEsub, List.toFinset_card_of_nodup hR, List.toFinset_card_of_nodup hEn]
    by_cases hstop : R.length - E.length ≤ k
    · have hselsub : ∀ sel ∈ combinations E (R.length - k), sel.Sublist E ∧ sel.length = R.length - k :=
        fun sel hsel => mem_combinations.1 hsel
      have hnd : ∀ W ∈ (combinations E (R.length - k)).map (fun sel => R.filter (fun c => decide (c ∉ sel))), W.Nodup := by
        intro W hW
        obtain ⟨sel, -, rfl⟩ := List.mem_map.1 hW
        exact hR.filter _
      have hd : (((combinations E (R.length - k)).map (fun sel => R.filter (fun c => decide (c ∉ sel)))).map
          List.toFinset).Nodup := by
        rw [List.map_map]
        refine List.Nodup.map_on ?_ (combinations_nodup hEn _)
        intro s hs t ht he
        obtain ⟨s1, -⟩ := hselsub s hs
        obtain ⟨t1, -⟩ := hselsub t ht
        simp only [Function.comp, filter_notMem_toFinset] at he
        have hst : ∀ x ∈ E, x ∈ s ↔ x ∈ t := by
          intro x hx
          have hxR := hsub.subset hx
          have := congrArg (x ∈ ·) he
          simp only [Finset.mem_sdiff, List.mem_toFinset, hxR, true_and, eq_iff_iff] at this
          tauto
        rw [eq_filter_of_sublist s1 hEn, eq_filter_of_sublist t1 hEn]
        refine List.filter_congr (fun x hx => ?_)
        simp [hst x hx]
      obtain ⟨out, h1, hcan, hperm⟩ := sortedCommittees_canonical hnd hd
      refine ⟨out, ?_, hcan, ?_, ?_⟩
      · intro max
        unfold fEphLoop
        simp only [hE, bind, Except.bind, if_pos hstop, h1]
      · have hmem := mem_combinations (xs := E) (r := R.length - k) (l := E.take (R.length - k))
        have hx : E.take (R.length - k) ∈ combinations E (R.length - k) :=
          hmem.2 ⟨List.take_sublist _ _, by rw [List.length_take]; omega⟩
        have := hperm.length_eq
        intro h
        rw [h] at this
        simp only [List.map_nil, List.length_nil, List.length_map] at this
        rw [eq_comm, List.length_eq_zero_iff] at this
        rw [this] at hx
        simp at hx
      · intro W hW
        have := hperm.mem_iff.1 (List.mem_map_of_mem (f := List.toFinset) hW)
        rw [List.map_map] at this
        obtain ⟨sel, hsel, he⟩ := List.mem_map.1 this
        simp only [Function.comp, filter_notMem_toFinset] at he
        obtain ⟨s1, s2⟩ := hselsub sel hsel
        rw [← he]
        refine ⟨Finset.sdiff_subset, ?_⟩
        rw [Finset.card_sdiff_of_subset, List.toFinset_card_of_nodup hR, List.toFinset_card_of_nodup (s1.nodup hEn), s2]
        · omega
        · intro x hx
          exact List.mem_toFinset.2 (hsub.subset (s1.subset (List.mem_toFinset.1 hx)))
    · have hfn := hR.filter (fun c => decide (c ∉ E))
      have hfl : (R.filter (fun c => decide (c ∉ E))).length = R.length - E.length := by
        rw [← List.toFinset_card_of_nodup hfn, filter_notMem_toFinset, hcard]
      have hEpos : 0 < E.length := List.length_pos_iff.2 hEne
      obtain ⟨out, h1, h2', h3, h4⟩ := ih (R.filter (fun c => decide (c ∉ E))) hfn (by omega) (by omega) (by omega)
      refine ⟨out, ?_, h2', h3, ?_⟩
      · intro max
        unfold fEphLoop
        simp only [hE, bind, Except.bind, if_neg hstop, h1]
      · intro W hW
        obtain ⟨g1, g2⟩ := h4 W hW
        refine ⟨g1.trans ?_, g2⟩
        rw [filter_notMem_toFinset]
        exact Finset.sdiff_subset

/-- C75: E Pluribus Hugo with floats, arbitrary weights, every iteration order of the candidate set (at least two candidates; with
one candidate it raises IndexError as with exact fractions, `C44_single_candidate`). -/
theorem C75_eph (hA : Sound A) (p : Profile) (iter : List ℕ) (hiter : iter.Perm p.candidates) (k : ℕ) (hk1 : 1 ≤ k) (hk : k ≤ p.numCand)
    (h2 : 2 ≤ p.numCand) :
    ∃ S, ValidOutcomes p k S ∧ ∀ env a, a.k = k → prologue env "eph" p a = .ok "float-fractions" →
      Answers a (computeEph env (floatEph A iter p a) iter p a) S := by
  have hlen : iter.length = p.numCand := by rw [hiter.length_eq]; simp [Profile.candidates]
  have hfin : iter.toFinset = Finset.range p.numCand := by
    ext x
    rw [List.mem_toFinset, hiter.mem_iff]
    simp [Profile.candidates]
  obtain ⟨out, h1, h3, h4, h5⟩ := fEphLoop_spec hA p k hk1 (p.numCand + 1) iter
    (hiter.nodup_iff.2 List.nodup_range) (by omega) (by omega) (by omega)
  refine ⟨fun X => ∃ W ∈ out, W.toFinset = X, ⟨?_, ?_⟩, ?_⟩
  · obtain ⟨W, hW⟩ := List.exists_mem_of_ne_nil out h4
    exact ⟨_, W, hW, rfl⟩
  · rintro X ⟨W, hW, rfl⟩
    have := h5 W hW
    rw [hfin] at this
    exact ⟨this.1, this.2⟩
  · rintro env a rfl hal
    have htr : truncate a.effMax out = finalList a out := by
      unfold Args.effMax finalList
      split <;> rfl
    have hans := resort_answers (answers_finalList (a := a) h3 (fun _ => Iff.rfl) h4)
    unfold computeEph floatEph
    simp only [hal, bind, Except.bind, withFractions_float, h1, htr]
    exact hans

/-- C75: with a single candidate E Pluribus Hugo raises IndexError, with floats too. -/
theorem C75_eph_single_candidate (env : Env) (p : Profile) (a : Args) (hal : prologue env "eph" p a = .ok "float-fractions")
    (h1 : p.numCand = 1) : computeEph env (floatEph A p.candidates p a) p.candidates p a = .error .indexError := by
  have hc : p.candidates = [0] := by simp [Profile.candidates, h1, List.range_succ]
  unfold computeEph floatEph
  simp only [hal, bind, Except.bind, withFractions_float, h1, hc]
  simp [fEphLoop, fEphElim, pyGet, bind, Except.bind]

end

end Abc
