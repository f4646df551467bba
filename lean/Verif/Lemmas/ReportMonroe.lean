import Verif.Spec.ReportMonroe
import Verif.Lemmas.ReportPhragmen
import Verif.Props.GreedyMonroe

/-!
# The assignment printed by Greedy Monroe
-/

namespace Abc
open Spec

theorem firstVoters_eq_of_card {p : Profile} {S : Group p} {m : ℕ} (h : (firstVoters S m).card < m) : firstVoters S m = S := by
  by_contra hne
  have hsub : firstVoters S m ⊆ S := Finset.filter_subset _ _
  obtain ⟨i0, hi0, hi0'⟩ := Finset.exists_of_ssubset (Finset.ssubset_iff_subset_ne.2 ⟨hsub, hne⟩)
  have hex : (S.filter (fun i => i ∉ firstVoters S m)).Nonempty := ⟨i0, Finset.mem_filter.2 ⟨hi0, hi0'⟩⟩
  obtain ⟨i, hi, hmin⟩ := Finset.exists_min_image _ id hex
  obtain ⟨hiS, hif⟩ := Finset.mem_filter.1 hi
  have hge : m ≤ (S.filter (fun j => j < i)).card := by
    by_contra hlt
    exact hif (Finset.mem_filter.2 ⟨hiS, by omega⟩)
  have hsub2 : S.filter (fun j => j < i) ⊆ firstVoters S m := by
    intro j hj
    obtain ⟨hjS, hji⟩ := Finset.mem_filter.1 hj
    by_contra hjf
    have := hmin j (Finset.mem_filter.2 ⟨hjS, hjf⟩)
    exact absurd hji (not_lt.2 this)
  have := Finset.card_le_card hsub2
  omega

/-- The districts formed during a run: they consist of supporters, and a district that is not full took all supporters that were left. -/
theorem gmRun_districts {p : Profile} {k : ℕ} {W : List ℕ} {Ds : List (Group p)} (h : Run (GMBest p) (gmUpd p k) [] [] W Ds) :
    Ds.length = W.length ∧ ∀ t c D, W[t]? = some c → Ds[t]? = some D → D ⊆ backers p c ∧
      (D.card < districtSize p.voters.length k t → ∀ i ∈ backers p c, ∃ D' ∈ Ds, i ∈ D') := by
  induction h with
  | start => exact ⟨rfl, by simp⟩
  | @step W Ds c hrun hb ih =>
    obtain ⟨hl, ih⟩ := ih
    unfold gmUpd
    refine ⟨by simp [hl], ?_⟩
    intro t d D hd hD
    rcases Nat.lt_or_ge t W.length with ht | ht
    · rw [List.getElem?_append_left ht] at hd
      rw [List.getElem?_append_left (by omega)] at hD
      obtain ⟨h1, h2⟩ := ih t d D hd hD
      refine ⟨h1, fun hlt i hi => ?_⟩
      obtain ⟨D', hD', hi'⟩ := h2 hlt i hi
      exact ⟨D', by simp [hD'], hi'⟩
    · rw [List.getElem?_append_right ht] at hd
      rw [List.getElem?_append_right (by omega)] at hD
      have ht0 : t = W.length := by
        by_contra hne
        rw [List.getElem?_eq_none (by simp; omega)] at hd
        cases hd
      subst ht0
      rw [Nat.sub_self, List.getElem?_cons_zero] at hd
      rw [hl, Nat.sub_self, List.getElem?_cons_zero] at hD
      obtain rfl := Option.some.inj hd
      obtain rfl := Option.some.inj hD
      refine ⟨fun i hi => (Finset.mem_inter.1 (Finset.mem_of_mem_filter i hi)).2, ?_⟩
      intro hlt i hi
      by_cases hu : ∃ D' ∈ Ds, i ∈ D'
      · obtain ⟨D', h1, h2⟩ := hu
        exact ⟨D', by simp [h1], h2⟩
      · refine ⟨_, List.mem_append_right _ (List.mem_singleton_self _), ?_⟩
        rw [firstVoters_eq_of_card hlt]
        refine Finset.mem_inter.2 ⟨?_, hi⟩
        have hall : ∀ D ∈ Ds, i ∉ D := fun D hD hi => hu ⟨D, hD, hi⟩
        simpa [unassigned] using hall

theorem forall₂_getElem? {α β : Type} {R : α → β → Prop} {l : List α} {m : List β} (h : List.Forall₂ R l m) {t : ℕ} {a : α}
    (ha : l[t]? = some a) : ∃ b, m[t]? = some b ∧ R a b := by
  induction h generalizing t with
  | nil => simp at ha
  | @cons x y l m h1 _ ih =>
    cases t with
    | zero =>
      rw [List.getElem?_cons_zero] at ha
      obtain rfl := Option.some.inj ha
      exact ⟨y, rfl, h1⟩
    | succ t =>
      rw [List.getElem?_cons_succ] at ha ⊢
      exact ih ha

/-- The candidate a voter is assigned to. -/
def assignedTo (full : List (ℕ × List ℕ)) (i : ℕ) : ℕ := ((full.find? (fun e => decide (i ∈ e.2))).map Prod.fst).getD 0

theorem assignedTo_eq {full : List (ℕ × List ℕ)} (hn : (full.flatMap Prod.snd).Nodup) {e : ℕ × List ℕ} (he : e ∈ full) {i : ℕ}
    (hi : i ∈ e.2) : assignedTo full i = e.1 := by
  unfold assignedTo
  cases hf : full.find? (fun e => decide (i ∈ e.2)) with
  | none =>
    rw [List.find?_eq_none] at hf
    exact absurd hi (by simpa using hf e he)
  | some e' =>
    have h1 := List.mem_of_find?_eq_some hf
    have h2 : i ∈ e'.2 := by simpa using List.find?_some hf
    rw [List.nodup_flatMap] at hn
    by_cases hee : e = e'
    · subst hee; rfl
    · have : Std.Symm (Function.onFun List.Disjoint (Prod.snd : ℕ × List ℕ → List ℕ)) := ⟨fun a b h => List.Disjoint.symm h⟩
      have hdis := hn.2.forall he h1 hee
      exact absurd h2 (hdis hi)

theorem assignedTo_iff {full : List (ℕ × List ℕ)} {n : ℕ} (hperm : (full.flatMap Prod.snd).Perm (List.range n))
    (hnd : (full.map Prod.fst).Nodup) {e : ℕ × List ℕ} (he : e ∈ full) {i : ℕ} (hin : i < n) : assignedTo full i = e.1 ↔ i ∈ e.2 := by
  have hn : (full.flatMap Prod.snd).Nodup := hperm.nodup_iff.2 List.nodup_range
  refine ⟨fun h => ?_, fun h => assignedTo_eq hn he h⟩
  obtain ⟨e', he', hi'⟩ := List.mem_flatMap.1 (hperm.mem_iff.2 (List.mem_range.2 hin))
  rw [assignedTo_eq hn he' hi'] at h
  have : e' = e := List.inj_on_of_nodup_map hnd he' he h
  rw [← this]; exact hi'

theorem dropLast2_sep (l : List Name) : dropLast2 (l.flatMap (fun x => x ++ ", ".toList)) = ", ".toList.intercalate l := by
  by_cases h : l = []
  · subst h; rfl
  · rw [flatMap_sep h]
    unfold dropLast2
    have : (", ".toList.intercalate l ++ ", ".toList).length - 2 = (", ".toList.intercalate l).length := by
      rw [List.length_append]
      have : (", ".toList).length = 2 := rfl
      omega
    rw [this, List.take_left']
    rfl

theorem gmDistrictText_ok {p : Profile} (hn : Named p) {full : List (ℕ × List ℕ)}
    (hperm : (full.flatMap Prod.snd).Perm (List.range p.voters.length)) (hnd : (full.map Prod.fst).Nodup) {e : ℕ × List ℕ} (he : e ∈ full)
    (hc : e.1 < p.numCand) : gmDistrictText p e = .ok (districtLine p (fun i => assignedTo full i) e.1) := by
  have hfn : (full.flatMap Prod.snd).Nodup := hperm.nodup_iff.2 List.nodup_range
  have hen : e.2.Nodup := (List.nodup_flatMap.1 hfn).1 e he
  have hlt : ∀ i ∈ e.2, i < p.voters.length := fun i hi =>
    List.mem_range.1 (hperm.mem_iff.1 (List.mem_flatMap.2 ⟨e, he, hi⟩))
  have hsort : sortNat e.2 = ((List.finRange p.voters.length).filter (fun i : Fin p.voters.length => decide (assignedTo full i = e.1))).map Fin.val := by
    refine eq_of_lt_of_mem (sortNat_lt hen) ?_ ?_
    · refine List.Pairwise.map Fin.val (fun a b h => h) (List.Pairwise.filter _ ?_)
      exact List.pairwise_lt_finRange _
    · intro i
      rw [(sortNat_perm e.2).mem_iff]
      simp only [List.mem_map, List.mem_filter, List.mem_finRange, true_and, decide_eq_true_eq]
      constructor
      · intro hi
        exact ⟨⟨i, hlt i hi⟩, assignedTo_eq hfn he hi, rfl⟩
      · rintro ⟨j, hj, rfl⟩
        exact (assignedTo_iff hperm hnd he j.2).1 hj
  unfold gmDistrictText districtLine
  rw [nameOf_ok hn hc]
  dsimp only [bind, Except.bind]
  have htext : (sortNat e.2).flatMap (gmVoterText p e.1) =
      (((List.finRange p.voters.length).filter (fun i : Fin p.voters.length => decide (assignedTo full i = e.1))).map
        (fun i => if e.1 ∈ appr p i then strNat i else strNat i ++ ['*'])).flatMap (fun x => x ++ ", ".toList) := by
    rw [hsort, List.flatMap_map, List.flatMap_map]
    refine List.flatMap_congr fun i _ => ?_
    unfold gmVoterText
    rw [voterAt_fin]
    have hiff : e.1 ∈ appr p i ↔ e.1 ∈ (p.voters.get i).approved := by
      rw [mem_appr]
    by_cases h : e.1 ∈ appr p i
    · rw [if_pos h, if_neg (not_not.2 (hiff.1 h)), List.append_nil]
    · rw [if_neg h, if_pos (fun h' => h (hiff.2 h'))]
      rfl
  rw [htext, dropLast2_sep]

theorem ceil_district {n k t : ℕ} (hk : 0 < k) (_ht : t < k) :
    n / k ≤ districtSize n k t ∧ districtSize n k t ≤ (n + k - 1) / k := by
  have hdm := Nat.div_add_mod n k
  have hmod := Nat.mod_lt n hk
  unfold districtSize
  split
  · refine ⟨by omega, ?_⟩
    rw [Nat.le_div_iff_mul_le hk, Nat.add_mul, Nat.mul_comm]
    omega
  · refine ⟨le_rfl, Nat.div_le_div_right (by omega)⟩

end Abc
