import Verif.Spec.Axioms
import Verif.Model.Properties
import Verif.Lemmas.Scores
import Verif.Props.Misc
import Mathlib.Algebra.BigOperators.Fin

/-!
# Groups of voters: lists of indices (model) versus finite sets of positions (specification)
-/

namespace Abc
open Spec

theorem voterAt_fin (p : Profile) (i : Fin p.voters.length) : p.voterAt i = p.voters.get i := by
  simp [Profile.voterAt, List.getD_eq_getElem?_getD]

/-- The group listed by a list of indices. -/
def grp (p : Profile) (g : List ℕ) : Group p := Finset.univ.filter (fun i => (i : ℕ) ∈ g)

theorem mem_grp {p : Profile} {g : List ℕ} {i : Fin p.voters.length} : i ∈ grp p g ↔ (i : ℕ) ∈ g := by simp [grp]

theorem groupWeight_eq (p : Profile) (g : List ℕ) (hn : g.Nodup) (hlt : ∀ x ∈ g, x < p.voters.length) :
    p.groupWeight g = wt p (grp p g) := by
  have h1 : g.toFinset = (grp p g).image (fun i : Fin p.voters.length => (i : ℕ)) := by
    ext x
    simp only [List.mem_toFinset, Finset.mem_image, mem_grp]
    constructor
    · intro h; exact ⟨⟨x, hlt x h⟩, h, rfl⟩
    · rintro ⟨i, h, rfl⟩; exact h
  unfold Profile.groupWeight wt
  rw [← List.sum_toFinset _ hn, h1, Finset.sum_image (fun a _ b _ h => Fin.ext h)]
  exact Finset.sum_congr rfl (fun i _ => by rw [voterAt_fin])

theorem groupWeight_perm (p : Profile) {g h : List ℕ} (e : g.Perm h) : p.groupWeight g = p.groupWeight h :=
  (e.map _).sum_eq

theorem votersWith_nodup (p : Profile) (c : Voter → Bool) : (p.votersWith c).Nodup := List.nodup_range.filter _

theorem mem_votersWith {p : Profile} {c : Voter → Bool} {x : ℕ} :
    x ∈ p.votersWith c ↔ x < p.voters.length ∧ c (p.voterAt x) = true := by simp [Profile.votersWith]

theorem votersWith_lt {p : Profile} {c : Voter → Bool} : ∀ x ∈ p.votersWith c, x < p.voters.length :=
  fun _ h => (mem_votersWith.1 h).1

theorem mem_grp_votersWith {p : Profile} {c : Voter → Bool} {i : Fin p.voters.length} :
    i ∈ grp p (p.votersWith c) ↔ c (p.voters.get i) = true := by
  rw [mem_grp, mem_votersWith, voterAt_fin]
  simp

theorem groupWeight_votersWith (p : Profile) (c : Voter → Bool) :
    p.groupWeight (p.votersWith c) = wt p (grp p (p.votersWith c)) :=
  groupWeight_eq p _ (votersWith_nodup p c) votersWith_lt

theorem weight_pos {p : Profile} (hp : p.WF) (i : Fin p.voters.length) : 0 < (p.voters.get i).weight :=
  hp.weight _ (List.get_mem _ _)

theorem wt_mono {p : Profile} (hp : p.WF) {G H : Group p} (h : G ⊆ H) : wt p G ≤ wt p H :=
  Finset.sum_le_sum_of_subset_of_nonneg h (fun i _ _ => (weight_pos hp i).le)

theorem wt_nonneg {p : Profile} (hp : p.WF) (G : Group p) : 0 ≤ wt p G :=
  Finset.sum_nonneg (fun i _ => (weight_pos hp i).le)

theorem wt_le_total {p : Profile} (hp : p.WF) (G : Group p) : wt p G ≤ total p := wt_mono hp (Finset.subset_univ G)

theorem wt_empty (p : Profile) : wt p ∅ = 0 := rfl

theorem nonempty_of_wt {p : Profile} {G : Group p} {x : ℚ} (hx : 0 < x) (h : x ≤ wt p G) : G.Nonempty := by
  by_contra hne
  rw [Finset.not_nonempty_iff_eq_empty] at hne
  rw [hne, wt_empty] at h
  linarith

/-- every group all of whose members satisfy a condition is at most as heavy as the group of all such voters -/
theorem wt_le_votersWith {p : Profile} (hp : p.WF) (c : Voter → Bool) (G : Group p)
    (h : ∀ i ∈ G, c (p.voters.get i) = true) : wt p G ≤ p.groupWeight (p.votersWith c) := by
  rw [groupWeight_votersWith]
  exact wt_mono hp (fun i hi => mem_grp_votersWith.2 (h i hi))

theorem totalWeight_eq (p : Profile) : p.totalWeight = total p := by
  unfold Profile.totalWeight total
  have := Fin.sum_univ_fun_getElem p.voters Voter.weight
  simpa using this.symm

theorem total_pos {p : Profile} (hp : p.WF) (h : p.voters ≠ []) : 0 < total p := by
  have : 0 < p.voters.length := List.length_pos_iff.2 h
  exact Finset.sum_pos (fun i _ => weight_pos hp i) ⟨⟨0, this⟩, Finset.mem_univ _⟩

theorem sat_eq {p : Profile} (hp : p.WF) (W : List ℕ) (i : Fin p.voters.length) :
    (inter (p.voters.get i).approved W).length = sat p W.toFinset i :=
  inter_length (hp.nodup _ (List.get_mem _ _))

theorem mem_appr {p : Profile} {i : Fin p.voters.length} {c : ℕ} : c ∈ appr p i ↔ c ∈ (p.voters.get i).approved := by
  simp [appr, Voter.A]

theorem appr_lt {p : Profile} (hp : p.WF) {i : Fin p.voters.length} {c : ℕ} (h : c ∈ appr p i) : c < p.numCand :=
  hp.lt _ (List.get_mem _ _) c (mem_appr.1 h)

theorem sat_le_card (p : Profile) (W : Finset ℕ) (i : Fin p.voters.length) : sat p W i ≤ W.card :=
  Finset.card_le_card Finset.inter_subset_right

/-! ## control flow -/

theorem firstSome_spec {α β : Type} (f : α → Except Err (Option β)) (l : List α) (h : ∀ x ∈ l, ∃ r, f x = .ok r) :
    (firstSome f l = .ok none ∧ ∀ x ∈ l, f x = .ok none) ∨
    (∃ x ∈ l, ∃ b, f x = .ok (some b) ∧ firstSome f l = .ok (some b)) := by
  induction l with
  | nil => exact Or.inl ⟨rfl, by simp⟩
  | cons x xs ih =>
    obtain ⟨r, hr⟩ := h x (by simp)
    unfold firstSome
    rw [hr]
    cases r with
    | some b => exact Or.inr ⟨x, by simp, b, hr, rfl⟩
    | none =>
      rcases ih (fun y hy => h y (by simp [hy])) with ⟨h1, h2⟩ | ⟨y, hy, b, h1, h2⟩
      · refine Or.inl ⟨h1, ?_⟩
        intro y hy
        rcases List.mem_cons.1 hy with rfl | hy
        · exact hr
        · exact h2 y hy
      · exact Or.inr ⟨y, by simp [hy], b, h1, h2⟩

theorem ellUpperBound_spec (p : Profile) (hp : p.WF) (q : ℚ) (hq : 0 < q) :
    ∃ b : ℕ, ellUpperBound p q = .ok b ∧ ∀ l : ℕ, l ≤ b ↔ (l : ℚ) * q ≤ total p := by
  unfold ellUpperBound
  rw [if_neg hq.ne', totalWeight_eq]
  refine ⟨_, rfl, ?_⟩
  intro l
  have h0 : 0 ≤ total p / q := div_nonneg (wt_nonneg hp Finset.univ) hq.le
  have hf : 0 ≤ ⌊total p / q⌋ := Int.floor_nonneg.2 h0
  unfold pyInt
  rw [if_pos h0]
  constructor
  · intro h
    have : (l : ℤ) ≤ ⌊total p / q⌋ := by omega
    have := Int.le_floor.1 this
    rw [le_div_iff₀ hq] at this
    exact_mod_cast this
  · intro h
    have : ((l : ℤ) : ℚ) ≤ total p / q := by
      rw [le_div_iff₀ hq]
      exact_mod_cast h
    have := Int.le_floor.2 this
    omega

theorem candidateSet_ofNat {W : List ℕ} {n : ℕ} (hW : W.Nodup) (hlt : ∀ c ∈ W, c < n) :
    candidateSet (W.map Int.ofNat) (some n) = .ok (sortNat W) := by
  have h1 : (W.map Int.ofNat).Nodup := hW.map (fun a b h => by simpa using h)
  have h2 : (W.map Int.ofNat).all (fun c => decide (0 ≤ c)) = true := by simp
  have h3 : (W.map Int.ofNat).any (fun c => decide (c ≥ (n : ℤ))) = false := by
    simp only [List.any_eq_false, List.mem_map, decide_eq_true_eq]
    rintro x ⟨c, hc, rfl⟩
    have := hlt c hc
    simp
    omega
  have h4 : (W.map Int.ofNat).map Int.toNat = W := by
    rw [List.map_map]
    exact (List.map_congr_left (fun x _ => by simp)).trans (List.map_id W)
  unfold candidateSet
  rw [if_neg (by simpa using h1), if_neg (by rw [h2]; simp)]
  simp only [h3, h4]
  rfl

/-- The frame around the checks: if the inner check decides `P`, so does the public function. -/
theorem checkWith_spec {ω : Type} (chk : List ℕ → ℚ → Except Err (Option ω)) (P : Finset ℕ → ℚ → Prop) (p : Profile)
    (hp : p.WF) (W : List ℕ) (hW : W.Nodup) (hlt : ∀ c ∈ W, c < p.numCand) (quota : Option ℚ)
    (hq : 0 < quotaValue p W.length quota)
    (hchk : ∀ V : List ℕ, V.Nodup → V.toFinset = W.toFinset →
      ∃ r, chk V (quotaValue p W.length quota) = .ok r ∧ (r = none ↔ P V.toFinset (quotaValue p W.length quota)))
    (hemp : p.voters = [] → P W.toFinset (quotaValue p W.length quota)) :
    ∃ b, checkWith chk p (W.map Int.ofNat) quota = .ok b ∧
      (b = true ↔ P W.toFinset (quotaValue p W.length quota)) := by
  have h1 : quotaOf p (W.map Int.ofNat) quota = .ok (quotaValue p W.length quota) := by
    unfold quotaOf quotaValue
    cases quota with
    | some q => rfl
    | none =>
      have : W.length ≠ 0 := by
        intro h
        rw [h] at hq
        simp [quotaValue] at hq
      simp only [List.length_map, if_neg this, Option.getD_none, totalWeight_eq]
  obtain ⟨r, h2, h3⟩ := hchk (sortNat W) (sortNat_nodup.2 hW) (sortNat_toFinset W)
  rw [sortNat_toFinset] at h3
  unfold checkWith
  rw [h1, candidateSet_ofNat hW hlt]
  simp only [bind, Except.bind, h2]
  cases r with
  | none => exact ⟨true, rfl, by simpa using h3⟩
  | some w =>
    have hP : ¬ P W.toFinset (quotaValue p W.length quota) := fun h => by simpa using h3.2 h
    have : p.totalWeight ≠ 0 := by
      rw [totalWeight_eq]
      exact (total_pos hp (fun h => hP (hemp h))).ne'
    exact ⟨false, by simp only [if_neg this], by simpa using hP⟩

theorem wt_of_empty {p : Profile} (h : p.voters = []) (G : Group p) : wt p G = 0 := by
  have : G = ∅ := by
    rw [Finset.eq_empty_iff_forall_notMem]
    intro i _
    have h1 := i.2
    have h2 : p.voters.length = 0 := by rw [h]; rfl
    omega
  rw [this, wt_empty]

end Abc
