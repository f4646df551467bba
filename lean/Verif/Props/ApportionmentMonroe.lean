import Verif.Props.ApportionmentLoads
import Verif.Props.GreedyMonroe
import Verif.Props.Monroe
import Verif.Lemmas.ReportMonroe

/-!
# C97, continued: Monroe's rule and greedy Monroe on party lists
-/

namespace Abc
open Spec

/-- Averaging over the classes of an equivalence relation does not change a sum. -/
theorem sum_average {ι α : Type} [Fintype ι] [DecidableEq α] (g : ι → α) (x : ι → ℚ) :
    ∑ i, x i = ∑ i, (∑ j with g j = g i, x j) / (Finset.univ.filter (fun j => g j = g i)).card := by
  have h1 : ∀ i, (∑ j with g j = g i, x j) / ((Finset.univ.filter (fun j => g j = g i)).card : ℚ)
      = ∑ j, if g i = g j then x j / ((Finset.univ.filter (fun l => g l = g j)).card : ℚ) else 0 := by
    intro i
    rw [Finset.sum_div, Finset.sum_filter]
    refine Finset.sum_congr rfl fun j _ => ?_
    by_cases h : g j = g i
    · rw [if_pos h, if_pos h.symm, h]
    · rw [if_neg h, if_neg (Ne.symm h)]
  rw [Finset.sum_congr rfl (fun i _ => h1 i), Finset.sum_comm]
  refine Finset.sum_congr rfl fun j _ => ?_
  rw [← Finset.sum_filter, Finset.sum_const, nsmul_eq_mul]
  have : (0 : ℚ) < (Finset.univ.filter (fun l => g l = g j)).card := by
    exact_mod_cast Finset.card_pos.2 ⟨j, by simp⟩
  field_simp

section
variable {p : Profile} (hp : p.WF) (hpl : ∀ v ∈ p.voters, ∀ w ∈ p.voters, Disjoint v.A w.A ∨ v.A = w.A)
  (hu : ∀ v ∈ p.voters, v.weight = 1)

include hu in
theorem votes_card (c : ℕ) : votes p c = (backers p c).card := wt_unit (unitWeights_iff.2 hu) _

include hpl in
theorem mates_backers {i : Fin p.voters.length} {c : ℕ} (hc : c ∈ appr p i) :
    (Finset.univ.filter fun j => appr p j = appr p i) = backers p c := by
  ext j
  simp only [backers, Finset.mem_filter, Finset.mem_univ, true_and]
  constructor
  · intro h
    rw [h]; exact hc
  · intro h
    rcases hpl _ (List.get_mem p.voters j) _ (List.get_mem p.voters i) with g | g
    · exact absurd hc (Finset.disjoint_left.1 g h)
    · exact g

/-- Seats per vote of the party of voter `i`. -/
def share (p : Profile) (W : Finset ℕ) (i : Fin p.voters.length) : ℚ := ∑ c ∈ W with c ∈ appr p i, 1 / votes p c

/-- The number of voters who can be represented if every member represents `s` voters. -/
def partyValue (p : Profile) (s : ℕ) (W : Finset ℕ) : ℚ := ∑ i, min 1 (s * share p W i)

omit hp in
theorem share_none {i : Fin p.voters.length} (h : appr p i = ∅) (W : Finset ℕ) : share p W i = 0 := by
  unfold share
  rw [Finset.filter_false_of_mem (fun c _ => by rw [h]; exact Finset.notMem_empty c), Finset.sum_empty]

include hpl in
theorem share_party (W : Finset ℕ) {i : Fin p.voters.length} {c : ℕ} (hc : c ∈ appr p i) :
    share p W i = seats p W c / votes p c := spent_party hpl W hc

include hp in
theorem share_nonneg (W : Finset ℕ) (i : Fin p.voters.length) : 0 ≤ share p W i :=
  Finset.sum_nonneg fun c _ => div_nonneg zero_le_one (votes_nonneg hp c)

/-- Numbers of represented voters of one party. -/
theorem represented_average (φ : Fin p.voters.length → ℕ) : (represented p φ : ℚ) =
    ∑ i, if appr p i = ∅ then 0 else
      ((Finset.univ.filter fun j => appr p j = appr p i ∧ φ j ∈ appr p j).card : ℚ) / (Finset.univ.filter fun j => appr p j = appr p i).card := by
  have h := sum_average (fun i => appr p i) (fun i => if φ i ∈ appr p i then (1 : ℚ) else 0)
  have h0 : (represented p φ : ℚ) = ∑ i, if φ i ∈ appr p i then (1 : ℚ) else 0 := by
    unfold represented
    rw [← Finset.sum_filter, Finset.sum_const, nsmul_eq_mul, mul_one]
  rw [h0, h]
  refine Finset.sum_congr rfl fun i _ => ?_
  rw [← Finset.sum_filter, Finset.sum_const, nsmul_eq_mul, mul_one, Finset.filter_filter]
  split_ifs with he
  · rw [Finset.filter_false_of_mem, Finset.card_empty, Nat.cast_zero, zero_div]
    rintro j - ⟨h1, h2⟩
    rw [h1, he] at h2
    exact Finset.notMem_empty _ h2
  · rfl

include hp hpl hu in
/-- The number of voters who could be represented by the next seat of the party of `d`. -/
theorem value_insert {s : ℕ} {A : Finset ℕ} {d : ℕ} (hd : d ∉ A) :
    partyValue p s (insert d A) - partyValue p s A = min (votes p d) (s * ((seats p A d : ℚ) + 1)) - min (votes p d) (s * seats p A d) := by
  unfold partyValue
  rw [← Finset.sum_sub_distrib]
  have h1 : ∀ i, min 1 ((s : ℚ) * share p (insert d A) i) - min 1 (s * share p A i)
      = if i ∈ backers p d then (min (votes p d) (s * ((seats p A d : ℚ) + 1)) - min (votes p d) (s * seats p A d)) / votes p d else 0 := by
    intro i
    by_cases hi : i ∈ backers p d
    · have hc := (Finset.mem_filter.1 hi).2
      have hv : 0 < votes p d := votes_pos hp ⟨i, hi⟩
      rw [if_pos hi, share_party hpl _ hc, share_party hpl _ hc, seats_insert_same hd (SameParty.refl d), sub_div,
        ← min_div_div_right hv.le, ← min_div_div_right hv.le, div_self hv.ne', mul_div_assoc, mul_div_assoc]
      push_cast
      rfl
    · rw [if_neg hi, sub_eq_zero]
      congr 2
      unfold share
      rw [Finset.filter_insert, if_neg fun h => hi (Finset.mem_filter.2 ⟨Finset.mem_univ _, h⟩)]
  rw [Finset.sum_congr rfl (fun i _ => h1 i), ← Finset.sum_filter, Finset.sum_const, nsmul_eq_mul, Finset.filter_mem_eq_inter,
    Finset.univ_inter, ← votes_card hu]
  by_cases hv : votes p d = 0
  · rw [hv]
    have h2 : (0 : ℚ) ≤ s * ((seats p A d : ℚ) + 1) := by positivity
    have h3 : (0 : ℚ) ≤ s * (seats p A d : ℚ) := by positivity
    rw [min_eq_left h2, min_eq_left h3]
    simp
  · field_simp

/-- The value of the next seat, in other words. -/
theorem claim_eq {v a s : ℚ} (hs : 0 ≤ s) : min v (s * (a + 1)) - min v (s * a) = min s (max 0 (v - a * s)) := by
  rcases le_total v (s * a) with h | h
  · rw [min_eq_left h, min_eq_left (h.trans (by nlinarith)), max_eq_left (by linarith), min_eq_right hs, sub_self]
  · rw [min_eq_right h, max_eq_right (by linarith)]
    rcases le_total v (s * (a + 1)) with h' | h'
    · rw [min_eq_left h', min_eq_right (by linarith)]
      ring
    · rw [min_eq_right h', min_eq_left (by linarith)]
      ring

/-- Concavity: several seats more or less of one party. -/
theorem concave {v s l : ℚ} (hs : 0 ≤ s) (hl : 0 ≤ l) {a b : ℕ} (h1 : a < b → min s (max 0 (v - a * s)) ≤ l)
    (h2 : b < a → l ≤ min s (max 0 (v - ((a : ℚ) - 1) * s))) : min v (s * b) - min v (s * a) ≤ l * ((b : ℚ) - a) := by
  rcases lt_trichotomy a b with h | rfl | h
  · have g := h1 h
    have hab : (a : ℚ) + 1 ≤ b := by exact_mod_cast h
    rcases le_total v (a * s) with hv | hv
    · rw [min_eq_left (show v ≤ s * a by linarith), min_eq_left (show v ≤ s * b by nlinarith), sub_self]
      exact mul_nonneg hl (by linarith)
    · rw [min_eq_right (show s * (a : ℚ) ≤ v by linarith)]
      rw [max_eq_right (by linarith)] at g
      rcases min_le_iff.1 g with g | g
      · have := min_le_right v (s * (b : ℚ))
        nlinarith
      · have := min_le_left v (s * (b : ℚ))
        nlinarith
  · simp
  · have g := h2 h
    have hab : (b : ℚ) + 1 ≤ a := by exact_mod_cast h
    obtain ⟨g1, g2⟩ := le_min_iff.1 g
    have hb := min_le_right v (s * (b : ℚ))
    have hb' := min_le_left v (s * (b : ℚ))
    rcases le_total (s * (a : ℚ)) v with hv | hv
    · rw [min_eq_right hv]
      nlinarith
    · rw [min_eq_left hv]
      rcases le_total (v - ((a : ℚ) - 1) * s) 0 with hz | hz
      · rw [max_eq_left hz] at g2
        have : l = 0 := le_antisymm g2 hl
        rw [this]
        linarith
      · rw [max_eq_right hz] at g2
        nlinarith

include hp hpl in
theorem sum_share (W : Finset ℕ) (hu : ∀ v ∈ p.voters, v.weight = 1) :
    ∑ i, share p W i = ((W.filter fun c => (backers p c).Nonempty).card : ℚ) := by
  rw [← spent_card hp hpl (W := W.filter fun c => (backers p c).Nonempty) fun c hc => (Finset.mem_filter.1 hc).2]
  refine Finset.sum_congr rfl fun i _ => ?_
  rw [hu _ (List.get_mem _ i), one_mul, Finset.filter_filter]
  unfold share
  refine Finset.sum_congr (Finset.filter_congr fun c _ => ⟨fun h => ⟨⟨i, Finset.mem_filter.2 ⟨Finset.mem_univ _, h⟩⟩, h⟩, fun h => h.2⟩)
    fun _ _ => rfl

section
variable {k s : ℕ} (hn : p.voters.length = k * s) (hk : 1 ≤ k)
include hn hk

theorem balanced_class {W : Finset ℕ} (hW : W.card = k) {φ : Fin p.voters.length → ℕ} (h : Balanced p W φ) {c : ℕ} (hc : c ∈ W) :
    (Finset.univ.filter (fun i => φ i = c)).card = s := by
  obtain ⟨h1, h2⟩ := h.2 c hc
  have e1 : p.voters.length / W.card = s := by rw [hW, hn, Nat.mul_div_cancel_left _ hk]
  have e2 : (p.voters.length + W.card - 1) / W.card = s := by
    rw [hW, hn, Nat.add_sub_assoc hk, Nat.mul_add_div hk, Nat.div_eq_of_lt (by omega), Nat.add_zero]
  omega

include hp hpl hu

theorem represented_le_value {W : Finset ℕ} (hW : W.card = k) {φ : Fin p.voters.length → ℕ} (h : Balanced p W φ) :
    (represented p φ : ℚ) ≤ partyValue p s W := by
  rw [represented_average]
  refine Finset.sum_le_sum fun i _ => ?_
  split_ifs with he
  · exact le_min zero_le_one (mul_nonneg (Nat.cast_nonneg _) (share_nonneg hp W i))
  · obtain ⟨c, hc⟩ := Finset.nonempty_iff_ne_empty.2 he
    have hm := mates_backers hpl hc
    have hpos : (0 : ℚ) < (backers p c).card := by
      rw [← votes_card hu]
      exact votes_pos hp ⟨i, Finset.mem_filter.2 ⟨Finset.mem_univ _, hc⟩⟩
    rw [share_party hpl W hc, votes_card hu, hm]
    refine le_min ?_ ?_
    · rw [div_le_one hpos, ← hm]
      exact_mod_cast Finset.card_le_card (fun j hj => by
        simp only [Finset.mem_filter, Finset.mem_univ, true_and] at hj ⊢
        exact hj.1)
    · rw [← mul_div_assoc, div_le_div_iff_of_pos_right hpos]
      have h1 : (Finset.univ.filter fun j => appr p j = appr p i ∧ φ j ∈ appr p j) ⊆
          (W.filter (SameParty p c)).biUnion fun d => Finset.univ.filter fun j => φ j = d := by
        intro j hj
        simp only [Finset.mem_filter, Finset.mem_univ, true_and] at hj
        simp only [Finset.mem_biUnion, Finset.mem_filter, Finset.mem_univ, true_and]
        refine ⟨φ j, ⟨h.1 j, ?_⟩, rfl⟩
        exact sameParty_of_common hpl hc (by rw [← hj.1]; exact hj.2)
      have h2 := (Finset.card_le_card h1).trans Finset.card_biUnion_le
      rw [Finset.sum_congr rfl (fun d hd => balanced_class hn hk hW h (Finset.mem_filter.1 hd).1), Finset.sum_const, smul_eq_mul] at h2
      rw [mul_comm]
      exact_mod_cast h2

/-- An assignment with as many represented voters as possible reaches the bound. -/
theorem value_le_represented {W : Finset ℕ} (hW : W.card = k) {φ : Fin p.voters.length → ℕ} (h : Balanced p W φ)
    (hopt : ∀ ψ, Balanced p W ψ → represented p ψ ≤ represented p φ) : partyValue p s W ≤ (represented p φ : ℚ) := by
  rw [represented_average]
  refine Finset.sum_le_sum fun i _ => ?_
  split_ifs with he
  · rw [share_none he, mul_zero]
    exact min_le_right _ _
  obtain ⟨c, hc⟩ := Finset.nonempty_iff_ne_empty.2 he
  have hm := mates_backers hpl hc
  have hpos : (0 : ℚ) < (backers p c).card := by
    rw [← votes_card hu]
    exact votes_pos hp ⟨i, Finset.mem_filter.2 ⟨Finset.mem_univ _, hc⟩⟩
  rw [share_party hpl W hc, votes_card hu, hm]
  by_contra hlt
  rw [not_le, lt_min_iff, div_lt_one hpos, ← mul_div_assoc, div_lt_div_iff_of_pos_right hpos] at hlt
  obtain ⟨hlt1, hlt2⟩ := hlt
  have hlt1 : (Finset.univ.filter fun j => appr p j = appr p i ∧ φ j ∈ appr p j).card < (backers p c).card := by exact_mod_cast hlt1
  have hlt2 : (Finset.univ.filter fun j => appr p j = appr p i ∧ φ j ∈ appr p j).card < s * seats p W c := by exact_mod_cast hlt2
  -- a voter of the party who is not represented
  obtain ⟨j, hj, hjn⟩ : ∃ j ∈ backers p c, φ j ∉ appr p j := by
    by_contra hcon
    push Not at hcon
    refine absurd hlt1 (not_lt.2 (Finset.card_le_card fun j hj => ?_))
    have h1 := hj
    rw [← hm] at h1
    exact Finset.mem_filter.2 ⟨Finset.mem_univ _, (Finset.mem_filter.1 h1).2, hcon j hj⟩
  -- a member of the party who represents a voter of another party
  obtain ⟨l, hl, hlj⟩ : ∃ l, SameParty p c (φ l) ∧ φ l ∉ appr p l := by
    by_contra hcon
    push Not at hcon
    refine absurd hlt2 (not_lt.2 ?_)
    have h1 : (W.filter (SameParty p c)).biUnion (fun d => Finset.univ.filter fun j => φ j = d) ⊆
        Finset.univ.filter fun j => appr p j = appr p i ∧ φ j ∈ appr p j := by
      intro l hl
      simp only [Finset.mem_biUnion, Finset.mem_filter, Finset.mem_univ, true_and] at hl ⊢
      obtain ⟨d, ⟨-, hd⟩, rfl⟩ := hl
      have h1 := hcon l hd
      have h2 : l ∈ backers p c := Finset.mem_filter.2 ⟨Finset.mem_univ _, (hd l).2 h1⟩
      rw [← hm] at h2
      exact ⟨(Finset.mem_filter.1 h2).2, h1⟩
    have h2 := Finset.card_le_card h1
    rw [Finset.card_biUnion (fun x _ y _ hxy => by
        rw [Function.onFun, Finset.disjoint_left]
        intro a ha hb
        exact hxy ((Finset.mem_filter.1 ha).2.symm.trans (Finset.mem_filter.1 hb).2)),
      Finset.sum_congr rfl (fun d hd => balanced_class hn hk hW h (Finset.mem_filter.1 hd).1), Finset.sum_const, smul_eq_mul] at h2
    rw [mul_comm]
    exact h2
  have hlj' : φ l ∈ appr p j := (hl j).1 (Finset.mem_filter.1 hj).2
  have hne : l ≠ j := by
    rintro rfl
    exact hlj hlj'
  -- they change places
  have hb : Balanced p W (φ ∘ Equiv.swap j l) := by
    refine ⟨fun x => h.1 _, fun d hd => ?_⟩
    have : (Finset.univ.filter fun x => (φ ∘ Equiv.swap j l) x = d) = (Finset.univ.filter fun x => φ x = d).map (Equiv.swap j l).toEmbedding := by
      ext x
      simp only [Finset.mem_filter, Finset.mem_univ, true_and, Function.comp, Finset.mem_map, Equiv.coe_toEmbedding]
      constructor
      · intro hx
        exact ⟨_, hx, Equiv.swap_apply_self _ _ _⟩
      · rintro ⟨y, hy, rfl⟩
        rw [Equiv.swap_apply_self]
        exact hy
    rw [this, Finset.card_map]
    exact h.2 d hd
  have := hopt _ hb
  refine absurd this (not_le.2 ?_)
  unfold represented
  have hsub : insert j (Finset.univ.filter fun x => φ x ∈ appr p x) ⊆ Finset.univ.filter fun x => (φ ∘ Equiv.swap j l) x ∈ appr p x := by
    intro x hx
    rcases Finset.mem_insert.1 hx with rfl | hx
    · simpa using hlj'
    · have hx' := (Finset.mem_filter.1 hx).2
      have h1 : x ≠ j := by rintro rfl; exact hjn hx'
      have h2 : x ≠ l := by rintro rfl; exact hlj hx'
      simp only [Finset.mem_filter, Finset.mem_univ, true_and, Function.comp]
      rw [Equiv.swap_apply_of_ne_of_ne h1 h2]
      exact hx'
  have h2 := Finset.card_le_card hsub
  rw [Finset.card_insert_of_notMem (by simpa using hjn)] at h2
  omega

/-- Monroe's rule elects the committees of largest value. -/
theorem monroe_value {A : Finset ℕ} : MonroeOpt p k A ↔ IsCommittee p k A ∧ ∀ B, IsCommittee p k B → partyValue p s B ≤ partyValue p s A := by
  have best : ∀ B, IsCommittee p k B → ∃ φ, Balanced p B φ ∧ ∀ ψ, Balanced p B ψ → represented p ψ ≤ represented p φ := by
    intro B hB
    have hne : B.Nonempty := Finset.card_pos.1 (by rw [hB.2]; omega)
    obtain ⟨φ, hφ, hmax⟩ := Set.exists_max_image {φ | Balanced p B φ} (represented p)
      (Set.Finite.subset (Set.Finite.pi fun _ => B.finite_toSet) (fun φ hφ => by simpa using hφ.1)) (exists_balanced p B hne)
    exact ⟨φ, hφ, hmax⟩
  constructor
  · rintro ⟨hA, φ, h1, h2⟩
    refine ⟨hA, fun B hB => ?_⟩
    obtain ⟨ψ, h3, h4⟩ := best B hB
    refine (value_le_represented hp hpl hu hn hk hB.2 h3 h4).trans (le_trans ?_ (represented_le_value hp hpl hu hn hk hA.2 h1))
    exact_mod_cast h2 B ψ hB h3
  · rintro ⟨hA, h⟩
    obtain ⟨φ, h1, h2⟩ := best A hA
    refine ⟨hA, φ, h1, fun B ψ hB hψ => ?_⟩
    have := (represented_le_value hp hpl hu hn hk hB.2 hψ).trans ((h B hB).trans (value_le_represented hp hpl hu hn hk hA.2 h1 h2))
    exact_mod_cast this


include hp hpl hu

theorem value_remainders {A : Finset ℕ} :
    (IsCommittee p k A ∧ ∀ B, IsCommittee p k B → partyValue p s B ≤ partyValue p s A) ↔ LargestRemainders p k A := by
  have hk0 : (0 : ℚ) < k := by exact_mod_cast hk
  have ht : total p = k * s := by
    have h1 : total p = (p.voters.length : ℚ) := by
      have := wt_unit (unitWeights_iff.2 hu) (p := p) Finset.univ
      rw [Finset.card_univ, Fintype.card_fin] at this
      exact this
    rw [h1, hn]
    push_cast
    rfl
  have hq : total p / k = s := by
    rw [ht]
    field_simp
  have hs0 : (0 : ℚ) ≤ s := Nat.cast_nonneg s
  unfold LargestRemainders
  rw [hq]
  refine and_congr_right fun hA => ⟨fun h c hc d hd hdA => ?_, fun h B hB => ?_⟩
  · by_cases hcd : SameParty p d c
    · rw [hcd.votes_eq, hcd.seats_eq]
      exact max_le_max le_rfl (by nlinarith)
    have opt : ∀ c ∈ A, ¬ SameParty p d c → min (s : ℚ) (max 0 (votes p d - seats p A d * s))
        ≤ min (s : ℚ) (max 0 (votes p c - ((seats p A c : ℚ) - 1) * s)) := by
      intro c hc hcd
      have hdE : d ∉ A.erase c := fun g => hdA (Finset.mem_of_mem_erase g)
      have h1 := h (insert d (A.erase c)) ⟨fun x hx => by
          rcases Finset.mem_insert.1 hx with rfl | hx
          · exact Finset.mem_range.2 hd
          · exact hA.1 (Finset.mem_of_mem_erase hx),
        by rw [Finset.card_insert_of_notMem hdE, Finset.card_erase_of_mem hc, hA.2]; omega⟩
      have h2 := value_insert hp hpl hu (s := s) hdE
      have h3 := value_insert hp hpl hu (s := s) (Finset.notMem_erase c A)
      rw [Finset.insert_erase hc, claim_eq hs0] at h3
      rw [claim_eq hs0, seats_erase_other hc hcd] at h2
      have h4 : (seats p (A.erase c) c : ℚ) = (seats p A c : ℚ) - 1 := by
        rw [← seats_erase_same hc (SameParty.refl c)]
        push_cast
        ring
      rw [h4] at h3
      linarith
    rcases le_or_gt (max 0 (votes p d - seats p A d * (s : ℚ))) s with hX | hX
    · have := opt c hc hcd
      rw [min_eq_right hX] at this
      exact this.trans (min_le_right _ _)
    · exfalso
      have hX' : (s : ℚ) < votes p d - seats p A d * s := by
        rcases lt_max_iff.1 hX with g | g
        · exact absurd g (not_lt.2 hs0)
        · exact g
      have hvd : 0 < votes p d := by
        have : (0 : ℚ) ≤ seats p A d * s := by positivity
        linarith
      obtain ⟨i0, hi0⟩ := (votes_pos_iff hp).1 hvd
      have hs : (0 : ℚ) < s := by
        have : 0 < k * s := hn ▸ Fin.pos i0
        exact_mod_cast Nat.pos_of_mul_pos_left this
      have all : ∀ c ∈ A, (s : ℚ) * seats p A c ≤ votes p c := by
        intro e he
        by_cases hde : SameParty p d e
        · rw [← hde.votes_eq, ← hde.seats_eq]
          linarith
        · have h1 := opt e he hde
          rw [min_eq_left hX.le] at h1
          have h2 := h1.trans (min_le_right _ _)
          rcases le_max_iff.1 h2 with g | g
          · exact absurd g (not_le.2 hs)
          · linarith
      have hall : ∀ c ∈ A, (backers p c).Nonempty := by
        intro e he
        have h1 : (1 : ℚ) ≤ seats p A e := by exact_mod_cast seats_pos he
        exact (votes_pos_iff hp).1 (by nlinarith [all e he])
      have hsum := sum_share hp hpl A hu
      rw [Finset.filter_true_of_mem hall, hA.2] at hsum
      have hle : ∀ i, share p A i ≤ 1 / s := by
        intro i
        by_cases he : appr p i = ∅
        · rw [share_none he]
          positivity
        · obtain ⟨e, he⟩ := Finset.nonempty_iff_ne_empty.2 he
          have hve : 0 < votes p e := votes_pos hp ⟨i, Finset.mem_filter.2 ⟨Finset.mem_univ _, he⟩⟩
          rw [share_party hpl A he, div_le_div_iff₀ hve hs]
          by_cases hex : ∃ x ∈ A, SameParty p e x
          · obtain ⟨x, hx, hex⟩ := hex
            have := all x hx
            rw [← hex.votes_eq, ← hex.seats_eq] at this
            linarith
          · have : seats p A e = 0 := Finset.card_eq_zero.2 (Finset.filter_false_of_mem fun x hx g => hex ⟨x, hx, g⟩)
            rw [this]
            simp [hve.le]
      have hlt : share p A i0 < 1 / s := by
        rw [share_party hpl A (Finset.mem_filter.1 hi0).2, div_lt_div_iff₀ hvd hs]
        linarith
      have h1 : ∑ i, share p A i < ∑ _i : Fin p.voters.length, (1 : ℚ) / s := Finset.sum_lt_sum (fun i _ => hle i) ⟨i0, Finset.mem_univ _, hlt⟩
      rw [hsum, Finset.sum_const, Finset.card_univ, Fintype.card_fin, hn, nsmul_eq_mul] at h1
      push_cast at h1
      rw [mul_assoc, mul_one_div, div_self hs.ne', mul_one] at h1
      exact lt_irrefl _ h1
  · have hne : A.Nonempty := Finset.card_pos.1 (by rw [hA.2]; omega)
    obtain ⟨c0, hc0, hmin⟩ := Finset.exists_min_image A (fun c => min (s : ℚ) (max 0 (votes p c - ((seats p A c : ℚ) - 1) * s))) hne
    obtain ⟨l, hl⟩ : ∃ l, l = min (s : ℚ) (max 0 (votes p c0 - ((seats p A c0 : ℚ) - 1) * s)) := ⟨_, rfl⟩
    have hl0 : 0 ≤ l := hl ▸ le_min hs0 (le_max_left _ _)
    rw [← sub_nonpos]
    unfold partyValue
    rw [← Finset.sum_sub_distrib]
    have h1 : ∀ i, min 1 ((s : ℚ) * share p B i) - min 1 (s * share p A i) ≤ l * (share p B i - share p A i) := by
      intro i
      by_cases he : appr p i = ∅
      · rw [share_none he, share_none he]
        simp
      · obtain ⟨e, he⟩ := Finset.nonempty_iff_ne_empty.2 he
        have hve : 0 < votes p e := votes_pos hp ⟨i, Finset.mem_filter.2 ⟨Finset.mem_univ _, he⟩⟩
        have hc := concave (v := votes p e) (s := s) (l := l) (a := seats p A e) (b := seats p B e) hs0 hl0
          (fun hab => by
            obtain ⟨d, hd, hed⟩ : ∃ d ∈ B, SameParty p e d ∧ d ∉ A := by
              by_contra hcon
              push Not at hcon
              refine absurd hab (not_lt.2 (Finset.card_le_card fun x hx => ?_))
              obtain ⟨x1, x2⟩ := Finset.mem_filter.1 hx
              exact Finset.mem_filter.2 ⟨hcon x x1 x2, x2⟩
            rw [hl, hed.1.votes_eq, hed.1.seats_eq]
            exact min_le_min le_rfl (h c0 hc0 d (Finset.mem_range.1 (hB.1 hd)) hed.2))
          (fun hba => by
            obtain ⟨d, hd⟩ := Finset.card_pos.1 (show 0 < (A.filter (SameParty p e)).card from lt_of_le_of_lt (Nat.zero_le _) hba)
            obtain ⟨d1, d2⟩ := Finset.mem_filter.1 hd
            rw [hl, d2.votes_eq, d2.seats_eq]
            exact hmin d d1)
        rw [share_party hpl B he, share_party hpl A he, ← sub_div, ← mul_div_assoc l, ← mul_div_assoc, ← mul_div_assoc]
        have e1 : ∀ x : ℚ, min 1 (x / votes p e) = min (votes p e) x / votes p e := by
          intro x
          rw [← min_div_div_right hve.le, div_self hve.ne']
        rw [e1, e1, ← sub_div, div_le_div_iff_of_pos_right hve]
        exact hc
    refine (Finset.sum_le_sum fun i _ => h1 i).trans ?_
    rw [← Finset.mul_sum, Finset.sum_sub_distrib, sum_share hp hpl B hu, sum_share hp hpl A hu]
    by_cases hall : ∀ c ∈ A, (backers p c).Nonempty
    · rw [Finset.filter_true_of_mem hall, hA.2]
      have h2 : (B.filter fun c => (backers p c).Nonempty).card ≤ k := hB.2 ▸ Finset.card_filter_le _ _
      have h2 : ((B.filter fun c => (backers p c).Nonempty).card : ℚ) ≤ k := by exact_mod_cast h2
      nlinarith
    · push Not at hall
      obtain ⟨e, he, hbe⟩ := hall
      have hv : votes p e = 0 := by rw [votes_card hu, hbe]; simp
      have h2 := hmin e he
      rw [hv, ← hl] at h2
      have h3 : (1 : ℚ) ≤ seats p A e := by exact_mod_cast seats_pos he
      rw [max_eq_left (by nlinarith), min_eq_right hs0] at h2
      rw [le_antisymm h2 hl0, zero_mul]

end

/-! ### Greedy Monroe -/

/-- The numbers of voters of every party who are not yet in a district. -/
def GMParty (p : Profile) (s : ℕ) (W : List ℕ) (Ds : List (Group p)) : Prop :=
  ∀ c, (unassigned p Ds ∩ backers p c).card = (backers p c).card - s * seats p W.toFinset c

omit hp hpl hu in
theorem cast_claim (a b s : ℕ) : ((a - s * b : ℕ) : ℚ) = max 0 ((a : ℚ) - (((b + 1 : ℕ) : ℚ) - 1) * s) := by
  have e : ((b + 1 : ℕ) : ℚ) - 1 = b := by push_cast; ring
  rw [e]
  rcases le_total (s * b) a with h | h
  · have h' : ((s * b : ℕ) : ℚ) ≤ a := by exact_mod_cast h
    push_cast at h'
    rw [Nat.cast_sub h, max_eq_right (by linarith)]
    push_cast
    ring
  · have h' : (a : ℚ) ≤ ((s * b : ℕ) : ℚ) := by exact_mod_cast h
    push_cast at h'
    rw [Nat.sub_eq_zero_of_le h, max_eq_left (by linarith)]
    rfl

include hpl in
theorem gmParty_step {k s : ℕ} (hn : p.voters.length = k * s) (hk : 1 ≤ k) {W : List ℕ} {Ds : List (Group p)} (h : GMParty p s W Ds)
    {c : ℕ} (hc : c ∉ W) : GMParty p s (W ++ [c]) (gmUpd p k W Ds c) := by
  have hcF : c ∉ W.toFinset := by simpa using hc
  have e : (W ++ [c]).toFinset = insert c W.toFinset := by ext x; simp [or_comm]
  have hsz : districtSize p.voters.length k W.length = s := by
    unfold districtSize
    rw [hn, Nat.mul_mod_right, if_neg (by omega), Nat.mul_div_cancel_left _ hk]
  intro d
  rw [e]
  unfold gmUpd
  rw [hsz]
  have hU : unassigned p (Ds ++ [firstVoters (unassigned p Ds ∩ backers p c) s])
      = unassigned p Ds \ firstVoters (unassigned p Ds ∩ backers p c) s := by
    ext i
    simp only [unassigned, Finset.mem_filter, Finset.mem_univ, true_and, List.mem_append, List.mem_singleton, Finset.mem_sdiff]
    exact ⟨fun h => ⟨fun D hD => h D (Or.inl hD), h _ (Or.inr rfl)⟩, fun h D hD => hD.elim (h.1 D) (fun hD => hD ▸ h.2)⟩
  rw [hU]
  by_cases hdc : SameParty p d c
  · have hb : backers p d = backers p c := Finset.filter_congr fun i _ => hdc i
    rw [seats_insert_same hcF hdc, hdc.seats_eq, hb]
    have hS := h c
    have e2 : (unassigned p Ds \ firstVoters (unassigned p Ds ∩ backers p c) s) ∩ backers p c
        = (unassigned p Ds ∩ backers p c) \ firstVoters (unassigned p Ds ∩ backers p c) s := by
      ext i
      simp only [Finset.mem_inter, Finset.mem_sdiff]
      tauto
    rw [e2, Finset.card_sdiff_of_subset (firstVoters_subset _ _), hS, Nat.mul_add, mul_one]
    have h1 : (firstVoters (unassigned p Ds ∩ backers p c) s).card = min s ((backers p c).card - s * seats p W.toFinset c) := by
      rw [← hS]
      rcases le_or_gt s (unassigned p Ds ∩ backers p c).card with g | g
      · rw [min_eq_left g, firstVoters_card _ _ g]
      · have := Finset.card_le_card (Finset.filter_subset (fun i => ((unassigned p Ds ∩ backers p c).filter (fun j => j < i)).card < s) (unassigned p Ds ∩ backers p c))
        rw [min_eq_right g.le, firstVoters_eq_of_card (lt_of_le_of_lt this g)]
    rw [h1]
    omega
  · rw [seats_insert_other hdc, ← h d]
    congr 1
    ext i
    simp only [Finset.mem_inter, Finset.mem_sdiff]
    refine ⟨fun g => ⟨g.1.1, g.2⟩, fun g => ⟨⟨g.1, fun hi => hdc ?_⟩, g.2⟩⟩
    have hi' := (Finset.mem_inter.1 (Finset.filter_subset _ _ hi)).2
    exact sameParty_of_common hpl (Finset.mem_filter.1 g.2).2 (Finset.mem_filter.1 hi').2

include hp hpl hu in
/-- Greedy Monroe can elect exactly the committees of the method of largest remainders. -/
theorem greedyMonroe_remainders {k s : ℕ} (hn : p.voters.length = k * s) (hk : 1 ≤ k) {A : Finset ℕ} :
    RunWinner (GMBest p) (gmUpd p k) [] k A ↔ LargestRemainders p k A := by
  have hk0 : (0 : ℚ) < k := by exact_mod_cast hk
  have hq : total p / k = s := by
    have h1 : total p = (p.voters.length : ℚ) := by
      have := wt_unit (unitWeights_iff.2 hu) (p := p) Finset.univ
      rw [Finset.card_univ, Fintype.card_fin] at this
      exact this
    rw [h1, hn]
    push_cast
    field_simp
  have hs0 : (0 : ℚ) ≤ s := Nat.cast_nonneg s
  have key := runWinner_seat (p := p) (g := fun c j => max 0 (votes p c - ((j : ℚ) - 1) * s)) (Best := GMBest p) (upd := gmUpd p k)
    (s₀ := []) (fun c d h j => by rw [h.votes_eq])
    (fun c j _ => by
      refine max_le_max le_rfl (sub_le_sub_left (mul_le_mul_of_nonneg_right ?_ hs0) _)
      push_cast
      linarith)
    (GMParty p s)
    (fun c => by simp [seats, unassigned])
    (fun W Ds c h => by
      unfold GMBest
      refine and_congr_right fun _ => and_congr_right fun _ => forall₃_congr fun d _ _ => ?_
      rw [h d, h c, votes_card hu, votes_card hu, ← cast_claim, ← cast_claim]
      exact Nat.cast_le.symm)
    (fun W Ds c h hb => gmParty_step hpl hn hk h hb.2.1) (k := k) (A := A)
  rw [key]
  unfold SeatOutcome LargestRemainders
  rw [hq]
  refine and_congr_right fun _ => forall₂_congr fun c hc => forall₃_congr fun d _ _ => ?_
  have e : ((seats p A d + 1 : ℕ) : ℚ) - 1 = seats p A d := by push_cast; ring
  dsimp only
  rw [e]

end

/-! ### The theorems -/

section
variable (w : World) (hw : w.Exact) (p : Profile) (hp : p.WF) (hpl : p.isPartyList = true) (hu : ∀ v ∈ p.voters, v.weight = 1)
  (a : Args) {alg : String} (hdiv : a.k ∣ p.voters.length)
include hw hp hpl hu hdiv

/-- **C97** On party lists Monroe's rule elects exactly the committees of the method of largest remainders, provided all weights are 1
and the committee size divides the number of voters. -/
theorem C97_monroe (hal : prologue w.env "monroe" p a = .ok alg) :
    Answers a (compute w "monroe" p a.committeesize none a.kw) (LargestRemainders p a.k) := by
  obtain ⟨s, hn⟩ := hdiv
  have hpl' := (C06_isPartyList_iff p hp).1 hpl
  have hk : 1 ≤ a.k := (validCall_of_prologue hal).pos
  exact answers_of_iff (fun W => (monroe_value hp hpl' hu hn hk).trans (value_remainders hp hpl' hu hn hk))
    (C31_compute w hw p hp a _ alg hal (.monroe hu))

/-- **C97** … and so does greedy Monroe (which always returns one committee). -/
theorem C97_greedy_monroe (hal : prologue w.env "greedy-monroe" p a = .ok alg) :
    Answers a (compute w "greedy-monroe" p a.committeesize none a.kw) (LargestRemainders p a.k) := by
  obtain ⟨s, hn⟩ := hdiv
  have hpl' := (C06_isPartyList_iff p hp).1 hpl
  have hk : 1 ≤ a.k := (validCall_of_prologue hal).pos
  exact answers_of_iff (fun W => greedyMonroe_remainders hp hpl' hu hn hk)
    (C31_compute w hw p hp a _ alg hal (.greedyMonroe hu))

end

/-! ### Non-vacuity -/

/-- Nine voters in three parties; three seats. -/
def unitParties : Profile :=
  ⟨6, [⟨[0, 1], 1⟩, ⟨[1, 0], 1⟩, ⟨[0, 1], 1⟩, ⟨[0, 1], 1⟩, ⟨[0, 1], 1⟩, ⟨[2, 3], 1⟩, ⟨[2, 3], 1⟩, ⟨[2, 3], 1⟩, ⟨[4], 1⟩], []⟩

theorem unitParties_wf : unitParties.WF := ⟨by decide, by decide, by decide, by decide +kernel⟩

theorem unitParties_partyList : unitParties.isPartyList = true := by decide +kernel

/-- The quota is 3: the large party gets a second seat for a remainder of 2 votes, the party of candidate 4 nothing for its one vote. -/
example : LargestRemainders unitParties 3 {0, 1, 2} ∧ ¬ LargestRemainders unitParties 3 {0, 2, 4} := by
  constructor
  · exact ⟨⟨by decide +kernel, by decide +kernel⟩, by decide +kernel⟩
  · rintro ⟨-, h⟩
    exact absurd (h 4 (by decide) 1 (by decide) (by decide)) (by decide +kernel)

example (w : World) (hw : w.env = exampleEnv) :
    prologue w.env "monroe" unitParties { committeesize := 3, algorithm := "brute-force", resolute := false } = .ok "brute-force" ∧
    prologue w.env "greedy-monroe" unitParties { committeesize := 3, resolute := true } = .ok "standard" ∧
    (∀ v ∈ unitParties.voters, v.weight = 1) ∧ 3 ∣ unitParties.voters.length :=
  ⟨by rw [hw]; decide +kernel, by rw [hw]; decide +kernel, by decide +kernel, by decide⟩

end Abc
