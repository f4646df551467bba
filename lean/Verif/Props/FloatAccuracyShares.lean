import Verif.Props.FloatAccuracyEph
import Verif.Lemmas.Signed
import Mathlib.Algebra.Order.Group.MinMax

/-!
# C94: when Equal Shares with "float-fractions" gives the exact result
-/

namespace Abc
open Spec

/-- What the members of `L` pay per unit of weight if the members of `M` pay all they have and they all pay 1 together. -/
def Spec.share (p : Profile) (x : VoterMap p) (L M : Group p) : ℚ := (1 - ∑ i ∈ M, x i) / wt p L

/-- Different shares differ by at least 2 · 10⁻¹², and a voter who cannot pay a share misses it by at least that much per unit of
weight. -/
structure Spec.SharesApart (p : Profile) (x : VoterMap p) : Prop where
  shares : ∀ L M L' M' : Group p, 0 < wt p L → 0 < wt p L' → share p x L M < share p x L' M' →
    share p x L M + 2 / 10 ^ 12 ≤ share p x L' M'
  poor : ∀ (L M : Group p) (i : Fin p.voters.length), 0 < wt p L → x i < share p x L M * (p.voters.get i).weight →
    x i + 2 / 10 ^ 12 * (p.voters.get i).weight ≤ share p x L M * (p.voters.get i).weight

section exact
variable {p : Profile}

theorem wt_pos_of_nonempty (hp : p.WF) {L : Group p} (h : L.Nonempty) : 0 < wt p L :=
  Finset.sum_pos (fun i _ => weight_pos hp i) h

theorem share_mul (x : VoterMap p) {L M : Group p} (h : 0 < wt p L) : share p x L M * wt p L = 1 - ∑ i ∈ M, x i := by
  unfold share; field_simp

/-- Moving those who cannot pay the share from `L` to `M` makes the share larger. -/
theorem share_lt (x : VoterMap p) {L M : Group p} (hd : Disjoint L M) (h : 0 < wt p L)
    (hN : (L.filter (fun i => x i < share p x L M * (p.voters.get i).weight)).Nonempty) :
    share p x L M * wt p (L.filter (fun i => ¬ x i < share p x L M * (p.voters.get i).weight)) <
      1 - ∑ i ∈ M ∪ L.filter (fun i => x i < share p x L M * (p.voters.get i).weight), x i := by
  set q := share p x L M with hq
  have h1 : wt p (L.filter (fun i => x i < q * (p.voters.get i).weight)) +
      wt p (L.filter (fun i => ¬ x i < q * (p.voters.get i).weight)) = wt p L := Finset.sum_filter_add_sum_filter_not _ _ _
  have h2 : ∑ i ∈ L.filter (fun i => x i < q * (p.voters.get i).weight), x i <
      q * wt p (L.filter (fun i => x i < q * (p.voters.get i).weight)) := by
    unfold wt
    rw [Finset.mul_sum]
    exact Finset.sum_lt_sum_of_nonempty hN (fun i hi => (Finset.mem_filter.1 hi).2)
  have h3 := share_mul x (M := M) h
  rw [← hq] at h3
  rw [Finset.sum_union (Finset.disjoint_of_subset_right (Finset.filter_subset _ _) hd.symm)]
  rw [← h1] at h3
  linarith

end exact

section
variable {F : Type} {A : Arith F}

/-- One price computation makes at most this error (relative to the share of the voters). -/
def priceError (p : Profile) : ℚ := (10 * p.voters.length + 28) / 2 ^ 53

/-- The float budgets `y` are close to the exact ones `x`, and the latter are well separated. -/
structure CloseBudgets (A : Arith F) (p : Profile) (y : Fin p.voters.length → F) (x : VoterMap p) (E : ℚ) : Prop where
  float0 : ∀ i, 0 ≤ A.val (y i)
  exact0 : ∀ i, 0 ≤ x i
  error : ∑ i, |A.val (y i) - x i| ≤ E
  small : E + priceError p ≤ 4 / 10 ^ 13
  apart : SharesApart p x

variable {p : Profile} {y : Fin p.voters.length → F} {x : VoterMap p} {E : ℚ}

/-- the error of a group -/
def groupError (A : Arith F) (p : Profile) (y : Fin p.voters.length → F) (x : VoterMap p) (M : Group p) : ℚ :=
  ∑ i ∈ M, |A.val (y i) - x i|

theorem groupError_nonneg (M : Group p) : 0 ≤ groupError A p y x M := Finset.sum_nonneg (fun _ _ => abs_nonneg _)

theorem CloseBudgets.group (h : CloseBudgets A p y x E) (M : Group p) : groupError A p y x M ≤ E :=
  (Finset.sum_le_univ_sum_of_nonneg (fun _ => abs_nonneg _)).trans h.error

theorem CloseBudgets.voter (h : CloseBudgets A p y x E) (i : Fin p.voters.length) : |A.val (y i) - x i| ≤ E := by
  have := h.group {i}
  simpa [groupError] using this

theorem CloseBudgets.nonneg (h : CloseBudgets A p y x E) : 0 ≤ E := (Finset.sum_nonneg (fun _ _ => abs_nonneg _)).trans h.error

theorem priceError_nonneg : 0 ≤ priceError p := by unfold priceError; positivity

theorem CloseBudgets.few (h : CloseBudgets A p y x E) : (p.voters.length : ℚ) ≤ 400 := by
  have h1 := h.small
  have h2 := h.nonneg
  unfold priceError at h1
  have h3 : (10 * (p.voters.length : ℚ) + 28) / 2 ^ 53 ≤ 4 / 10 ^ 13 := by linarith
  rw [div_le_div_iff₀ (by norm_num) (by norm_num)] at h3
  norm_num at h3
  linarith

/-- The entries of the voters in a list. -/
def entries {β : Type} (p : Profile) (y : Fin p.voters.length → β) (L : List (Fin p.voters.length)) : List (Voter × β) :=
  L.map (fun i => (p.voters.get i, y i))

theorem entries_voters_sublist {β : Type} (p : Profile) (y : Fin p.voters.length → β) {L : List (Fin p.voters.length)}
    (h : L.Sublist (List.finRange p.voters.length)) : ((entries p y L).map Prod.fst).Sublist p.voters := by
  unfold entries
  rw [List.map_map]
  have := h.map p.voters.get
  rwa [← List.ofFn_eq_map, List.ofFn_get] at this

/-- the quotient computed by the program -/
def fShare (A : Arith F) (ord : List (Voter × F) → List (Voter × F)) (rich poor : List (Voter × F)) : F :=
  A.div (A.sub (A.int 1) (A.sum ((ord poor).map Prod.snd))) (A.sum ((ord rich).map (fun vb => A.weight vb.1.weight)))

/-- what is known about a computed price -/
structure PriceClose (A : Arith F) (p : Profile) (y : Fin p.voters.length → F) (x : VoterMap p) (L M : Group p) (q : F) : Prop where
  pos : 0 < wt p L
  rest : 2 / 10 ^ 12 ≤ 1 - ∑ i ∈ M, x i
  nonneg : 0 ≤ A.val q
  le : A.val q * wt p L ≤ 2
  error : |A.val q - share p x L M| * wt p L ≤ groupError A p y x M + (10 * p.voters.length + 20) / 2 ^ 53

theorem fShare_close (hA : Sound A) (hS : SignedAccurate A) {ord : List (Voter × F) → List (Voter × F)} (hord : Rearranges ord)
    (hp : p.WF) {k : ℕ} (hm : Moderate p k) (h : CloseBudgets A p y x E) {L M : List (Fin p.voters.length)}
    (hL : L.Sublist (List.finRange p.voters.length)) (hne : L ≠ []) (hM : M.Nodup)
    (hrest : 2 / 10 ^ 12 ≤ 1 - ∑ i ∈ M.toFinset, x i) :
    A.val (A.sum ((ord (entries p y L)).map (fun vb => A.weight vb.1.weight))) ≠ 0 ∧
    PriceClose A p y x L.toFinset M.toFinset (fShare A ord (entries p y L) (entries p y M)) := by
  have hLn : L.Nodup := hL.nodup (List.nodup_finRange _)
  have hpos : 0 < wt p L.toFinset := wt_pos_of_nonempty hp (by
    obtain ⟨i, hi⟩ := List.exists_mem_of_ne_nil L hne
    exact ⟨i, by simpa using hi⟩)
  -- the weight of the rich voters
  have hR : A.val (A.sum ((ord (entries p y L)).map (fun vb => A.weight vb.1.weight))) = wt p L.toFinset := by
    have h1 := sum_weights_perm hA hm ((ord (entries p y L)).map Prod.fst) ((entries p y L).map Prod.fst) ((hord _).map _)
      (entries_voters_sublist p y hL)
    rw [List.map_map] at h1
    have h2 := (num_sum hm ((entries p y L).map Prod.fst) (entries_voters_sublist p y hL)).1
    rw [h2] at h1
    refine h1.trans ?_
    unfold entries wt
    rw [List.map_map, List.map_map, List.sum_toFinset _ hLn]
    rfl
  -- the budgets of the poor voters
  set S := ∑ i ∈ M.toFinset, x i with hSd
  set Sy := ∑ i ∈ M.toFinset, A.val (y i) with hSy
  have hS0 : 0 ≤ S := Finset.sum_nonneg (fun i _ => h.exact0 i)
  have hSy0 : 0 ≤ Sy := Finset.sum_nonneg (fun i _ => h.float0 i)
  have hG := h.group M.toFinset
  have hG0 := groupError_nonneg (A := A) (y := y) (x := x) M.toFinset
  set G := groupError A p y x M.toFinset with hGd
  have hSS : |Sy - S| ≤ G := by
    rw [hSy, hSd, ← Finset.sum_sub_distrib]
    exact Finset.abs_sum_le_sum_abs _ _
  set St := A.val (A.sum ((ord (entries p y M)).map Prod.snd)) with hSt
  have hMlen : M.length ≤ p.voters.length := by
    have := List.Nodup.length_le_card hM
    simpa using this
  have hn := h.few
  have hsum : |St - Sy| ≤ 5 * p.voters.length / 2 ^ 53 * Sy := by
    have hperm : ((ord (entries p y M)).map Prod.snd).Perm (M.map y) := by
      have := (hord (entries p y M)).map Prod.snd
      unfold entries at this ⊢
      rwa [List.map_map (l := M)] at this
    have h1 := hS.sum ((ord (entries p y M)).map Prod.snd) (by
      rw [hperm.length_eq, List.length_map]
      have : p.voters.length ≤ 400 := by exact_mod_cast hn
      omega)
    rw [(hperm.map A.val).sum_eq, (hperm.map (fun z => |A.val z|)).sum_eq, hperm.length_eq, List.length_map, List.map_map, List.map_map]
      at h1
    have e1 : (M.map (A.val ∘ y)).sum = Sy := (List.sum_toFinset (A.val ∘ y) hM).symm
    have e2 : (M.map ((fun z => |A.val z|) ∘ y)).sum = Sy := by
      rw [← e1]
      congr 1
      refine List.map_congr_left (fun i _ => ?_)
      simp only [Function.comp, abs_of_nonneg (h.float0 i)]
    rw [e1, e2] at h1
    refine h1.trans ?_
    gcongr
  have hκ := h.small
  have hE0 := h.nonneg
  have hGs : G ≤ 4 / 10 ^ 13 := by have := priceError_nonneg (p := p); linarith
  have habs := abs_le.1 hSS
  have hSy2 : Sy ≤ 3 / 2 := by
    norm_num at hGs hrest
    linarith [habs.2]
  have hsum' : |St - Sy| ≤ 8 * p.voters.length / 2 ^ 53 := by
    refine hsum.trans ?_
    have : 5 * (p.voters.length : ℚ) / 2 ^ 53 * Sy ≤ 5 * (p.voters.length : ℚ) / 2 ^ 53 * (3 / 2) := by gcongr
    refine this.trans ?_
    have : (0 : ℚ) ≤ p.voters.length := by positivity
    norm_num
    linarith
  have hsabs := abs_le.1 hsum'
  have hnn : (0 : ℚ) ≤ p.voters.length := by positivity
  have hSt2 : |St| ≤ 7 / 4 := by
    rw [abs_le]
    constructor <;> (norm_num at hsabs ⊢; linarith [hsabs.1, hsabs.2])
  -- the difference
  have hX := hS.sub (A.int 1) (A.sum ((ord (entries p y M)).map Prod.snd))
  rw [hA.val_int, ← hSt] at hX
  set X := A.val (A.sub (A.int 1) (A.sum ((ord (entries p y M)).map Prod.snd))) with hXd
  have hXe : |X - (1 - S)| ≤ G + (8 * p.voters.length + 11) / 2 ^ 53 := by
    rw [show X - (1 - S) = (X - ((1 : ℤ) - St)) + (-(St - Sy)) + (-(Sy - S)) by push_cast; ring]
    refine (abs_add_three _ _ _).trans ?_
    rw [abs_neg, abs_neg]
    have h4 : (4 : ℚ) / 2 ^ 53 * (|((1 : ℤ) : ℚ)| + |St|) ≤ 4 / 2 ^ 53 * (1 + 7 / 4) := by
      gcongr
      simp
    have e : G + (8 * (p.voters.length : ℚ) + 11) / 2 ^ 53 = 4 / 2 ^ 53 * (1 + 7 / 4) + 8 * p.voters.length / 2 ^ 53 + G := by ring
    rw [e]
    exact add_le_add (add_le_add (hX.trans h4) hsum') hSS
  have hprice : priceError p = (10 * p.voters.length + 28) / 2 ^ 53 := rfl
  have hsm : G + (8 * (p.voters.length : ℚ) + 11) / 2 ^ 53 ≤ 4 / 10 ^ 13 := by
    rw [hprice] at hκ
    have : (8 * (p.voters.length : ℚ) + 11) / 2 ^ 53 ≤ (10 * p.voters.length + 28) / 2 ^ 53 := by gcongr <;> norm_num
    linarith
  have hXabs := abs_le.1 (hXe.trans hsm)
  have hX0 : 0 ≤ X := by
    norm_num at hrest hXabs
    linarith [hXabs.1]
  have hX2 : X ≤ 3 / 2 := by
    norm_num at hXabs
    linarith [hXabs.2]
  have hdiv := hS.div (A.sub (A.int 1) (A.sum ((ord (entries p y M)).map Prod.snd)))
    (A.sum ((ord (entries p y L)).map (fun vb => A.weight vb.1.weight))) (by rw [hR]; exact hpos.ne')
  rw [hR, ← hXd] at hdiv
  change |A.val (fShare A ord (entries p y L) (entries p y M)) - X / wt p L.toFinset| ≤ _ at hdiv
  set q := fShare A ord (entries p y L) (entries p y M) with hq
  have hq0 : 0 ≤ A.val q := hA.div_nonneg _ _ hX0 (by rw [hR]; exact hpos)
  rw [abs_of_nonneg (div_nonneg hX0 hpos.le)] at hdiv
  have hqX : |A.val q * wt p L.toFinset - X| ≤ 6 / 2 ^ 53 := by
    have := mul_le_mul_of_nonneg_right hdiv hpos.le
    rw [← abs_of_pos hpos, ← abs_mul, abs_of_pos hpos, sub_mul, div_mul_cancel₀ _ hpos.ne', mul_assoc, div_mul_cancel₀ _ hpos.ne'] at this
    refine this.trans ?_
    norm_num
    linarith
  refine ⟨by rw [hR]; exact hpos.ne', hpos, hrest, hq0, ?_, ?_⟩
  · have := (abs_le.1 hqX).2
    norm_num at this ⊢
    linarith
  · have e0 : |A.val q - share p x L.toFinset M.toFinset| * wt p L.toFinset = |A.val q * wt p L.toFinset - (1 - S)| := by
      rw [hSd, ← share_mul x (M := M.toFinset) hpos, ← sub_mul, abs_mul, abs_of_pos hpos]
    rw [e0]
    rw [show A.val q * wt p L.toFinset - (1 - S) = (A.val q * wt p L.toFinset - X) + (X - (1 - S)) by ring]
    refine (abs_add_le _ _).trans ?_
    refine (add_le_add hqX hXe).trans ?_
    have e : 6 / 2 ^ 53 + (G + (8 * (p.voters.length : ℚ) + 11) / 2 ^ 53) = G + (8 * p.voters.length + 17) / 2 ^ 53 := by ring
    rw [e]
    gcongr
    · norm_num
    · norm_num

/-! ## The test for poor voters -/

theorem weight_ge_one (hp : p.WF) {k : ℕ} (hm : Moderate p k) (i : Fin p.voters.length) : 1 ≤ (p.voters.get i).weight := by
  obtain ⟨n, hn⟩ := hm.integer _ (List.get_mem p.voters i)
  have := weight_pos hp i
  rw [hn] at this ⊢
  exact_mod_cast this

theorem weight_le_wt (hp : p.WF) {L : Group p} {i : Fin p.voters.length} (hi : i ∈ L) : (p.voters.get i).weight ≤ wt p L :=
  Finset.single_le_sum (f := fun j => (p.voters.get j).weight) (fun j _ => (weight_pos hp j).le) hi

/-- The computed payment of a voter. -/
theorem PriceClose.payment (hA : Sound A) (hS : SignedAccurate A) (hp : p.WF) {L M : Group p} {q : F}
    (h : PriceClose A p y x L M q) (i : Fin p.voters.length) :
    0 ≤ A.val (A.mul q (A.weight (p.voters.get i).weight)) ∧
    |A.val (A.mul q (A.weight (p.voters.get i).weight)) - share p x L M * (p.voters.get i).weight| * wt p L ≤
      (p.voters.get i).weight * (groupError A p y x M + priceError p) := by
  have hw := weight_pos hp i
  have h1 := hS.mul q (A.weight (p.voters.get i).weight)
  rw [hA.val_weight] at h1
  set w := (p.voters.get i).weight with hwd
  set g := A.val (A.mul q (A.weight w)) with hg
  have hqw : 0 ≤ A.val q * w := mul_nonneg h.nonneg hw.le
  rw [abs_of_nonneg hqw] at h1
  constructor
  · have := (abs_le.1 h1).1
    norm_num at this
    linarith
  · have e1 : |g - share p x L M * w| ≤ |g - A.val q * w| + |A.val q - share p x L M| * w := by
      have : g - share p x L M * w = (g - A.val q * w) + (A.val q - share p x L M) * w := by ring
      rw [this]
      refine (abs_add_le _ _).trans ?_
      rw [abs_mul, abs_of_pos hw]
    have e2 := mul_le_mul_of_nonneg_right (e1.trans (add_le_add_left h1 _)) h.pos.le
    have e3 : (4 / 2 ^ 53 * (A.val q * w) + |A.val q - share p x L M| * w) * wt p L
        = w * (4 / 2 ^ 53 * (A.val q * wt p L) + |A.val q - share p x L M| * wt p L) := by ring
    refine e2.trans ((le_of_eq e3).trans ?_)
    refine mul_le_mul_of_nonneg_left ?_ hw.le
    have h2 := h.le
    have h3 := h.error
    unfold priceError
    have e4 : (4 : ℚ) / 2 ^ 53 * (A.val q * wt p L) ≤ 8 / 2 ^ 53 := by
      norm_num
      linarith
    have e5 : groupError A p y x M + (10 * (p.voters.length : ℚ) + 28) / 2 ^ 53 =
      8 / 2 ^ 53 + (groupError A p y x M + (10 * (p.voters.length : ℚ) + 20) / 2 ^ 53) := by ring
    rw [e5]
    exact add_le_add e4 h3

/-- … of a member of `L`. -/
theorem PriceClose.payment_member (hA : Sound A) (hS : SignedAccurate A) (hp : p.WF) (hC : CloseBudgets A p y x E) {L M : Group p} {q : F}
    (h : PriceClose A p y x L M q) {i : Fin p.voters.length} (hi : i ∈ L) :
    |A.val (A.mul q (A.weight (p.voters.get i).weight)) - share p x L M * (p.voters.get i).weight| ≤ E + priceError p ∧
    share p x L M * (p.voters.get i).weight ≤ 1 ∧ 0 ≤ share p x L M := by
  have hpos := h.pos
  have hle := weight_le_wt hp hi
  have hG := hC.group M
  have hshare : 0 ≤ share p x L M := div_nonneg (by have := h.rest; norm_num at this; linarith) hpos.le
  refine ⟨?_, ?_, hshare⟩
  · have h1 := (h.payment hA hS hp i).2
    have h2 : (p.voters.get i).weight * (groupError A p y x M + priceError p) ≤ wt p L * (E + priceError p) := by
      have := groupError_nonneg (A := A) (y := y) (x := x) M
      have := priceError_nonneg (p := p)
      gcongr
    have h3 := h1.trans h2
    rw [mul_comm (wt p L)] at h3
    exact le_of_mul_le_mul_right h3 hpos
  · calc share p x L M * (p.voters.get i).weight ≤ share p x L M * wt p L := mul_le_mul_of_nonneg_left hle hshare
      _ = 1 - ∑ i ∈ M, x i := share_mul x hpos
      _ ≤ 1 := by
        have : 0 ≤ ∑ i ∈ M, x i := Finset.sum_nonneg (fun i _ => hC.exact0 i)
        linarith

/-- Floats and fractions agree on who cannot pay. -/
theorem fPoor_eq (hA : Sound A) (hS : SignedAccurate A) (hAc : Accurate A) (hp : p.WF) {k : ℕ} (hm : Moderate p k)
    (hC : CloseBudgets A p y x E) {L M : Group p} {q : F} (h : PriceClose A p y x L M q) {i : Fin p.voters.length} (hi : i ∈ L) :
    fPoor A q (p.voters.get i, y i) = decide (x i < share p x L M * (p.voters.get i).weight) := by
  obtain ⟨g1, g2, -⟩ := h.payment_member hA hS hp hC hi
  have g0 := (h.payment hA hS hp i).1
  have hy := hC.voter i
  have hy0 := hC.float0 i
  have hsm := hC.small
  have hpe := priceError_nonneg (p := p)
  have hE := hC.nonneg
  have hw1 := weight_ge_one hp hm i
  unfold fPoor
  simp only
  set w := (p.voters.get i).weight with hw
  set g := A.mul q (A.weight w) with hg
  have a1 := abs_le.1 g1
  have a2 := abs_le.1 hy
  by_cases hlt : x i < share p x L M * w
  · have hgap : x i + 2 / 10 ^ 12 * w ≤ share p x L M * w := hC.apart.poor L M i h.pos hlt
    rw [decide_eq_true hlt]
    have hge : (2 : ℚ) / 10 ^ 12 ≤ 2 / 10 ^ 12 * w := le_mul_of_one_le_right (by norm_num) hw1
    have hdiff : 12 / 10 ^ 13 ≤ A.val g - A.val (y i) := by
      norm_num at hgap hge hsm ⊢
      linarith [a1.1, a2.2]
    have hlt' : A.val (y i) < A.val g := by norm_num at hdiff; linarith
    have hg2 : A.val g ≤ 101 / 100 := by norm_num at hsm; linarith [a1.2]
    have hclose : A.isclose (y i) g = false := by
      refine hAc.isclose_false _ _ hy0 g0 ?_
      rw [abs_sub_comm, abs_of_nonneg (by linarith)]
      have hmax : max 1 (max (A.val (y i)) (A.val g)) ≤ 101 / 100 := max_le (by norm_num) (max_le (by linarith) hg2)
      have := mul_le_mul_of_nonneg_left hmax (show (0 : ℚ) ≤ 11 / 10 ^ 13 by norm_num)
      refine this.trans_lt ?_
      norm_num at hdiff ⊢
      linarith
    rw [hclose, decide_eq_true hlt']
    rfl
  · rw [decide_eq_false hlt]
    by_cases hlt' : A.val (y i) < A.val g
    · have hclose : A.isclose (y i) g = true := by
        refine hAc.isclose_true _ _ hy0 g0 ?_
        rw [abs_sub_comm, abs_of_nonneg (by linarith)]
        have h1 : A.val g - A.val (y i) ≤ 8 / 10 ^ 13 := by
          rw [not_lt] at hlt
          norm_num at hsm ⊢
          linarith [a1.2, a2.1]
        have h2 : (9 : ℚ) / 10 ^ 13 ≤ 9 / 10 ^ 13 * max 1 (max (A.val (y i)) (A.val g)) :=
          le_mul_of_one_le_right (by norm_num) (le_max_left _ _)
        exact (h1.trans (by norm_num)).trans h2
      rw [hclose]
      simp
    · rw [decide_eq_false hlt']
      rfl

/-! ## The price loop -/

/-- the entries with exact budgets: the quotient -/
theorem exactShare_eq {L M : List (Fin p.voters.length)} (hL : L.Nodup) (hM : M.Nodup) :
    (1 - ((entries p x M).map Prod.snd).sum) / ((entries p x L).map (fun vb => vb.1.weight)).sum = share p x L.toFinset M.toFinset := by
  unfold share wt entries
  rw [List.map_map, List.map_map, List.sum_toFinset _ hL, List.sum_toFinset _ hM]
  rfl

theorem entries_filter {β : Type} (y : Fin p.voters.length → β) (L : List (Fin p.voters.length)) (P : Voter × β → Bool)
    (Q : Fin p.voters.length → Bool) (h : ∀ i ∈ L, P (p.voters.get i, y i) = Q i) :
    (entries p y L).filter P = entries p y (L.filter Q) := by
  unfold entries
  rw [List.filter_map]
  congr 1
  refine List.filter_congr ?_
  intro i hi
  exact h i hi

/-- Floats and fractions make the same decisions in the computation of a price. -/
theorem fMinQLoop_sim (hA : Sound A) (hS : SignedAccurate A) (hAc : Accurate A) {ord : List (Voter × F) → List (Voter × F)}
    (hord : Rearranges ord) (hp : p.WF) {k : ℕ} (hm : Moderate p k) (hC : CloseBudgets A p y x E) (fuel : ℕ)
    (L M : List (Fin p.voters.length)) (hf : L.length < fuel) (hL : L.Sublist (List.finRange p.voters.length)) (hM : M.Nodup)
    (hd : Disjoint L.toFinset M.toFinset)
    (hinv : L ≠ [] → ∀ i ∈ M, x i + 2 / 10 ^ 12 * (p.voters.get i).weight ≤ share p x L.toFinset M.toFinset * (p.voters.get i).weight) :
    (fMinQLoop A ord fuel (entries p y L) (entries p y M) = .ok none ∧ minQLoop fuel (entries p x L) (entries p x M) = .ok none) ∨
    ∃ q L' M', fMinQLoop A ord fuel (entries p y L) (entries p y M) = .ok (some q) ∧
      minQLoop fuel (entries p x L) (entries p x M) = .ok (some (share p x L' M')) ∧ PriceClose A p y x L' M' q ∧ Disjoint L' M' ∧
      L' ∪ M' = L.toFinset ∪ M.toFinset ∧ (∀ i ∈ L', share p x L' M' * (p.voters.get i).weight ≤ x i) ∧
      ∀ i ∈ M', x i + 2 / 10 ^ 12 * (p.voters.get i).weight ≤ share p x L' M' * (p.voters.get i).weight := by
  induction fuel generalizing L M with
  | zero => omega
  | succ fuel ih =>
    unfold fMinQLoop minQLoop
    have hlenF : (entries p y L).length = L.length := by simp [entries]
    have hlenE : (entries p x L).length = L.length := by simp [entries]
    rw [hlenF, hlenE]
    by_cases h0 : L = []
    · left
      rw [if_pos (by simp [h0]), if_pos (by simp [h0])]
      exact ⟨rfl, rfl⟩
    · have hl0 : L.length ≠ 0 := by simpa using h0
      rw [if_neg hl0, if_neg hl0]
      have hLn : L.Nodup := hL.nodup (List.nodup_finRange _)
      have hpos : 0 < wt p L.toFinset := wt_pos_of_nonempty hp (by
        obtain ⟨i, hi⟩ := List.exists_mem_of_ne_nil L h0
        exact ⟨i, by simpa using hi⟩)
      have hw1 : 1 ≤ wt p L.toFinset := by
        obtain ⟨i, hi⟩ := List.exists_mem_of_ne_nil L h0
        exact (weight_ge_one hp hm i).trans (weight_le_wt hp (by simpa using hi))
      have hrest : 2 / 10 ^ 12 ≤ 1 - ∑ i ∈ M.toFinset, x i := by
        by_cases hM0 : M = []
        · rw [hM0]; norm_num
        · obtain ⟨i, hi⟩ := List.exists_mem_of_ne_nil M hM0
          have h1 := hinv h0 i hi
          have h2 := hC.exact0 i
          have h3 : 2 / 10 ^ 12 ≤ share p x L.toFinset M.toFinset := by
            refine le_of_mul_le_mul_right ?_ (weight_pos hp i)
            linarith
          rw [← share_mul x hpos]
          calc (2 : ℚ) / 10 ^ 12 ≤ share p x L.toFinset M.toFinset := h3
            _ ≤ _ := le_mul_of_one_le_right (le_trans (by norm_num) h3) hw1
      obtain ⟨c1, c2⟩ := fShare_close hA hS hord hp hm hC hL h0 hM hrest
      simp only [Arith.pyDiv, if_neg c1, bind, Except.bind]
      rw [exactShare_eq hLn hM]
      have hqe : A.div (A.sub (A.int 1) (A.sum ((ord (entries p y M)).map Prod.snd)))
        (A.sum ((ord (entries p y L)).map (fun vb => A.weight vb.1.weight))) = fShare A ord (entries p y L) (entries p y M) := rfl
      rw [hqe]
      set q := share p x L.toFinset M.toFinset with hq
      set qf := fShare A ord (entries p y L) (entries p y M) with hqf
      set P : Fin p.voters.length → Bool := fun i => decide (x i < q * (p.voters.get i).weight) with hP
      have f1 : (entries p y L).filter (fPoor A qf) = entries p y (L.filter P) := entries_filter y L _ _ (fun i hi =>
        fPoor_eq hA hS hAc hp hm hC c2 (by simpa using hi))
      have f2 : (entries p y L).filter (fun vb => ! fPoor A qf vb) = entries p y (L.filter (fun i => ! P i)) :=
        entries_filter y L _ _ (fun i hi => by rw [fPoor_eq hA hS hAc hp hm hC c2 (by simpa using hi)])
      have f3 : (entries p x L).filter (fun vb => decide (vb.2 < q * vb.1.weight)) = entries p x (L.filter P) :=
        entries_filter x L _ _ (fun i _ => rfl)
      have f4 : (entries p x L).filter (fun vb => ! decide (vb.2 < q * vb.1.weight)) = entries p x (L.filter (fun i => ! P i)) :=
        entries_filter x L _ _ (fun i _ => rfl)
      rw [f1, f2, f3, f4]
      have e1 : (entries p y (L.filter P)).length = (L.filter P).length := by simp [entries]
      have e2 : (entries p x (L.filter P)).length = (L.filter P).length := by simp [entries]
      rw [e1, e2]
      by_cases hN : L.filter P = []
      · right
        have hN0 : (L.filter P).length = 0 := by simp [hN]
        simp only [if_pos hN0]
        refine ⟨qf, L.toFinset, M.toFinset, rfl, rfl, c2, hd, rfl, ?_, ?_⟩
        · intro i hi
          have := List.filter_eq_nil_iff.1 hN i (by simpa using hi)
          simpa [hP] using this
        · intro i hi
          exact hinv h0 i (by simpa using hi)
      · have hN0 : (L.filter P).length ≠ 0 := by simpa using hN
        simp only [if_neg hN0]
        have a1 : entries p y M ++ entries p y (L.filter P) = entries p y (M ++ L.filter P) := by simp [entries]
        have a2 : entries p x M ++ entries p x (L.filter P) = entries p x (M ++ L.filter P) := by simp [entries]
        rw [a1, a2]
        have s1 : (L.filter P).toFinset = L.toFinset.filter (fun i => x i < q * (p.voters.get i).weight) := by
          rw [List.toFinset_filter]; congr 1; funext i; simp [hP]
        have s2 : (L.filter (fun i => ! P i)).toFinset = L.toFinset.filter (fun i => ¬ x i < q * (p.voters.get i).weight) := by
          rw [List.toFinset_filter]; congr 1; funext i; simp [hP]
        have s3 : (M ++ L.filter P).toFinset = M.toFinset ∪ L.toFinset.filter (fun i => x i < q * (p.voters.get i).weight) := by
          rw [List.toFinset_append, s1]
        have hlt := share_lt x hd hpos (by
          rw [← s1]
          obtain ⟨i, hi⟩ := List.exists_mem_of_ne_nil _ hN
          exact ⟨i, by simpa using hi⟩)
        rw [← hq, ← s2, ← s3] at hlt
        have hlen : (L.filter P).length + (L.filter (fun i => ! P i)).length = L.length := (List.length_eq_length_filter_add _).symm
        have hdl : ∀ i ∈ L, i ∉ M := by
          intro i hi hiM
          exact Finset.disjoint_left.1 hd (by simpa using hi) (by simpa using hiM)
        rcases ih (L.filter (fun i => ! P i)) (M ++ L.filter P) (by omega) (List.filter_sublist.trans hL) (by
            rw [List.nodup_append]
            refine ⟨hM, hLn.filter _, ?_⟩
            rintro i hi j hj rfl
            exact hdl i (List.mem_filter.1 hj).1 hi) (by
            rw [Finset.disjoint_left]
            intro i hi hiM
            rw [List.mem_toFinset] at hi hiM
            obtain ⟨b1, b2⟩ := List.mem_filter.1 hi
            rcases List.mem_append.1 hiM with hiM | hiM
            · exact hdl i b1 hiM
            · have := (List.mem_filter.1 hiM).2
              rw [this] at b2
              simp at b2) (by
            intro hne i hi
            have hpos' : 0 < wt p (L.filter (fun i => ! P i)).toFinset := wt_pos_of_nonempty hp (by
              obtain ⟨i, hi⟩ := List.exists_mem_of_ne_nil _ hne
              exact ⟨i, by simpa using hi⟩)
            have hqq : q < share p x (L.filter (fun i => ! P i)).toFinset (M ++ L.filter P).toFinset := by
              unfold share
              rw [lt_div_iff₀ hpos']
              exact hlt
            have h1 : x i + 2 / 10 ^ 12 * (p.voters.get i).weight ≤ q * (p.voters.get i).weight := by
              rcases List.mem_append.1 hi with hi | hi
              · exact hinv h0 i hi
              · exact hC.apart.poor _ _ i hpos (by simpa [hP] using (List.mem_filter.1 hi).2)
            exact h1.trans (mul_le_mul_of_nonneg_right hqq.le (weight_pos hp i).le)) with h | ⟨q', L', M', b1, b2, b3, b4, b5, b6⟩
        · exact Or.inl h
        · right
          refine ⟨q', L', M', b1, b2, b3, b4, b5.trans ?_, b6⟩
          ext i
          simp only [Finset.mem_union, List.mem_toFinset, List.mem_append, List.mem_filter]
          by_cases hPi : P i = true <;> simp [hPi] <;> tauto

/-- The approvers of `c` as a list. -/
theorem approvers_entries {β : Type} (y : Fin p.voters.length → β) (c : ℕ) :
    (p.voters.zip (List.ofFn y)).filter (fun vb => decide (c ∈ vb.1.approved)) =
      entries p y ((List.finRange p.voters.length).filter (fun i => decide (c ∈ (p.voters.get i).approved))) := by
  rw [zip_ofFn, List.ofFn_eq_map]
  exact entries_filter y _ _ _ (fun i _ => rfl)

theorem approvers_toFinset (c : ℕ) :
    ((List.finRange p.voters.length).filter (fun i => decide (c ∈ (p.voters.get i).approved))).toFinset = backers p c := by
  ext i
  simp [mem_backers]

/-- What is known about the prices of an affordable candidate. -/
structure PricePair (A : Arith F) (p : Profile) (y : Fin p.voters.length → F) (x : VoterMap p) (c : ℕ) (qf : F) (q : ℚ) : Prop where
  pair : ∃ L M : Group p, q = share p x L M ∧ PriceClose A p y x L M qf ∧ Disjoint L M ∧ L ∪ M = backers p c ∧
    (∀ i ∈ L, share p x L M * (p.voters.get i).weight ≤ x i) ∧
    ∀ i ∈ M, x i + 2 / 10 ^ 12 * (p.voters.get i).weight ≤ share p x L M * (p.voters.get i).weight

/-- Floats and fractions agree on which candidates are affordable, and the prices are close. -/
theorem fGetMinQ_sim (hA : Sound A) (hS : SignedAccurate A) (hAc : Accurate A) {ord : List (Voter × F) → List (Voter × F)}
    (hord : Rearranges ord) (hp : p.WF) {k : ℕ} (hm : Moderate p k) (hC : CloseBudgets A p y x E) (c : ℕ) :
    (fGetMinQ A ord p (List.ofFn y) c = .ok none ∧ getMinQ p (List.ofFn x) c = .ok none) ∨
    ∃ qf q, fGetMinQ A ord p (List.ofFn y) c = .ok (some qf) ∧ getMinQ p (List.ofFn x) c = .ok (some q) ∧ PricePair A p y x c qf q := by
  unfold fGetMinQ getMinQ
  rw [approvers_entries, approvers_entries]
  have hlen : ((List.finRange p.voters.length).filter (fun i => decide (c ∈ (p.voters.get i).approved))).length < p.voters.length + 1 := by
    have := List.length_filter_le (fun i => decide (c ∈ (p.voters.get i).approved)) (List.finRange p.voters.length)
    rw [List.length_finRange] at this
    omega
  rcases fMinQLoop_sim hA hS hAc hord hp hm hC (p.voters.length + 1)
    ((List.finRange p.voters.length).filter (fun i => decide (c ∈ (p.voters.get i).approved))) [] hlen List.filter_sublist (by simp)
    (by simp) (by simp) with h | ⟨qf, L, M, h1, h2, h3, h4, h5, h6, h7⟩
  · exact Or.inl h
  · right
    refine ⟨qf, _, h1, h2, ⟨L, M, rfl, h3, h4, ?_, h6, h7⟩⟩
    rw [h5, approvers_toFinset]
    simp

/-! ## The cheapest candidates -/

theorem PricePair.bounds (hp : p.WF) {k : ℕ} (hm : Moderate p k) (hC : CloseBudgets A p y x E) {c : ℕ} {qf : F} {q : ℚ}
    (h : PricePair A p y x c qf q) : |A.val qf - q| ≤ 4 / 10 ^ 13 ∧ 0 ≤ A.val qf ∧ 0 ≤ q ∧ q ≤ 1 := by
  obtain ⟨L, M, rfl, h1, h2, h3, h4, h5⟩ := h
  have hne : L.Nonempty := by
    rw [Finset.nonempty_iff_ne_empty]
    rintro rfl
    have := h1.pos
    simp [wt] at this
  obtain ⟨i, hi⟩ := hne
  have hw : 1 ≤ wt p L := (weight_ge_one hp hm i).trans (weight_le_wt hp hi)
  have hS : 0 ≤ ∑ i ∈ M, x i := Finset.sum_nonneg (fun i _ => hC.exact0 i)
  have hrest : 0 ≤ 1 - ∑ i ∈ M, x i := le_trans (by norm_num) h1.rest
  refine ⟨?_, h1.nonneg, div_nonneg hrest h1.pos.le, ?_⟩
  · have h6 := h1.error
    have h7 := hC.group M
    have h8 := hC.small
    have h9 : |A.val qf - share p x L M| ≤ |A.val qf - share p x L M| * wt p L := le_mul_of_one_le_right (abs_nonneg _) hw
    unfold priceError at h8
    have h10 : (10 * (p.voters.length : ℚ) + 20) / 2 ^ 53 ≤ (10 * p.voters.length + 28) / 2 ^ 53 := by gcongr; norm_num
    linarith
  · unfold share
    rw [div_le_one h1.pos]
    linarith

/-- the relation of two entries of the price lists -/
def EntryRel (A : Arith F) (p : Profile) (y : Fin p.voters.length → F) (x : VoterMap p) (a : ℕ × F) (b : ℕ × ℚ) : Prop :=
  a.1 = b.1 ∧ PricePair A p y x a.1 a.2 b.2

theorem fMesPrices_sim (hA : Sound A) (hS : SignedAccurate A) (hAc : Accurate A) {ord : List (Voter × F) → List (Voter × F)}
    (hord : Rearranges ord) (hp : p.WF) {k : ℕ} (hm : Moderate p k) (hC : CloseBudgets A p y x E) (cands : List ℕ) :
    ∃ lf le, fMesPrices A ord p (List.ofFn y) cands = .ok lf ∧ mesPrices p (List.ofFn x) cands = .ok le ∧
      List.Forall₂ (EntryRel A p y x) lf le := by
  induction cands with
  | nil => exact ⟨[], [], rfl, rfl, .nil⟩
  | cons c cs ih =>
    obtain ⟨lf, le, h1, h2, h3⟩ := ih
    unfold fMesPrices mesPrices
    rcases fGetMinQ_sim hA hS hAc hord hp hm hC c with ⟨g1, g2⟩ | ⟨qf, q, g1, g2, g3⟩
    · simp only [g1, g2, h1, h2, bind, Except.bind]
      exact ⟨lf, le, rfl, rfl, h3⟩
    · simp only [g1, g2, h1, h2, bind, Except.bind]
      exact ⟨_, _, rfl, rfl, .cons ⟨rfl, g3⟩ h3⟩

theorem tie_iff (hAc : Accurate A) (hp : p.WF) {k : ℕ} (hm : Moderate p k) (hC : CloseBudgets A p y x E) {lf : List (ℕ × F)}
    {le : List (ℕ × ℚ)} (h : List.Forall₂ (EntryRel A p y x) lf le) {m : F} (hmem : m ∈ lf.map Prod.snd)
    (hmin : ∀ z ∈ lf.map Prod.snd, A.val m ≤ A.val z) {a : ℕ × F} {b : ℕ × ℚ} (ha : a ∈ lf) (hab : EntryRel A p y x a b) (hb : b ∈ le) :
    A.isclose a.2 m = true ↔ b.2 = listMin (le.map Prod.snd) := by
  have hne : le.map Prod.snd ≠ [] := List.ne_nil_of_mem (List.mem_map_of_mem hb)
  have hlm := listMin_mem hne
  set μ := listMin (le.map Prod.snd) with hμ
  obtain ⟨e, he, rfl⟩ := List.mem_map.1 hmem
  obtain ⟨f', hf', hfμ⟩ := List.mem_map.1 hlm
  -- partners
  obtain ⟨e', he', hee⟩ : ∃ e' ∈ le, EntryRel A p y x e e' := by
    obtain ⟨i, hi, rfl⟩ := List.mem_iff_getElem.1 he
    have hlen := h.length_eq
    exact ⟨le[i], List.getElem_mem _, (List.forall₂_iff_get.1 h).2 i hi (by omega)⟩
  obtain ⟨f, hf, hff⟩ : ∃ f ∈ lf, EntryRel A p y x f f' := by
    obtain ⟨i, hi, rfl⟩ := List.mem_iff_getElem.1 hf'
    have hlen := h.length_eq
    exact ⟨lf[i], List.getElem_mem _, (List.forall₂_iff_get.1 h).2 i (by omega) hi⟩
  obtain ⟨a1, a2, a3, a4⟩ := hab.2.bounds hp hm hC
  obtain ⟨e1, e2, e3, e4⟩ := hee.2.bounds hp hm hC
  obtain ⟨f1, f2, f3, f4⟩ := hff.2.bounds hp hm hC
  have a1 := abs_le.1 a1
  have e1 := abs_le.1 e1
  have f1 := abs_le.1 f1
  have hea := hmin a.2 (List.mem_map_of_mem ha)
  have hef := hmin f.2 (List.mem_map_of_mem hf)
  have hμb : μ ≤ b.2 := listMin_le (List.mem_map_of_mem hb)
  have hμe : μ ≤ e'.2 := listMin_le (List.mem_map_of_mem he')
  constructor
  · intro hclose
    by_contra hneq
    have hlt : f'.2 < b.2 := by rw [hfμ]; exact lt_of_le_of_ne hμb (fun h => hneq h.symm)
    have hgap : f'.2 + 2 / 10 ^ 12 ≤ b.2 := by
      obtain ⟨L, M, hq, hc, -⟩ := hff.2.pair
      obtain ⟨L', M', hq', hc', -⟩ := hab.2.pair
      rw [hq, hq'] at hlt ⊢
      exact hC.apart.shares L M L' M' hc.pos hc'.pos hlt
    have hdiff : 12 / 10 ^ 13 ≤ A.val a.2 - A.val e.2 := by
      norm_num at hgap a1 f1 ⊢
      linarith [a1.1, f1.2]
    have hfalse : A.isclose a.2 e.2 = false := by
      refine hAc.isclose_false _ _ a2 e2 ?_
      rw [abs_of_nonneg (by linarith)]
      have hb2 : A.val a.2 ≤ 101 / 100 := by norm_num at a1; linarith [a1.2]
      have hmax : max 1 (max (A.val a.2) (A.val e.2)) ≤ 101 / 100 := max_le (by norm_num) (max_le hb2 (by linarith))
      have := mul_le_mul_of_nonneg_left hmax (show (0 : ℚ) ≤ 11 / 10 ^ 13 by norm_num)
      refine this.trans_lt ?_
      norm_num at hdiff ⊢
      linarith
    rw [hfalse] at hclose
    exact absurd hclose (by simp)
  · intro heq
    refine hAc.isclose_true _ _ a2 e2 ?_
    rw [abs_of_nonneg (by linarith)]
    have h1 : A.val a.2 - A.val e.2 ≤ 8 / 10 ^ 13 := by
      norm_num at a1 e1 ⊢
      linarith [a1.2, e1.1]
    have h2 : (9 : ℚ) / 10 ^ 13 ≤ 9 / 10 ^ 13 * max 1 (max (A.val a.2) (A.val e.2)) :=
      le_mul_of_one_le_right (by norm_num) (le_max_left _ _)
    exact (h1.trans (by norm_num)).trans h2

/-! ## The new budgets -/

theorem min2_val (a b : F) : A.val (A.min2 a b) = min (A.val a) (A.val b) := by
  unfold Arith.min2
  split
  · rename_i h; rw [min_eq_right h.le]
  · rename_i h; rw [min_eq_left (not_lt.1 h)]

theorem sub_min_lipschitz (a b c d : ℚ) : |(a - min a b) - (c - min c d)| ≤ |a - c| + |b - d| := by
  have h1 : a - min a b = max 0 (a - b) := by
    rcases le_total a b with h | h
    · rw [min_eq_left h, max_eq_left (by linarith)]; ring
    · rw [min_eq_right h, max_eq_right (by linarith)]
  have h2 : c - min c d = max 0 (c - d) := by
    rcases le_total c d with h | h
    · rw [min_eq_left h, max_eq_left (by linarith)]; ring
    · rw [min_eq_right h, max_eq_right (by linarith)]
  rw [h1, h2]
  have h3 : |max 0 (a - b) - max 0 (c - d)| ≤ max |(0 : ℚ) - 0| |a - b - (c - d)| := abs_max_sub_max_le_max _ _ _ _
  refine h3.trans (max_le (by simp; positivity) ?_)
  rw [show a - b - (c - d) = (a - c) - (b - d) by ring]
  exact abs_sub _ _

/-- the budget of voter `i` after buying `c` at price `q` -/
def fNewBudget (A : Arith F) (p : Profile) (y : Fin p.voters.length → F) (c : ℕ) (q : F) (i : Fin p.voters.length) : F :=
  if c ∈ (p.voters.get i).approved then A.sub (y i) (A.min2 (y i) (A.mul q (A.weight (p.voters.get i).weight))) else y i

theorem fMesBudget_ofFn (y : Fin p.voters.length → F) (c : ℕ) (q : F) :
    fMesBudget A p (List.ofFn y) c q = List.ofFn (fNewBudget A p y c q) := by
  unfold fMesBudget
  rw [zipWith_ofFn]
  rfl

theorem fNewBudget_sim (hA : Sound A) (hS : SignedAccurate A) (hp : p.WF) {k : ℕ} (hm : Moderate p k) (hC : CloseBudgets A p y x E)
    (W : List ℕ) {c : ℕ} {qf : F} {q : ℚ} (h : PricePair A p y x c qf q) (hq : IsPrice p x c q) :
    (∀ i, 0 ≤ A.val (fNewBudget A p y c qf i)) ∧
    ∑ i, |A.val (fNewBudget A p y c qf i) - mesUpd p W x c i| ≤ E + priceError p + 8 / 2 ^ 53 * ∑ i, A.val (y i) := by
  obtain ⟨L, M, rfl, h1, h2, h3, h4, h5⟩ := h
  set q := share p x L M with hqd
  have hg0 : ∀ i, 0 ≤ A.val (A.mul qf (A.weight (p.voters.get i).weight)) := fun i => (h1.payment hA hS hp i).1
  have hmem : ∀ i, c ∈ (p.voters.get i).approved ↔ i ∈ L ∪ M := by intro i; rw [h3, mem_backers]
  constructor
  · intro i
    unfold fNewBudget
    split
    · refine hA.sub_nonneg _ _ ?_
      rw [min2_val]
      exact min_le_left _ _
    · exact hC.float0 i
  · -- the rounding error of the subtraction
    have hsub : ∀ i, |A.val (A.sub (y i) (A.min2 (y i) (A.mul qf (A.weight (p.voters.get i).weight)))) -
        (A.val (y i) - min (A.val (y i)) (A.val (A.mul qf (A.weight (p.voters.get i).weight))))| ≤ 8 / 2 ^ 53 * A.val (y i) := by
      intro i
      have h6 := hS.sub (y i) (A.min2 (y i) (A.mul qf (A.weight (p.voters.get i).weight)))
      rw [min2_val] at h6
      refine h6.trans ?_
      have h7 : 0 ≤ min (A.val (y i)) (A.val (A.mul qf (A.weight (p.voters.get i).weight))) := le_min (hC.float0 i) (hg0 i)
      rw [abs_of_nonneg (hC.float0 i), abs_of_nonneg h7]
      have h8 := min_le_left (A.val (y i)) (A.val (A.mul qf (A.weight (p.voters.get i).weight)))
      calc 4 / 2 ^ 53 * (A.val (y i) + min (A.val (y i)) (A.val (A.mul qf (A.weight (p.voters.get i).weight))))
          ≤ 4 / 2 ^ 53 * (A.val (y i) + A.val (y i)) := by gcongr
        _ = 8 / 2 ^ 53 * A.val (y i) := by ring
    have hupd : ∀ i ∈ L ∪ M, mesUpd p W x c i = x i - min (x i) (q * (p.voters.get i).weight) := by
      intro i hi
      unfold mesUpd
      rw [if_pos (h3 ▸ hi), price_eq hq]
    have hLe : ∀ i ∈ L, |A.val (fNewBudget A p y c qf i) - mesUpd p W x c i| ≤ |A.val (y i) - x i| +
        (p.voters.get i).weight * ((groupError A p y x M + priceError p) / wt p L) + 8 / 2 ^ 53 * A.val (y i) := by
      intro i hi
      have hi' : i ∈ L ∪ M := Finset.mem_union_left _ hi
      unfold fNewBudget
      rw [if_pos ((hmem i).2 hi'), hupd i hi']
      set s := A.val (A.sub (y i) (A.min2 (y i) (A.mul qf (A.weight (p.voters.get i).weight)))) with hs
      set g := A.val (A.mul qf (A.weight (p.voters.get i).weight)) with hg
      have e1 := hsub i
      have e2 := sub_min_lipschitz (A.val (y i)) g (x i) (q * (p.voters.get i).weight)
      have e3 : |g - q * (p.voters.get i).weight| ≤ (p.voters.get i).weight * ((groupError A p y x M + priceError p) / wt p L) := by
        rw [← mul_div_assoc, le_div_iff₀ h1.pos]
        exact (h1.payment hA hS hp i).2
      have e4 := abs_sub_le s (A.val (y i) - min (A.val (y i)) g) (x i - min (x i) (q * (p.voters.get i).weight))
      linarith
    have hMe : ∀ i ∈ M, |A.val (fNewBudget A p y c qf i) - mesUpd p W x c i| ≤ 8 / 2 ^ 53 * A.val (y i) := by
      intro i hi
      have hi' : i ∈ L ∪ M := Finset.mem_union_right _ hi
      unfold fNewBudget
      rw [if_pos ((hmem i).2 hi'), hupd i hi']
      have hw := weight_ge_one hp hm i
      have hx5 := h5 i hi
      have e3 := (h1.payment hA hS hp i).2
      have hwt : 1 ≤ wt p L := by
        have hne : L.Nonempty := by
          rw [Finset.nonempty_iff_ne_empty]
          rintro rfl
          have := h1.pos
          simp [wt] at this
        obtain ⟨j, hj⟩ := hne
        exact (weight_ge_one hp hm j).trans (weight_le_wt hp hj)
      have e1 := hsub i
      set s := A.val (A.sub (y i) (A.min2 (y i) (A.mul qf (A.weight (p.voters.get i).weight)))) with hs
      set g := A.val (A.mul qf (A.weight (p.voters.get i).weight)) with hg
      set w := (p.voters.get i).weight with hwd
      have e4 : |g - q * w| ≤ w * (4 / 10 ^ 13) := by
        refine (le_mul_of_one_le_right (abs_nonneg _) hwt).trans (e3.trans ?_)
        have := hC.group M
        have := hC.small
        refine mul_le_mul_of_nonneg_left (by linarith) (by linarith)
      have e5 := abs_le.1 e4
      have e6 := abs_le.1 (hC.voter i)
      have e7 : E ≤ 4 / 10 ^ 13 := by have := hC.small; have := priceError_nonneg (p := p); linarith
      have hyg : A.val (y i) ≤ g := by
        have : (4 : ℚ) / 10 ^ 13 ≤ w * (4 / 10 ^ 13) := le_mul_of_one_le_left (by norm_num) hw
        have hqw : x i + 2 / 10 ^ 12 * w ≤ q * w := hx5
        norm_num at *
        linarith
      have hxg : x i ≤ q * w := by
        have : 0 ≤ 2 / 10 ^ 12 * w := by positivity
        have hqw : x i + 2 / 10 ^ 12 * w ≤ q * w := hx5
        linarith
      rw [min_eq_left hyg] at e1
      rw [min_eq_left hxg]
      simpa using e1
    have hOut : ∀ i ∉ L ∪ M, |A.val (fNewBudget A p y c qf i) - mesUpd p W x c i| = |A.val (y i) - x i| := by
      intro i hi
      unfold fNewBudget mesUpd
      rw [if_neg (fun h => hi ((hmem i).1 h)), if_neg (fun h => hi (h3.symm ▸ h))]
    -- summation
    have hsumL : ∑ i ∈ L, |A.val (fNewBudget A p y c qf i) - mesUpd p W x c i| ≤
        ∑ i ∈ L, |A.val (y i) - x i| + (groupError A p y x M + priceError p) + 8 / 2 ^ 53 * ∑ i ∈ L, A.val (y i) := by
      refine (Finset.sum_le_sum hLe).trans (le_of_eq ?_)
      rw [Finset.sum_add_distrib, Finset.sum_add_distrib, ← Finset.sum_mul, ← Finset.mul_sum]
      change _ + wt p L * _ + _ = _
      rw [mul_div_cancel₀ _ h1.pos.ne']
    have hsumM : ∑ i ∈ M, |A.val (fNewBudget A p y c qf i) - mesUpd p W x c i| ≤ 8 / 2 ^ 53 * ∑ i ∈ M, A.val (y i) := by
      rw [Finset.mul_sum]
      exact Finset.sum_le_sum hMe
    have hsplit : ∀ f : Fin p.voters.length → ℚ, ∑ i, f i = ∑ i ∈ L, f i + ∑ i ∈ M, f i + ∑ i ∈ (L ∪ M)ᶜ, f i := by
      intro f
      rw [← Finset.sum_union h2, Finset.sum_add_sum_compl]
    have hsumO : ∑ i ∈ (L ∪ M)ᶜ, |A.val (fNewBudget A p y c qf i) - mesUpd p W x c i| = ∑ i ∈ (L ∪ M)ᶜ, |A.val (y i) - x i| :=
      Finset.sum_congr rfl (fun i hi => hOut i (by simpa using hi))
    have hE := hC.error
    rw [hsplit] at hE ⊢
    rw [hsplit (fun i => A.val (y i)), hsumO]
    have hO : 0 ≤ ∑ i ∈ (L ∪ M)ᶜ, A.val (y i) := Finset.sum_nonneg (fun i _ => hC.float0 i)
    unfold groupError at hsumL
    have : 0 ≤ 8 / 2 ^ 53 * ∑ i ∈ (L ∪ M)ᶜ, A.val (y i) := by positivity
    rw [mul_add, mul_add]
    linarith

end

end Abc
