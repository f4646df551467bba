import Verif.Props.Dispatch
import Verif.Props.PriceableRules

/-!
# Axiomatic guarantees of further rules

Phragmén–Eneström satisfies PJR; Monroe and greedy Monroe satisfy JR, and PJR if the committee size divides the number of voters;
lex-CC satisfies JR; lex-CC, lex-Minimax-AV and SAV winners are Pareto optimal.
-/

namespace Abc

open Spec

section
variable {p : Profile}

/-! ## A cohesive group that has fewer than `ℓ` representatives has a joint candidate that is not elected -/

theorem exists_unelected (hp : p.WF) {W : Finset ℕ} {q : ℚ} (hq : 0 < q) {ℓ : ℕ} {G : Group p} {T : Finset ℕ}
    (h : Cohesive p q ℓ G T) (hlt : (G.biUnion (appr p) ∩ W).card < ℓ) :
    ∃ c < p.numCand, c ∉ W ∧ ∀ i ∈ G, c ∈ appr p i := by
  obtain ⟨h1, h2, h3, h4⟩ := h
  have hwt : 0 < wt p G := lt_of_lt_of_le (mul_pos (by exact_mod_cast h1) hq) h2
  obtain ⟨i, hi⟩ := nonempty_of_wt hwt le_rfl
  have hTW : ¬ T ⊆ W := by
    intro hsub
    have : T ⊆ G.biUnion (appr p) ∩ W := fun c hcT =>
      Finset.mem_inter.2 ⟨Finset.mem_biUnion.2 ⟨i, hi, h4 i hi hcT⟩, hsub hcT⟩
    have := Finset.card_le_card this
    omega
  obtain ⟨c, hcT, hcW⟩ := Finset.not_subset.1 hTW
  exact ⟨c, appr_lt hp (h4 i hi hcT), hcW, fun j hj => h4 j hj hcT⟩

theorem mem_backers_appr {i : Fin p.voters.length} {c : ℕ} : i ∈ backers p c ↔ c ∈ appr p i := by simp [backers]

/-! ## Phragmén–Eneström -/

theorem support_eq {b : VoterMap p} (hb : ∀ i, 0 ≤ b i) (c : ℕ) : support p b c = ∑ i ∈ backers p c, b i := by
  unfold support
  rw [Finset.sum_filter]
  refine Finset.sum_congr rfl fun i _ => ?_
  split
  · rfl
  · exact le_antisymm (hb i) (not_lt.1 (by assumption))

/-- What voter `i` pays for `d`. -/
def enestroemPay (p : Profile) (q : ℚ) (b : VoterMap p) (d : ℕ) (i : Fin p.voters.length) : ℚ :=
  if i ∈ backers p d then q / support p b d * b i else 0

theorem enestroem_step {q : ℚ} (hq : 0 < q) {V : List ℕ} {b : VoterMap p} (hb : ∀ i, 0 ≤ b i) {d : ℕ} (hds : q ≤ support p b d) :
    (∀ i, enestroemUpd p q V b d i = b i - enestroemPay p q b d i) ∧ (∀ i, 0 ≤ enestroemPay p q b d i) ∧
      (∀ i, enestroemPay p q b d i ≤ b i) ∧ (∀ i, i ∉ backers p d → enestroemPay p q b d i = 0) ∧
      ∑ i, enestroemPay p q b d i = q := by
  have hspos : 0 < support p b d := lt_of_lt_of_le hq hds
  have hr : q / support p b d ≤ 1 := (div_le_one hspos).2 hds
  have hr0 : 0 ≤ q / support p b d := by positivity
  refine ⟨fun i => ?_, fun i => ?_, fun i => ?_, fun i hi => if_neg hi, ?_⟩
  · unfold enestroemUpd enestroemPay
    by_cases hi : i ∈ backers p d
    · rw [if_pos hi, if_pos hi]
      split
      · ring
      · have : support p b d = q := le_antisymm (not_lt.1 (by assumption)) hds
        rw [this, div_self hq.ne']
        ring
    · rw [if_neg hi, if_neg hi]
      ring
  · unfold enestroemPay
    split
    · exact mul_nonneg hr0 (hb i)
    · exact le_rfl
  · unfold enestroemPay
    split
    · exact mul_le_of_le_one_left (hb i) hr
    · exact hb i
  · unfold enestroemPay
    rw [Finset.sum_ite_mem, Finset.univ_inter, ← Finset.mul_sum, ← support_eq hb d]
    exact div_mul_cancel₀ _ hspos.ne'

/-- A group that agrees on an unelected candidate has as many representatives as it deserves. -/
theorem enestroem_joint (hp : p.WF) (hne : p.voters ≠ []) {k : ℕ} (hk : 1 ≤ k) {A : Finset ℕ} (h : EnestroemWinner p k A)
    {ℓ : ℕ} {G : Group p} {c : ℕ} (h1 : 1 ≤ ℓ)
    (h2 : (ℓ : ℚ) * (total p / k) ≤ wt p G) (hcn : c < p.numCand) (hcW : c ∉ A) (hcG : ∀ i ∈ G, c ∈ appr p i) :
    ℓ ≤ (G.biUnion (appr p) ∩ A).card := by
  obtain ⟨W, b, hrun, hlen, rfl⟩ := h
  by_contra hlt
  rw [not_le] at hlt
  have ht := total_pos hp hne
  have hkq : (0 : ℚ) < k := by exact_mod_cast hk
  have hqd : (k : ℚ) * (total p / k) = total p := by field_simp
  have hq : 0 < total p / k := div_pos ht hkq
  generalize total p / k = q at hrun hqd hq h2
  -- a group with fewer than `ℓ` representatives can pay for another one
  have room : ∀ x : ℕ, x < ℓ → ∀ y : ℚ, wt p G - x * q ≤ y → q ≤ y := by
    intro x hx y hy
    have h3 : ((x + 1 : ℕ) : ℚ) ≤ ℓ := by exact_mod_cast hx
    have h4 := mul_le_mul_of_nonneg_right h3 hq.le
    push_cast at h4
    linarith
  have key : ∀ (V : List ℕ) (b : VoterMap p), Run (SupportBest p) (enestroemUpd p q) [] (fun i => (p.voters.get i).weight) V b →
      V.toFinset ⊆ W.toFinset → (∀ i, 0 ≤ b i) ∧ ∑ i, b i = total p - V.length * q ∧
        wt p G - ((G.biUnion (appr p) ∩ V.toFinset).card : ℚ) * q ≤ ∑ i ∈ G, b i := by
    intro V b hV
    induction hV with
    | start => intro _; exact ⟨fun i => (weight_pos hp i).le, by simp [total], by simp [wt]⟩
    | @step V b d hV hd ih =>
      intro hsub
      have hsub' : V.toFinset ⊆ W.toFinset := by
        intro x hx
        refine hsub ?_
        simp only [List.mem_toFinset] at hx
        simp [hx]
      obtain ⟨g1, g2, g3⟩ := ih hsub'
      have hcV : c ∉ V := fun hm => hcW (hsub' (by simpa using hm))
      obtain ⟨hdn, hdV, hmax⟩ := hd
      have hGq := room _ (lt_of_le_of_lt (Finset.card_le_card (Finset.inter_subset_inter_left hsub')) hlt) _ g3
      have hcs : q ≤ support p b c := by
        rw [support_eq g1]
        refine hGq.trans (Finset.sum_le_sum_of_subset_of_nonneg (fun i hi => ?_) (fun i _ _ => g1 i))
        rw [mem_backers_appr]
        exact hcG i hi
      obtain ⟨e1, e2, e3, e4, e5⟩ := enestroem_step (V := V) hq g1 (hcs.trans (hmax c hcn hcV))
      have e : (V ++ [d]).toFinset = insert d V.toFinset := by ext x; simp
      refine ⟨fun i => ?_, ?_, ?_⟩
      · rw [e1, sub_nonneg]
        exact e3 i
      · rw [Finset.sum_congr rfl fun i _ => e1 i, Finset.sum_sub_distrib, e5, g2, List.length_append, List.length_singleton]
        push_cast
        ring
      · rw [Finset.sum_congr rfl fun i _ => e1 i, Finset.sum_sub_distrib, e]
        by_cases hdG : d ∈ G.biUnion (appr p)
        · rw [Finset.inter_insert_of_mem hdG, Finset.card_insert_of_notMem (by simp [hdV])]
          have : ∑ i ∈ G, enestroemPay p q b d i ≤ q :=
            (Finset.sum_le_univ_sum_of_nonneg e2).trans_eq e5
          rw [Nat.cast_add, Nat.cast_one, add_mul, one_mul]
          linarith
        · rw [Finset.inter_insert_of_notMem hdG]
          have : ∑ i ∈ G, enestroemPay p q b d i = 0 := by
            refine Finset.sum_eq_zero fun i hi => e4 i fun hb => hdG ?_
            rw [mem_backers_appr] at hb
            exact Finset.mem_biUnion.2 ⟨i, hi, hb⟩
          rw [this, sub_zero]
          exact g3
  obtain ⟨g1, g2, g3⟩ := key W b hrun subset_rfl
  have hGq := room _ hlt _ g3
  rw [hlen, hqd, sub_self] at g2
  have := Finset.sum_le_univ_sum_of_nonneg (s := G) g1
  linarith

/-! ## Greedy Monroe -/

/-- Phragmén–Eneström satisfies PJR. -/
theorem enestroem_PJR (hp : p.WF) (hne : p.voters ≠ []) {k : ℕ} (hk : 1 ≤ k) {A : Finset ℕ} (h : EnestroemWinner p k A) :
    PJR p A (total p / k) := by
  intro ℓ G T hco
  by_contra hlt
  rw [not_le] at hlt
  have ht := total_pos hp hne
  have hkq : (0 : ℚ) < k := by exact_mod_cast hk
  obtain ⟨c, hcn, hcW, hcG⟩ := exists_unelected hp (div_pos ht hkq) hco hlt
  exact absurd (enestroem_joint hp hne hk h hco.1 hco.2.1 hcn hcW hcG) (not_le.2 hlt)

theorem firstVoters_subset (S : Group p) (m : ℕ) : firstVoters S m ⊆ S := Finset.filter_subset _ _

theorem firstVoters_card (S : Group p) (m : ℕ) (h : m ≤ S.card) : (firstVoters S m).card = m := by
  classical
  -- list the members of `S` in increasing order
  set l := (S.sort (· ≤ ·)).map Fin.val with hl
  have hpw : l.Pairwise (· < ·) := by
    rw [hl, List.pairwise_map]
    exact (Finset.sortedLT_sort S).pairwise
  have hlt : ∀ x ∈ l, x < p.voters.length := by
    intro x hx
    rw [hl, List.mem_map] at hx
    obtain ⟨i, -, rfl⟩ := hx
    exact i.2
  have hS : grp p l = S := by
    ext i
    rw [mem_grp, hl]
    simp only [List.mem_map, Finset.mem_sort]
    constructor
    · rintro ⟨j, hj, he⟩
      rwa [← Fin.ext he]
    · intro hi
      exact ⟨i, hi, rfl⟩
  have hn : l.Nodup := hpw.imp fun h => h.ne
  rw [← hS, ← grp_take hpw hlt, grp_card (hn.sublist (List.take_sublist _ _)) (fun x hx => hlt x (List.mem_of_mem_take hx)),
    List.length_take]
  have : l.length = S.card := by rw [hl]; simp
  omega

theorem unassigned_append (Ds : List (Group p)) (D : Group p) : unassigned p (Ds ++ [D]) = unassigned p Ds \ D := by
  ext i
  simp only [unassigned, Finset.mem_filter, Finset.mem_univ, true_and, List.mem_append, List.mem_singleton, Finset.mem_sdiff]
  constructor
  · intro h
    exact ⟨fun E hE => h E (Or.inl hE), h D (Or.inr rfl)⟩
  · rintro ⟨h1, h2⟩ E (hE | rfl)
    · exact h1 E hE
    · exact h2

/-- As long as an unelected candidate has many unassigned supporters, districts are full. -/
theorem gm_step {k : ℕ} {V : List ℕ} {Ds : List (Group p)} {c d : ℕ} (hd : GMBest p V Ds d) (hcn : c < p.numCand) (hcV : c ∉ V)
    {U : Group p} (hU : U ⊆ unassigned p Ds ∩ backers p c) (hs : districtSize p.voters.length k V.length ≤ U.card) :
    ∃ D, gmUpd p k V Ds d = Ds ++ [D] ∧ D ⊆ unassigned p Ds ∩ backers p d ∧ D.card = districtSize p.voters.length k V.length :=
  ⟨_, rfl, firstVoters_subset _ _, firstVoters_card _ _ (hs.trans ((Finset.card_le_card hU).trans (hd.2.2 c hcn hcV)))⟩

theorem unit_wt (hu : ∀ v ∈ p.voters, v.weight = 1) (G : Group p) : wt p G = G.card := by
  unfold wt
  rw [Finset.sum_congr rfl fun i _ => hu _ (List.get_mem _ _)]
  simp

theorem unit_total (hu : ∀ v ∈ p.voters, v.weight = 1) : total p = p.voters.length := by
  unfold total
  rw [Finset.sum_congr rfl fun i _ => hu _ (List.get_mem _ _)]
  simp

theorem districtSize_le {n k t g : ℕ} (hk : 1 ≤ k) (h : (n : ℚ) / k ≤ g) : districtSize n k t ≤ g := by
  have hkq : (0 : ℚ) < k := by exact_mod_cast hk
  rw [div_le_iff₀ hkq] at h
  have h' : n ≤ g * k := by exact_mod_cast h
  have h1 : n / k ≤ g := Nat.div_le_of_le_mul (by rw [mul_comm]; exact h')
  unfold districtSize
  split
  · by_contra hcon
    have he : n / k = g := by omega
    have := Nat.div_add_mod n k
    rw [he, mul_comm] at this
    omega
  · exact h1

/-- Greedy Monroe satisfies JR. -/
theorem greedyMonroe_JR (hp : p.WF) (hne : p.voters ≠ []) (hu : ∀ v ∈ p.voters, v.weight = 1) {k : ℕ} (hk : 1 ≤ k) {A : Finset ℕ}
    (h : RunWinner (GMBest p) (gmUpd p k) [] k A) : JR p A (total p / k) := by
  obtain ⟨W, Ds, hrun, hlen, rfl⟩ := h
  by_contra hno
  obtain ⟨G, c, h1, h2, h3⟩ := not_JR hno
  have ht := total_pos hp hne
  have hkq : (0 : ℚ) < k := by exact_mod_cast hk
  have hq : 0 < total p / k := div_pos ht hkq
  obtain ⟨i0, hi0⟩ := nonempty_of_wt hq h1
  have hsat : ∀ i ∈ G, ∀ d ∈ W, d ∉ appr p i := by
    intro i hi d hd hda
    have := h3 i hi
    unfold sat at this
    rw [Finset.card_eq_zero] at this
    have hm : d ∈ appr p i ∩ W.toFinset := by simp [hda, hd]
    rw [this] at hm
    simp at hm
  have hcW : c ∉ W := fun hc => hsat i0 hi0 c hc (h2 i0 hi0)
  have hcn : c < p.numCand := appr_lt hp (h2 i0 hi0)
  rw [unit_wt hu, unit_total hu] at h1
  have key : ∀ (V : List ℕ) (Ds : List (Group p)), Run (GMBest p) (gmUpd p k) [] [] V Ds → V ⊆ W →
      (unassigned p Ds).card + ((List.range V.length).map (districtSize p.voters.length k)).sum = p.voters.length ∧
        G ⊆ unassigned p Ds := by
    intro V Ds hV
    induction hV with
    | start =>
      intro _
      refine ⟨by simp [unassigned], fun i _ => by simp [unassigned]⟩
    | @step V Ds d hV hd ih =>
      intro hsub
      obtain ⟨g1, g2⟩ := ih (fun x hx => hsub (by simp [hx]))
      obtain ⟨D, e, hD, hDc⟩ := gm_step (k := k) hd hcn (fun hm => hcW (hsub (by simp [hm]))) (U := G) (fun i hi =>
        Finset.mem_inter.2 ⟨g2 hi, by rw [mem_backers_appr]; exact h2 i hi⟩) (districtSize_le hk h1)
      rw [e, unassigned_append]
      constructor
      · rw [Finset.card_sdiff_of_subset (hD.trans Finset.inter_subset_left), hDc, List.length_append, List.length_singleton,
          List.range_succ, List.map_append, List.sum_append]
        have := Finset.card_le_card (hD.trans Finset.inter_subset_left)
        simp only [List.map_cons, List.map_nil, List.sum_cons, List.sum_nil]
        omega
      · intro i hi
        refine Finset.mem_sdiff.2 ⟨g2 hi, fun hm => ?_⟩
        have := (Finset.mem_inter.1 (hD hm)).2
        rw [mem_backers_appr] at this
        exact hsat i hi d (hsub (by simp)) this
  obtain ⟨g1, g2⟩ := key W Ds hrun (fun _ h => h)
  rw [hlen, sum_districtSize _ _ hk] at g1
  have := Finset.card_le_card g2
  have := Finset.card_pos.2 ⟨i0, hi0⟩
  omega

/-- A group that agrees on an unelected candidate has as many representatives as it deserves. -/
theorem greedyMonroe_joint (hp : p.WF) (hne : p.voters ≠ []) (hu : ∀ v ∈ p.voters, v.weight = 1) {k : ℕ} (hk : 1 ≤ k)
    (hdvd : k ∣ p.voters.length) {A : Finset ℕ} (h : RunWinner (GMBest p) (gmUpd p k) [] k A) {ℓ : ℕ} {G : Group p} {c : ℕ}
    (h2 : (ℓ : ℚ) * (total p / k) ≤ wt p G) (hcn : c < p.numCand) (hcW : c ∉ A) (hcG : ∀ i ∈ G, c ∈ appr p i) :
    ℓ ≤ (G.biUnion (appr p) ∩ A).card := by
  obtain ⟨W, Ds, hrun, hlen, rfl⟩ := h
  by_contra hlt
  rw [not_le] at hlt
  have ht := total_pos hp hne
  have hkq : (0 : ℚ) < k := by exact_mod_cast hk
  have hq : 0 < total p / k := div_pos ht hkq
  obtain ⟨s, hs⟩ := hdvd
  have hds : ∀ t, districtSize p.voters.length k t = s := by
    intro t
    unfold districtSize
    rw [hs, Nat.mul_mod_right, Nat.mul_div_cancel_left _ (by omega)]
    simp
  have hGs : ℓ * s ≤ G.card := by
    have hsq : (p.voters.length : ℚ) = k * s := by exact_mod_cast hs
    rw [unit_wt hu, unit_total hu, hsq] at h2
    rw [mul_div_cancel_left₀ _ hkq.ne'] at h2
    exact_mod_cast h2
  have hs0 : 1 ≤ s := by
    rcases Nat.eq_zero_or_pos s with h0 | h0
    · rw [h0, mul_zero] at hs
      exact absurd (List.length_eq_zero_iff.1 hs) hne
    · exact h0
  have room : ∀ x, x < ℓ → s ≤ G.card - x * s := by
    intro x hx
    have : (x + 1) * s ≤ ℓ * s := Nat.mul_le_mul_right s hx
    rw [add_mul, one_mul] at this
    omega
  have key : ∀ (V : List ℕ) (Ds : List (Group p)), Run (GMBest p) (gmUpd p k) [] [] V Ds → V.toFinset ⊆ W.toFinset →
      (unassigned p Ds).card + V.length * s = p.voters.length ∧
        G.card ≤ (unassigned p Ds ∩ G).card + (G.biUnion (appr p) ∩ V.toFinset).card * s := by
    intro V Ds hV
    induction hV with
    | start =>
      intro _
      refine ⟨by simp [unassigned], by simp [unassigned]⟩
    | @step V Ds d hV hd ih =>
      intro hsub
      have hsub' : V.toFinset ⊆ W.toFinset := by
        intro x hx
        refine hsub ?_
        simp only [List.mem_toFinset] at hx
        simp [hx]
      obtain ⟨g1, g2⟩ := ih hsub'
      have hx : (G.biUnion (appr p) ∩ V.toFinset).card < ℓ :=
        lt_of_le_of_lt (Finset.card_le_card (Finset.inter_subset_inter_left hsub')) hlt
      have hroom := room _ hx
      obtain ⟨D, e, hD, hDc⟩ := gm_step (k := k) hd hcn (fun hm => hcW (hsub' (by simpa using hm))) (U := unassigned p Ds ∩ G)
        (fun i hi => Finset.mem_inter.2 ⟨(Finset.mem_inter.1 hi).1, by
          rw [mem_backers_appr]; exact hcG i (Finset.mem_inter.1 hi).2⟩) (by rw [hds]; omega)
      rw [hds] at hDc
      rw [e, unassigned_append]
      have e' : (V ++ [d]).toFinset = insert d V.toFinset := by ext x; simp
      constructor
      · rw [Finset.card_sdiff_of_subset (hD.trans Finset.inter_subset_left), hDc, List.length_append, List.length_singleton,
          add_mul, one_mul]
        have := Finset.card_le_card (hD.trans Finset.inter_subset_left)
        omega
      · rw [e', Finset.sdiff_inter_right_comm]
        by_cases hdG : d ∈ G.biUnion (appr p)
        · rw [Finset.inter_insert_of_mem hdG, Finset.card_insert_of_notMem (by simp [hd.2.1]), add_mul, one_mul]
          have := Finset.le_card_sdiff D (unassigned p Ds ∩ G)
          omega
        · rw [Finset.inter_insert_of_notMem hdG, Finset.sdiff_eq_self_of_disjoint]
          · exact g2
          · rw [Finset.disjoint_left]
            intro i hi hiD
            have := (Finset.mem_inter.1 (hD hiD)).2
            rw [mem_backers_appr] at this
            exact hdG (Finset.mem_biUnion.2 ⟨i, (Finset.mem_inter.1 hi).2, this⟩)
  obtain ⟨g1, g2⟩ := key W Ds hrun subset_rfl
  rw [hlen, ← hs] at g1
  have h0 : (unassigned p Ds ∩ G).card = 0 := by
    have := Finset.card_le_card (Finset.inter_subset_left (s₁ := unassigned p Ds) (s₂ := G))
    omega
  have := room _ hlt
  omega

/-! ## Monroe -/

/-- Greedy Monroe satisfies PJR if the committee size divides the number of voters. -/
theorem greedyMonroe_PJR (hp : p.WF) (hne : p.voters ≠ []) (hu : ∀ v ∈ p.voters, v.weight = 1) {k : ℕ} (hk : 1 ≤ k)
    (hdvd : k ∣ p.voters.length) {A : Finset ℕ} (h : RunWinner (GMBest p) (gmUpd p k) [] k A) :
    PJR p A (total p / k) := by
  intro ℓ G T hco
  by_contra hlt
  rw [not_le] at hlt
  have ht := total_pos hp hne
  have hkq : (0 : ℚ) < k := by exact_mod_cast hk
  obtain ⟨c, hcn, hcW, hcG⟩ := exists_unelected hp (div_pos ht hkq) hco hlt
  exact absurd (greedyMonroe_joint hp hne hu hk hdvd h hco.2.1 hcn hcW hcG) (not_le.2 hlt)

/-- If as many voters as are assigned to the representative of `i0` are not represented, `i0` among them, and jointly approve an
unelected candidate, then the assignment can be improved. -/
theorem monroe_swap {k : ℕ} {A : Finset ℕ} (hA : IsCommittee p k A) {φ : Fin p.voters.length → ℕ} (hφ : Balanced p A φ)
    (hopt : ∀ B ψ, IsCommittee p k B → Balanced p B ψ → represented p ψ ≤ represented p φ) {S : Group p} {i0 : Fin p.voters.length}
    (hi0 : i0 ∈ S) (hcard : S.card = (Finset.univ.filter (fun i => φ i = φ i0)).card) (hun : ∀ i ∈ S, φ i ∉ appr p i) {c : ℕ}
    (hcn : c < p.numCand) (hcA : c ∉ A) (hcS : ∀ i ∈ S, c ∈ appr p i) : False := by
  classical
  set D : Group p := Finset.univ.filter (fun i => φ i = φ i0) with hD
  have hi0D : i0 ∈ D := by simp [hD]
  have hc2 : (S \ D).card = (D \ S).card := by
    have h1 := Finset.card_sdiff_add_card_inter S D
    have h2 := Finset.card_sdiff_add_card_inter D S
    rw [Finset.inter_comm] at h2
    omega
  let e : {x // x ∈ S \ D} ≃ {x // x ∈ D \ S} := Finset.equivOfCardEq hc2
  let σ : Fin p.voters.length → Fin p.voters.length := fun i =>
    if h : i ∈ S \ D then (e ⟨i, h⟩ : Fin p.voters.length)
    else if h : i ∈ D \ S then (e.symm ⟨i, h⟩ : Fin p.voters.length) else i
  have σ1 : ∀ i (h : i ∈ S \ D), σ i = (e ⟨i, h⟩ : Fin p.voters.length) := fun i h => dif_pos h
  have σ2 : ∀ i (h : i ∈ D \ S), σ i = (e.symm ⟨i, h⟩ : Fin p.voters.length) := by
    intro i h
    have hn : i ∉ S \ D := fun h' => (Finset.mem_sdiff.1 h).2 (Finset.mem_sdiff.1 h').1
    simp only [σ]
    rw [dif_neg hn, dif_pos h]
  have σ3 : ∀ i, i ∉ S \ D → i ∉ D \ S → σ i = i := by
    intro i h h'
    simp only [σ]
    rw [dif_neg h, dif_neg h']
  have σinv : ∀ i, σ (σ i) = i := by
    intro i
    by_cases h : i ∈ S \ D
    · rw [σ1 i h, σ2 _ (e ⟨i, h⟩).2]
      simp
    · by_cases h' : i ∈ D \ S
      · rw [σ2 i h', σ1 _ (e.symm ⟨i, h'⟩).2]
        simp
      · rw [σ3 i h h', σ3 i h h']
  have σD : ∀ i, σ i ∈ D ↔ i ∈ S := by
    intro i
    by_cases h : i ∈ S \ D
    · rw [σ1 i h]
      exact iff_of_true (Finset.mem_sdiff.1 (e ⟨i, h⟩).2).1 (Finset.mem_sdiff.1 h).1
    · by_cases h' : i ∈ D \ S
      · rw [σ2 i h']
        exact iff_of_false (Finset.mem_sdiff.1 (e.symm ⟨i, h'⟩).2).2 (Finset.mem_sdiff.1 h').2
      · rw [σ3 i h h']
        simp only [Finset.mem_sdiff, not_and_not_right] at h h'
        exact ⟨h', h⟩
  have count : ∀ d, (Finset.univ.filter (fun i => φ (σ i) = d)).card = (Finset.univ.filter (fun i => φ i = d)).card := by
    intro d
    refine Finset.card_bij (fun i _ => σ i) ?_ ?_ ?_
    · intro i hi
      simpa using hi
    · intro i _ j _ hij
      rw [← σinv i, ← σinv j, hij]
    · intro i hi
      exact ⟨σ i, by simpa [σinv] using hi, σinv i⟩
  have hw : φ i0 ∈ A := hφ.1 i0
  have hne : c ≠ φ i0 := fun h => hcA (h ▸ hw)
  have hcB : c ∉ A.erase (φ i0) := fun h => hcA (Finset.mem_of_mem_erase h)
  set B := insert c (A.erase (φ i0)) with hB
  have hBcard : B.card = A.card := by
    rw [hB, Finset.card_insert_of_notMem hcB, Finset.card_erase_of_mem hw]
    have := Finset.card_pos.2 ⟨_, hw⟩
    omega
  have hBc : IsCommittee p k B := by
    refine ⟨?_, hBcard.trans hA.2⟩
    intro x hx
    rcases Finset.mem_insert.1 hx with rfl | hx
    · exact Finset.mem_range.2 hcn
    · exact hA.1 (Finset.mem_of_mem_erase hx)
  let ψ : Fin p.voters.length → ℕ := fun i => if i ∈ S then c else φ (σ i)
  have hψn : ∀ i, i ∉ S → φ (σ i) ≠ φ i0 := by
    intro i hi h
    refine hi ((σD i).1 ?_)
    simp [hD, h]
  have hψb : Balanced p B ψ := by
    constructor
    · intro i
      simp only [ψ]
      split
      · exact Finset.mem_insert_self _ _
      · exact Finset.mem_insert_of_mem (Finset.mem_erase.2 ⟨hψn i (by assumption), hφ.1 _⟩)
    · intro d hd
      rw [hBcard]
      rcases Finset.mem_insert.1 hd with rfl | hd
      · have : Finset.univ.filter (fun i => ψ i = d) = S := by
          ext i
          simp only [Finset.mem_filter, Finset.mem_univ, true_and, ψ]
          by_cases hi : i ∈ S
          · simp [hi]
          · simp only [hi, if_false, iff_false]
            intro h
            exact hcA (h ▸ hφ.1 _)
        rw [this, hcard]
        exact hφ.2 _ hw
      · obtain ⟨hdw, hdA⟩ := Finset.mem_erase.1 hd
        have : Finset.univ.filter (fun i => ψ i = d) = Finset.univ.filter (fun i => φ (σ i) = d) := by
          ext i
          simp only [Finset.mem_filter, Finset.mem_univ, true_and, ψ]
          by_cases hi : i ∈ S
          · simp only [hi, if_true]
            constructor
            · intro h
              exact absurd (h ▸ hdA) hcA
            · intro h
              have := (σD i).2 hi
              simp only [hD, Finset.mem_filter, Finset.mem_univ, true_and] at this
              exact absurd (h.symm.trans this) hdw
          · simp [hi]
        rw [this, count]
        exact hφ.2 d hdA
  have hle := hopt B ψ hBc hψb
  unfold represented at hle
  set R := Finset.univ.filter (fun i => φ i ∈ appr p i) with hR
  have hRS : ∀ i ∈ R, i ∉ S := by
    intro i hi hS
    exact hun i hS (Finset.mem_filter.1 hi).2
  have hsub : S ∪ (R \ D) ⊆ Finset.univ.filter (fun i => ψ i ∈ appr p i) := by
    intro i hi
    simp only [Finset.mem_filter, Finset.mem_univ, true_and, ψ]
    rcases Finset.mem_union.1 hi with hi | hi
    · rw [if_pos hi]
      exact hcS i hi
    · obtain ⟨h1, h2⟩ := Finset.mem_sdiff.1 hi
      rw [if_neg (hRS i h1), σ3 i (fun h => hRS i h1 (Finset.mem_sdiff.1 h).1) (fun h => h2 (Finset.mem_sdiff.1 h).1)]
      exact (Finset.mem_filter.1 h1).2
  have h1 := Finset.card_le_card hsub
  rw [Finset.card_union_of_disjoint (by
    rw [Finset.disjoint_left]
    intro i hi hi'
    exact hRS i (Finset.mem_sdiff.1 hi').1 hi)] at h1
  have h2 := Finset.card_sdiff_add_card_inter R D
  have h3 : (R ∩ D).card < D.card := by
    refine Finset.card_lt_card ⟨Finset.inter_subset_right, fun h => ?_⟩
    exact hRS i0 (Finset.mem_inter.1 (h hi0D)).1 hi0
  omega

/-- Monroe's rule satisfies JR. -/
theorem monroe_JR (hp : p.WF) (hne : p.voters ≠ []) (hu : ∀ v ∈ p.voters, v.weight = 1) {k : ℕ} (hk : 1 ≤ k) {A : Finset ℕ}
    (h : MonroeOpt p k A) : JR p A (total p / k) := by
  obtain ⟨hA, φ, hφ, hopt⟩ := h
  by_contra hno
  obtain ⟨G, c, h1, h2, h3⟩ := not_JR hno
  have ht := total_pos hp hne
  have hkq : (0 : ℚ) < k := by exact_mod_cast hk
  have hq : 0 < total p / k := div_pos ht hkq
  obtain ⟨i0, hi0⟩ := nonempty_of_wt hq h1
  have hsat : ∀ i ∈ G, ∀ d ∈ A, d ∉ appr p i := by
    intro i hi d hd hda
    have := h3 i hi
    unfold sat at this
    rw [Finset.card_eq_zero] at this
    have hm : d ∈ appr p i ∩ A := Finset.mem_inter.2 ⟨hda, hd⟩
    rw [this] at hm
    simp at hm
  rw [unit_wt hu, unit_total hu, div_le_iff₀ hkq] at h1
  have h1' : p.voters.length ≤ G.card * k := by exact_mod_cast h1
  have hDle : (Finset.univ.filter (fun i => φ i = φ i0)).card ≤ G.card := by
    refine ((hφ.2 _ (hφ.1 i0)).2).trans ?_
    rw [hA.2]
    refine Nat.le_of_lt_succ ((Nat.div_lt_iff_lt_mul (by omega)).2 ?_)
    rw [Nat.succ_mul]
    omega
  obtain ⟨S, hS1, hS2, hS3⟩ := Finset.exists_subsuperset_card_eq (s := {i0}) (t := G) (by simpa using hi0)
    (n := (Finset.univ.filter (fun i => φ i = φ i0)).card) (by
      rw [Finset.card_singleton]
      exact Finset.card_pos.2 ⟨i0, by simp⟩) hDle
  exact monroe_swap hA hφ hopt (S := S) (i0 := i0) (hS1 (by simp)) hS3 (fun i hi => hsat i (hS2 hi) _ (hφ.1 i)) (c := c)
    (appr_lt hp (h2 i0 hi0)) (fun hc => hsat i0 hi0 c hc (h2 i0 hi0)) (fun i hi => h2 i (hS2 hi))

/-- A group that agrees on an unelected candidate has as many representatives as it deserves. -/
theorem monroe_joint (hp : p.WF) (hne : p.voters ≠ []) (hu : ∀ v ∈ p.voters, v.weight = 1) {k : ℕ} (hk : 1 ≤ k)
    (hdvd : k ∣ p.voters.length) {A : Finset ℕ} (h : MonroeOpt p k A) {ℓ : ℕ} {G : Group p} {c : ℕ}
    (h2 : (ℓ : ℚ) * (total p / k) ≤ wt p G) (hcn : c < p.numCand) (hcA : c ∉ A) (hcG : ∀ i ∈ G, c ∈ appr p i) :
    ℓ ≤ (G.biUnion (appr p) ∩ A).card := by
  obtain ⟨hA, φ, hφ, hopt⟩ := h
  by_contra hlt
  rw [not_le] at hlt
  have ht := total_pos hp hne
  have hkq : (0 : ℚ) < k := by exact_mod_cast hk
  have hq : 0 < total p / k := div_pos ht hkq
  obtain ⟨s, hs⟩ := hdvd
  have hGs : ℓ * s ≤ G.card := by
    have hsq : (p.voters.length : ℚ) = k * s := by exact_mod_cast hs
    rw [unit_wt hu, unit_total hu, hsq] at h2
    rw [mul_div_cancel_left₀ _ hkq.ne'] at h2
    exact_mod_cast h2
  have hs0 : 1 ≤ s := by
    rcases Nat.eq_zero_or_pos s with h0 | h0
    · rw [h0, mul_zero] at hs
      exact absurd (List.length_eq_zero_iff.1 hs) hne
    · exact h0
  have hsize : ∀ d ∈ A, (Finset.univ.filter (fun i => φ i = d)).card = s := by
    intro d hd
    obtain ⟨g1, g2⟩ := hφ.2 d hd
    rw [hA.2] at g1 g2
    have g3 : p.voters.length / k = s := by rw [hs, Nat.mul_div_cancel_left _ (by omega)]
    have : (p.voters.length + k - 1) / k ≤ s := by
      rw [hs]
      refine Nat.le_of_lt_succ ((Nat.div_lt_iff_lt_mul (by omega)).2 ?_)
      rw [Nat.succ_mul, mul_comm]
      omega
    omega
  -- the members of the group represented by somebody no member approves
  set U := G.filter (fun i => φ i ∉ G.biUnion (appr p)) with hU
  have hUc : s ≤ U.card := by
    have hsplit := Finset.card_filter_add_card_filter_not (s := G) (fun i => φ i ∈ G.biUnion (appr p))
    have hle : (G.filter (fun i => φ i ∈ G.biUnion (appr p))).card ≤ (G.biUnion (appr p) ∩ A).card * s := by
      refine Finset.card_le_mul_card_image_of_maps_to (f := φ) (t := G.biUnion (appr p) ∩ A) ?_ s ?_ |>.trans_eq (mul_comm _ _)
      · intro i hi
        exact Finset.mem_inter.2 ⟨(Finset.mem_filter.1 hi).2, hφ.1 i⟩
      · intro d hd
        rw [← hsize d (Finset.mem_inter.1 hd).2]
        exact Finset.card_le_card fun i hi => by simpa using (Finset.mem_filter.1 hi).2
    have : ((G.biUnion (appr p) ∩ A).card + 1) * s ≤ ℓ * s := Nat.mul_le_mul_right s hlt
    rw [add_mul, one_mul] at this
    rw [← hU] at hsplit
    omega
  obtain ⟨i0, hi0⟩ : U.Nonempty := Finset.card_pos.1 (by omega)
  have hDs := hsize _ (hφ.1 i0)
  obtain ⟨S, hS1, hS2, hS3⟩ := Finset.exists_subsuperset_card_eq (s := {i0}) (t := U) (by simpa using hi0) (n := s) (by simpa using hs0) hUc
  refine monroe_swap hA hφ hopt (S := S) (i0 := i0) (hS1 (by simp)) (hS3.trans hDs.symm) (fun i hi => ?_) (c := c) hcn hcA
    (fun i hi => hcG i (Finset.mem_filter.1 (hS2 hi)).1)
  intro hm
  obtain ⟨hiG, hn⟩ := Finset.mem_filter.1 (hS2 hi)
  exact hn (Finset.mem_biUnion.2 ⟨i, hiG, hm⟩)

/-- Monroe's rule satisfies PJR if the committee size divides the number of voters. -/
theorem monroe_PJR (hp : p.WF) (hne : p.voters ≠ []) (hu : ∀ v ∈ p.voters, v.weight = 1) {k : ℕ} (hk : 1 ≤ k)
    (hdvd : k ∣ p.voters.length) {A : Finset ℕ} (h : MonroeOpt p k A) :
    PJR p A (total p / k) := by
  intro ℓ G T hco
  by_contra hlt
  rw [not_le] at hlt
  have ht := total_pos hp hne
  have hkq : (0 : ℚ) < k := by exact_mod_cast hk
  obtain ⟨c, hcn, hcW, hcG⟩ := exists_unelected hp (div_pos ht hkq) hco hlt
  exact absurd (monroe_joint hp hne hu hk hdvd h hco.2.1 hcn hcW hcG) (not_le.2 hlt)

end

end Abc
