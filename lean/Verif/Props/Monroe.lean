import Verif.Lemmas.Assign
import Verif.Lemmas.Answers
import Verif.Props.Optimal

/-!
# C17, C26: Monroe scores and Monroe's rule by brute force
-/

namespace Abc
open Spec

/-! ## C17: the matching-based computation -/

theorem mem_monroeEdges {p : Profile} {W : List ℕ} {s : ℕ} {i c j : ℕ} :
    (i, (c, j)) ∈ monroeEdges p W s ↔ c ∈ W ∧ j < s ∧ ∃ h : i < p.voters.length, c ∈ appr p ⟨i, h⟩ := by
  unfold monroeEdges
  simp only [List.mem_flatMap, List.mem_map, List.mem_filter, List.mem_range, Prod.mk.injEq, mem_appr]
  constructor
  · rintro ⟨c', hc', j', hj', i', ⟨hi', hv⟩, rfl, rfl, rfl⟩
    refine ⟨hc', hj', hi', ?_⟩
    rw [List.getElem?_eq_getElem hi'] at hv
    simpa using hv
  · rintro ⟨hc, hj, hi, hv⟩
    refine ⟨c, hc, j, hj, i, ⟨hi, ?_⟩, rfl, rfl, rfl⟩
    rw [List.getElem?_eq_getElem hi]
    simpa using hv

theorem sum_const_card (W : Finset ℕ) (s : ℕ) : ∑ _c ∈ W, s = W.card * s := by simp

/-- every balanced assignment gives a matching -/
theorem matching_of_balanced (p : Profile) (W : List ℕ) (hW : W.Nodup) (h0 : W ≠ [])
    (hd : p.voters.length % W.length = 0) (φ : Fin p.voters.length → ℕ) (hφ : Balanced p W.toFinset φ) :
    ∃ M, IsMatching (monroeEdges p W (p.voters.length / W.length)) M ∧ M.length = represented p φ := by
  classical
  have hpos : 0 < W.length := List.length_pos_iff.2 h0
  have hcard : W.toFinset.card = W.length := List.toFinset_card_of_nodup hW
  set s := p.voters.length / W.length with hs
  obtain ⟨hφ1, hφ2⟩ := hφ
  rw [hcard, balanced_dvd hpos hd] at hφ2
  -- number the voters of each district
  have hex : ∀ c ∈ W.toFinset, ∃ g : Fin p.voters.length → ℕ,
      (∀ i, φ i = c → g i < s) ∧ ∀ i i', φ i = c → φ i' = c → g i = g i' → i = i' := by
    intro c hc
    set D := Finset.univ.filter (fun i => φ i = c) with hD
    have hDc : D.card ≤ s := (hφ2 c hc).2
    obtain ⟨e⟩ : Nonempty (D ≃ Fin D.card) := ⟨D.equivFin⟩
    refine ⟨fun i => if h : i ∈ D then e ⟨i, h⟩ else 0, ?_, ?_⟩
    · intro i hi
      have : i ∈ D := by simp [hD, hi]
      simp only [this, dif_pos]
      exact lt_of_lt_of_le (e ⟨i, this⟩).2 hDc
    · intro i i' hi hi' h
      have h1 : i ∈ D := by simp [hD, hi]
      have h2 : i' ∈ D := by simp [hD, hi']
      simp only [h1, h2, dif_pos] at h
      have := e.injective (Fin.ext h)
      exact congrArg Subtype.val this
  choose! g hg1 hg2 using hex
  let R := Finset.univ.filter (fun i => φ i ∈ appr p i)
  refine ⟨R.toList.map (fun (i : Fin p.voters.length) => (((i : ℕ), (φ i, g (φ i) i)) : MEdge)), ⟨?_, ?_, ?_⟩, ?_⟩
  · intro e he
    obtain ⟨i, hi, rfl⟩ := List.mem_map.1 he
    rw [Finset.mem_toList] at hi
    rw [mem_monroeEdges]
    refine ⟨List.mem_toFinset.1 (hφ1 i), hg1 _ (hφ1 i) i rfl, i.2, ?_⟩
    simpa [R] using hi
  · rw [List.map_map]
    refine (List.nodup_map_iff_inj_on (Finset.nodup_toList R)).2 ?_
    intro i _ i' _ h
    exact Fin.ext h
  · rw [List.map_map]
    refine (List.nodup_map_iff_inj_on (Finset.nodup_toList R)).2 ?_
    intro i _ i' _ h
    simp only [Function.comp, Prod.mk.injEq] at h
    obtain ⟨h1, h2⟩ := h
    rw [← h1] at h2
    exact hg2 _ (hφ1 i) i i' rfl h1.symm h2
  · simp [R, represented]

/-- every matching gives a balanced assignment that represents at least as many voters -/
theorem balanced_of_matching (p : Profile) (W : List ℕ) (hW : W.Nodup) (h0 : W ≠ [])
    (hd : p.voters.length % W.length = 0) (M : List MEdge)
    (hM : IsMatching (monroeEdges p W (p.voters.length / W.length)) M) :
    ∃ φ, Balanced p W.toFinset φ ∧ M.length ≤ represented p φ := by
  classical
  have hpos : 0 < W.length := List.length_pos_iff.2 h0
  have hcard : W.toFinset.card = W.length := List.toFinset_card_of_nodup hW
  set s := p.voters.length / W.length with hs
  let S : Finset (Fin p.voters.length) := Finset.univ.filter (fun i => (i : ℕ) ∈ M.map Prod.fst)
  have hmem : ∀ i ∈ S, ∃ cj, ((i : ℕ), cj) ∈ M := by
    intro i hi
    simp only [S, Finset.mem_filter, List.mem_map] at hi
    obtain ⟨-, e, he, h⟩ := hi
    exact ⟨e.2, by rw [← h]; exact he⟩
  choose! σ hσ using hmem
  have hedge : ∀ i ∈ S, (σ i).1 ∈ W ∧ (σ i).2 < s ∧ (σ i).1 ∈ appr p i := by
    intro i hi
    have := hM.sub _ (hσ i hi)
    have e : σ i = ((σ i).1, (σ i).2) := rfl
    rw [e, mem_monroeEdges] at this
    obtain ⟨a, b, _, c⟩ := this
    exact ⟨a, b, c⟩
  have hinj : ∀ i ∈ S, ∀ i' ∈ S, σ i = σ i' → i = i' := by
    intro i hi i' hi' h
    have h1 := hσ i hi
    have h2 := hσ i' hi'
    rw [← h] at h2
    have := (List.nodup_map_iff_inj_on (List.Nodup.of_map _ hM.right)).1 hM.right _ h1 _ h2 rfl
    exact Fin.ext (congrArg Prod.fst this)
  obtain ⟨ψ, h1, h2, h3⟩ := extend_assignment W.toFinset (fun _ => s) (n := p.voters.length)
    (by
      rw [sum_const_card, hcard, hs]
      exact Nat.mul_div_cancel' (Nat.dvd_of_mod_eq_zero hd)) _ S (fun i => (σ i).1) rfl
    (fun i hi => List.mem_toFinset.2 (hedge i hi).1) (by
      intro c hc
      rw [← Finset.card_range s]
      refine Finset.card_le_card_of_injOn (fun i => (σ i).2) ?_ ?_
      · intro i hi
        rw [Finset.mem_coe, Finset.mem_filter] at hi
        simpa using (hedge i hi.1).2.1
      · intro i hi i' hi' h
        rw [Finset.mem_coe, Finset.mem_filter] at hi hi'
        exact hinj i hi.1 i' hi'.1 (Prod.ext (hi.2.trans hi'.2.symm) h))
  refine ⟨ψ, ⟨h2, ?_⟩, ?_⟩
  · intro c hc
    rw [hcard, balanced_dvd hpos hd, h3 c hc]
    exact ⟨le_rfl, le_rfl⟩
  · have hlen : M.length = S.card := by
      rw [← List.length_map (f := Prod.fst), ← List.toFinset_card_of_nodup hM.left]
      refine (Finset.card_bij (fun (i : Fin p.voters.length) _ => (i : ℕ)) ?_ ?_ ?_).symm
      · intro i hi
        simp only [S, Finset.mem_filter] at hi
        exact List.mem_toFinset.2 hi.2
      · intro i _ i' _ h
        exact Fin.ext h
      · intro x hx
        rw [List.mem_toFinset] at hx
        obtain ⟨⟨i, c, j⟩, he, rfl⟩ := List.mem_map.1 hx
        obtain ⟨-, -, hi, -⟩ := mem_monroeEdges.1 (hM.sub _ he)
        exact ⟨⟨i, hi⟩, by simp only [S, Finset.mem_filter]; exact ⟨Finset.mem_univ _, hx⟩, rfl⟩
    rw [hlen]
    refine Finset.card_le_card ?_
    intro i hi
    simp only [Finset.mem_filter, Finset.mem_univ, true_and]
    rw [h1 i hi]
    exact (hedge i hi).2.2

/-- C17, `monroescore_matching`: if the committee size divides the number of voters, the matching-based computation returns the
Monroe score. -/
theorem C17_matching (matching : List MEdge → List MEdge) (hmat : ExactMatching matching) (p : Profile) (W : List ℕ)
    (hW : W.Nodup) (h0 : W ≠ []) (hd : p.voters.length % W.length = 0) :
    ∃ m, monroescoreMatching matching p W = .ok m ∧ IsMonroeScore p W.toFinset m := by
  have hpos : 0 < W.length := List.length_pos_iff.2 h0
  unfold monroescoreMatching
  rw [if_neg (by omega), if_neg (by omega)]
  refine ⟨_, rfl, ?_⟩
  set E := monroeEdges p W (p.voters.length / W.length)
  obtain ⟨h1, h2⟩ := hmat E
  have hub : ∀ φ, Balanced p W.toFinset φ → represented p φ ≤ (matching E).length := by
    intro φ hφ
    obtain ⟨M, hM, hl⟩ := matching_of_balanced p W hW h0 hd φ hφ
    rw [← hl]
    exact h2 M hM
  obtain ⟨φ, hφ, hle⟩ := balanced_of_matching p W hW h0 hd _ h1
  exact ⟨⟨φ, hφ, le_antisymm (hub φ hφ) hle⟩, hub⟩

/-! ## C17: the flow-based computation -/

theorem sum_zipIdx {α : Type} (l : List α) (g : α × ℕ → ℕ) :
    (l.zipIdx.map g).sum = ∑ i : Fin l.length, g (l.get i, (i : ℕ)) := by
  have h : l.zipIdx = List.ofFn (fun i : Fin l.length => (l.get i, (i : ℕ))) := by
    apply List.ext_getElem
    · simp
    · intro n h1 h2
      simp
  rw [h, List.map_ofFn, List.sum_ofFn]
  rfl

theorem sum_nodup {W : List ℕ} (hW : W.Nodup) (g : ℕ → ℕ) : (W.map g).sum = ∑ c ∈ W.toFinset, g c :=
  (List.sum_toFinset g hW).symm

/-- sums over the edges of the network -/
theorem net_sum (p : Profile) (W : List ℕ) (hW : W.Nodup) (g : (FNode × FNode) × ℕ → ℕ) :
    ((monroeNet p W).edges.map g).sum = ∑ c ∈ W.toFinset, g ((FNode.cand c, FNode.sink), 0) +
      ∑ i : Fin p.voters.length, ∑ c ∈ W.toFinset,
        g ((FNode.voter i, FNode.cand c), if c ∈ appr p i then 0 else 1) := by
  unfold monroeNet
  simp only [List.map_append, List.sum_append, List.map_map, List.flatMap_def, List.map_flatten, List.sum_flatten]
  congr 1
  · rw [sum_nodup hW]; rfl
  · rw [sum_zipIdx]
    refine Finset.sum_congr rfl ?_
    intro i _
    simp only [Function.comp, List.map_map]
    rw [sum_nodup hW]
    refine Finset.sum_congr rfl ?_
    intro c _
    simp only [Function.comp, mem_appr]

theorem inflow_sink (p : Profile) (W : List ℕ) (hW : W.Nodup) (f : FNode × FNode → ℕ) :
    inflow (monroeNet p W) f .sink = ∑ c ∈ W.toFinset, f (.cand c, .sink) := by
  unfold inflow
  rw [net_sum p W hW]
  simp

theorem outflow_sink (p : Profile) (W : List ℕ) (hW : W.Nodup) (f : FNode × FNode → ℕ) :
    outflow (monroeNet p W) f .sink = 0 := by
  unfold outflow
  rw [net_sum p W hW]
  simp

theorem inflow_cand (p : Profile) (W : List ℕ) (hW : W.Nodup) (f : FNode × FNode → ℕ) {c : ℕ} (hc : c ∈ W) :
    inflow (monroeNet p W) f (.cand c) = ∑ i : Fin p.voters.length, f (.voter i, .cand c) := by
  unfold inflow
  rw [net_sum p W hW]
  simp [hc]

theorem outflow_cand (p : Profile) (W : List ℕ) (hW : W.Nodup) (f : FNode × FNode → ℕ) {c : ℕ} (hc : c ∈ W) :
    outflow (monroeNet p W) f (.cand c) = f (.cand c, .sink) := by
  unfold outflow
  rw [net_sum p W hW]
  simp [hc]

theorem inflow_voter (p : Profile) (W : List ℕ) (hW : W.Nodup) (f : FNode × FNode → ℕ) (i : ℕ) :
    inflow (monroeNet p W) f (.voter i) = 0 := by
  unfold inflow
  rw [net_sum p W hW]
  simp

theorem outflow_voter (p : Profile) (W : List ℕ) (hW : W.Nodup) (f : FNode × FNode → ℕ) (i : Fin p.voters.length) :
    outflow (monroeNet p W) f (.voter i) = ∑ c ∈ W.toFinset, f (.voter i, .cand c) := by
  unfold outflow
  rw [net_sum p W hW]
  simp only [FNode.voter.injEq, reduceCtorEq, if_false, Finset.sum_const_zero, zero_add, Fin.val_inj]
  rw [Finset.sum_eq_single i]
  · simp
  · intro j _ hj
    simp [hj]
  · simp

theorem flowCost_eq (p : Profile) (W : List ℕ) (hW : W.Nodup) (f : FNode × FNode → ℕ) :
    flowCost (monroeNet p W) f =
      ∑ i : Fin p.voters.length, ∑ c ∈ W.toFinset, (if c ∈ appr p i then 0 else f (.voter i, .cand c)) := by
  unfold flowCost
  rw [net_sum p W hW]
  simp only [zero_mul, Finset.sum_const_zero, zero_add]
  refine Finset.sum_congr rfl fun i _ => Finset.sum_congr rfl fun c _ => ?_
  split <;> simp

theorem isFlow_iff (p : Profile) (W : List ℕ) (hW : W.Nodup) (f : FNode × FNode → ℕ) :
    IsFlow (monroeNet p W) f ↔ (∀ c ∈ W, f (.cand c, .sink) ≤ 1) ∧
      (∀ i : Fin p.voters.length, ∀ c ∈ W, f (.voter i, .cand c) ≤ 1) ∧
      (∑ c ∈ W.toFinset, f (.cand c, .sink) = p.voters.length - W.length * (p.voters.length / W.length)) ∧
      (∀ c ∈ W, ∑ i : Fin p.voters.length, f (.voter i, .cand c) = p.voters.length / W.length + f (.cand c, .sink)) ∧
      ∀ i : Fin p.voters.length, ∑ c ∈ W.toFinset, f (.voter i, .cand c) = 1 := by
  have hnode : (∀ nd ∈ (monroeNet p W).nodes, (inflow (monroeNet p W) f nd.1 : ℤ) - outflow (monroeNet p W) f nd.1 = nd.2) ↔
      (∑ c ∈ W.toFinset, f (.cand c, .sink) = p.voters.length - W.length * (p.voters.length / W.length)) ∧
      (∀ c ∈ W, ∑ i : Fin p.voters.length, f (.voter i, .cand c) = p.voters.length / W.length + f (.cand c, .sink)) ∧
      ∀ i : Fin p.voters.length, ∑ c ∈ W.toFinset, f (.voter i, .cand c) = 1 := by
    have e : (monroeNet p W).nodes = (FNode.sink, ((p.voters.length - W.length * (p.voters.length / W.length) : ℕ) : ℤ)) ::
      W.map (fun c => (FNode.cand c, ((p.voters.length / W.length : ℕ) : ℤ)))
      ++ (List.range p.voters.length).map (fun i => (FNode.voter i, (-1 : ℤ))) := rfl
    rw [e]
    constructor
    · intro h
      refine ⟨?_, ?_, ?_⟩
      · have := h (FNode.sink, ((p.voters.length - W.length * (p.voters.length / W.length) : ℕ) : ℤ)) (by simp)
        simp only [inflow_sink p W hW, outflow_sink p W hW] at this
        omega
      · intro c hc
        have := h (FNode.cand c, ((p.voters.length / W.length : ℕ) : ℤ)) (by simp [hc])
        simp only [inflow_cand p W hW f hc, outflow_cand p W hW f hc] at this
        omega
      · intro i
        have := h (FNode.voter i, (-1 : ℤ)) (by simp)
        simp only [inflow_voter p W hW f, outflow_voter p W hW f i] at this
        omega
    · rintro ⟨h1, h2, h3⟩ nd hnd
      simp only [List.cons_append, List.mem_cons, List.mem_append, List.mem_map, List.mem_range] at hnd
      rcases hnd with rfl | ⟨c, hc, rfl⟩ | ⟨i, hi, rfl⟩
      · simp only [inflow_sink p W hW, outflow_sink p W hW, h1]
        omega
      · simp only [inflow_cand p W hW f hc, outflow_cand p W hW f hc, h2 c hc]
        omega
      · have := h3 ⟨i, hi⟩
        rw [← outflow_voter p W hW f ⟨i, hi⟩] at this
        simp only [inflow_voter p W hW f]
        simp only at this
        omega
  unfold IsFlow
  rw [hnode]
  have hcap : (∀ e ∈ (monroeNet p W).edges, f e.1 ≤ 1) ↔ (∀ c ∈ W, f (.cand c, .sink) ≤ 1) ∧
      (∀ i : Fin p.voters.length, ∀ c ∈ W, f (.voter i, .cand c) ≤ 1) := by
    unfold monroeNet
    simp only [List.mem_append, List.mem_map, List.mem_flatMap]
    constructor
    · intro h
      refine ⟨fun c hc => h _ (Or.inl ⟨c, hc, rfl⟩), fun i c hc => h ((.voter i, .cand c), _) (Or.inr ⟨(p.voters.get i, (i : ℕ)), ?_, c, hc, rfl⟩)⟩
      rw [List.mem_zipIdx_iff_getElem?]
      simp
    · rintro ⟨h1, h2⟩ e (⟨c, hc, rfl⟩ | ⟨⟨v, i⟩, hvi, c, hc, rfl⟩)
      · exact h1 c hc
      · rw [List.mem_zipIdx_iff_getElem?] at hvi
        obtain ⟨hi, -⟩ := List.getElem?_eq_some_iff.1 hvi
        exact h2 ⟨i, hi⟩ c hc
  rw [hcap]
  tauto

/-- every balanced assignment gives a flow -/
theorem flow_of_balanced (p : Profile) (W : List ℕ) (hW : W.Nodup) (h0 : W ≠ []) (φ : Fin p.voters.length → ℕ)
    (hφ : Balanced p W.toFinset φ) :
    ∃ f, IsFlow (monroeNet p W) f ∧ flowCost (monroeNet p W) f + represented p φ = p.voters.length := by
  classical
  have hpos : 0 < W.length := List.length_pos_iff.2 h0
  have hcard : W.toFinset.card = W.length := List.toFinset_card_of_nodup hW
  obtain ⟨hφ1, hφ2⟩ := hφ
  rw [hcard] at hφ2
  have hle : (p.voters.length + W.length - 1) / W.length ≤ p.voters.length / W.length + 1 := by
    by_cases h : p.voters.length % W.length = 0
    · rw [balanced_dvd hpos h]; omega
    · rw [balanced_not_dvd hpos h]
  let cnt : ℕ → ℕ := fun c => (Finset.univ.filter (fun i => φ i = c)).card
  have hsum : ∑ c ∈ W.toFinset, cnt c = p.voters.length := by
    rw [← Finset.card_eq_sum_card_fiberwise (fun i _ => hφ1 i)]
    simp
  let f : FNode × FNode → ℕ := fun e => match e with
    | (.voter i, .cand c) => if h : i < p.voters.length then (if φ ⟨i, h⟩ = c then 1 else 0) else 0
    | (.cand c, .sink) => cnt c - p.voters.length / W.length
    | _ => 0
  have hfv : ∀ (i : Fin p.voters.length) (c : ℕ), f (.voter i, .cand c) = if φ i = c then 1 else 0 := by
    intro i c
    simp [f]
  have hfc : ∀ c, f (.cand c, .sink) = cnt c - p.voters.length / W.length := fun c => rfl
  refine ⟨f, (isFlow_iff p W hW f).2 ⟨?_, ?_, ?_, ?_, ?_⟩, ?_⟩
  · intro c hc
    rw [hfc]
    have := (hφ2 c (List.mem_toFinset.2 hc)).2
    simp only [cnt]
    omega
  · intro i c _
    rw [hfv]
    split <;> simp
  · simp only [hfc]
    have h1 : ∑ c ∈ W.toFinset, (cnt c - p.voters.length / W.length) + ∑ _c ∈ W.toFinset, p.voters.length / W.length
        = ∑ c ∈ W.toFinset, cnt c := by
      rw [← Finset.sum_add_distrib]
      refine Finset.sum_congr rfl ?_
      intro c hc
      have := (hφ2 c hc).1
      simp only [cnt]
      omega
    rw [sum_const_card, hcard, hsum] at h1
    omega
  · intro c hc
    rw [hfc]
    simp only [hfv]
    have := (hφ2 c (List.mem_toFinset.2 hc)).1
    rw [← Finset.card_filter]
    simp only [cnt]
    omega
  · intro i
    simp only [hfv]
    rw [Finset.sum_ite_eq, if_pos (hφ1 i)]
  · rw [flowCost_eq p W hW]
    have h1 : ∀ i, ∑ c ∈ W.toFinset, (if c ∈ appr p i then 0 else f (.voter i, .cand c)) =
        if φ i ∈ appr p i then 0 else 1 := by
      intro i
      rw [Finset.sum_eq_single (φ i)]
      · simp [hfv]
      · intro c _ hc
        simp [hfv, Ne.symm hc]
      · intro h; exact absurd (hφ1 i) h
    simp only [h1]
    unfold represented
    rw [Finset.card_filter, ← Finset.sum_add_distrib]
    have : ∀ i, ((if φ i ∈ appr p i then 0 else 1) + if φ i ∈ appr p i then 1 else 0) = 1 := by
      intro i; split <;> rfl
    simp [this]

/-- every flow gives a balanced assignment -/
theorem balanced_of_flow (p : Profile) (W : List ℕ) (hW : W.Nodup) (h0 : W ≠ []) (f : FNode × FNode → ℕ)
    (hf : IsFlow (monroeNet p W) f) :
    ∃ φ, Balanced p W.toFinset φ ∧ flowCost (monroeNet p W) f + represented p φ = p.voters.length := by
  classical
  have hpos : 0 < W.length := List.length_pos_iff.2 h0
  have hcard : W.toFinset.card = W.length := List.toFinset_card_of_nodup hW
  obtain ⟨f1, f2, f3, f4, f5⟩ := (isFlow_iff p W hW f).1 hf
  have hex : ∀ i : Fin p.voters.length, ∃ c ∈ W.toFinset, f (.voter i, .cand c) = 1 ∧
      ∀ d ∈ W.toFinset, d ≠ c → f (.voter i, .cand d) = 0 := by
    intro i
    obtain ⟨c, hc, hne⟩ : ∃ c ∈ W.toFinset, f (.voter i, .cand c) ≠ 0 := by
      by_contra hno
      push Not at hno
      have := f5 i
      rw [Finset.sum_eq_zero hno] at this
      omega
    have h1 := f2 i c (List.mem_toFinset.1 hc)
    refine ⟨c, hc, by omega, ?_⟩
    intro d hd hdc
    have h5 := f5 i
    rw [← Finset.add_sum_erase _ _ hc] at h5
    have : ∑ x ∈ W.toFinset.erase c, f (.voter i, .cand x) = 0 := by omega
    exact Finset.sum_eq_zero_iff.1 this d (Finset.mem_erase.2 ⟨hdc, hd⟩)
  choose φ hφ1 hφ2 hφ3 using hex
  have hval : ∀ i : Fin p.voters.length, ∀ c ∈ W.toFinset, f (.voter i, .cand c) = if φ i = c then 1 else 0 := by
    intro i c hc
    by_cases h : φ i = c
    · subst h; simp [hφ2]
    · rw [if_neg h]; exact hφ3 i c hc (Ne.symm h)
  have hcnt : ∀ c ∈ W.toFinset, (Finset.univ.filter (fun i => φ i = c)).card =
      p.voters.length / W.length + f (.cand c, .sink) := by
    intro c hc
    rw [← f4 c (List.mem_toFinset.1 hc), Finset.card_filter]
    exact Finset.sum_congr rfl (fun i _ => (hval i c hc).symm)
  refine ⟨φ, ⟨hφ1, ?_⟩, ?_⟩
  · intro c hc
    rw [hcnt c hc, hcard]
    refine ⟨Nat.le_add_right _ _, ?_⟩
    have h1 := f1 c (List.mem_toFinset.1 hc)
    by_cases h : p.voters.length % W.length = 0
    · rw [balanced_dvd hpos h]
      have h0 : p.voters.length - W.length * (p.voters.length / W.length) = 0 := by
        have := Nat.div_add_mod p.voters.length W.length
        omega
      rw [h0] at f3
      rw [Finset.sum_eq_zero_iff.1 f3 c hc]
      omega
    · rw [balanced_not_dvd hpos h]
      omega
  · rw [flowCost_eq p W hW]
    have h1 : ∀ i, ∑ c ∈ W.toFinset, (if c ∈ appr p i then 0 else f (.voter i, .cand c)) =
        if φ i ∈ appr p i then 0 else 1 := by
      intro i
      rw [Finset.sum_eq_single (φ i)]
      · simp [hφ2]
      · intro c hc hne
        rw [hφ3 i c hc hne]
        simp
      · intro h; exact absurd (hφ1 i) h
    simp only [h1]
    unfold represented
    rw [Finset.card_filter, ← Finset.sum_add_distrib]
    have : ∀ i, ((if φ i ∈ appr p i then 0 else 1) + if φ i ∈ appr p i then 1 else 0) = 1 := by
      intro i; split <;> rfl
    simp [this]

/-- Balanced assignments exist. -/
theorem exists_balanced (p : Profile) (W : Finset ℕ) (h0 : W.Nonempty) : ∃ φ, Balanced p W φ := by
  classical
  have hpos : 0 < W.card := Finset.card_pos.2 h0
  set n := p.voters.length with hn
  obtain ⟨T, hT, hTc⟩ : ∃ T ⊆ W, T.card = n % W.card := Finset.exists_subset_card_eq (Nat.mod_lt n hpos).le
  obtain ⟨ψ, -, h2, h3⟩ := extend_assignment (n := n) W (fun c => n / W.card + if c ∈ T then 1 else 0)
    (by
      rw [Finset.sum_add_distrib, sum_const_card, ← Finset.card_filter, Finset.filter_mem_eq_inter,
        Finset.inter_eq_right.2 hT, hTc]
      exact Nat.div_add_mod n W.card) _ ∅ (fun _ => 0) rfl (by simp) (by simp)
  refine ⟨ψ, h2, ?_⟩
  intro c hc
  rw [h3 c hc]
  refine ⟨Nat.le_add_right _ _, ?_⟩
  by_cases h : n % W.card = 0
  · rw [h] at hTc
    rw [Finset.card_eq_zero.1 hTc, ← hn, balanced_dvd hpos h]
    simp
  · rw [← hn, balanced_not_dvd hpos h]
    split <;> omega

theorem represented_le (p : Profile) (φ : Fin p.voters.length → ℕ) : represented p φ ≤ p.voters.length := by
  unfold represented
  refine (Finset.card_le_univ _).trans ?_
  simp

/-- C17, `monroescore_flowbased`: the flow-based computation returns the Monroe score for every committee size. -/
theorem C17_flow (minCost : FlowNet → Except Err ℕ) (hmin : ExactMinCost minCost) (p : Profile) (W : List ℕ)
    (hW : W.Nodup) (h0 : W ≠ []) :
    ∃ m : ℕ, monroescoreFlow minCost p W = .ok (m : ℤ) ∧ IsMonroeScore p W.toFinset m := by
  have hpos : 0 < W.length := List.length_pos_iff.2 h0
  have hne : W.toFinset.Nonempty := by rwa [List.toFinset_nonempty_iff]
  obtain ⟨φ0, hφ0⟩ := exists_balanced p W.toFinset hne
  obtain ⟨f0, hf0, -⟩ := flow_of_balanced p W hW h0 φ0 hφ0
  obtain ⟨m, hm, ⟨f, hf, hfm⟩, hmin'⟩ := hmin _ ⟨f0, hf0⟩
  obtain ⟨φ, hφ, hφm⟩ := balanced_of_flow p W hW h0 f hf
  refine ⟨represented p φ, ?_, ⟨φ, hφ, rfl⟩, ?_⟩
  · unfold monroescoreFlow
    rw [if_neg (by omega), hm]
    simp only [bind, Except.bind]
    congr 1
    omega
  · intro ψ hψ
    obtain ⟨g, hg, hgc⟩ := flow_of_balanced p W hW h0 ψ hψ
    have := hmin' g hg
    omega

/-- C17: `monroescore` returns the maximal number of represented voters over all balanced assignments. -/
theorem C17_monroescore (matching : List MEdge → List MEdge) (hmat : ExactMatching matching)
    (minCost : FlowNet → Except Err ℕ) (hmin : ExactMinCost minCost) (p : Profile) (W : List ℕ)
    (hW : W.Nodup) (h0 : W ≠ []) :
    ∃ m : ℕ, monroescore matching minCost p W = .ok (m : ℤ) ∧ IsMonroeScore p W.toFinset m := by
  have hpos : 0 < W.length := List.length_pos_iff.2 h0
  unfold monroescore
  rw [if_neg (by omega)]
  split
  · next h =>
    obtain ⟨m, hm, hs⟩ := C17_matching matching hmat p W hW h0 h
    rw [hm]
    exact ⟨m, rfl, hs⟩
  · exact C17_flow minCost hmin p W hW h0

/-- The empty committee raises ZeroDivisionError (`len(profile) % len(committee)`). -/
theorem C17_empty (matching : List MEdge → List MEdge) (minCost : FlowNet → Except Err ℕ) (p : Profile) :
    monroescore matching minCost p [] = .error .zeroDivisionError := rfl

/-- Non-vacuity: maximum matchings exist for every graph. -/
theorem exists_exactMatching : ∃ matching, ExactMatching matching := by
  classical
  have h : ∀ E : List MEdge, ∃ M, IsMatching E M ∧ ∀ M', IsMatching E M' → M'.length ≤ M.length := by
    intro E
    have hb : ∀ M, IsMatching E M → M.length ≤ E.toFinset.card := by
      intro M hM
      rw [← List.toFinset_card_of_nodup (List.Nodup.of_map _ hM.left)]
      refine Finset.card_le_card ?_
      intro e he
      exact List.mem_toFinset.2 (hM.sub e (List.mem_toFinset.1 he))
    let P : ℕ → Prop := fun n => ∃ M, IsMatching E M ∧ M.length = n
    have hP0 : P 0 := ⟨[], ⟨by simp, by simp, by simp⟩, rfl⟩
    obtain ⟨M, hM, hl⟩ := Nat.findGreatest_spec (P := P) (Nat.zero_le E.toFinset.card) hP0
    refine ⟨M, hM, ?_⟩
    intro M' hM'
    rw [hl]
    exact Nat.le_findGreatest (hb M' hM') ⟨M', hM', rfl⟩
  choose mat h1 h2 using h
  exact ⟨mat, fun E => ⟨h1 E, h2 E⟩⟩

/-- Non-vacuity: minimum-cost flows exist whenever flows exist. -/
theorem exists_exactMinCost : ∃ minCost, ExactMinCost minCost := by
  classical
  have h : ∀ net : FlowNet, ∃ m : ℕ, (∃ f, IsFlow net f) → (∃ f, IsFlow net f ∧ flowCost net f = m) ∧
      ∀ f, IsFlow net f → m ≤ flowCost net f := by
    intro net
    by_cases hf : ∃ f, IsFlow net f
    · have hex : ∃ n, ∃ f, IsFlow net f ∧ flowCost net f = n := by
        obtain ⟨f, hf⟩ := hf
        exact ⟨_, f, hf, rfl⟩
      refine ⟨Nat.find hex, fun _ => ⟨Nat.find_spec hex, ?_⟩⟩
      intro f hf
      exact Nat.find_min' hex ⟨f, hf, rfl⟩
    · exact ⟨0, fun h => absurd h hf⟩
  choose m hm using h
  exact ⟨fun net => .ok (m net), fun net hf => ⟨m net, rfl, hm net hf⟩⟩

/-! ## C26 -/

theorem monroe_fold (score : List ℕ → Except Err ℤ) (sc : List ℕ → ℤ) (l : List (List ℕ))
    (h : ∀ W ∈ l, score W = .ok (sc W)) (st : List (List ℕ) × ℤ) :
    l.foldlM (monroeStep score) st = .ok (l.foldl (bestStep (· > ·) sc) st) := by
  induction l generalizing st with
  | nil => rfl
  | cons W l ih =>
    have hW := h W (by simp)
    have hstep : monroeStep score st W = .ok (bestStep (· > ·) sc st W) := by
      unfold monroeStep bestStep
      simp only [hW, bind, Except.bind]
      split
      · rfl
      · split <;> rfl
    rw [List.foldlM_cons, hstep]
    simp only [bind, Except.bind, List.foldl_cons]
    exact ih (fun W hW => h W (by simp [hW])) _

/-- the Monroe score as a number -/
noncomputable def monroeNum (p : Profile) (W : Finset ℕ) : ℤ := by
  classical
  exact if h : ∃ m, IsMonroeScore p W m then (h.choose : ℤ) else 0

theorem IsMonroeScore.unique {p : Profile} {W : Finset ℕ} {m n : ℕ} (hm : IsMonroeScore p W m)
    (hn : IsMonroeScore p W n) : m = n := by
  obtain ⟨⟨φ, h1, h2⟩, h3⟩ := hm
  obtain ⟨⟨ψ, g1, g2⟩, g3⟩ := hn
  have := h3 ψ g1
  have := g3 φ h1
  omega

theorem monroeNum_eq {p : Profile} {W : Finset ℕ} {m : ℕ} (h : IsMonroeScore p W m) : monroeNum p W = m := by
  have hex : ∃ m, IsMonroeScore p W m := ⟨m, h⟩
  unfold monroeNum
  rw [dif_pos hex]
  exact_mod_cast IsMonroeScore.unique hex.choose_spec h

theorem exists_monroeScore (p : Profile) (W : Finset ℕ) (h0 : W.Nonempty) : ∃ m, IsMonroeScore p W m := by
  classical
  let P : ℕ → Prop := fun n => ∃ φ, Balanced p W φ ∧ represented p φ = n
  obtain ⟨φ0, hφ0⟩ := exists_balanced p W h0
  obtain ⟨φ, hφ, hl⟩ := Nat.findGreatest_spec (P := P) (represented_le p φ0) ⟨φ0, hφ0, rfl⟩
  refine ⟨_, ⟨φ, hφ, hl⟩, ?_⟩
  intro ψ hψ
  exact Nat.le_findGreatest (represented_le p ψ) ⟨ψ, hψ, rfl⟩

theorem mem_of_finalList {a : Args} {out : List (List ℕ)} {W : List ℕ} (h : W ∈ finalList a out) : W ∈ out := by
  unfold finalList truncate at h
  split at h
  · exact List.mem_of_mem_take h
  · split at h
    · exact h
    · exact List.mem_of_mem_take h

/-- C26: Monroe's rule by brute force returns exactly the Monroe-optimal committees (unit weights; other weights are rejected
with ValueError). -/
theorem C26_monroe_optimal (env : Env) (matching : List MEdge → List MEdge) (hmat : ExactMatching matching)
    (minCost : FlowNet → Except Err ℕ) (hmin : ExactMinCost minCost) (solver : Solver) (p : Profile) (a : Args)
    (hal : prologue env "monroe" p a = .ok "brute-force") :
    (p.hasUnitWeights = true → Answers a (computeMonroe env matching minCost solver p a) (MonroeOpt p a.k)) ∧
    (p.hasUnitWeights = false → computeMonroe env matching minCost solver p a = .error .valueError) := by
  have hv := validCall_of_prologue hal
  constructor
  · intro hu
    have hkpos : 0 < a.k := hv.pos
    have hne : ∀ W : Finset ℕ, IsCommittee p a.k W → W.Nonempty := fun W hW => Finset.card_pos.1 (by rw [hW.2]; exact hkpos)
    have hWl : ∀ W ∈ combinations p.candidates a.k, W.Nodup ∧ W ≠ [] ∧ IsCommittee p a.k W.toFinset := by
      intro W hW
      have h1 := (isCommittee_iff_combinations p a.k W.toFinset).2 ⟨W, hW, rfl⟩
      refine ⟨nodup_of_lt (combinations_lt hW), ?_, h1⟩
      rintro rfl
      have := hne _ h1
      simp at this
    have hsc : ∀ W ∈ combinations p.candidates a.k,
        monroescore matching minCost p W = .ok (monroeNum p W.toFinset) := by
      intro W hW
      obtain ⟨h1, h2, h3⟩ := hWl W hW
      obtain ⟨m, hm, hs⟩ := C17_monroescore matching hmat minCost hmin p W h1 h2
      rw [hm, monroeNum_eq hs]
    have hnn : ∀ W ∈ combinations p.candidates a.k, 0 ≤ monroeNum p W.toFinset := by
      intro W hW
      obtain ⟨m, hm⟩ := exists_monroeScore p W.toFinset (hne _ (hWl W hW).2.2)
      rw [monroeNum_eq hm]
      omega
    obtain ⟨out, h1, h2, h3, h4, -⟩ := bruteBest (· > ·) (fun a => lt_irrefl a) (fun a b c h h' => lt_trans h' h)
      (fun a b => (lt_trichotomy b a).imp id (Or.imp Eq.symm id)) p a.k hv.le (fun W => monroeNum p W.toFinset)
      (monroeNum p) (fun W _ => rfl) (-1) (fun W hW => Or.inl (by have := hnn W hW; show -1 < monroeNum p W.toFinset; omega))
      (MonroeOpt p a.k) (by
        intro A
        unfold MonroeOpt
        refine and_congr_right ?_
        intro hA
        obtain ⟨m, hm⟩ := exists_monroeScore p A (hne A hA)
        constructor
        · rintro ⟨φ, hφ, hopt⟩ B hB
          obtain ⟨n, hn⟩ := exists_monroeScore p B (hne B hB)
          rw [monroeNum_eq hm, monroeNum_eq hn]
          obtain ⟨⟨ψ, hψ, rfl⟩, -⟩ := hn
          have := hopt B ψ hB hψ
          have := hm.2 φ hφ
          simp only [gt_iff_lt, not_lt, Nat.cast_le]
          omega
        · intro h
          obtain ⟨φ, hφ, hr⟩ := hm.1
          refine ⟨φ, hφ, ?_⟩
          intro B ψ hB hψ
          obtain ⟨n, hn⟩ := exists_monroeScore p B (hne B hB)
          have := h B hB
          rw [monroeNum_eq hm, monroeNum_eq hn] at this
          simp only [gt_iff_lt, not_lt, Nat.cast_le] at this
          have := hn.2 ψ hψ
          omega)
    have hfin := finishA hv h1 h4
    have hb : monroeBruteforce matching minCost p a.k a.resolute a.maxNum = .ok (finalList a out) := by
      rw [← hfin]
      unfold monroeBruteforce
      rw [monroe_fold _ (fun W => monroeNum p W.toFinset) _ hsc]
      rfl
    obtain ⟨W, rest, hW, hg⟩ := pyGet_zero_of_ne_nil (finalList_ne_nil hv h4)
    have hans := answers_finalList h2 h3 h4 (a := a)
    have hWc : W.Nodup ∧ W ≠ [] := by
      have hmem : W ∈ out := mem_of_finalList (a := a) (by rw [hW]; simp)
      refine ⟨nodup_of_lt (h2.asc W hmem), ?_⟩
      rintro rfl
      have := hne _ ((h3 _).1 ⟨[], hmem, rfl⟩).1
      simp at this
    obtain ⟨m, hm, -⟩ := C17_monroescore matching hmat minCost hmin p W hWc.1 hWc.2
    unfold computeMonroe
    simp only [hal, bind, Except.bind, hu, not_true_eq_false, if_false, if_true, hb, hg, hm]
    exact hans
  · intro hu
    unfold computeMonroe
    simp [hal, bind, Except.bind, hu]

/-! ### non-vacuity -/

/-- three voters, two seats: districts of size 1 and 2 -/
def monroeExample : Profile := ⟨3, [⟨[0], 1⟩, ⟨[1], 1⟩, ⟨[1, 2], 1⟩], []⟩

example : prologue exampleEnv "monroe" monroeExample { committeesize := 2, algorithm := "brute-force", resolute := false }
    = .ok "brute-force" := by decide +kernel
example : monroeExample.hasUnitWeights = true := by decide +kernel
example : Balanced monroeExample {0, 1} (fun i => if i.val = 0 then 0 else 1) ∧
    represented monroeExample (fun i => if i.val = 0 then 0 else 1) = 3 := by
  unfold Balanced represented appr Voter.A
  decide +kernel
example : ¬ Balanced monroeExample {0, 1} (fun _ => 1) := by
  unfold Balanced
  decide +kernel

end Abc
