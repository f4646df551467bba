import Verif.Model.GreedyMonroe
import Verif.Props.Monroe
import Verif.Lemmas.Run
import Verif.Lemmas.VoterMaps

/-!
# C32: Greedy Monroe
-/

namespace Abc
open Spec

theorem gmDistrictSize_eq (n k t : ℕ) : gmDistrictSize n k t = districtSize n k t := by
  unfold gmDistrictSize districtSize
  have := Nat.div_add_mod n k
  have : n - k * (n / k) = n % k := by omega
  rw [this]

/-- the first elements of an ascending list -/
theorem mem_take_iff {l : List ℕ} (h : l.Pairwise (· < ·)) (m x : ℕ) :
    x ∈ l.take m ↔ x ∈ l ∧ (l.filter (fun y => decide (y < x))).length < m := by
  induction l generalizing m with
  | nil => simp
  | cons a l ih =>
    rw [List.pairwise_cons] at h
    cases m with
    | zero => simp
    | succ m =>
      rw [List.take_succ_cons, List.mem_cons, ih h.2, List.mem_cons, List.filter_cons]
      by_cases hx : x = a
      · subst hx
        have : l.filter (fun y => decide (y < x)) = [] := by
          rw [List.filter_eq_nil_iff]
          intro y hy
          have := h.1 y hy
          simp; omega
        simp [this]
      · simp only [hx, false_or]
        refine and_congr_right ?_
        intro hxl
        have := h.1 x hxl
        simp [this]

theorem grp_card {p : Profile} {l : List ℕ} (hn : l.Nodup) (hlt : ∀ x ∈ l, x < p.voters.length) :
    (grp p l).card = l.length := by
  rw [← List.toFinset_card_of_nodup hn]
  refine Finset.card_bij (fun i _ => (i : ℕ)) ?_ ?_ ?_
  · intro i hi
    exact List.mem_toFinset.2 (mem_grp.1 hi)
  · intro i _ j _ h
    exact Fin.ext h
  · intro x hx
    rw [List.mem_toFinset] at hx
    exact ⟨⟨x, hlt x hx⟩, mem_grp.2 hx, rfl⟩

theorem grp_take {p : Profile} {l : List ℕ} (h : l.Pairwise (· < ·)) (hlt : ∀ x ∈ l, x < p.voters.length) (m : ℕ) :
    grp p (l.take m) = firstVoters (grp p l) m := by
  ext i
  rw [mem_grp, mem_take_iff h]
  unfold firstVoters
  rw [Finset.mem_filter, mem_grp]
  refine and_congr_right fun _ => ?_
  rw [← grp_card (p := p) ((nodup_of_lt h).filter _) (fun x hx => hlt x (List.mem_of_mem_filter hx))]
  have : grp p (l.filter (fun y => decide (y < (i : ℕ)))) = (grp p l).filter (fun j => j < i) := by
    ext j
    simp only [mem_grp, List.mem_filter, Finset.mem_filter, decide_eq_true_eq, Fin.lt_def]
  rw [this]

theorem grp_supporters (p : Profile) (rv : List ℕ) (c : ℕ) : grp p (gmSupporters p rv c) = grp p rv ∩ backers p c := by
  ext i
  simp only [mem_grp, gmSupporters, List.mem_filter, Finset.mem_inter, mem_backers, voterAt_fin, decide_eq_true_eq]

theorem gmSelect_spec (p : Profile) (rv cands : List ℕ) :
    (cands = [] ∧ gmSelect p rv cands = (none, -1)) ∨ ∃ pre c post, cands = pre ++ c :: post ∧
      gmSelect p rv cands = (some c, ((gmSupporters p rv c).length : ℤ)) ∧
      (∀ d ∈ cands, (gmSupporters p rv d).length ≤ (gmSupporters p rv c).length) ∧
      ∀ d ∈ pre, (gmSupporters p rv d).length < (gmSupporters p rv c).length := by
  induction cands using List.reverseRecOn with
  | nil => exact Or.inl ⟨rfl, rfl⟩
  | append_singleton l x ih =>
    right
    have hstep : gmSelect p rv (l ++ [x]) =
        if ((gmSupporters p rv x).length : ℤ) > (gmSelect p rv l).2
          then (some x, ((gmSupporters p rv x).length : ℤ)) else gmSelect p rv l := by
      unfold gmSelect
      rw [List.foldl_append]
      rfl
    rcases ih with ⟨rfl, h⟩ | ⟨pre, c, post, hl, hs, hmax, hpre⟩
    · refine ⟨[], x, [], rfl, ?_, by simp, by simp⟩
      rw [hstep, h, if_pos (by simp; omega)]
    · rw [hstep, hs]
      by_cases hx : ((gmSupporters p rv x).length : ℤ) > ((gmSupporters p rv c).length : ℤ)
      · refine ⟨l, x, [], rfl, by rw [if_pos hx], ?_, ?_⟩
        · intro d hd
          rcases List.mem_append.1 hd with hd | hd
          · have := hmax d hd; omega
          · rw [List.mem_singleton.1 hd]
        · intro d hd
          have := hmax d hd
          omega
      · refine ⟨pre, c, post ++ [x], by simp [hl], by rw [if_neg hx], ?_, hpre⟩
        intro d hd
        rcases List.mem_append.1 hd with hd | hd
        · exact hmax d hd
        · rw [List.mem_singleton.1 hd]; omega

/-- The state of the loop corresponds to a run. -/
structure GMInv (p : Profile) (k : ℕ) (iter : List ℕ) (W : List ℕ) (rv rc : List ℕ) (asg : List (ℕ × List ℕ))
    (Ds : List (Group p)) : Prop where
  run : Run (GMBest p) (gmUpd p k) [] [] W Ds
  first : iter = p.candidates → RunFirst (GMBest p) (gmUpd p k) [] [] W Ds
  asc : rv.Pairwise (· < ·)
  lt : ∀ x ∈ rv, x < p.voters.length
  rest : grp p rv = unassigned p Ds
  cands : rc.Nodup ∧ ∀ c, c ∈ rc ↔ c < p.numCand ∧ c ∉ W
  cands_asc : iter = p.candidates → rc.Pairwise (· < ·)
  names : asg.map Prod.fst = W
  districts : List.Forall₂ (fun (x : ℕ × List ℕ) D => grp p x.2 = D) asg Ds
  perm : (asg.flatMap Prod.snd ++ rv).Perm (List.range p.voters.length)
  sizes : ∀ t (h : t < asg.length), (asg[t]).2.length ≤ districtSize p.voters.length k t

theorem gmLoop_spec (p : Profile) (k : ℕ) (hk : k ≤ p.numCand) (iter : List ℕ) (r : ℕ) (W rv rc : List ℕ)
    (asg : List (ℕ × List ℕ)) (Ds : List (Group p)) (h : GMInv p k iter W rv rc asg Ds) (hr : W.length + r = k) :
    ∃ W' rv' rc' asg' Ds', gmLoop p k r W.length W rv rc asg = .ok (W', asg', rv') ∧
      GMInv p k iter W' rv' rc' asg' Ds' ∧ W'.length = k := by
  induction r generalizing W rv rc asg Ds with
  | zero => exact ⟨W, rv, rc, asg, Ds, rfl, h, by omega⟩
  | succ r ih =>
    have hnd : W.Nodup ∧ ∀ c ∈ W, c < p.numCand :=
      h.run.nodup (fun _ _ _ _ hb => ⟨hb.1, hb.2.1⟩) List.nodup_nil (by simp)
    have hlen : ∀ c, (gmSupporters p rv c).length = (unassigned p Ds ∩ backers p c).card := by
      intro c
      rw [← h.rest, ← grp_supporters]
      exact (grp_card ((nodup_of_lt h.asc).filter _) (fun x hx => h.lt x (List.mem_of_mem_filter hx))).symm
    rcases gmSelect_spec p rv rc with ⟨hnil, -⟩ | ⟨pre, c, post, hl, hs, hmax, hpre⟩
    · exfalso
      have hall : ∀ c < p.numCand, c ∈ W := by
        intro c hc
        by_contra hcW
        have := (h.cands.2 c).2 ⟨hc, hcW⟩
        rw [hnil] at this
        simp at this
      have : (Finset.range p.numCand).card ≤ W.toFinset.card :=
        Finset.card_le_card (fun c hc => List.mem_toFinset.2 (hall c (Finset.mem_range.1 hc)))
      rw [Finset.card_range, List.toFinset_card_of_nodup hnd.1] at this
      omega
    · have hcrc : c ∈ rc := by rw [hl]; simp
      have hbest : GMBest p W Ds c := by
        obtain ⟨h1, h2⟩ := (h.cands.2 c).1 hcrc
        refine ⟨h1, h2, ?_⟩
        intro d hd hdW
        rw [← hlen, ← hlen]
        exact hmax d ((h.cands.2 d).2 ⟨hd, hdW⟩)
      have hfirst : iter = p.candidates → ∀ d < c, ¬ GMBest p W Ds d := by
        intro hi d hd hb
        have hdrc : d ∈ rc := (h.cands.2 d).2 ⟨hb.1, hb.2.1⟩
        have hasc := h.cands_asc hi
        rw [hl] at hdrc hasc
        have hdpre : d ∈ pre := by
          rcases List.mem_append.1 hdrc with hd' | hd'
          · exact hd'
          · exfalso
            rw [List.pairwise_append, List.pairwise_cons] at hasc
            rcases List.mem_cons.1 hd' with rfl | hd'
            · exact lt_irrefl _ hd
            · have := hasc.2.1.1 d hd'
              omega
        have h1 := hpre d hdpre
        have h2 := hb.2.2 c hbest.1 hbest.2.1
        rw [hlen, hlen] at h1
        omega
      set D := (gmSupporters p rv c).take (gmDistrictSize p.voters.length k W.length) with hD
      have hDsub : ∀ x ∈ D, x ∈ rv := fun x hx => List.mem_of_mem_filter (List.mem_of_mem_take hx)
      have hsupasc : (gmSupporters p rv c).Pairwise (· < ·) := h.asc.filter _
      have hDgrp : grp p D = firstVoters (unassigned p Ds ∩ backers p c) (districtSize p.voters.length k W.length) := by
        rw [hD, grp_take hsupasc (fun x hx => h.lt x (List.mem_of_mem_filter hx)), grp_supporters, h.rest, gmDistrictSize_eq]
      have hinv : GMInv p k iter (W ++ [c]) (rv.filter (fun i => decide (i ∉ D))) (rc.erase c) (asg ++ [(c, D)])
          (gmUpd p k W Ds c) := by
        refine ⟨.step h.run hbest, fun hi => .step (h.first hi) hbest (hfirst hi), h.asc.filter _,
          fun x hx => h.lt x (List.mem_of_mem_filter hx), ?_, ⟨h.cands.1.erase c, ?_⟩, fun hi => (h.cands_asc hi).erase c, ?_, ?_,
          ?_, ?_⟩
        · unfold gmUpd
          rw [← hDgrp]
          ext i
          have hi : (i : ℕ) ∈ rv ↔ ∀ D ∈ Ds, i ∉ D := by
            rw [← mem_grp (p := p), h.rest]
            simp [unassigned]
          simp only [mem_grp, List.mem_filter, hi, unassigned, Finset.mem_filter, Finset.mem_univ, true_and, List.mem_append,
            List.mem_singleton, decide_eq_true_eq]
          constructor
          · rintro ⟨h1, h2⟩ X (hX | rfl)
            · exact h1 X hX
            · rwa [mem_grp]
          · intro hX
            exact ⟨fun X hX' => hX X (Or.inl hX'), fun hiD => hX _ (Or.inr rfl) (mem_grp.2 hiD)⟩
        · intro d
          rw [h.cands.1.mem_erase_iff, h.cands.2]
          simp only [List.mem_append, List.mem_singleton, not_or]
          tauto
        · rw [List.map_append, h.names]; rfl
        · unfold gmUpd
          exact List.rel_append h.districts (.cons hDgrp .nil)
        · rw [List.flatMap_append]
          refine List.Perm.trans ?_ h.perm
          rw [List.append_assoc]
          refine List.Perm.append_left _ ?_
          simp only [List.flatMap_cons, List.flatMap_nil, List.append_nil]
          have hDn : D.Nodup := ((nodup_of_lt hsupasc).sublist (List.take_sublist _ _))
          rw [List.perm_ext_iff_of_nodup]
          · intro x
            simp only [List.mem_append, List.mem_filter, decide_eq_true_eq]
            constructor
            · rintro (hx | hx)
              · exact hDsub x hx
              · exact hx.1
            · intro hx
              by_cases hxD : x ∈ D
              · exact Or.inl hxD
              · exact Or.inr ⟨hx, hxD⟩
          · rw [List.nodup_append]
            refine ⟨hDn, (nodup_of_lt h.asc).filter _, ?_⟩
            rintro x hx y hy rfl
            simp only [List.mem_filter, decide_eq_true_eq] at hy
            exact hy.2 hx
          · exact nodup_of_lt h.asc
        · intro t ht
          rw [List.length_append, List.length_singleton] at ht
          have hWa : asg.length = W.length := by rw [← h.names, List.length_map]
          by_cases hta : t < asg.length
          · rw [List.getElem_append_left hta]
            exact h.sizes t hta
          · have : t = asg.length := by omega
            subst this
            simp only [List.getElem_concat_length]
            rw [hWa, hD, gmDistrictSize_eq]
            exact List.length_take_le _ _
      have hih := ih (W ++ [c]) _ _ _ _ hinv (by rw [List.length_append, List.length_singleton]; omega)
      obtain ⟨W', rv', rc', asg', Ds', e, hi', hl'⟩ := hih
      refine ⟨W', rv', rc', asg', Ds', ?_, hi', hl'⟩
      unfold gmLoop
      rw [hs]
      simp only
      rw [← hD, ← e, List.length_append, List.length_singleton]

theorem gmPop_spec (m : ℕ) (voters rem : List ℕ) (h : m ≤ rem.length) :
    ∃ extra rem', gmPop m voters rem = .ok (voters ++ extra, rem') ∧ extra.length = m ∧ (extra ++ rem').Perm rem := by
  induction m generalizing voters rem with
  | zero => exact ⟨[], rem, by simp [gmPop], rfl, by simp⟩
  | succ m ih =>
    rcases List.eq_nil_or_concat rem with rfl | ⟨rem0, v, rfl⟩
    · simp at h
    · rw [List.concat_eq_append] at h ⊢
      obtain ⟨extra, rem', h1, h2, h3⟩ := ih (voters ++ [v]) rem0 (by simp at h; omega)
      refine ⟨v :: extra, rem', ?_, by simp [h2], ?_⟩
      · unfold gmPop
        simp [h1]
      · rw [List.cons_append]
        refine (List.Perm.cons v h3).trans ?_
        exact (List.perm_append_singleton v rem0).symm

theorem gmComplete_spec (n k : ℕ) (asg : List (ℕ × List ℕ)) (t : ℕ) (rem : List ℕ)
    (hs : ∀ s (h : s < asg.length), (asg[s]).2.length ≤ districtSize n k (t + s))
    (htot : (asg.flatMap Prod.snd).length + rem.length = ((List.range asg.length).map (fun s => districtSize n k (t + s))).sum) :
    ∃ full, gmComplete n k t asg rem = .ok (full, []) ∧
      List.Forall₂ (fun (x y : ℕ × List ℕ) => y.1 = x.1 ∧ ∀ i ∈ x.2, i ∈ y.2) asg full ∧
      (∀ s (h : s < full.length), (full[s]).2.length = districtSize n k (t + s)) ∧
      (full.flatMap Prod.snd).Perm (asg.flatMap Prod.snd ++ rem) := by
  induction asg generalizing t rem with
  | nil =>
    have : rem = [] := by simpa using htot
    subst this
    exact ⟨[], rfl, .nil, by simp, by simp⟩
  | cons x asg ih =>
    obtain ⟨c, voters⟩ := x
    have h0 : voters.length ≤ districtSize n k t := hs 0 (by simp)
    have hrest : ∀ s (h : s < asg.length), (asg[s]).2.length ≤ districtSize n k (t + 1 + s) := by
      intro s h
      have := hs (s + 1) (by simp; omega)
      simp only [List.getElem_cons_succ] at this
      rwa [show t + 1 + s = t + (s + 1) by omega]
    have hsum : ((List.range (asg.length + 1)).map (fun s => districtSize n k (t + s))).sum =
        districtSize n k t + ((List.range asg.length).map (fun s => districtSize n k (t + 1 + s))).sum := by
      rw [List.range_succ_eq_map, List.map_cons, List.sum_cons, List.map_map]
      congr 2
      refine List.map_congr_left ?_
      intro s _
      simp only [Function.comp]
      congr 1
      omega
    have hsub : (asg.flatMap Prod.snd).length ≤ ((List.range asg.length).map (fun s => districtSize n k (t + 1 + s))).sum := by
      clear ih htot hsum hs h0
      induction asg generalizing t with
      | nil => simp
      | cons y asg ih2 =>
        have hy : y.2.length ≤ districtSize n k (t + 1) := hrest 0 (by simp)
        have := ih2 (t + 1) (by
          intro s h
          have := hrest (s + 1) (by simp; omega)
          simp only [List.getElem_cons_succ] at this
          rwa [show t + 1 + 1 + s = t + 1 + (s + 1) by omega])
        rw [List.flatMap_cons, List.length_append, List.length_cons, List.range_succ_eq_map, List.map_cons, List.sum_cons,
          List.map_map]
        have e : (fun s => districtSize n k (t + 1 + s)) ∘ Nat.succ = fun s => districtSize n k (t + 1 + 1 + s) := by
          funext s
          simp only [Function.comp]
          congr 1
          omega
        rw [e]
        simp only [Nat.add_zero]
        omega
    rw [List.flatMap_cons, List.length_append, List.length_cons, hsum] at htot
    have hm : districtSize n k t - voters.length ≤ rem.length := by
      simp only at htot
      omega
    obtain ⟨extra, rem', h1, h2, h3⟩ := gmPop_spec (districtSize n k t - voters.length) voters rem hm
    have hrl : extra.length + rem'.length = rem.length := by rw [← List.length_append]; exact h3.length_eq
    have hih := ih (t + 1) rem' hrest (by simp only at htot; omega)
    obtain ⟨full, g1, g2, g3, g4⟩ := hih
    refine ⟨(c, voters ++ extra) :: full, ?_, .cons ⟨rfl, fun i hi => by simp [show i ∈ voters from hi]⟩ g2, ?_, ?_⟩
    · unfold gmComplete
      rw [gmDistrictSize_eq, h1]
      simp only [bind, Except.bind, g1]
    · intro s hs'
      cases s with
      | zero => simp; omega
      | succ s =>
        simp only [List.getElem_cons_succ]
        rw [g3 s (by simpa using hs')]
        congr 1
        omega
    · rw [List.flatMap_cons, List.flatMap_cons]
      simp only [List.append_assoc]
      refine List.Perm.append_left _ ?_
      refine (List.Perm.append_left extra g4).trans ?_
      rw [← List.append_assoc]
      refine (List.Perm.append_right rem' (List.perm_append_comm)).trans ?_
      rw [List.append_assoc]
      exact List.Perm.append_left _ h3

theorem sum_districtSize (n k : ℕ) (hk : 0 < k) : ((List.range k).map (districtSize n k)).sum = n := by
  have h : ∀ j, j ≤ k → ((List.range j).map (districtSize n k)).sum = j * (n / k) + min j (n % k) := by
    intro j hj
    induction j with
    | zero => simp
    | succ j ih =>
      rw [List.range_succ, List.map_append, List.sum_append, ih (by omega)]
      simp only [List.map_cons, List.map_nil, List.sum_cons, List.sum_nil, districtSize]
      rw [Nat.add_mul]
      split <;> omega
  rw [h k le_rfl]
  have := Nat.div_add_mod n k
  have := Nat.mod_lt n hk
  omega

/-- C32: on unit-weight profiles Greedy Monroe returns one committee; it consists of the candidates elected in a greedy run `W`
(with the smallest index in case of ties if Python iterates over the set of candidates in ascending order), and the printed
assignment is complete: `W[t]` represents a district `full[t]` that contains the voters assigned in round `t`, has the
prescribed size, and every voter is in exactly one district.  Other weights are rejected with ValueError. -/
theorem C32_greedy_monroe (env : Env) (matching : List MEdge → List MEdge) (hmat : ExactMatching matching)
    (minCost : FlowNet → Except Err ℕ) (hmin : ExactMinCost minCost) (iter : List ℕ) (p : Profile)
    (hiter : iter.Perm p.candidates) (a : Args) (hal : prologue env "greedy-monroe" p a = .ok "standard") :
    (p.hasUnitWeights = true → ∃ W Ds C full,
      computeGreedyMonroeFull env matching minCost iter p a = .ok ([C], full) ∧
      computeGreedyMonroe env matching minCost iter p a = .ok [C] ∧
      Run (GMBest p) (gmUpd p a.k) [] [] W Ds ∧
      (iter = p.candidates → RunFirst (GMBest p) (gmUpd p a.k) [] [] W Ds) ∧
      W.length = a.k ∧ W.Nodup ∧ C.Pairwise (· < ·) ∧ C.toFinset = W.toFinset ∧
      full.map Prod.fst = W ∧
      List.Forall₂ (fun (x : ℕ × List ℕ) (D : Group p) => ∀ i ∈ D, (i : ℕ) ∈ x.2) full Ds ∧
      (∀ t (h : t < full.length), (full[t]).2.length = districtSize p.voters.length a.k t) ∧
      (full.flatMap Prod.snd).Perm (List.range p.voters.length)) ∧
    (p.hasUnitWeights = false → computeGreedyMonroe env matching minCost iter p a = .error .valueError) := by
  have hv := validCall_of_prologue hal
  constructor
  · intro hu
    have hkpos : 0 < a.k := hv.pos
    have h0 : GMInv p a.k iter [] (List.range p.voters.length) iter [] [] := by
      refine ⟨.start, fun _ => .start, pairwise_lt_range _, fun x hx => List.mem_range.1 hx, ?_,
        ⟨hiter.nodup_iff.2 List.nodup_range, ?_⟩, ?_, rfl, .nil, by simp, by simp⟩
      · ext i; simp [mem_grp, unassigned]
      · intro c
        rw [hiter.mem_iff]
        simp [Profile.candidates]
      · rintro rfl
        exact pairwise_lt_range _
    obtain ⟨W, rv, rc, asg, Ds, e, hinv, hl⟩ := gmLoop_spec p a.k hv.le iter a.k [] _ _ _ _ h0 (by simp)
    have hnd : W.Nodup ∧ ∀ c ∈ W, c < p.numCand :=
      hinv.run.nodup (fun _ _ _ _ hb => ⟨hb.1, hb.2.1⟩) List.nodup_nil (by simp)
    have hWa : asg.length = a.k := by rw [← hl, ← hinv.names, List.length_map]
    have htot : (asg.flatMap Prod.snd).length + rv.length = p.voters.length := by
      rw [← List.length_append, hinv.perm.length_eq, List.length_range]
    obtain ⟨full, f1, f2, f3, f4⟩ := gmComplete_spec p.voters.length a.k asg 0 rv (by simpa using hinv.sizes)
      (by
        rw [htot, hWa]
        simp only [Nat.zero_add]
        exact (sum_districtSize p.voters.length a.k hkpos).symm)
    have hCne : sortNat W ≠ [] := by
      intro h
      have := congrArg List.length h
      rw [sortNat_length, hl] at this
      simp at this
      omega
    obtain ⟨m, hm, -⟩ := C17_monroescore matching hmat minCost hmin p (sortNat W) (sortNat_nodup.2 hnd.1) hCne
    have hsort : sortedCommittees [sortNat W] = .ok [sortNat W] := by
      rw [sortedCommittees_one (sortNat_nodup.2 hnd.1), sortNat_of_lt (sortNat_lt hnd.1)]
    have hfull : computeGreedyMonroeFull env matching minCost iter p a = .ok ([sortNat W], full) := by
      unfold computeGreedyMonroeFull greedyMonroeAlgorithm
      simp only [List.length_nil] at e
      simp only [hal, bind, Except.bind, hu, not_true_eq_false, if_false, if_true, e, sortedCommittees_one hnd.1, pyGet,
        List.getElem?_cons_zero, hm, f1, hsort]
    refine ⟨W, Ds, sortNat W, full, hfull, ?_, hinv.run, hinv.first, hl, hnd.1, sortNat_lt hnd.1, sortNat_toFinset W, ?_, ?_,
      by simpa using f3, f4.trans hinv.perm⟩
    · unfold computeGreedyMonroe
      rw [hfull]
      rfl
    · rw [← hinv.names]
      have : ∀ (l l' : List (ℕ × List ℕ)), List.Forall₂ (fun (x y : ℕ × List ℕ) => y.1 = x.1 ∧ ∀ i ∈ x.2, i ∈ y.2) l l' →
          l'.map Prod.fst = l.map Prod.fst := by
        intro l l' h
        induction h with
        | nil => rfl
        | cons h1 _ ih => rw [List.map_cons, List.map_cons, ih, h1.1]
      exact this _ _ f2
    · have : ∀ (l l' : List (ℕ × List ℕ)) (Ds : List (Group p)),
          List.Forall₂ (fun (x y : ℕ × List ℕ) => y.1 = x.1 ∧ ∀ i ∈ x.2, i ∈ y.2) l l' →
          List.Forall₂ (fun (x : ℕ × List ℕ) D => grp p x.2 = D) l Ds →
          List.Forall₂ (fun (x : ℕ × List ℕ) (D : Group p) => ∀ i ∈ D, (i : ℕ) ∈ x.2) l' Ds := by
        intro l l' Ds h
        induction h generalizing Ds with
        | nil => intro h; cases h; exact .nil
        | cons h1 _ ih =>
          intro h
          cases h with
          | cons g1 g2 =>
            refine .cons ?_ (ih _ g2)
            rw [← g1]
            intro i hi
            exact h1.2 i (mem_grp.1 hi)
      exact this _ _ _ f2 hinv.districts
  · intro hu
    unfold computeGreedyMonroe computeGreedyMonroeFull
    simp [hal, bind, Except.bind, hu]

/-! ### non-vacuity -/

example : prologue exampleEnv "greedy-monroe" monroeExample { committeesize := 2, resolute := true } = .ok "standard" := by
  decide +kernel
example : (computeGreedyMonroeFull exampleEnv (fun _ => []) (fun _ => .ok 0) [0, 1, 2] monroeExample
    { committeesize := 2, resolute := true }) = .ok ([[0, 1]], [(1, [1, 2]), (0, [0])]) := by decide +kernel

end Abc
