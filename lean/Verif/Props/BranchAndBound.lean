import Verif.Props.SeqThiele

/-!
# C22: branch-and-bound for Thiele methods
-/

namespace Abc
open Spec

/-! ## the bound is admissible -/

theorem gain_antitone (f : ℕ → ℚ) (hf : ∀ i, 1 ≤ i → f (i + 1) ≤ f i) (p : Profile) (hp : p.WF) {P Q : Finset ℕ}
    (hPQ : P ⊆ Q) (c : ℕ) (hc : c ∉ Q) : gain f p Q c ≤ gain f p P c := by
  have hanti : ∀ i j, i ≤ j → f (j + 1) ≤ f (i + 1) := by
    intro i j hij
    induction j, hij using Nat.le_induction with
    | base => exact le_rfl
    | succ j _ ih => exact (hf (j + 1) (by omega)).trans ih
  unfold gain
  rw [score_insert f p Q c hc, score_insert f p P c (fun h => hc (hPQ h))]
  refine List.sum_le_sum ?_
  intro v hv
  split
  · exact mul_le_mul_of_nonneg_left (hanti _ _ (util_mono v hPQ)) (hp.weight v hv).le
  · exact le_rfl

theorem score_union_le (f : ℕ → ℚ) (hf : ∀ i, 1 ≤ i → f (i + 1) ≤ f i) (p : Profile) (hp : p.WF) (P : Finset ℕ)
    (D : List ℕ) (hD : D.Nodup) (hdisj : ∀ d ∈ D, d ∉ P) :
    score f p (P ∪ D.toFinset) ≤ score f p P + (D.map (fun d => gain f p P d)).sum := by
  induction D with
  | nil => simp
  | cons d D ih =>
    have ih := ih (List.nodup_cons.1 hD).2 (fun e he => hdisj e (by simp [he]))
    have hd : d ∉ P ∪ D.toFinset := by
      simp only [Finset.mem_union, List.mem_toFinset, not_or]
      exact ⟨hdisj d (by simp), (List.nodup_cons.1 hD).1⟩
    have h1 := gain_antitone f hf p hp (Finset.subset_union_left (s₁ := P) (s₂ := D.toFinset)) d hd
    have h2 : P ∪ (d :: D).toFinset = insert d (P ∪ D.toFinset) := by
      ext x; simp only [List.toFinset_cons, Finset.mem_union, Finset.mem_insert]; tauto
    have h3 : gain f p (P ∪ D.toFinset) d = score f p (insert d (P ∪ D.toFinset)) - score f p (P ∪ D.toFinset) := rfl
    rw [h2]
    simp only [List.map_cons, List.sum_cons]
    linarith

/-- The sum of any `j` entries is at most the sum of the last `j` entries of the sorted list. -/
theorem sum_le_top (L s : List ℚ) (hs : s.Subperm L) :
    s.sum ≤ ((sortRat L).drop ((sortRat L).length - s.length)).sum := by
  set S := sortRat L with hS
  have hperm : S.Perm L := List.perm_insertionSort _ L
  have hsort : S.Pairwise (· ≤ ·) := List.pairwise_insertionSort _ L
  have hs' : s.Subperm S := hs.trans hperm.symm.subperm
  have hlen : s.length ≤ S.length := hs'.length_le
  rcases Nat.eq_zero_or_pos s.length with h0 | hpos
  · rw [List.length_eq_zero_iff] at h0
    subst h0
    simp
  have hi : S.length - s.length < S.length := by omega
  obtain ⟨t, ht⟩ : ∃ t, t = S[S.length - s.length] := ⟨_, rfl⟩
  have e1 : ∀ l : List ℚ, l.sum = (l.map (fun x => x - t)).sum + l.length * t := by
    intro l
    induction l with
    | nil => simp
    | cons a l ih => simp only [List.sum_cons, List.map_cons, List.length_cons, ih]; push_cast; ring
  have e2 : (s.map (fun x => x - t)).sum ≤ (s.map (fun x => max (x - t) 0)).sum :=
    List.sum_le_sum (fun x _ => le_max_left _ _)
  have e3 : (s.map (fun x => max (x - t) 0)).sum ≤ (S.map (fun x => max (x - t) 0)).sum := by
    obtain ⟨s', hs1, hs2⟩ := hs'
    rw [← (hs1.map _).sum_eq]
    exact (hs2.map _).sum_le_sum (fun x hx => by
      obtain ⟨y, -, rfl⟩ := List.mem_map.1 hx
      exact le_max_right _ _)
  have e4 : (S.map (fun x => max (x - t) 0)).sum = ((S.drop (S.length - s.length)).map (fun x => x - t)).sum := by
    conv_lhs => rw [← List.take_append_drop (S.length - s.length) S]
    rw [List.map_append, List.sum_append]
    have z1 : ((S.take (S.length - s.length)).map (fun x => max (x - t) 0)).sum = 0 := by
      refine List.sum_eq_zero ?_
      intro x hx
      obtain ⟨y, hy, rfl⟩ := List.mem_map.1 hx
      obtain ⟨j, hj, rfl⟩ := List.getElem_of_mem hy
      rw [List.length_take] at hj
      rw [List.getElem_take]
      have := List.pairwise_iff_getElem.1 hsort j (S.length - s.length) (by omega) hi (by omega)
      rw [max_eq_right]
      rw [ht]; linarith
    rw [z1, zero_add]
    congr 1
    refine List.map_congr_left ?_
    intro x hx
    obtain ⟨j, hj, rfl⟩ := List.getElem_of_mem hx
    rw [List.length_drop] at hj
    rw [List.getElem_drop, max_eq_left]
    have : t ≤ S[S.length - s.length + j] := by
      rcases Nat.eq_zero_or_pos j with h | h
      · subst h; rw [ht]; exact le_rfl
      · rw [ht]
        exact List.pairwise_iff_getElem.1 hsort _ _ hi (by omega) (by omega)
    linarith
  rw [e1 s, e1 (S.drop _), List.length_drop]
  have : ((S.length - (S.length - s.length) : ℕ) : ℚ) = s.length := by congr 1; omega
  rw [this]
  linarith

/-- `largest_cand + 1` -/
def startOf (P : List ℕ) : ℕ :=
  match P.getLast? with
  | some c => c + 1
  | none => 0

theorem subperm_drop (l : List ℚ) (start : ℕ) (D : List ℕ) (hD : D.Nodup) (h : ∀ d ∈ D, start ≤ d ∧ d < l.length) :
    (D.map (fun d => l.getD d 0)).Subperm (l.drop start) := by
  have e : l.drop start = ((List.range l.length).drop start).map (fun c => l.getD c 0) := by
    rw [List.map_drop]
    congr 1
    apply List.ext_getElem
    · simp
    · intro i h1 h2
      simp [List.getD_eq_getElem?_getD, h1]
  rw [e]
  have hsp : D.Subperm ((List.range l.length).drop start) := hD.subperm ?_
  · obtain ⟨D', h1, h2⟩ := hsp
    exact ⟨D'.map (fun d => l.getD d 0), h1.map _, h2.map _⟩
  intro d hd
  obtain ⟨h1, h2⟩ := h d hd
  rw [List.mem_iff_getElem]
  refine ⟨d - start, ?_, ?_⟩
  · simp; omega
  · rw [List.getElem_drop, List.getElem_range]; omega

theorem bound_admissible (f : ℕ → ℚ) (hf : ∀ i, 1 ≤ i → f (i + 1) ≤ f i) (p : Profile) (hp : p.WF) (P D : List ℕ)
    (hP : ∀ c ∈ P, c < startOf P) (hD : D.Nodup) (hD2 : ∀ d ∈ D, startOf P ≤ d ∧ d < p.numCand) :
    thieleScore f p (P ++ D) ≤
      ((sortRat ((marginalAdd f p P).drop (startOf P))).drop
        ((sortRat ((marginalAdd f p P).drop (startOf P))).length - D.length)).sum + thieleScore f p P := by
  have hdisj : ∀ d ∈ D, d ∉ P := by
    intro d hd hdP
    have := hP d hdP
    have := (hD2 d hd).1
    omega
  have h1 := score_union_le f hf p hp P.toFinset D hD (fun d hd => by simpa using hdisj d hd)
  rw [thieleScore_eq, thieleScore_eq, List.toFinset_append]
  have h2 : (D.map (fun d => gain f p P.toFinset d)) = D.map (fun d => (marginalAdd f p P).getD d 0) :=
    List.map_congr_left (fun d hd => (marginalAdd_gain f p hp P d (hD2 d hd).2 (hdisj d hd)).symm)
  rw [h2] at h1
  have h3 := sum_le_top _ _ (subperm_drop (marginalAdd f p P) (startOf P) D hD
    (fun d hd => by rw [marginalAdd_length]; exact hD2 d hd))
  rw [List.length_map] at h3
  linarith

/-! ## the search tree -/

/-- The children of a node, in the order in which they are popped. -/
def bnbChildren (p : Profile) (k : ℕ) (P : List ℕ) : List (List ℕ) :=
  (((List.range (p.numCand + 1 - (k - P.length))).filter (fun c => decide (startOf P ≤ c))).map (fun c => P ++ [c])).reverse

/-- `P` is ascending, below `m`, and enough larger candidates are left. -/
structure BnbNode (p : Profile) (k : ℕ) (P : List ℕ) : Prop where
  asc : P.Pairwise (· < ·)
  lt : ∀ c ∈ P, c < p.numCand
  len : P.length ≤ k

theorem lt_startOf {P : List ℕ} (h : P.Pairwise (· < ·)) : ∀ c ∈ P, c < startOf P := by
  intro c hc
  unfold startOf
  cases hl : P.getLast? with
  | none => rw [List.getLast?_eq_none_iff] at hl; subst hl; simp at hc
  | some x => have := (le_getLast_of_lt h hl).2 c hc; simp only; omega

theorem startOf_append (P : List ℕ) (c : ℕ) : startOf (P ++ [c]) = c + 1 := by
  unfold startOf
  simp

theorem startOf_le {P : List ℕ} {x : ℕ} (h : ∀ c ∈ P, c < x) : startOf P ≤ x := by
  unfold startOf
  cases hl : P.getLast? with
  | none => simp
  | some y => exact h y (List.mem_of_getLast? hl)

theorem mem_bnbChildren {p : Profile} {k : ℕ} {P V : List ℕ} :
    V ∈ bnbChildren p k P ↔ ∃ c, V = P ++ [c] ∧ startOf P ≤ c ∧ c < p.numCand + 1 - (k - P.length) := by
  unfold bnbChildren
  simp only [List.mem_reverse, List.mem_map, List.mem_filter, List.mem_range, decide_eq_true_eq]
  constructor
  · rintro ⟨c, ⟨h1, h2⟩, rfl⟩; exact ⟨c, rfl, h2, h1⟩
  · rintro ⟨c, rfl, h1, h2⟩; exact ⟨c, ⟨h2, h1⟩, rfl⟩

theorem bnbChild_node {p : Profile} {k : ℕ} {P V : List ℕ} (hP : BnbNode p k P) (hlen : P.length < k)
    (hV : V ∈ bnbChildren p k P) : BnbNode p k V ∧ V.length = P.length + 1 := by
  obtain ⟨c, rfl, h1, h2⟩ := mem_bnbChildren.1 hV
  refine ⟨⟨?_, ?_, by simp; omega⟩, by simp⟩
  · rw [List.pairwise_append]
    refine ⟨hP.asc, by simp, ?_⟩
    intro a ha b hb
    simp at hb
    have := lt_startOf hP.asc a ha
    omega
  · intro x hx
    rcases List.mem_append.1 hx with hx | hx
    · exact hP.lt x hx
    · simp at hx; omega

theorem asc_room {m : ℕ} (D : List ℕ) (x : ℕ) (h : (x :: D).Pairwise (· < ·)) (hm : ∀ d ∈ x :: D, d < m) :
    x + (D.length + 1) ≤ m := by
  induction D generalizing x with
  | nil => have := hm x (by simp); simp; omega
  | cons y D ih =>
    have h1 := ih y (List.pairwise_cons.1 h).2 (fun d hd => hm d (by simp at hd ⊢; tauto))
    have h2 := (List.pairwise_cons.1 h).1 y (by simp)
    simp only [List.length_cons] at h1 ⊢
    omega

/-- The leaves below `P` are exactly the ascending committees of size `k` that extend `P`. -/
theorem mem_bnbLeaves {p : Profile} {k : ℕ} (r : ℕ) (P : List ℕ) (hP : BnbNode p k P) (hr : k = P.length + r) (V : List ℕ) :
    V ∈ leaves (bnbChildren p k) r P ↔
      ∃ D, V = P ++ D ∧ D.length = r ∧ V.Pairwise (· < ·) ∧ ∀ c ∈ V, c < p.numCand := by
  induction r generalizing P with
  | zero =>
    simp only [leaves, List.mem_singleton]
    constructor
    · rintro rfl; exact ⟨[], by simp, rfl, hP.asc, hP.lt⟩
    · rintro ⟨D, rfl, hD, -⟩
      rw [List.length_eq_zero_iff.1 hD]; simp
  | succ r ih =>
    simp only [leaves, List.mem_flatMap]
    constructor
    · rintro ⟨Q, hQ, hV⟩
      obtain ⟨hQn, hQl⟩ := bnbChild_node hP (by omega) hQ
      obtain ⟨D, rfl, h1, h2, h3⟩ := (ih Q hQn (by omega)).1 hV
      obtain ⟨c, rfl, h4, h5⟩ := mem_bnbChildren.1 hQ
      exact ⟨c :: D, by simp, by simp [h1], by simpa using h2, by simpa using h3⟩
    · rintro ⟨D, rfl, h1, h2, h3⟩
      cases D with
      | nil => simp at h1
      | cons c D =>
        simp only [List.length_cons, Nat.add_right_cancel_iff] at h1
        have hsub : (c :: D).Pairwise (· < ·) := (List.pairwise_append.1 h2).2.1
        have hcr : P ++ [c] ∈ bnbChildren p k P := by
          refine mem_bnbChildren.2 ⟨c, rfl, ?_, ?_⟩
          · exact startOf_le (fun x hx => (List.pairwise_append.1 h2).2.2 x hx c (by simp))
          · have := asc_room D c hsub (fun d hd => h3 d (by simp only [List.mem_append]; exact Or.inr hd))
            omega
        refine ⟨P ++ [c], hcr, ?_⟩
        obtain ⟨hQn, hQl⟩ := bnbChild_node hP (by omega) hcr
        rw [ih (P ++ [c]) hQn (by simp; omega)]
        exact ⟨D, by simp, h1, h2, h3⟩

theorem bnbChildren_nodup (p : Profile) (k : ℕ) (P : List ℕ) : (bnbChildren p k P).Nodup := by
  unfold bnbChildren
  rw [List.nodup_reverse]
  refine List.Nodup.map ?_ (List.nodup_range.filter _)
  intro a b h
  simpa using h

theorem bnbLeaves_nodup {p : Profile} {k : ℕ} (r : ℕ) (P : List ℕ) (hP : BnbNode p k P) (hr : k = P.length + r) :
    (leaves (bnbChildren p k) r P).Nodup := by
  induction r generalizing P with
  | zero => simp [leaves]
  | succ r ih =>
    simp only [leaves]
    rw [List.nodup_flatMap]
    refine ⟨?_, ?_⟩
    · intro Q hQ
      obtain ⟨hQn, hQl⟩ := bnbChild_node hP (by omega) hQ
      exact ih Q hQn (by omega)
    · refine (bnbChildren_nodup p k P).pairwise_of_forall_ne ?_
      intro Q hQ R hR hne
      rw [Function.onFun, List.disjoint_left]
      intro V hV hV'
      obtain ⟨hQn, hQl⟩ := bnbChild_node hP (by omega) hQ
      obtain ⟨hRn, hRl⟩ := bnbChild_node hP (by omega) hR
      obtain ⟨D, rfl, -⟩ := (mem_bnbLeaves r Q hQn (by omega) V).1 hV
      obtain ⟨E, hE, -⟩ := (mem_bnbLeaves r R hRn (by omega) _).1 hV'
      exact hne (List.append_inj hE (by omega)).1

theorem bestFold_noop {C β : Type} [LinearOrder β] (score : C → β) (l : List C) (st : List C × β)
    (h : ∀ c ∈ l, score c < st.2) : l.foldl (bestStep (· > ·) score) st = st := by
  induction l with
  | nil => rfl
  | cons c l ih =>
    have hc := h c (by simp)
    simp only [List.foldl_cons]
    have : bestStep (· > ·) score st c = st := by
      unfold bestStep
      rw [if_neg (not_lt_of_gt hc), if_neg hc.ne]
    rw [this]
    exact ih (fun d hd => h d (by simp [hd]))

/-- The pruned search computes the same as going through all leaves. -/
theorem bnbLoop_eq (f : ℕ → ℚ) (hf : ∀ i, 1 ≤ i → f (i + 1) ≤ f i) (p : Profile) (hp : p.WF) (k : ℕ) (fuel : ℕ)
    (stack best : List (List ℕ)) (bs : ℚ) (hst : ∀ P ∈ stack, BnbNode p k P)
    (hfuel : (stack.map (fun P => (p.numCand + 1) ^ (k - P.length))).sum ≤ fuel) :
    bnbLoop f p k fuel stack best bs = .ok
      ((stack.flatMap (fun P => leaves (bnbChildren p k) (k - P.length) P)).foldl
        (bestStep (· > ·) (thieleScore f p)) (best, bs)).1 := by
  induction fuel generalizing stack best bs with
  | zero =>
    cases stack with
    | nil => simp [bnbLoop]
    | cons P rest =>
      have : 0 < (p.numCand + 1) ^ (k - P.length) := by positivity
      simp at hfuel
  | succ fuel ih =>
    cases stack with
    | nil => simp [bnbLoop]
    | cons P rest =>
      have hP := hst P (by simp)
      have hrest : ∀ Q ∈ rest, BnbNode p k Q := fun Q hQ => hst Q (by simp [hQ])
      have hpow : 1 ≤ (p.numCand + 1) ^ (k - P.length) := Nat.one_le_pow _ _ (by omega)
      have hfr : (rest.map (fun P => (p.numCand + 1) ^ (k - P.length))).sum ≤ fuel := by
        simp only [List.map_cons, List.sum_cons] at hfuel
        omega
      unfold bnbLoop
      simp only [List.flatMap_cons, List.foldl_append]
      by_cases hfull : P.length = k
      · have hl : leaves (bnbChildren p k) (k - P.length) P = [P] := by
          rw [hfull, Nat.sub_self]; rfl
        rw [if_pos hfull, hl]
        simp only [List.foldl_cons, List.foldl_nil]
        unfold bestStep
        by_cases h1 : thieleScore f p P = bs
        · rw [if_pos h1, if_neg (by simp [h1]), if_pos h1]
          exact ih rest _ _ hrest hfr
        · rw [if_neg h1]
          by_cases h2 : thieleScore f p P > bs
          · rw [if_pos h2, if_pos h2]
            exact ih rest _ _ hrest hfr
          · rw [if_neg h2, if_neg h2, if_neg h1]
            exact ih rest _ _ hrest hfr
      · have hlen : P.length < k := lt_of_le_of_ne hP.len hfull
        rw [if_neg hfull]
        change (if (((sortRat ((marginalAdd f p P).drop (startOf P))).drop
          ((sortRat ((marginalAdd f p P).drop (startOf P))).length - (k - P.length))).sum + thieleScore f p P ≥ bs) then
            bnbLoop f p k fuel (bnbChildren p k P ++ rest) best bs else bnbLoop f p k fuel rest best bs) = _
        obtain ⟨r, hr⟩ : ∃ r, k - P.length = r + 1 := ⟨k - P.length - 1, by omega⟩
        by_cases hub : ((sortRat ((marginalAdd f p P).drop (startOf P))).drop
          ((sortRat ((marginalAdd f p P).drop (startOf P))).length - (k - P.length))).sum + thieleScore f p P ≥ bs
        · rw [if_pos hub]
          have hch : ∀ Q ∈ bnbChildren p k P, BnbNode p k Q ∧ Q.length = P.length + 1 :=
            fun Q hQ => bnbChild_node hP hlen hQ
          rw [ih (bnbChildren p k P ++ rest)]
          · have : leaves (bnbChildren p k) (k - P.length) P
                = (bnbChildren p k P).flatMap (fun Q => leaves (bnbChildren p k) (k - Q.length) Q) := by
              rw [hr]
              simp only [leaves]
              rw [List.flatMap_def, List.flatMap_def]
              congr 1
              refine List.map_congr_left ?_
              intro Q hQ
              rw [show k - Q.length = r by have := (hch Q hQ).2; omega]
            rw [List.flatMap_append, List.foldl_append, this]
          · intro Q hQ
            rcases List.mem_append.1 hQ with hQ | hQ
            · exact (hch Q hQ).1
            · exact hrest Q hQ
          · rw [List.map_append, List.sum_append]
            have e : (bnbChildren p k P).map (fun Q => (p.numCand + 1) ^ (k - Q.length))
                = (bnbChildren p k P).map (fun _ => (p.numCand + 1) ^ r) :=
              List.map_congr_left (fun Q hQ => by
                rw [show k - Q.length = r by have := (hch Q hQ).2; omega])
            rw [e]
            simp only [List.map_const', List.sum_replicate, nsmul_eq_mul, Nat.cast_id]
            have hcl : (bnbChildren p k P).length ≤ p.numCand := by
              unfold bnbChildren
              rw [List.length_reverse, List.length_map]
              refine (List.length_filter_le _ _).trans ?_
              rw [List.length_range]; omega
            have h1 := Nat.mul_le_mul_right ((p.numCand + 1) ^ r) hcl
            simp only [List.map_cons, List.sum_cons, hr, pow_succ] at hfuel
            have h2 : 1 ≤ (p.numCand + 1) ^ r := Nat.one_le_pow _ _ (by omega)
            nlinarith
        · rw [if_neg hub, ih rest _ _ hrest hfr]
          congr 3
          rw [bestFold_noop]
          intro V hV
          obtain ⟨D, rfl, h1, h2, h3⟩ := (mem_bnbLeaves (k - P.length) P hP (by omega) V).1 hV
          have := bound_admissible f hf p hp P D (lt_startOf hP.asc)
            (nodup_of_lt (List.pairwise_append.1 h2).2.1)
            (fun d hd => ⟨startOf_le (fun x hx => (List.pairwise_append.1 h2).2.2 x hx d hd),
              h3 d (List.mem_append.2 (Or.inr hd))⟩)
          rw [h1] at this
          push Not at hub
          exact lt_of_le_of_lt this hub

/-! ## the algorithm -/

/-- The sorted list of all optimal committees, found by branch-and-bound. -/
theorem bnb_out (f : ℕ → ℚ) (hf0 : ∀ i, 0 ≤ f i) (hf : ∀ i, 1 ≤ i → f (i + 1) ≤ f i) (p : Profile) (hp : p.WF) (a : Args)
    (hv : ValidCall p a) :
    ∃ out, thieleBranchAndBound f p a.k a.resolute a.maxNum = .ok (finalList a out) ∧ Canonical out ∧
      (∀ A, (∃ W ∈ out, W.toFinset = A) ↔ ThieleOpt f p a.k A) ∧ out ≠ [] := by
  obtain ⟨V, info, g1, g2, g3, -⟩ := seqThieleLoop_spec f hf0 p hp a.k [] [] .nil (by simpa using hv.le)
  have hVn := g2.seqRun.nodup
  have hVs : seqThieleResolute f p a.k = .ok ([sortNat V], info) := by
    unfold seqThieleResolute
    rw [g1]
    simp [bind, Except.bind, sortedCommittees_one hVn.1]
  set I := sortNat V with hI
  have hroot : BnbNode p a.k [] := ⟨by simp, by simp, by simp⟩
  set l := leaves (bnbChildren p a.k) a.k [] with hl
  have hmem : ∀ W, W ∈ l ↔ W ∈ combinations p.candidates a.k := by
    intro W
    rw [hl, mem_bnbLeaves a.k [] hroot (by simp), Profile.candidates, mem_combinations_range]
    constructor
    · rintro ⟨D, rfl, h1, h2, h3⟩
      exact ⟨h2, h3, h1⟩
    · rintro ⟨h1, h2, h3⟩
      exact ⟨W, by simp, h3, h1, h2⟩
  have hIl : I ∈ l := by
    rw [hmem, Profile.candidates, mem_combinations_range]
    refine ⟨sortNat_lt hVn.1, fun x hx => hVn.2 x (mem_sortNat.1 hx), ?_⟩
    rw [hI, sortNat_length]; simpa using g3
  have hloop := bnbLoop_eq f hf p hp a.k (dfsFuel p a.k) [[]] [] (thieleScore f p I)
    (by intro P hP; rw [List.mem_singleton] at hP; subst hP; exact hroot) (by simp [dfsFuel])
  simp only [List.flatMap_cons, List.flatMap_nil, List.append_nil, List.length_nil, Nat.sub_zero, ← hl] at hloop
  obtain ⟨e1, e2, e3, e4⟩ := bestFold_inv (· > ·) (thieleScore f p) (fun a => lt_irrefl a) (fun a b c h h' => lt_trans h' h)
    (fun a b => (lt_trichotomy b a).imp id (Or.imp Eq.symm id)) (thieleScore f p I) l
  set st := l.foldl (bestStep (· > ·) (thieleScore f p)) ([], thieleScore f p I) with hst
  have hatt : ∃ W ∈ l, thieleScore f p W = st.2 := by
    rcases e3 with e3 | e3
    · exact ⟨I, hIl, e3.symm⟩
    · exact e3
  have hin : ∀ W, W ∈ st.1 ↔ W ∈ l ∧ thieleScore f p W = st.2 := by
    intro W; rw [e1]; simp
  have hsub : st.1.Sublist l := by rw [e1]; exact List.filter_sublist
  have hlt : ∀ W ∈ st.1, W.Pairwise (· < ·) := fun W hW => combinations_lt ((hmem W).1 (hsub.subset hW))
  have hnd : st.1.Nodup := hsub.nodup (bnbLeaves_nodup a.k [] hroot (by simp))
  obtain ⟨out, h1, h2, h3⟩ := sortedCommittees_of_lt hlt hnd
  have hne : out ≠ [] := by
    obtain ⟨W, hW, he⟩ := hatt
    intro h0
    have := h3.mem_iff.2 ((hin W).2 ⟨hW, he⟩)
    rw [h0] at this
    simp at this
  refine ⟨out, ?_, h2, ?_, hne⟩
  · rw [← finishA hv h1 hne]
    unfold thieleBranchAndBound
    rw [hVs]
    simp only [bind, Except.bind, pyGet, List.getElem?_cons_zero]
    rw [hloop]
  · intro A
    constructor
    · rintro ⟨W, hW, rfl⟩
      obtain ⟨h4, h5⟩ := (hin W).1 (h3.mem_iff.1 hW)
      refine ⟨(isCommittee_iff_combinations p a.k _).2 ⟨W, (hmem W).1 h4, rfl⟩, ?_⟩
      intro B hB
      obtain ⟨X, hX, rfl⟩ := (isCommittee_iff_combinations p a.k _).1 hB
      rw [← thieleScore_eq, ← thieleScore_eq, h5]
      exact not_lt.1 (e2 X ((hmem X).2 hX))
    · rintro ⟨h4, h5⟩
      obtain ⟨W, hW, rfl⟩ := (isCommittee_iff_combinations p a.k _).1 h4
      refine ⟨W, h3.mem_iff.2 ((hin W).2 ⟨(hmem W).2 hW, ?_⟩), rfl⟩
      obtain ⟨X, hX, he⟩ := hatt
      refine le_antisymm (not_lt.1 (e2 W ((hmem W).2 hW))) ?_
      rw [← he, thieleScore_eq, thieleScore_eq]
      exact h5 _ ((isCommittee_iff_combinations p a.k _).2 ⟨X, (hmem X).1 hX, rfl⟩)

theorem computeThiele_bnb (env : Env) (sid : String) (s : ScoreId) (solver : Solver) (p : Profile) (hp : p.WF) (a : Args)
    (hal : prologue env sid p a = .ok "branch-and-bound") (hsid : env.scoreId sid = .ok s) (hs : s.Proper) :
    ∃ out, computeThieleMethod env sid solver p a = .ok (finalList a out) ∧ Canonical out ∧
      (∀ A, (∃ W ∈ out, W.toFinset = A) ↔ ThieleOpt (marginalFct s) p a.k A) ∧ out ≠ [] := by
  have hv := validCall_of_prologue hal
  obtain ⟨h0, h1⟩ := C16_nonneg_nonincreasing s hs
  obtain ⟨out, e1, e2, e3, e4⟩ := bnb_out (marginalFct s) h0 h1 p hp a hv
  obtain ⟨x, g1, -⟩ := finalList_get hv e4
  refine ⟨out, ?_, e2, e3, e4⟩
  unfold computeThieleMethod
  rw [hal, hsid]
  simp only [bind, Except.bind]
  rw [if_pos trivial, e1]
  simp only [g1]

/-- C22: branch-and-bound returns exactly the optimal committees, for every score function that is non-negative and
non-increasing (pav, slav, cc, av, geom with base ≥ 1). -/
theorem C22_bnb_optimal (env : Env) (sid : String) (s : ScoreId) (solver : Solver) (p : Profile) (hp : p.WF) (a : Args)
    (hal : prologue env sid p a = .ok "branch-and-bound") (hsid : env.scoreId sid = .ok s) (hs : s.Proper) :
    Answers a (computeThieleMethod env sid solver p a) (ThieleOpt (marginalFct s) p a.k) := by
  obtain ⟨out, e1, e2, e3, e4⟩ := computeThiele_bnb env sid s solver p hp a hal hsid hs
  rw [e1]
  exact answers_finalList e2 e3 e4

/-- C22: with `resolute=False` (any `max_num_of_committees`) branch-and-bound and brute force return the same list. -/
theorem C22_bnb_eq_bruteforce (env : Env) (sid : String) (s : ScoreId) (solver : Solver) (p : Profile) (hp : p.WF)
    (a : Args) (hr : a.resolute = false)
    (hal : prologue env sid p { a with algorithm := "branch-and-bound" } = .ok "branch-and-bound")
    (hal' : prologue env sid p { a with algorithm := "brute-force" } = .ok "brute-force")
    (hsid : env.scoreId sid = .ok s) (hs : s.Proper) :
    computeThieleMethod env sid solver p { a with algorithm := "branch-and-bound" }
      = computeThieleMethod env sid solver p { a with algorithm := "brute-force" } := by
  obtain ⟨out, e1, e2, e3, e4⟩ := computeThiele_bnb env sid s solver p hp _ hal hsid hs
  have hv := validCall_of_prologue hal'
  have h0 := (C16_nonneg_nonincreasing s hs).1
  have hge : ∀ W : List ℕ, 0 ≤ thieleScore (marginalFct s) p W := fun W => by
    rw [thieleScore_eq]; exact score_nonneg _ h0 p hp _
  set b : Args := { a with algorithm := "brute-force" } with hb
  obtain ⟨out', h1, h2, h3, h4, -⟩ := bruteBest (· > ·) (fun a => lt_irrefl a) (fun a b c h h' => lt_trans h' h)
    (fun a b => (lt_trichotomy b a).imp id (Or.imp Eq.symm id)) p b.k hv.le (thieleScore (marginalFct s) p)
    (score (marginalFct s) p)
    (fun W _ => thieleScore_eq _ p W) (-1) (fun W _ => Or.inl (by have := hge W; linarith)) (ThieleOpt (marginalFct s) p b.k)
    (fun A => by simp [ThieleOpt])
  have hout : out = out' := canonical_ext e2 h2 (fun A => (e3 A).trans (h3 A).symm)
  obtain ⟨x, g1, -⟩ := finalList_get hv h4
  have hfin := finishA hv h1 h4
  rw [e1, hout]
  have hbr : b.resolute = false := hr
  have : thieleBruteforce (marginalFct s) p b.k b.resolute b.maxNum = .ok (finalList b out') := by
    rw [← hfin, hbr]
    unfold thieleBruteforce
    rw [bruteThieleStep_irresolute]
  unfold computeThieleMethod
  rw [hal', hsid]
  simp only [bind, Except.bind]
  rw [if_neg (by decide), if_pos trivial, this]
  simp only [g1]
  rfl

/-- Non-vacuity of C22. -/
example : prologue exampleEnv "pav" exampleProfile { committeesize := 2, algorithm := "branch-and-bound", resolute := false }
      = .ok "branch-and-bound" ∧ ScoreId.Proper .pav ∧
    computeThieleMethod exampleEnv "pav" (fun _ => .error .importError) ⟨4, [⟨[0, 1], 1⟩, ⟨[2, 3], 1⟩], []⟩
      { committeesize := 2, algorithm := "branch-and-bound", resolute := false }
        = .ok [[0, 2], [0, 3], [1, 2], [1, 3]] := by
  refine ⟨by decide +kernel, trivial, by decide +kernel⟩

/-- C22, finding: the restriction to non-increasing functions is necessary.  `geom0.5` is an accepted rule id; on one voter
approving two candidates and `k = 2` brute force returns the committee while branch-and-bound raises `IndexError`
(the bound is too small, all committees are pruned). -/
theorem C22_geom_below_one_fails :
    let env : Env := ⟨["branch-and-bound", "brute-force"], fun _ => some (1 / 2), fun _ => none⟩
    let p : Profile := ⟨2, [⟨[0, 1], 1⟩], []⟩
    computeThieleMethod env "geom0.5" (fun _ => .error .importError) p
        { committeesize := 2, algorithm := "brute-force", resolute := false } = .ok [[0, 1]] ∧
    computeThieleMethod env "geom0.5" (fun _ => .error .importError) p
        { committeesize := 2, algorithm := "branch-and-bound", resolute := false } = .error .indexError := by
  decide +kernel

end Abc
