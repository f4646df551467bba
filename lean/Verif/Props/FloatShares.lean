import Verif.Props.FloatSeq
import Verif.Props.EqualSharesAxioms
import Verif.Lemmas.CompletionLoop

/-!
# C75: "float-fractions" returns committees (Method of Equal Shares)
-/

namespace Abc
open Spec

section
variable {F : Type} {A : Arith F}

/-! ## The price of a candidate -/

/-- `ord` only rearranges its argument. -/
def Spec.Rearranges {α : Type} (ord : List α → List α) : Prop := ∀ l, (ord l).Perm l

theorem fMinQLoop_ok (hA : Sound A) {ord : List (Voter × F) → List (Voter × F)} (hord : Rearranges ord) (fuel : ℕ)
    (rich poor : List (Voter × F)) (hf : rich.length < fuel) (hw : ∀ e ∈ rich, 0 < e.1.weight) :
    ∃ o, fMinQLoop A ord fuel rich poor = .ok o := by
  induction fuel generalizing rich poor with
  | zero => omega
  | succ fuel ih =>
    unfold fMinQLoop
    by_cases h0 : rich.length = 0
    · exact ⟨none, by rw [if_pos h0]⟩
    · rw [if_neg h0]
      have hpos : 0 < A.val (A.sum ((ord rich).map (fun vb => A.weight vb.1.weight))) := by
        refine hA.sum.pos _ ?_ ?_
        · intro h
          rw [List.map_eq_nil_iff] at h
          have := (hord rich).length_eq
          rw [h] at this
          simp at this
          omega
        · intro x hx
          obtain ⟨e, he, rfl⟩ := List.mem_map.1 hx
          rw [hA.val_weight]
          exact hw e ((hord rich).mem_iff.1 he)
      simp only [Arith.pyDiv, if_neg hpos.ne', bind, Except.bind]
      split
      · exact ⟨_, rfl⟩
      · rename_i hp
        refine ih _ _ ?_ ?_
        · have h1 : (rich.filter (fun vb => ! fPoor A (A.div (A.sub (A.int 1) (A.sum ((ord poor).map Prod.snd)))
              (A.sum ((ord rich).map (fun vb => A.weight vb.1.weight)))) vb)).length +
              (rich.filter (fPoor A (A.div (A.sub (A.int 1) (A.sum ((ord poor).map Prod.snd)))
              (A.sum ((ord rich).map (fun vb => A.weight vb.1.weight)))))).length = rich.length := by
            rw [Nat.add_comm]
            exact List.length_eq_length_filter_add _ |>.symm
          omega
        · intro e he
          exact hw e (List.mem_filter.1 he).1

theorem fGetMinQ_ok (hA : Sound A) {ord : List (Voter × F) → List (Voter × F)} (hord : Rearranges ord) {p : Profile} (hp : p.WF)
    (b : List F) (c : ℕ) : ∃ o, fGetMinQ A ord p b c = .ok o := by
  unfold fGetMinQ
  refine fMinQLoop_ok hA hord _ _ _ ?_ ?_
  · have h1 := List.length_filter_le (fun vb : Voter × F => decide (c ∈ vb.1.approved)) (p.voters.zip b)
    have h2 : (p.voters.zip b).length ≤ p.voters.length := by rw [List.length_zip]; exact min_le_left _ _
    omega
  · intro e he
    exact hp.weight _ (List.of_mem_zip (List.mem_filter.1 he).1).1

theorem fMesPrices_spec {ord : List (Voter × F) → List (Voter × F)} {p : Profile} (b : List F) (cands : List ℕ)
    (h : ∀ c ∈ cands, ∃ o, fGetMinQ A ord p b c = .ok o) :
    ∃ l, fMesPrices A ord p b cands = .ok l ∧ (l.map Prod.fst).Sublist cands ∧
      ∀ c q, (c, q) ∈ l ↔ c ∈ cands ∧ fGetMinQ A ord p b c = .ok (some q) := by
  induction cands with
  | nil => exact ⟨[], rfl, by simp, by simp⟩
  | cons d ds ih =>
    obtain ⟨l, h1, h2, h3⟩ := ih (fun c hc => h c (by simp [hc]))
    obtain ⟨o, ho⟩ := h d (by simp)
    unfold fMesPrices
    simp only [ho, h1, bind, Except.bind]
    cases o with
    | none =>
      refine ⟨l, rfl, h2.trans (List.sublist_cons_self d ds), ?_⟩
      intro c q
      rw [h3, List.mem_cons]
      constructor
      · rintro ⟨h, h'⟩; exact ⟨Or.inr h, h'⟩
      · rintro ⟨rfl | h, h'⟩
        · rw [ho] at h'; simp at h'
        · exact ⟨h, h'⟩
    | some q0 =>
      refine ⟨(d, q0) :: l, rfl, by simpa using h2, ?_⟩
      intro c q
      rw [List.mem_cons, h3, List.mem_cons, Prod.mk.injEq]
      constructor
      · rintro (⟨rfl, rfl⟩ | ⟨h, h'⟩)
        · exact ⟨Or.inl rfl, ho⟩
        · exact ⟨Or.inr h, h'⟩
      · rintro ⟨rfl | h, h'⟩
        · rw [ho] at h'
          obtain rfl := Option.some.inj (Except.ok.inj h')
          exact Or.inl ⟨rfl, rfl⟩
        · exact Or.inr ⟨h, h'⟩

/-- What `fMesSuccs` returns: nothing if no available candidate has a price, otherwise extensions by available candidates with a
price. -/
theorem fMesSuccs_spec (hA : Sound A) {ord : List (Voter × F) → List (Voter × F)} (hord : Rearranges ord) {p : Profile} (hp : p.WF)
    (W : List ℕ) (b : List F) :
    ((∀ r, fMesSuccs A ord p r (W, b) = .ok none) ∧ ∀ c, c < p.numCand → c ∉ W → fGetMinQ A ord p b c = .ok none) ∨
    ∃ ns, ns ≠ [] ∧ ns.length ≤ p.numCand ∧ fMesSuccs A ord p false (W, b) = .ok (some ns) ∧
      fMesSuccs A ord p true (W, b) = .ok (some (ns.take 1)) ∧
      ∀ n ∈ ns, ∃ c q, c < p.numCand ∧ c ∉ W ∧ fGetMinQ A ord p b c = .ok (some q) ∧ n = (W ++ [c], fMesBudget A p b c q) := by
  obtain ⟨l, h1, h2, h3⟩ := fMesPrices_spec (A := A) (ord := ord) (p := p) b (available p W) (fun c _ => fGetMinQ_ok hA hord hp b c)
  by_cases hl : l = []
  · left
    refine ⟨fun r => ?_, ?_⟩
    · unfold fMesSuccs
      simp only [h1, bind, Except.bind, hl]
      rfl
    · intro c hc hcW
      obtain ⟨o, ho⟩ := fGetMinQ_ok (A := A) hA hord hp b c
      cases o with
      | none => exact ho
      | some q =>
        have := (h3 c q).2 ⟨mem_available.2 ⟨hc, hcW⟩, ho⟩
        rw [hl] at this
        simp at this
  · right
    obtain ⟨m, m1, m2, m3⟩ := minOf_spec (A := A) (l := l.map Prod.snd) (by simpa using hl)
    have hlen : l.length ≤ p.numCand := by
      have := h2.length_le
      rw [List.length_map] at this
      refine this.trans ?_
      exact sorted_length_le_of_lt (available_lt p W) (fun c hc => (mem_available.1 hc).1)
    refine ⟨(l.filter (fun cq => A.isclose cq.2 m)).map (fun cq => (W ++ [cq.1], fMesBudget A p b cq.1 cq.2)), ?_, ?_, ?_, ?_, ?_⟩
    · obtain ⟨e, he, rfl⟩ := List.mem_map.1 m2
      exact List.ne_nil_of_mem (List.mem_map_of_mem (List.mem_filter.2 ⟨he, hA.isclose_refl _⟩))
    · rw [List.length_map]
      exact (List.length_filter_le _ _).trans hlen
    · unfold fMesSuccs fMesTied
      simp only [h1, m1, bind, Except.bind]
      rw [if_pos (List.length_pos_of_ne_nil hl)]
      rfl
    · unfold fMesSuccs fMesTied
      simp only [h1, m1, bind, Except.bind]
      rw [if_pos (List.length_pos_of_ne_nil hl)]
      simp only [if_true, List.map_take]
    · intro n hn
      obtain ⟨e, he, rfl⟩ := List.mem_map.1 hn
      obtain ⟨g1, g2⟩ := (h3 e.1 e.2).1 (List.mem_filter.1 he).1
      obtain ⟨g3, g4⟩ := mem_available.1 g1
      exact ⟨e.1, e.2, g3, g4, g2, rfl⟩

/-- The invariant of the main loop, with an additional invariant `J` of committee size and budgets. -/
def FInv (p : Profile) (J : ℕ → List F → Prop) (n : List ℕ × List F) : Prop :=
  n.1.Nodup ∧ (∀ c ∈ n.1, c < p.numCand) ∧ J n.1.length n.2

theorem fMes_stepOK (hA : Sound A) {ord : List (Voter × F) → List (Voter × F)} (hord : Rearranges ord) {p : Profile} (hp : p.WF)
    (k : ℕ) (J : ℕ → List F → Prop) (complete : List ℕ × List F → Except Err (List (List ℕ)))
    (hJ : ∀ j b c q, j < k → J j b → c < p.numCand → fGetMinQ A ord p b c = .ok (some q) → J (j + 1) (fMesBudget A p b c q))
    (hc : ∀ n, FInv p J n → n.1.length < k → (∀ c, c < p.numCand → c ∉ n.1 → fGetMinQ A ord p n.2 c = .ok none) →
      ∃ new, complete n = .ok new ∧ new ≠ [] ∧ ∀ X ∈ new, X.Pairwise (· < ·)) (r : Bool) :
    StepOK p.numCand k (FInv p J) (fMesSuccs A ord p r) complete := by
  intro n hI hl
  have hstep : ∀ ns : List (List ℕ × List F), (∀ n' ∈ ns, ∃ c q, c < p.numCand ∧ c ∉ n.1 ∧ fGetMinQ A ord p n.2 c = .ok (some q) ∧
      n' = (n.1 ++ [c], fMesBudget A p n.2 c q)) → ∀ n' ∈ ns, n'.1.length = n.1.length + 1 ∧ n'.1.Nodup ∧ FInv p J n' := by
    intro ns hns n' hn'
    obtain ⟨c, q, h1, h2, h3, rfl⟩ := hns n' hn'
    have hnd : (n.1 ++ [c]).Nodup := by
      rw [List.nodup_append]
      exact ⟨hI.1, by simp, by rintro x hx y hy rfl; simp at hy; exact h2 (hy ▸ hx)⟩
    refine ⟨by simp, hnd, hnd, ?_, ?_⟩
    · intro d hd
      rcases List.mem_append.1 hd with hd | hd
      · exact hI.2.1 d hd
      · simp at hd; omega
    · simp only [List.length_append, List.length_singleton]
      exact hJ _ _ _ _ hl hI.2.2 h1 h3
  rcases fMesSuccs_spec hA hord hp n.1 n.2 with ⟨h1, h2⟩ | ⟨ns, h1, h2, h3, h4, h5⟩
  · exact Or.inl ⟨h1 r, hc n hI hl h2⟩
  · right
    cases r with
    | false => exact ⟨ns, h3, h1, h2, hstep ns h5⟩
    | true =>
      refine ⟨ns.take 1, h4, ?_, ?_, ?_⟩
      · intro h
        rw [List.take_eq_nil_iff] at h
        simp [h1] at h
      · exact (List.length_take_le' _ _).trans h2
      · exact hstep _ (fun n' hn' => h5 n' (List.mem_of_mem_take hn'))

/-- The resolute search is part of the irresolute search. -/
theorem fMes_mono (hA : Sound A) {ord : List (Voter × F) → List (Voter × F)} (hord : Rearranges ord) {p : Profile} (hp : p.WF)
    {k : ℕ} {J : ℕ → List F → Prop} {complete complete' : List ℕ × List F → Except Err (List (List ℕ))}
    (hC : StepOK p.numCand k (FInv p J) (fMesSuccs A ord p false) complete)
    (hc : ∀ n new, FInv p J n → n.1.length < k → fMesSuccs A ord p false n = .ok none → complete' n = .ok new →
      ∃ new', complete n = .ok new' ∧ ∀ x ∈ new, x ∈ new') (n : List ℕ × List F) (hI : FInv p J n) (hl : n.1.length < k) (X : List ℕ)
    (h : COut k (fMesSuccs A ord p true) complete' n X) : COut k (fMesSuccs A ord p false) complete n X := by
  refine cout_mono hC ?_ ?_ hc n X h hI hl
  · intro n ns _ _ hns
    rcases fMesSuccs_spec hA hord hp n.1 n.2 with ⟨h1, h2⟩ | ⟨ns', h1, h2, h3, h4, h5⟩
    · rw [h1] at hns; simp at hns
    · rw [h4] at hns
      obtain rfl := Option.some.inj (Except.ok.inj hns)
      exact ⟨ns', h3, fun x hx => List.mem_of_mem_take hx⟩
  · intro n _ _ hn
    rcases fMesSuccs_spec hA hord hp n.1 n.2 with ⟨h1, h2⟩ | ⟨ns', h1, h2, h3, h4, h5⟩
    · exact h1 false
    · rw [h4] at hn; simp at hn

/-! ## The algorithm -/

theorem fStartBudget_none (hA : Sound A) {p : Profile} (hp : p.WF) (hne : p.voters ≠ []) (k : ℕ) :
    fStartBudget A p k none = .ok (p.voters.map (fun v => A.div (A.mul (A.weight v.weight) (A.int k)) (fTotalWeight A p))) := by
  unfold fStartBudget
  refine mapM_okF _ _ _ ?_
  intro v _
  unfold Arith.pyDiv
  rw [if_neg (fTotalWeight_pos hA hp hne).ne']

/-- Equal Shares with the completions `none`, `seqphragmen` and `av`: the answers, given what the completion does. -/
theorem fEqualShares_answers (hA : Sound A) {ord : List (Voter × F) → List (Voter × F)} (hord : Rearranges ord) {p : Profile}
    (hp : p.WF) (hne : p.voters ≠ []) (k : ℕ) (hk1 : 1 ≤ k) (completion : Completion) (rid : String) (hid : completion.ruleId = .ok rid)
    (hinc : completion ≠ .increment) (J : ℕ → List F → Prop) (Good : List ℕ → Prop)
    (hJ0 : J 0 (p.voters.map (fun v => A.div (A.mul (A.weight v.weight) (A.int k)) (fTotalWeight A p))))
    (hJ : ∀ j b c q, j < k → J j b → c < p.numCand → fGetMinQ A ord p b c = .ok (some q) → J (j + 1) (fMesBudget A p b c q))
    (hgood : ∀ X, Good X → ∀ c ∈ X, c < p.numCand)
    (hfull : ∀ W : List ℕ, W.Nodup → (∀ c ∈ W, c < p.numCand) → W.length = k → Good (sortNat W))
    (hc : ∀ n, FInv p J n → n.1.length < k → ∃ new new', fMesComplete A p k false completion n = .ok new ∧
      fMesComplete A p k true completion n = .ok new' ∧ new' ≠ [] ∧ (∀ X ∈ new', X ∈ new) ∧
        ∀ X ∈ new, X.Pairwise (· < ·) ∧ Good X) :
    ∃ S, (∃ X, S X) ∧ (∀ X, S X → ∃ Y : List ℕ, Y.Pairwise (· < ·) ∧ Good Y ∧ Y.toFinset = X) ∧
      ∀ env a, a.k = k → prologue env rid p a = .ok "float-fractions" →
        Answers a (computeEqualShares env (floatEqualShares A ord completion p a) completion p a) S := by
  set n₀ : List ℕ × List F := ([], p.voters.map (fun v => A.div (A.mul (A.weight v.weight) (A.int k)) (fTotalWeight A p))) with hn₀
  have hI : FInv p J n₀ := ⟨by simp [hn₀], by simp [hn₀], by simpa [hn₀] using hJ0⟩
  have hl : n₀.1.length < k := by simp [hn₀]; omega
  have hC : StepOK p.numCand k (FInv p J) (fMesSuccs A ord p false) (fMesComplete A p k false completion) := by
    refine fMes_stepOK hA hord hp k J _ hJ ?_ false
    intro n hI hl _
    obtain ⟨new, new', h1, h2, h3, h4, h5⟩ := hc n hI hl
    refine ⟨new, h1, ?_, fun X hX => (h5 X hX).1⟩
    obtain ⟨X, hX⟩ := List.exists_mem_of_ne_nil new' h3
    exact List.ne_nil_of_mem (h4 X hX)
  have hC' : StepOK p.numCand k (FInv p J) (fMesSuccs A ord p true) (fMesComplete A p k true completion) := by
    refine fMes_stepOK hA hord hp k J _ hJ ?_ true
    intro n hI hl _
    obtain ⟨new, new', h1, h2, h3, h4, h5⟩ := hc n hI hl
    exact ⟨new', h2, h3, fun X hX => (h5 X (h4 X hX)).1⟩
  have hmono := fMes_mono hA hord hp hC (complete' := fMesComplete A p k true completion) (by
    intro n new' hI hl _ he
    obtain ⟨new, new'', h1, h2, h3, h4, h5⟩ := hc n hI hl
    rw [h2] at he
    obtain rfl := Except.ok.inj he
    exact ⟨new, h1, h4⟩) n₀ hI hl
  have hprop : ∀ X, COut k (fMesSuccs A ord p false) (fMesComplete A p k false completion) n₀ X → X.Pairwise (· < ·) ∧ Good X := by
    intro X hX
    refine cout_property hC (fun X => X.Pairwise (· < ·) ∧ Good X) ?_ ?_ n₀ X hX hI hl
    · intro n hI hl new _ he X hX
      obtain ⟨new1, new', h1, h2, h3, h4, h5⟩ := hc n hI hl
      rw [h1] at he
      obtain rfl := Except.ok.inj he
      exact h5 X hX
    · intro n hI hl
      exact ⟨sortNat_lt hI.1, hfull _ hI.1 hI.2.1 hl⟩
  refine ⟨fun B => ∃ X, COut k (fMesSuccs A ord p false) (fMesComplete A p k false completion) n₀ X ∧ X.toFinset = B, ?_, ?_, ?_⟩
  · obtain ⟨X, hX⟩ := cout_exists hC n₀ hI hl
    exact ⟨_, X, hX, rfl⟩
  · rintro B ⟨X, hX, rfl⟩
    exact ⟨X, (hprop X hX).1, (hprop X hX).2, rfl⟩
  · rintro env a rfl hal
    have hv := validCall_of_prologue hal
    have := completionLoop_answers hv rfl hC hC' n₀ rfl hI hmono (fun X hX => hgood X (hprop X hX).2)
      (fun r => fMesSuccs A ord p r) (fun r => fMesComplete A p a.k r completion) rfl rfl rfl rfl
    have e : computeEqualShares env (floatEqualShares A ord completion p a) completion p a
        = fEqualSharesAlgorithm A ord p a.k a.resolute a.maxNum completion none >>= sortedCommittees := by
      unfold computeEqualShares floatEqualShares
      rw [hid]
      simp only [bind, Except.bind, hal, if_neg hinc, withFractions_float]
    rw [e]
    refine resort_answers ?_
    unfold fEqualSharesAlgorithm
    simp only [fStartBudget_none hA hp hne, bind, Except.bind]
    exact this

/-- C75: Equal Shares without completion, with floats and arbitrary weights: at most `k` distinct candidates. -/
theorem C75_equal_shares_without_completion (hA : Sound A) {ord : List (Voter × F) → List (Voter × F)} (hord : Rearranges ord)
    (p : Profile) (hp : p.WF) (hne : p.voters ≠ []) (k : ℕ) (hk1 : 1 ≤ k) :
    ∃ S, (∃ X, S X) ∧ (∀ X, S X → X ⊆ Finset.range p.numCand ∧ X.card ≤ k) ∧
      ∀ env a, a.k = k → prologue env "equal-shares-without-completion" p a = .ok "float-fractions" →
        Answers a (computeEqualShares env (floatEqualShares A ord .none p a) .none p a) S := by
  obtain ⟨S, h1, h2, h3⟩ := fEqualShares_answers hA hord hp hne k hk1 .none "equal-shares-without-completion" rfl (by simp)
    (fun _ _ => True) (fun X => (∀ c ∈ X, c < p.numCand) ∧ X.length ≤ k) trivial (fun _ _ _ _ _ _ _ _ => trivial) (fun X h => h.1)
    (by
      intro W _ hW hl
      refine ⟨fun c hc => hW c ((sortNat_perm W).mem_iff.1 hc), ?_⟩
      rw [(sortNat_perm W).length_eq]; omega)
    (by
      intro n hI hl
      refine ⟨[sortNat n.1], [sortNat n.1], rfl, rfl, by simp, by simp, ?_⟩
      intro X hX
      rw [List.mem_singleton] at hX
      subst hX
      refine ⟨sortNat_lt hI.1, fun c hc => hI.2.1 c ((sortNat_perm n.1).mem_iff.1 hc), ?_⟩
      rw [(sortNat_perm n.1).length_eq]; omega)
  refine ⟨S, h1, ?_, h3⟩
  intro X hX
  obtain ⟨Y, g1, ⟨g2, g3⟩, rfl⟩ := h2 X hX
  refine ⟨?_, (List.toFinset_card_le Y).trans g3⟩
  intro c hc
  rw [Finset.mem_range]
  exact g2 c (by simpa using hc)

theorem valid_of_good {p : Profile} {k : ℕ} {S : Finset ℕ → Prop} (h1 : ∃ X, S X)
    (h2 : ∀ X, S X → ∃ Y : List ℕ, Y.Pairwise (· < ·) ∧ ((∀ c ∈ Y, c < p.numCand) ∧ Y.length = k) ∧ Y.toFinset = X) :
    ValidOutcomes p k S := by
  refine ⟨h1, ?_⟩
  intro X hX
  obtain ⟨Y, g1, ⟨g2, g3⟩, rfl⟩ := h2 X hX
  refine ⟨?_, ?_⟩
  · intro c hc
    rw [Finset.mem_range]
    exact g2 c (by simpa using hc)
  · rw [List.toFinset_card_of_nodup (nodup_of_lt g1), g3]

/-- C75: Equal Shares with completion by AV, with floats and arbitrary weights. -/
theorem C75_equal_shares_with_av_completion (hA : Sound A) {ord : List (Voter × F) → List (Voter × F)} (hord : Rearranges ord)
    (p : Profile) (hp : p.WF) (hne : p.voters ≠ []) (k : ℕ) (hk1 : 1 ≤ k) (hk : k ≤ p.numCand) :
    ∃ S, ValidOutcomes p k S ∧
      ∀ env a, a.k = k → prologue env "equal-shares-with-av-completion" p a = .ok "float-fractions" →
        Answers a (computeEqualShares env (floatEqualShares A ord .av p a) .av p a) S := by
  obtain ⟨S, h1, h2, h3⟩ := fEqualShares_answers hA hord hp hne k hk1 .av "equal-shares-with-av-completion" rfl (by simp)
    (fun _ _ => True) (fun X => (∀ c ∈ X, c < p.numCand) ∧ X.length = k) trivial (fun _ _ _ _ _ _ _ _ => trivial) (fun X h => h.1)
    (by
      intro W _ hW hl
      refine ⟨fun c hc => hW c ((sortNat_perm W).mem_iff.1 hc), ?_⟩
      rw [(sortNat_perm W).length_eq]; omega)
    (by
      intro n hI hl
      have hWc : n.1.toFinset.card = n.1.length := List.toFinset_card_of_nodup hI.1
      obtain ⟨new, e1, e2, e3, e4⟩ := avPhaseLoop_spec hp hne k hk n.1 hI.1 hI.2.1 hl k (k - n.1.length) (by omega) (by omega)
        (by omega) (Or.inl (by omega))
      refine ⟨new, new, e1, e1, e2, fun X hX => hX, ?_⟩
      intro X hX
      have ht := (e4 X.toFinset).1 ⟨X, hX, rfl⟩
      refine ⟨e3 X hX, ?_, ?_⟩
      · intro c hc
        have := ht.sub (List.mem_toFinset.2 hc)
        simpa using this
      · rw [← List.toFinset_card_of_nodup (nodup_of_lt (e3 X hX)), ht.card])
  exact ⟨S, valid_of_good h1 h2, h3⟩

/-! ## Completion by seq-Phragmén -/

theorem fPhragmenPhase_spec (hA : Sound A) {p : Profile} (hp : p.WF) {k : ℕ} (hm : Moderate p k) (hk : k ≤ p.numCand) (W : List ℕ)
    (hWn : W.Nodup) (hWm : ∀ c ∈ W, c < p.numCand) (hl : W.length < k) (b : List F) (hbl : b.length = p.voters.length)
    (hb : ∀ x ∈ b, 0 ≤ A.val x) :
    ∃ new new', fPhragmenPhase A p k false W b = .ok new ∧ fPhragmenPhase A p k true W b = .ok new' ∧ new' ≠ [] ∧
      (∀ X ∈ new', X ∈ new) ∧ ∀ X ∈ new, X.Pairwise (· < ·) ∧ (∀ c ∈ X, c < p.numCand) ∧ X.length = k := by
  set x₀ := List.zipWith (fun (v : Voter) b => A.div (A.neg b) (A.weight v.weight)) p.voters b with hx₀
  have hxl : x₀.length = p.voters.length := by simp [hx₀, hbl]
  have h0 : ∀ x ∈ x₀, A.val x ≤ W.length := by
    intro x hx
    rw [hx₀, ← List.map_uncurry_zip_eq_zipWith] at hx
    obtain ⟨⟨v, y⟩, hvy, rfl⟩ := List.mem_map.1 hx
    obtain ⟨hv, hy⟩ := List.of_mem_zip hvy
    simp only [Function.uncurry]
    have hn := hm.num hv
    have hpos : 0 < v.weight.num := by
      have := hp.weight v hv
      rw [← hn.1] at this
      exact_mod_cast this
    have hsz : v.weight.num ≤ 2 ^ 53 := by
      have h1 := (sum_weights_exact hA hm p.voters (List.Sublist.refl _)).2
      have h2 : v.weight.num ≤ (p.voters.map (fun v => v.weight.num)).sum := by
        refine List.single_le_sum ?_ _ (List.mem_map.2 ⟨v, hv, rfl⟩)
        intro x hx
        obtain ⟨u, hu, rfl⟩ := List.mem_map.1 hx
        exact (hm.num hu).2
      nlinarith
    have := hA.div_le (A.neg y) (A.weight v.weight) 0 v.weight.num le_rfl hpos hsz (by simp) (by rw [hA.val_weight, hn.1])
      (by rw [hA.val_neg]; have := hb y hy; simp; linarith)
    refine this.trans ?_
    simp
  have hs := fPhrag_succSpec hA hp hm hk W x₀ hxl h0
  have hB := fPhragBest_lt hA hp hm hk (W₀ := W) hxl h0
  have huni := universes_run (out := fun n : List ℕ × List F => sortNat n.1) hs
    (full := fun n => decide (n.1.length = k)) (fun _ _ => rfl) hl none (dfsFuel p k)
    (by unfold dfsFuel; exact Nat.pow_le_pow_right (by omega) (Nat.sub_le _ _))
  rw [collect_none] at huni
  set ls := (leaves (succOf (fSeqphragmenSuccs A p k)) (k - W.length) (W, x₀)).map
    (fun n : List ℕ × List F => sortNat n.1) with hls
  have hnd : ∀ {V x}, Run (fPhragBest A p k) (fPhragUpd A p k) W x₀ V x → V.Nodup ∧ ∀ c ∈ V, c < p.numCand :=
    fun h => h.nodup (m := p.numCand) hB hWn hWm
  have hmem : ∀ X, X ∈ ls.foldl setAdd [] ↔
      ∃ V x, Run (fPhragBest A p k) (fPhragUpd A p k) W x₀ V x ∧ V.length = k ∧ X = sortNat V := by
    intro X
    rw [mem_foldl_setAdd]
    simp only [List.not_mem_nil, false_or, hls, List.mem_map]
    constructor
    · rintro ⟨n, hn, rfl⟩
      obtain ⟨V, x, h1, h2, rfl⟩ := (mem_leaves_run hs (k - W.length) (by omega) n).1 hn
      exact ⟨V, x, h1, by omega, rfl⟩
    · rintro ⟨V, x, h1, h2, rfl⟩
      exact ⟨(V, x), (mem_leaves_run hs (k - W.length) (by omega) _).2 ⟨V, x, h1, by omega, rfl⟩, rfl⟩
  have hlt : ∀ X ∈ ls.foldl setAdd [], X.Pairwise (· < ·) := by
    intro X hX
    obtain ⟨V, x, h1, -, rfl⟩ := (hmem X).1 hX
    exact sortNat_lt (hnd h1).1
  obtain ⟨ds, e1, e2, e3⟩ := sortedCommittees_of_lt hlt (foldl_setAdd_nodup List.nodup_nil)
  have hmap : ds.map sortNat = ds := by
    conv_rhs => rw [← List.map_id ds]
    exact List.map_congr_left (fun X hX => sortNat_of_lt (e2.asc X hX))
  obtain ⟨V', V, x, g1, g2, g3, g4⟩ := fSeqphragmenLoop_spec hA hp hm hk W x₀ hxl h0 (k - W.length) W W (List.Perm.refl _) x₀ .start
    (by omega)
  refine ⟨ds, [sortNat V], ?_, ?_, by simp, ?_, ?_⟩
  · unfold fPhragmenPhase
    simp only [Bool.false_eq_true, if_false]
    unfold fSeqphragmenIrresolute
    rw [← hx₀, huni]
    simp only [bind, Except.bind]
    rw [e1]
    simp only [hmap]
  · unfold fPhragmenPhase
    simp only [if_true]
    unfold fSeqphragmenResolute
    rw [← hx₀, g1]
    simp only [bind, Except.bind, List.map_cons, List.map_nil]
    rw [sortNat_eq_of_perm g2]
  · intro X hX
    rw [List.mem_singleton] at hX
    subst hX
    rw [e3.mem_iff, hmem]
    exact ⟨V, x, g3.run, by omega, rfl⟩
  · intro X hX
    refine ⟨e2.asc X hX, ?_⟩
    obtain ⟨V, x, h1, h2, rfl⟩ := (hmem X).1 (e3.mem_iff.1 hX)
    exact ⟨fun c hc => (hnd h1).2 c ((sortNat_perm V).mem_iff.1 hc), by rw [(sortNat_perm V).length_eq, h2]⟩

theorem fMesBudget_nonneg (hA : Sound A) {p : Profile} {b : List F} (hbl : b.length = p.voters.length) (hb : ∀ x ∈ b, 0 ≤ A.val x)
    (c : ℕ) (q : F) : (fMesBudget A p b c q).length = p.voters.length ∧ ∀ x ∈ fMesBudget A p b c q, 0 ≤ A.val x := by
  unfold fMesBudget
  refine ⟨by simp [hbl], ?_⟩
  intro x hx
  rw [← List.map_uncurry_zip_eq_zipWith] at hx
  obtain ⟨⟨v, y⟩, hvy, rfl⟩ := List.mem_map.1 hx
  obtain ⟨-, hy⟩ := List.of_mem_zip hvy
  simp only [Function.uncurry]
  split
  · refine hA.sub_nonneg _ _ ?_
    unfold Arith.min2
    split
    · rename_i h; exact h.le
    · exact le_rfl
  · exact hb y hy

theorem weight_num_bounds (hA : Sound A) {p : Profile} (hp : p.WF) {k : ℕ} (hm : Moderate p k) {v : Voter} (hv : v ∈ p.voters) :
    0 < v.weight.num ∧ (k + 1) * v.weight.num ≤ 2 ^ 53 := by
  constructor
  · have := hp.weight v hv
    rw [← (hm.num hv).1] at this
    exact_mod_cast this
  · have h1 := (sum_weights_exact hA hm p.voters (List.Sublist.refl _)).2
    have h2 : v.weight.num ≤ (p.voters.map (fun v => v.weight.num)).sum := by
      refine List.single_le_sum ?_ _ (List.mem_map.2 ⟨v, hv, rfl⟩)
      intro x hx
      obtain ⟨u, hu, rfl⟩ := List.mem_map.1 hx
      exact (hm.num hu).2
    nlinarith

/-- C75: Equal Shares with completion by seq-Phragmén (the default), with floats and integer weights. -/
theorem C75_equal_shares (hA : Sound A) {ord : List (Voter × F) → List (Voter × F)} (hord : Rearranges ord)
    (p : Profile) (hp : p.WF) (hne : p.voters ≠ []) (k : ℕ) (hm : Moderate p k) (hk1 : 1 ≤ k) (hk : k ≤ p.numCand) :
    ∃ S, ValidOutcomes p k S ∧
      ∀ env a, a.k = k → prologue env "equal-shares" p a = .ok "float-fractions" →
        Answers a (computeEqualShares env (floatEqualShares A ord .seqphragmen p a) .seqphragmen p a) S := by
  obtain ⟨S, h1, h2, h3⟩ := fEqualShares_answers hA hord hp hne k hk1 .seqphragmen "equal-shares" rfl (by simp)
    (fun _ b => b.length = p.voters.length ∧ ∀ x ∈ b, 0 ≤ A.val x) (fun X => (∀ c ∈ X, c < p.numCand) ∧ X.length = k)
    (by
      refine ⟨by simp, ?_⟩
      intro x hx
      obtain ⟨v, hv, rfl⟩ := List.mem_map.1 hx
      obtain ⟨b1, b2⟩ := weight_num_bounds hA hp hm hv
      refine hA.div_nonneg _ _ ?_ (fTotalWeight_pos hA hp hne)
      have hsz : v.weight.num * (k : ℤ) ≤ 2 ^ 53 := by nlinarith
      have hk2 : (k : ℤ) ≤ 2 ^ 53 := by have := hm.seats; omega
      have := hA.mul_ge (A.weight v.weight) (A.int k) v.weight.num k b1.le (by nlinarith) (by omega) hk2 hsz
        (by rw [hA.val_weight, (hm.num hv).1]) (by rw [hA.val_int])
      refine le_trans ?_ this
      have : (0 : ℚ) ≤ v.weight.num := by exact_mod_cast b1.le
      positivity)
    (by
      intro j b c q _ hJ _ _
      exact fMesBudget_nonneg hA hJ.1 hJ.2 c q)
    (fun X h => h.1)
    (by
      intro W _ hW hl
      refine ⟨fun c hc => hW c ((sortNat_perm W).mem_iff.1 hc), ?_⟩
      rw [(sortNat_perm W).length_eq]; omega)
    (by
      intro n hI hl
      exact fPhragmenPhase_spec hA hp hm hk n.1 hI.1 hI.2.1 hl n.2 hI.2.2.1 hI.2.2.2)
  exact ⟨S, valid_of_good h1 h2, h3⟩

/-! ## Completion by increments -/

theorem sum_weights_perm (hA : Sound A) {p : Profile} {k : ℕ} (h : Moderate p k) (l l₀ : List Voter) (hperm : l.Perm l₀)
    (hl : l₀.Sublist p.voters) :
    A.val (A.sum (l.map (fun v => A.weight v.weight))) = ((l₀.map (fun v => v.weight.num)).sum : ℤ) := by
  have h0 := (sum_weights_exact hA h l₀ hl).2
  have hsum : (l.map (fun v => v.weight.num)).sum = (l₀.map (fun v => v.weight.num)).sum := (hperm.map _).sum_eq
  have hle : (l.map (fun v => v.weight.num)).sum ≤ 2 ^ 53 := by rw [hsum]; nlinarith
  have e1 : (l.map (fun v => (A.weight v.weight, v.weight.num))).map Prod.fst = l.map (fun v => A.weight v.weight) := by
    rw [List.map_map]; rfl
  have e2 : (l.map (fun v => (A.weight v.weight, v.weight.num))).map Prod.snd = l.map (fun v => v.weight.num) := by
    rw [List.map_map]; rfl
  have hv : ∀ e ∈ (l.map (fun v => (A.weight v.weight, v.weight.num)) : List (F × ℤ)), 0 ≤ e.2 ∧ A.val e.1 = e.2 := by
    intro e he
    obtain ⟨v, hv, rfl⟩ := List.mem_map.1 he
    have := h.num (hl.subset (hperm.mem_iff.1 hv))
    exact ⟨this.2, by simp only; rw [hA.val_weight, this.1]⟩
  refine le_antisymm ?_ ?_
  · have := hA.sum.le _ (fun e he => ⟨(hv e he).1, (hv e he).2.le⟩) (by rw [e2]; exact hle)
    rwa [e1, e2, hsum] at this
  · have := hA.sum.ge _ (fun e he => ⟨(hv e he).1, (hv e he).2.ge⟩) (by rw [e2]; exact hle)
    rwa [e1, e2, hsum] at this

/-- the quotient computed for non-negative budgets is at most 1 -/
theorem quotient_le_one (hA : Sound A) {ord : List (Voter × F) → List (Voter × F)} (hord : Rearranges ord) {p : Profile} (hp : p.WF)
    {k : ℕ} (hm : Moderate p k) (rich poor : List (Voter × F)) (hne : rich ≠ []) (hr : (rich.map Prod.fst).Sublist p.voters)
    (hb : ∀ e ∈ poor, 0 ≤ A.val e.2) :
    A.val (A.sum ((ord rich).map (fun vb => A.weight vb.1.weight))) ≠ 0 ∧
    A.val (A.div (A.sub (A.int 1) (A.sum ((ord poor).map Prod.snd))) (A.sum ((ord rich).map (fun vb => A.weight vb.1.weight)))) ≤ 1 := by
  have hZ := sum_weights_perm hA hm ((ord rich).map Prod.fst) (rich.map Prod.fst) ((hord rich).map _) hr
  rw [List.map_map] at hZ
  have hZ : A.val (A.sum ((ord rich).map (fun vb => A.weight vb.1.weight))) = _ := hZ
  have hb1 := sum_weights_exact hA hm (rich.map Prod.fst) hr
  set Z := ((rich.map Prod.fst).map (fun v => v.weight.num)).sum with hZd
  have hpos : 0 < Z := by
    obtain ⟨e, he⟩ := List.exists_mem_of_ne_nil rich hne
    have hev : e.1 ∈ rich.map Prod.fst := List.mem_map_of_mem he
    have h1 := (weight_num_bounds hA hp hm (hr.subset hev)).1
    have h2 : e.1.weight.num ≤ Z := by
      refine List.single_le_sum ?_ _ (List.mem_map.2 ⟨e.1, hev, rfl⟩)
      intro x hx
      obtain ⟨u, hu, rfl⟩ := List.mem_map.1 hx
      exact (hm.num (hr.subset hu)).2
    omega
  have hp0 : (0 : ℚ) ≤ A.val (A.sum ((ord poor).map Prod.snd)) := by
    have e1 : ((ord poor).map (fun e => (e.2, (0 : ℤ)))).map Prod.fst = (ord poor).map Prod.snd := by rw [List.map_map]; rfl
    have e2 : (((ord poor).map (fun e => (e.2, (0 : ℤ)))).map Prod.snd).sum = 0 := by
      rw [List.map_map]
      refine List.sum_eq_zero ?_
      intro x hx
      obtain ⟨e, -, rfl⟩ := List.mem_map.1 hx
      rfl
    have := hA.sum.ge ((ord poor).map (fun e => (e.2, (0 : ℤ)))) (by
      intro e he
      obtain ⟨e', he', rfl⟩ := List.mem_map.1 he
      exact ⟨le_rfl, by simpa using hb e' ((hord poor).mem_iff.1 he')⟩) (by rw [e2]; norm_num)
    rw [e1, e2] at this
    simpa using this
  refine ⟨by rw [hZ]; exact_mod_cast hpos.ne', ?_⟩
  have hsub := hA.sub_le (A.int 1) (A.sum ((ord poor).map Prod.snd)) 1 0 le_rfl (by norm_num) (by norm_num) (by rw [hA.val_int])
    (by simpa using hp0)
  have := hA.div_le (A.sub (A.int 1) (A.sum ((ord poor).map Prod.snd))) (A.sum ((ord rich).map (fun vb => A.weight vb.1.weight))) 1 Z
    (by norm_num) hpos (by nlinarith) (by nlinarith) hZ (by
      refine hsub.trans ?_
      have : (1 : ℤ) ≤ 1 * Z := by omega
      push_cast
      have : (1 : ℚ) ≤ Z := by exact_mod_cast hpos
      linarith)
  simpa using this

theorem fMinQLoop_le_one (hA : Sound A) {ord : List (Voter × F) → List (Voter × F)} (hord : Rearranges ord) {p : Profile} (hp : p.WF)
    {k : ℕ} (hm : Moderate p k) (fuel : ℕ) (rich poor : List (Voter × F)) (hr : (rich.map Prod.fst).Sublist p.voters)
    (hb : ∀ e ∈ rich, 0 ≤ A.val e.2) (hb' : ∀ e ∈ poor, 0 ≤ A.val e.2) (q : F) (h : fMinQLoop A ord fuel rich poor = .ok (some q)) :
    A.val q ≤ 1 := by
  induction fuel generalizing rich poor with
  | zero => simp [fMinQLoop] at h
  | succ fuel ih =>
    unfold fMinQLoop at h
    by_cases h0 : rich.length = 0
    · rw [if_pos h0] at h; simp at h
    · rw [if_neg h0] at h
      obtain ⟨h1, h2⟩ := quotient_le_one hA hord hp hm rich poor (by rintro rfl; simp at h0) hr hb'
      simp only [Arith.pyDiv, if_neg h1, bind, Except.bind] at h
      split at h
      · obtain rfl := Option.some.inj (Except.ok.inj h)
        exact h2
      · refine ih _ _ ?_ ?_ ?_ h
        · exact (List.filter_sublist.map _).trans hr
        · intro e he; exact hb e (List.mem_filter.1 he).1
        · intro e he
          rcases List.mem_append.1 he with he | he
          · exact hb' e he
          · exact hb e (List.mem_filter.1 he).1

theorem approvers_sublist (p : Profile) (b : List F) (c : ℕ) (hbl : b.length = p.voters.length) :
    (((p.voters.zip b).filter (fun vb => decide (c ∈ vb.1.approved))).map Prod.fst).Sublist p.voters := by
  rw [zip_filter_fst p.voters b hbl (fun v => decide (c ∈ v.approved))]
  exact List.filter_sublist

/-- The invariant for the last increment: after `j` purchases every voter has a budget of at least `k - j` per unit of weight. -/
def FRich (A : Arith F) (p : Profile) (k j : ℕ) (b : List F) : Prop :=
  b.length = p.voters.length ∧ ∀ e ∈ p.voters.zip b, ((e.1.weight.num * ((k : ℤ) - j) : ℤ) : ℚ) ≤ A.val e.2

theorem fRich_nonneg (hA : Sound A) {p : Profile} (hp : p.WF) {k : ℕ} (hm : Moderate p k) {j : ℕ} (hj : j ≤ k) {b : List F}
    (h : FRich A p k j b) {e : Voter × F} (he : e ∈ p.voters.zip b) : 0 ≤ A.val e.2 := by
  refine le_trans ?_ (h.2 e he)
  have h1 := (weight_num_bounds hA hp hm (List.of_mem_zip he).1).1
  have : 0 ≤ e.1.weight.num * ((k : ℤ) - j) := mul_nonneg h1.le (by omega)
  exact_mod_cast this

theorem fRich_step (hA : Sound A) {ord : List (Voter × F) → List (Voter × F)} (hord : Rearranges ord) {p : Profile} (hp : p.WF)
    {k : ℕ} (hm : Moderate p k) (j : ℕ) (b : List F) (c : ℕ) (q : F) (hj : j < k) (hJ : FRich A p k j b)
    (hq : fGetMinQ A ord p b c = .ok (some q)) : FRich A p k (j + 1) (fMesBudget A p b c q) := by
  have hq1 : A.val q ≤ 1 := by
    refine fMinQLoop_le_one hA hord hp hm _ _ _ (approvers_sublist p b c hJ.1) ?_ (by simp) q hq
    intro e he
    exact fRich_nonneg hA hp hm hj.le hJ (List.mem_filter.1 he).1
  refine ⟨by simp [fMesBudget, hJ.1], ?_⟩
  intro e he
  have key : ∃ y, (e.1, y) ∈ p.voters.zip b ∧
      e.2 = if c ∈ e.1.approved then A.sub y (A.min2 y (A.mul q (A.weight e.1.weight))) else y := by
    unfold fMesBudget at he
    have hgen : ∀ (vs : List Voter) (b : List F), e ∈ vs.zip (List.zipWith (fun v b => if c ∈ v.approved then
        A.sub b (A.min2 b (A.mul q (A.weight v.weight))) else b) vs b) → ∃ y, (e.1, y) ∈ vs.zip b ∧
        e.2 = if c ∈ e.1.approved then A.sub y (A.min2 y (A.mul q (A.weight e.1.weight))) else y := by
      intro vs
      induction vs with
      | nil => simp
      | cons v vs ih =>
        intro b he
        cases b with
        | nil => simp at he
        | cons y b =>
          simp only [List.zipWith_cons_cons, List.zip_cons_cons, List.mem_cons] at he
          rcases he with rfl | he
          · exact ⟨y, by simp, rfl⟩
          · obtain ⟨z, h1, h2⟩ := ih b he
            exact ⟨z, by simp [h1], h2⟩
    exact hgen p.voters b he
  obtain ⟨y, hy, hey⟩ := key
  have hy1 := hJ.2 _ hy
  have hv : e.1 ∈ p.voters := (List.of_mem_zip he).1
  obtain ⟨b1, b2⟩ := weight_num_bounds hA hp hm hv
  simp only at hy1
  rw [hey]
  split
  · have hw1 : e.1.weight.num ≤ 2 ^ 53 := by nlinarith
    have hmul := hA.mul_le_right q (A.weight e.1.weight) 1 e.1.weight.num (by norm_num) (by norm_num) b1.le hw1 (by omega)
      (by simpa using hq1) (by rw [hA.val_weight, (hm.num hv).1])
    have hmin : A.val (A.min2 y (A.mul q (A.weight e.1.weight))) ≤ e.1.weight.num := by
      unfold Arith.min2
      split
      · simpa using hmul
      · rename_i h
        have := not_lt.1 h
        refine this.trans ?_
        simpa using hmul
    have hkj : e.1.weight.num ≤ e.1.weight.num * ((k : ℤ) - j) := by nlinarith
    have hsz : e.1.weight.num * ((k : ℤ) - j) ≤ 2 ^ 53 := by nlinarith
    have := hA.sub_ge y (A.min2 y (A.mul q (A.weight e.1.weight))) (e.1.weight.num * ((k : ℤ) - j)) e.1.weight.num b1.le hkj hsz hy1 hmin
    refine le_trans (le_of_eq ?_) this
    push_cast
    ring
  · refine le_trans ?_ hy1
    have : e.1.weight.num * ((k : ℤ) - ((j + 1 : ℕ) : ℤ)) ≤ e.1.weight.num * ((k : ℤ) - j) := by
      push_cast
      nlinarith
    exact_mod_cast this

theorem fRich_affordable (hA : Sound A) {ord : List (Voter × F) → List (Voter × F)} (hord : Rearranges ord) {p : Profile} (hp : p.WF)
    {k : ℕ} (hm : Moderate p k) (j : ℕ) (b : List F) (c : ℕ) (hj : j < k) (hJ : FRich A p k j b) (hc : ∃ v ∈ p.voters, c ∈ v.approved) :
    fGetMinQ A ord p b c ≠ .ok none := by
  unfold fGetMinQ fMinQLoop
  set rich := (p.voters.zip b).filter (fun vb => decide (c ∈ vb.1.approved)) with hrich
  have hsub := approvers_sublist p b c hJ.1
  have hne : rich ≠ [] := by
    obtain ⟨v, hv, hcv⟩ := hc
    have h1 := zip_filter_fst p.voters b hJ.1 (fun v => decide (c ∈ v.approved))
    have h2 : v ∈ rich.map Prod.fst := by rw [hrich, h1]; exact List.mem_filter.2 ⟨hv, by simpa using hcv⟩
    rintro h
    rw [h] at h2
    simp at h2
  obtain ⟨h1, h2⟩ := quotient_le_one hA hord hp hm rich [] hne hsub (by simp)
  rw [if_neg (by simpa using hne)]
  simp only [Arith.pyDiv, if_neg h1, bind, Except.bind]
  rw [if_pos]
  · simp
  · rw [List.length_eq_zero_iff, List.filter_eq_nil_iff]
    intro e he
    have hz := (List.mem_filter.1 he).1
    have hv : e.1 ∈ p.voters := (List.of_mem_zip hz).1
    obtain ⟨b1, b2⟩ := weight_num_bounds hA hp hm hv
    have hw1 : e.1.weight.num ≤ 2 ^ 53 := by nlinarith
    have hmul := hA.mul_le_right _ (A.weight e.1.weight) 1 e.1.weight.num (by norm_num) (by norm_num) b1.le hw1 (by omega)
      (by simpa using h2) (by rw [hA.val_weight, (hm.num hv).1])
    have hb := hJ.2 e hz
    have hkj : ((e.1.weight.num : ℤ) : ℚ) ≤ ((e.1.weight.num * ((k : ℤ) - j) : ℤ) : ℚ) := by
      have : e.1.weight.num ≤ e.1.weight.num * ((k : ℤ) - j) := by nlinarith
      exact_mod_cast this
    unfold fPoor
    have : ¬ A.val e.2 < A.val (A.mul (A.div (A.sub (A.int 1) (A.sum ((ord []).map Prod.snd)))
        (A.sum ((ord rich).map (fun vb => A.weight vb.1.weight)))) (A.weight e.1.weight)) := by
      rw [not_lt]
      refine hmul.trans ?_
      simp only [Int.cast_one, one_mul]
      exact hkj.trans hb
    simp [this]

/-- One run of the resolute algorithm without completion. -/
theorem fEqualShares_once (hA : Sound A) {ord : List (Voter × F) → List (Voter × F)} (hord : Rearranges ord) {p : Profile} (hp : p.WF)
    (k : ℕ) (hk1 : 1 ≤ k) (pv : Option F) (start : List F) (hstart : fStartBudget A p k pv = .ok start) :
    ∃ X, fEqualSharesAlgorithm A ord p k true none .none pv = .ok [X] ∧ X.Pairwise (· < ·) ∧ (∀ c ∈ X, c < p.numCand) ∧ X.length ≤ k ∧
      (Moderate p k → k ≤ p.approvedCandidates.length → FRich A p k 0 start → X.length = k) := by
  have hcomp : ∀ n : List ℕ × List F, fMesComplete A p k true .none n = .ok [sortNat n.1] := fun n => rfl
  have main : ∀ (J : ℕ → List F → Prop), J 0 start →
      (∀ j b c q, j < k → J j b → c < p.numCand → fGetMinQ A ord p b c = .ok (some q) → J (j + 1) (fMesBudget A p b c q)) →
      StepOK p.numCand k (FInv p J) (fMesSuccs A ord p true) (fMesComplete A p k true .none) := by
    intro J hJ0 hJ
    refine fMes_stepOK hA hord hp k J _ hJ ?_ true
    intro n hI hl _
    refine ⟨[sortNat n.1], hcomp n, by simp, ?_⟩
    intro X hX
    rw [List.mem_singleton] at hX
    subst hX
    exact sortNat_lt hI.1
  have hC := main (fun _ _ => True) trivial (fun _ _ _ _ _ _ _ _ => trivial)
  have hI : FInv p (fun _ _ => True) (([], start) : List ℕ × List F) := ⟨by simp, by simp, trivial⟩
  obtain ⟨w, g1, g2, g3, g4, g5⟩ := completionLoop_spec hC (some 1) (dfsFuel p k) [([], start)] []
    (by simpa using ⟨hI, hk1⟩) (by simp [dfsFuel]) (by simp) (by simp) (by simp)
  have hlen : w.length = 1 := by
    rcases g5 with g5 | ⟨-, g6, g7⟩
    · exact (Option.some.inj g5).symm
    · obtain ⟨X, hX⟩ := cout_exists hC ([], start) hI (by simp; omega)
      have := List.length_pos_of_mem (g6 _ (by simp) X hX)
      have := g7 1 rfl
      omega
  obtain ⟨X, rfl⟩ := List.length_eq_one_iff.1 hlen
  have hX := g3 X (by simp)
  have hout : COut k (fMesSuccs A ord p true) (fMesComplete A p k true .none) ([], start) X := by
    rcases g4 X (by simp) with h | ⟨n, hn, h⟩
    · simp at h
    · rw [List.mem_singleton] at hn
      subst hn
      exact h
  have hgood := cout_property hC (fun X => (∀ c ∈ X, c < p.numCand) ∧ X.length ≤ k) (by
      intro n hI hl new _ he X hX
      rw [hcomp] at he
      obtain rfl := Except.ok.inj he
      rw [List.mem_singleton] at hX
      subst hX
      exact ⟨fun c hc => hI.2.1 c ((sortNat_perm n.1).mem_iff.1 hc), by rw [(sortNat_perm n.1).length_eq]; omega⟩) (by
      intro n hI hl
      exact ⟨fun c hc => hI.2.1 c ((sortNat_perm n.1).mem_iff.1 hc), by rw [(sortNat_perm n.1).length_eq]; omega⟩) _ X hout hI
      (by simp; omega)
  refine ⟨X, ?_, hX, hgood.1, hgood.2, ?_⟩
  · unfold fEqualSharesAlgorithm
    simp only [hstart, if_true, g1, bind, Except.bind]
    rw [sortedCommittees_one (nodup_of_lt hX), sortNat_of_lt hX]
  · intro hm hap hrich
    have hC2 := main (FRich A p k) hrich (fun j b c q hj hJ _ hq => fRich_step hA hord hp hm j b c q hj hJ hq)
    have hI2 : FInv p (FRich A p k) (([], start) : List ℕ × List F) := ⟨by simp, by simp, hrich⟩
    refine cout_property hC2 (fun X => X.length = k) ?_ ?_ _ X hout hI2 (by simp; omega)
    · intro n hI hl new hs _ Y _
      exfalso
      rcases fMesSuccs_spec hA hord hp n.1 n.2 with ⟨h1, h2⟩ | ⟨ns, h1, h2, h3, h4, h5⟩
      · -- some approved candidate is not in the committee
        obtain ⟨hn, hlst⟩ := approvedCandidates_lists p
        obtain ⟨c, hc, hcW⟩ : ∃ c ∈ p.approvedCandidates, c ∉ n.1 := by
          by_contra hall
          push Not at hall
          have := (hn.subperm hall).length_le
          omega
        obtain ⟨i, hi⟩ := (hlst c).1 hc
        have hcv : c ∈ (p.voters.get i).approved := mem_appr.1 hi
        have hmem : p.voters.get i ∈ p.voters := List.get_mem _ _
        exact fRich_affordable hA hord hp hm n.1.length n.2 c hl hI.2.2 ⟨_, hmem, hcv⟩ (h2 c (appr_lt hp hi) hcW)
      · rw [h4] at hs
        simp at hs
    · intro n _ hl
      rw [(sortNat_perm n.1).length_eq, hl]

theorem fTotalWeight_exact (hA : Sound A) {p : Profile} {k : ℕ} (hm : Moderate p k) :
    A.val (fTotalWeight A p) = ((p.voters.map (fun v => v.weight.num)).sum : ℤ) :=
  (sum_weights_exact hA hm p.voters (List.Sublist.refl _)).1

theorem fraction_ok (hF : FractionExact A) {p : Profile} (hp : p.WF) (hne : p.voters ≠ []) {k : ℕ} (hm : Moderate p k) (hA : Sound A) (inc : ℕ) :
    ∃ f, A.fraction inc (fTotalWeight A p) = .ok f ∧ A.val f = inc / ((p.voters.map (fun v => v.weight.num)).sum : ℤ) := by
  have hpos : 0 < (p.voters.map (fun v => v.weight.num)).sum := by
    have := fTotalWeight_pos hA hp hne
    rw [fTotalWeight_exact hA hm] at this
    exact_mod_cast this
  obtain ⟨f, h1, h2⟩ := hF inc (p.voters.map (fun v => v.weight.num)) hpos
  refine ⟨f, ?_, h2⟩
  rw [← h1]
  congr 1
  unfold fTotalWeight
  congr 1
  rw [List.map_map]
  refine List.map_congr_left ?_
  intro v hv
  simp only [Function.comp, (hm.num hv).1]

theorem fIncrementLoop_spec (hA : Sound A) (hF : FractionExact A) {ord : List (Voter × F) → List (Voter × F)} (hord : Rearranges ord)
    {p : Profile} (hp : p.WF) (hne : p.voters ≠ []) (k : ℕ) (hk1 : 1 ≤ k) (hm : Moderate p k) (hap : k ≤ p.approvedCandidates.length)
    (incs : List ℕ) (hpos : ∀ i ∈ incs, 0 < i)
    (hlast : ∃ i ∈ incs, (k : ℤ) * (p.voters.map (fun v => v.weight.num)).sum ≤ i) :
    ∃ X, fIncrementLoop A ord p k incs = .ok [X] ∧ X.Pairwise (· < ·) ∧ (∀ c ∈ X, c < p.numCand) ∧ X.length = k := by
  induction incs with
  | nil => simp at hlast
  | cons inc incs ih =>
    obtain ⟨f, f1, f2⟩ := fraction_ok hF hp hne hm hA inc
    have hT : 0 < (p.voters.map (fun v => v.weight.num)).sum := by
      have := fTotalWeight_pos hA hp hne
      rw [fTotalWeight_exact hA hm] at this
      exact_mod_cast this
    set T := (p.voters.map (fun v => v.weight.num)).sum with hTd
    have hTq : (0 : ℚ) < (T : ℚ) := by exact_mod_cast hT
    have hincq : (0 : ℚ) < (inc : ℚ) := by exact_mod_cast hpos inc (by simp)
    have hf0 : A.val f ≠ 0 := by
      rw [f2]
      exact (div_pos hincq hTq).ne'
    have hstart : fStartBudget A p k (some f) = .ok (p.voters.map (fun v => A.mul (A.weight v.weight) f)) := by
      unfold fStartBudget
      simp [Option.filter, hf0]
    obtain ⟨X, g1, g2, g3, g4, g5⟩ := fEqualShares_once hA hord hp k hk1 (some f) _ hstart
    unfold fIncrementLoop
    simp only [f1, g1, bind, Except.bind]
    by_cases hX : X.length = k
    · refine ⟨X, ?_, g2, g3, hX⟩
      simp [hX]
    · have hrec := ih (fun i hi => hpos i (by simp [hi])) (by
        obtain ⟨i, hi, hle⟩ := hlast
        rcases List.mem_cons.1 hi with rfl | hi
        · exfalso
          refine hX (g5 hm hap ⟨by simp, ?_⟩)
          intro e he
          have key : ∀ (vs : List Voter), e ∈ vs.zip (vs.map (fun v => A.mul (A.weight v.weight) f)) →
              e.2 = A.mul (A.weight e.1.weight) f := by
            intro vs
            induction vs with
            | nil => simp
            | cons v vs ih =>
              intro h
              simp only [List.map_cons, List.zip_cons_cons, List.mem_cons] at h
              rcases h with rfl | h
              · rfl
              · exact ih h
          rw [key p.voters he]
          have hv := (List.of_mem_zip he).1
          obtain ⟨b1, b2⟩ := weight_num_bounds hA hp hm hv
          have hk2 : (k : ℤ) ≤ 2 ^ 53 := by have := hm.seats; omega
          have := hA.mul_ge (A.weight e.1.weight) f e.1.weight.num k b1.le (by nlinarith) (by omega) hk2 (by nlinarith)
            (by rw [hA.val_weight, (hm.num hv).1]) (by
              rw [f2, le_div_iff₀ hTq]
              exact_mod_cast hle)
          refine le_trans (le_of_eq ?_) this
          push_cast
          ring
        · exact ⟨i, hi, hle⟩)
      obtain ⟨Y, h1, h2⟩ := hrec
      refine ⟨Y, ?_, h2⟩
      simpa [hX] using h1

/-- C75: Equal Shares with completion by increments, with floats and integer weights: always one committee of size `k`. -/
theorem C75_equal_shares_with_increment_completion (hA : Sound A) (hF : FractionExact A)
    {ord : List (Voter × F) → List (Voter × F)} (hord : Rearranges ord) (p : Profile) (hp : p.WF) (hne : p.voters ≠ []) (k : ℕ)
    (hm : Moderate p k) (hk1 : 1 ≤ k) (hk : k ≤ p.numCand) :
    ∃ X, X.Pairwise (· < ·) ∧ IsCommittee p k X.toFinset ∧
      ∀ env a, a.k = k → prologue env "equal-shares-with-increment-completion" p a = .ok "float-fractions" →
        computeEqualShares env (floatEqualShares A ord .increment p a) .increment p a = .ok [X] := by
  have hcomp : ∀ env (a : Args), prologue env "equal-shares-with-increment-completion" p a = .ok "float-fractions" →
      computeEqualShares env (floatEqualShares A ord .increment p a) .increment p a
      = (if p.approvedCandidates.length < a.k then separableAlgorithm .av p a.k true none
         else fIncrementLoop A ord p a.k (fIncrementRange A p a.k)) >>= sortedCommittees := by
    intro env a hal
    unfold computeEqualShares equalSharesIncrement floatEqualShares
    simp only [Completion.ruleId, bind, Except.bind, hal, if_true, withFractions_float]
  by_cases hap : p.approvedCandidates.length < k
  · have hv' : ValidCall p { committeesize := (k : ℤ), resolute := true } :=
      ⟨by simpa [Args.k] using hk1, by simpa [Args.k] using hk, hne, by simp, by simp⟩
    have hans := separableAlgorithm_answers .av p hp { committeesize := (k : ℤ), resolute := true } hv'
    change ReturnsOne (separableAlgorithm .av p k true none) (SepOpt .av p k) at hans
    obtain ⟨W, e1, e2, e3⟩ := hans
    refine ⟨W, e2, ?_, ?_⟩
    · have htop := (sepOpt_iff_topSet .av p k _).1 e3
      exact ⟨htop.sub, htop.card⟩
    · rintro env a rfl hal
      rw [hcomp env a hal, if_pos hap, e1]
      simp only [bind, Except.bind]
      rw [sortedCommittees_one (nodup_of_lt e2), sortNat_of_lt e2]
  · have hT : 0 < (p.voters.map (fun v => v.weight.num)).sum := by
      have := fTotalWeight_pos hA hp hne
      rw [fTotalWeight_exact hA hm] at this
      exact_mod_cast this
    have hTe := fTotalWeight_exact hA hm
    have hTs := (sum_weights_exact hA hm p.voters (List.Sublist.refl _)).2.2
    set T := (p.voters.map (fun v => v.weight.num)).sum with hTd
    have hmulT : A.val (A.mul (A.int k) (fTotalWeight A p)) = ((k * T : ℤ) : ℚ) := by
      have hk2 : (k : ℤ) ≤ 2 ^ 53 := by have := hm.seats; omega
      refine le_antisymm ?_ ?_
      · have := hA.mul_le_left (A.int k) (fTotalWeight A p) k T (by omega) hk2 hT.le (by nlinarith) (by nlinarith) (by rw [hA.val_int]) hTe.le
        push_cast at this ⊢
        exact this
      · have := hA.mul_ge (A.int k) (fTotalWeight A p) k T (by omega) hk2 hT.le (by nlinarith) (by nlinarith) (by rw [hA.val_int]) hTe.ge
        push_cast at this ⊢
        exact this
    have hadd : A.val (A.add (A.mul (A.int k) (fTotalWeight A p)) (A.int 1)) = ((k * T + 1 : ℤ) : ℚ) := by
      have hsz : k * T + 1 ≤ 2 ^ 53 := by nlinarith
      refine le_antisymm ?_ ?_
      · have := hA.add_le (A.mul (A.int k) (fTotalWeight A p)) (A.int 1) (k * T) 1 (by positivity) (by norm_num) hsz hmulT.le (by rw [hA.val_int])
        push_cast at this ⊢
        exact this
      · have := hA.add_ge (A.mul (A.int k) (fTotalWeight A p)) (A.int 1) (k * T) 1 (by positivity) (by norm_num) hsz hmulT.ge (by rw [hA.val_int])
        push_cast at this ⊢
        exact this
    have hmem : ∀ i : ℕ, i ∈ fIncrementRange A p k ↔ k ≤ i ∧ (i : ℤ) ≤ k * T := by
      intro i
      unfold fIncrementRange
      rw [hadd, Int.ceil_intCast, List.mem_filter, List.mem_range, decide_eq_true_eq]
      have : 0 ≤ (k : ℤ) * T := by positivity
      constructor
      · rintro ⟨h1, h2⟩; exact ⟨h2, by omega⟩
      · rintro ⟨h1, h2⟩; exact ⟨by omega, h1⟩
    obtain ⟨X, g1, g2, g3, g4⟩ := fIncrementLoop_spec hA hF hord hp hne k hk1 hm (by omega) (fIncrementRange A p k)
      (fun i hi => by have := ((hmem i).1 hi).1; omega)
      ⟨((k : ℤ) * T).toNat, (hmem _).2 ⟨by
        have : (k : ℤ) * 1 ≤ k * T := by gcongr; omega
        rw [Int.le_toNat (by omega)]; omega, by
        have : 0 ≤ (k : ℤ) * T := by positivity
        omega⟩, by
        rw [← hTd, Int.toNat_of_nonneg (by positivity)]⟩
    refine ⟨X, g2, ⟨?_, ?_⟩, ?_⟩
    · intro c hc
      rw [Finset.mem_range]
      exact g3 c (by simpa using hc)
    · rw [List.toFinset_card_of_nodup (nodup_of_lt g2), g4]
    · rintro env a rfl hal
      rw [hcomp env a hal, if_neg hap, g1]
      simp only [bind, Except.bind]
      rw [sortedCommittees_one (nodup_of_lt g2), sortNat_of_lt g2]

end

end Abc
