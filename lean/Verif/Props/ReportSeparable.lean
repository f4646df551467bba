import Verif.Lemmas.Report
import Verif.Props.Separable

/-!
# C86: what AV and SAV print about the winning committees
-/

namespace Abc
open Spec

/-- The candidates above and at the threshold, and the winners. -/
theorem separable_cut (r : SepRule) (p : Profile) (hp : p.WF) {k : ℕ} (h1 : 1 ≤ k) (h2 : k ≤ p.numCand) :
    ∃ t certain possible, pyGetFromEnd (sortRat (separableScores r p)) k = .ok t ∧
      certain = p.candidates.filter (fun c => decide ((separableScores r p).getD c 0 > t)) ∧
      possible = p.candidates.filter (fun c => decide ((separableScores r p).getD c 0 = t)) ∧
      (∀ c, c ∈ certain ↔ c < p.numCand ∧ t < candScore r p c) ∧ (∀ c, c ∈ possible ↔ c < p.numCand ∧ candScore r p c = t) ∧
      certain.length < k ∧ k ≤ certain.length + possible.length ∧
      ∀ A, SepOpt r p k A ↔ certain.toFinset ⊆ A ∧ A ⊆ certain.toFinset ∪ possible.toFinset ∧ A.card = k := by
  set l := separableScores r p with hl
  have hlen : l.length = p.numCand := separableScores_length r p
  obtain ⟨t, ht1, ht2, ht3⟩ := cutoff_spec l k h1 (by rw [hlen]; exact h2)
  set certain := p.candidates.filter (fun c => decide (l.getD c 0 > t)) with hcertain
  set possible := p.candidates.filter (fun c => decide (l.getD c 0 = t)) with hpossible
  have hmc : ∀ c, c ∈ certain ↔ c < p.numCand ∧ t < candScore r p c := by
    intro c
    simp only [hcertain, List.mem_filter, Profile.candidates, List.mem_range, decide_eq_true_eq, gt_iff_lt]
    refine and_congr_right fun hc => ?_
    rw [hl, separableScores_getD r p hp c hc]
  have hmp : ∀ c, c ∈ possible ↔ c < p.numCand ∧ candScore r p c = t := by
    intro c
    simp only [hpossible, List.mem_filter, Profile.candidates, List.mem_range, decide_eq_true_eq]
    refine and_congr_right fun hc => ?_
    rw [hl, separableScores_getD r p hp c hc]
  have hcn : certain.Nodup := List.nodup_range.filter _
  have hpn : possible.Nodup := List.nodup_range.filter _
  have hdisj : ∀ c ∈ certain, c ∉ possible := by
    intro c h1 h2
    have := ((hmc c).1 h1).2
    have := ((hmp c).1 h2).2
    linarith
  have hcl : certain.length < k := by
    rw [countP_eq_filter_range, hlen] at ht2
    exact ht2
  have hH : (Finset.range p.numCand).filter (fun c => t < candScore r p c) = certain.toFinset := by
    ext c; simp [hmc]
  have hH2 : (Finset.range p.numCand).filter (fun c => t ≤ candScore r p c) = certain.toFinset ∪ possible.toFinset := by
    ext c
    simp only [Finset.mem_filter, Finset.mem_range, Finset.mem_union, List.mem_toFinset, hmc, hmp, ← and_or_left]
    refine and_congr_right fun _ => ?_
    rw [le_iff_lt_or_eq]
    exact or_congr Iff.rfl eq_comm
  have c1 : certain.toFinset.card = certain.length := List.toFinset_card_of_nodup hcn
  have c2 : (certain.toFinset ∪ possible.toFinset).card = certain.length + possible.length := by
    rw [Finset.card_union_of_disjoint, c1, List.toFinset_card_of_nodup hpn]
    rw [Finset.disjoint_left]
    intro c h1 h2
    exact hdisj c (List.mem_toFinset.1 h1) (List.mem_toFinset.1 h2)
  have hcard : k ≤ certain.length + possible.length := by
    rw [countP_eq_filter_range, hlen] at ht3
    rw [← c2, ← hH2]
    refine ht3.trans (le_of_eq ?_)
    rw [← List.toFinset_card_of_nodup (List.nodup_range.filter _)]
    congr 1
    ext c
    simp only [List.mem_toFinset, List.mem_filter, List.mem_range, decide_eq_true_eq, Finset.mem_filter, Finset.mem_range]
    exact and_congr_right fun hc => by rw [hl, separableScores_getD r p hp c hc]
  refine ⟨t, certain, possible, ht1, rfl, rfl, hmc, hmp, hcl, hcard, ?_⟩
  intro A
  have key := top_k_iff (candScore r p) (Finset.range p.numCand) k t (by rw [hH, c1]; omega) (by rw [hH2, c2]; omega)
  constructor
  · rintro ⟨⟨h1, h2⟩, h3⟩
    obtain ⟨g1, g2⟩ := (key A h1 h2).1 (fun B hB hBk => h3 B ⟨hB, hBk⟩)
    rw [hH] at g1
    refine ⟨g1, ?_, h2⟩
    rw [← hH2]
    intro c hc
    exact Finset.mem_filter.2 ⟨h1 hc, g2 c hc⟩
  · rintro ⟨g1, g2, g3⟩
    have h1 : A ⊆ Finset.range p.numCand := g2.trans (by rw [← hH2]; exact Finset.filter_subset _ _)
    refine ⟨⟨h1, g3⟩, ?_⟩
    have := (key A h1 g3).2 ⟨by rw [hH]; exact g1, fun c hc => by
      have := g2 hc
      rw [← hH2] at this
      exact (Finset.mem_filter.1 this).2⟩
    exact fun B hB => this B hB.1 hB.2

/-- The split into `detailed_info` and committees is the algorithm. -/
theorem separable_split (r : SepRule) (p : Profile) (k : ℕ) (resolute : Bool) (max : Option ℕ) :
    (do let i ← separableInfo r p k; separableFrom i resolute max) = separableAlgorithm r p k resolute max := by
  unfold separableInfo separableAlgorithm separableCommittees
  dsimp only
  cases h : pyGetFromEnd (sortRat (separableScores r p)) k with
  | error e => rfl
  | ok t =>
    dsimp only [bind, Except.bind]
    by_cases hb : (p.candidates.filter (fun c => decide ((separableScores r p).getD c 0 = t))).length =
        k - (p.candidates.filter (fun c => decide ((separableScores r p).getD c 0 > t))).length
    · rw [if_pos hb, decide_eq_true hb]
      rfl
    · rw [if_neg hb, decide_eq_false hb]
      rfl

/-- `detailed_info` describes the winning committees: `certain` are the candidates in every one, `possible` those in some but not all,
`missing` the number of possible candidates in each, and the candidates in some winning committee are those with score at least `cutoff`. -/
structure Spec.Describes (r : SepRule) (p : Profile) (k : ℕ) (i : SepInfo) : Prop where
  certain : ∀ c, c ∈ i.certain ↔ c < p.numCand ∧ ∀ A, SepOpt r p k A → c ∈ A
  possible : ∀ c, c ∈ i.possible ↔ (∃ A, SepOpt r p k A ∧ c ∈ A) ∧ ∃ A, SepOpt r p k A ∧ c ∉ A
  missing : ∀ A, SepOpt r p k A → (A ∩ i.possible.toFinset).card = i.missing
  cutoff : ∀ c < p.numCand, (∃ A, SepOpt r p k A ∧ c ∈ A) ↔ i.cutoff ≤ candScore r p c
  certain_asc : i.certain.Pairwise (· < ·)
  possible_asc : i.possible.Pairwise (· < ·)
  score : i.score = (List.range p.numCand).map (candScore r p)

theorem exists_winner_with {r : SepRule} {p : Profile} {k : ℕ} {C P : List ℕ} (hdisj : ∀ c ∈ C, c ∉ P)
    (hC : C.Nodup) (hP : P.Nodup) (h1 : C.length ≤ k) (h2 : k ≤ C.length + P.length)
    (hopt : ∀ A, SepOpt r p k A ↔ C.toFinset ⊆ A ∧ A ⊆ C.toFinset ∪ P.toFinset ∧ A.card = k) (X : Finset ℕ) (hX : X ⊆ P.toFinset) :
    (X.card ≤ k - C.length → ∃ A, SepOpt r p k A ∧ X ⊆ A) ∧
      (X.card + k ≤ C.length + P.length → ∃ A, SepOpt r p k A ∧ Disjoint X A) := by
  have hd : Disjoint C.toFinset P.toFinset := by
    rw [Finset.disjoint_left]
    intro c a b
    exact hdisj c (List.mem_toFinset.1 a) (List.mem_toFinset.1 b)
  have c1 : C.toFinset.card = C.length := List.toFinset_card_of_nodup hC
  have c2 : P.toFinset.card = P.length := List.toFinset_card_of_nodup hP
  constructor
  · intro hc
    obtain ⟨Y, y1, y2, y3⟩ := Finset.exists_subsuperset_card_eq (s := C.toFinset ∪ X) (t := C.toFinset ∪ P.toFinset) (n := k)
      (Finset.union_subset_union_right hX)
      (by rw [Finset.card_union_of_disjoint (hd.mono_right hX), c1]; omega) (by rw [Finset.card_union_of_disjoint hd, c1, c2]; omega)
    exact ⟨Y, (hopt Y).2 ⟨Finset.subset_union_left.trans y1, y2, y3⟩, Finset.subset_union_right.trans y1⟩
  · intro hc
    have hXd : Disjoint C.toFinset X := hd.mono_right hX
    obtain ⟨Y, y1, y2, y3⟩ := Finset.exists_subsuperset_card_eq (s := C.toFinset) (t := C.toFinset ∪ (P.toFinset \ X)) (n := k)
      Finset.subset_union_left (by omega)
      (by
        rw [Finset.card_union_of_disjoint (hd.mono_right Finset.sdiff_subset), Finset.card_sdiff_of_subset hX, c1, c2]
        have := Finset.card_le_card hX
        omega)
    refine ⟨Y, (hopt Y).2 ⟨y1, y2.trans (Finset.union_subset_union_right Finset.sdiff_subset), y3⟩, ?_⟩
    rw [Finset.disjoint_left]
    intro x hx hy
    rcases Finset.mem_union.1 (y2 hy) with h | h
    · exact Finset.disjoint_left.1 hXd h hx
    · exact (Finset.mem_sdiff.1 h).2 hx

/-- **C86** The information AV and SAV print about the candidates is correct. -/
theorem C86_describes (r : SepRule) (p : Profile) (hp : p.WF) {k : ℕ} (h1 : 1 ≤ k) (h2 : k ≤ p.numCand) :
    ∃ i, separableInfo r p k = .ok i ∧ Describes r p k i := by
  obtain ⟨t, C, P, g1, g2, g3, g4, g5, g6, g7, g8⟩ := separable_cut r p hp h1 h2
  have hCasc : C.Pairwise (· < ·) := by rw [g2]; exact (pairwise_lt_range _).filter _
  have hPasc : P.Pairwise (· < ·) := by rw [g3]; exact (pairwise_lt_range _).filter _
  have hdisj : ∀ c ∈ C, c ∉ P := by
    intro c a b
    have := ((g4 c).1 a).2
    have := ((g5 c).1 b).2
    linarith
  have hex := exists_winner_with hdisj (nodup_of_lt hCasc) (nodup_of_lt hPasc) g6.le g7 g8
  have hwin : ∃ A, SepOpt r p k A := by
    obtain ⟨A, hA, _⟩ := (hex ∅ (by simp)).1 (by simp)
    exact ⟨A, hA⟩
  have hscore : separableScores r p = (List.range p.numCand).map (candScore r p) := by
    apply List.ext_getElem
    · simp [separableScores_length]
    · intro i hi hi'
      have hi2 : i < p.numCand := by simpa using hi'
      have := separableScores_getD r p hp i hi2
      rw [List.getD_eq_getElem?_getD, List.getElem?_eq_getElem hi] at this
      simpa using this
  have hcut : ∀ c < p.numCand, (∃ A, SepOpt r p k A ∧ c ∈ A) ↔ t ≤ candScore r p c := by
    intro c hc
    constructor
    · rintro ⟨A, hA, hcA⟩
      rcases Finset.mem_union.1 (((g8 A).1 hA).2.1 hcA) with h | h
      · exact ((g4 c).1 (List.mem_toFinset.1 h)).2.le
      · exact ((g5 c).1 (List.mem_toFinset.1 h)).2.ge
    · intro h
      rcases h.lt_or_eq with h | h
      · obtain ⟨A, hA⟩ := hwin
        exact ⟨A, hA, ((g8 A).1 hA).1 (List.mem_toFinset.2 ((g4 c).2 ⟨hc, h⟩))⟩
      · have hcP := (g5 c).2 ⟨hc, h.symm⟩
        obtain ⟨A, hA, hs⟩ := (hex {c} (by simpa using hcP)).1 (by simp; omega)
        exact ⟨A, hA, hs (by simp)⟩
  unfold separableInfo
  dsimp only
  rw [g1]
  dsimp only [bind, Except.bind]
  rw [← g2, ← g3]
  have hndCP : (C ++ P).Nodup := by
    rw [List.nodup_append]
    refine ⟨nodup_of_lt hCasc, nodup_of_lt hPasc, ?_⟩
    rintro x hx y hy rfl
    exact hdisj x hx hy
  by_cases hb : P.length = k - C.length
  · rw [if_pos hb]
    have hall : ∀ A, SepOpt r p k A → A = C.toFinset ∪ P.toFinset := by
      intro A hA
      obtain ⟨a1, a2, a3⟩ := (g8 A).1 hA
      refine Finset.eq_of_subset_of_card_le a2 ?_
      rw [a3, ← List.toFinset_append, List.toFinset_card_of_nodup hndCP, List.length_append]
      omega
    refine ⟨_, rfl, ⟨?_, ?_, ?_, hcut, sortNat_lt hndCP, List.Pairwise.nil, hscore⟩⟩
    · intro c
      have : c ∈ sortNat (C ++ P) ↔ c ∈ C ∨ c ∈ P := by rw [(sortNat_perm _).mem_iff, List.mem_append]
      rw [this]
      constructor
      · intro h
        refine ⟨?_, fun A hA => ?_⟩
        · rcases h with h | h
          · exact ((g4 c).1 h).1
          · exact ((g5 c).1 h).1
        · rw [hall A hA]; simpa using h
      · rintro ⟨_, h⟩
        obtain ⟨A, hA⟩ := hwin
        have := h A hA
        rw [hall A hA] at this
        simpa using this
    · intro c
      simp only [List.not_mem_nil, false_iff, not_and, not_exists]
      rintro ⟨A, hA, hc⟩ B hB
      rw [not_not]
      rwa [hall B hB, ← hall A hA]
    · intro A _
      simp
  · rw [if_neg hb]
    have hmore : k - C.length < P.length := by omega
    refine ⟨_, rfl, ⟨?_, ?_, ?_, hcut, hCasc, hPasc, hscore⟩⟩
    · intro c
      constructor
      · intro h
        exact ⟨((g4 c).1 h).1, fun A hA => ((g8 A).1 hA).1 (List.mem_toFinset.2 h)⟩
      · rintro ⟨hc, h⟩
        by_contra hcC
        obtain ⟨A0, hA0⟩ := hwin
        have hcP : c ∈ P := by
          rcases Finset.mem_union.1 (((g8 A0).1 hA0).2.1 (h A0 hA0)) with h | h
          · exact absurd (List.mem_toFinset.1 h) hcC
          · exact List.mem_toFinset.1 h
        obtain ⟨A, hA, hd⟩ := (hex {c} (by simpa using hcP)).2 (by simp; omega)
        exact Finset.disjoint_left.1 hd (by simp) (h A hA)
    · intro c
      constructor
      · intro h
        obtain ⟨A, hA, hs⟩ := (hex {c} (by simpa using h)).1 (by simp; omega)
        obtain ⟨B, hB, hd⟩ := (hex {c} (by simpa using h)).2 (by simp; omega)
        exact ⟨⟨A, hA, hs (by simp)⟩, B, hB, fun hc => Finset.disjoint_left.1 hd (by simp) hc⟩
      · rintro ⟨⟨A, hA, hc⟩, B, hB, hcB⟩
        rcases Finset.mem_union.1 (((g8 A).1 hA).2.1 hc) with h | h
        · exact absurd (((g8 B).1 hB).1 h) hcB
        · exact List.mem_toFinset.1 h
    · intro A hA
      obtain ⟨a1, a2, a3⟩ := (g8 A).1 hA
      have hsplit : A = C.toFinset ∪ (A ∩ P.toFinset) := by
        ext c
        simp only [Finset.mem_union, Finset.mem_inter]
        constructor
        · intro hc
          rcases Finset.mem_union.1 (a2 hc) with h | h
          · exact Or.inl h
          · exact Or.inr ⟨hc, h⟩
        · rintro (h | h)
          · exact a1 h
          · exact h.1
      have hcardA := congrArg Finset.card hsplit
      rw [Finset.card_union_of_disjoint, a3, List.toFinset_card_of_nodup (nodup_of_lt hCasc)] at hcardA
      · dsimp only; omega
      · rw [Finset.disjoint_left]
        intro c b1 b2
        exact hdisj c (List.mem_toFinset.1 b1) (List.mem_toFinset.1 (Finset.mem_inter.1 b2).2)

/-- The block printed by AV and SAV. -/
def Spec.sepText (num : ℚ → Name) (r : SepRule) (p : Profile) (resolute : Bool) (cs : List (List ℕ)) (i : SepInfo) : List Msg :=
  heading r.id :: oneRemark resolute ++
  [standardAlgorithm,
   detailsMsg ("Scores of candidates:\n".toList ++
    ((List.range p.numCand).map (fun c => nameOf p c ++ ": ".toList ++ num (candScore r p c) ++ "\n".toList)).flatten ++
    "\nCandidates are contained in winning committees\n".toList ++ "if their score is >= ".toList ++ num i.cutoff ++ ".".toList)] ++
  (if i.certain.length > 0 then
    [detailsMsg ("\nThe following candidates are contained in\nevery winning committee:\n ".toList ++
      ", ".toList.intercalate (i.certain.map (nameOf p)) ++ "\n".toList)] else []) ++
  (if i.possible.length > 0 then
    [detailsMsg ("The following candidates are contained in\nsome of the winning committees:\n ".toList ++
      ", ".toList.intercalate (i.possible.map (nameOf p)) ++ "\n".toList ++ "(".toList ++ strNat i.missing ++
      " of those candidates are contained\n in every winning committee.)\n".toList)] else []) ++
  [winners p cs]

theorem separableReport_ok (num : ℚ → Name) {r : SepRule} {p : Profile} (hn : Named p) (resolute : Bool) {cs : List (List ℕ)}
    (hne : cs ≠ []) (hlt : ∀ W ∈ cs, ∀ c ∈ W, c < p.numCand) {k : ℕ} {i : SepInfo} (hd : Describes r p k i)
    (hs : ∀ A, SepOpt r p k A → ∀ c ∈ A, c < p.numCand) :
    separableReport num r "standard" p resolute cs i = .ok (sepText num r p resolute cs i) := by
  unfold separableReport
  have e1 : p.candidates.mapM (sepScoreLine num p i.score) =
      .ok (p.candidates.map (fun c => nameOf p c ++ ": ".toList ++ num (candScore r p c) ++ "\n".toList)) := by
    refine mapM_ok_of fun c hc => ?_
    have hc' : c < p.numCand := by simpa [Profile.candidates] using hc
    unfold sepScoreLine
    rw [nameOf_ok hn hc', hd.score]
    have : pyGet ((List.range p.numCand).map (candScore r p)) c = .ok (candScore r p c) := by
      unfold pyGet
      simp [hc']
    rw [this]
    rfl
  have e2 : i.certain.mapM (fun c => pyGet p.candNames c) = .ok (i.certain.map (nameOf p)) :=
    mapM_ok_of fun c hc => nameOf_ok hn ((hd.certain c).1 hc).1
  have e3 : i.possible.mapM (fun c => pyGet p.candNames c) = .ok (i.possible.map (nameOf p)) :=
    mapM_ok_of fun c hc => by
      obtain ⟨⟨A, hA, hcA⟩, _⟩ := (hd.possible c).1 hc
      exact nameOf_ok hn (hs A hA c hcA)
  rw [headMsgs_ok, algorithmMsg_standard, e1, e2, e3, committeesMsg_ok hn hlt hne]
  unfold sepText
  have e4 : Remark.one.msgs resolute = oneRemark resolute := rfl
  have e5 : ∀ (x : Name) (l : List Name), x.intercalate l = joinText x l := fun _ _ => rfl
  dsimp only [bind, Except.bind]
  rw [e4, e5, e5]
  by_cases h1 : i.certain.length > 0 <;> by_cases h2 : i.possible.length > 0 <;> simp [h1, h2, Profile.candidates]

/-- **C86** AV and SAV: the text is computed without an exception, does not influence the result, and the information in it describes the
winning committees. -/
theorem C86_report (env : Env) (num : ℚ → Name) (r : SepRule) (p : Profile) (hp : p.WF) (hn : Named p) (a : Args)
    (hal : prologue env r.id p a = .ok "standard") :
    ∃ i cs, Describes r p a.k i ∧ computeSeparable env r p a = .ok cs ∧
      computeSeparableVerbose env num r p a = .ok (sepText num r p a.resolute cs i, cs) := by
  have hv := validCall_of_prologue hal
  have hans := C20_separable_optimal env r p hp a hal
  obtain ⟨i, hi, hd⟩ := C86_describes r p hp hv.pos hv.le
  have hs : ∀ A, SepOpt r p a.k A → ∀ c ∈ A, c < p.numCand := fun A hA c hc => by simpa using hA.1.1 hc
  have hwin : ∃ A, SepOpt r p a.k A := by
    by_contra hno
    push Not at hno
    have h0 : ∀ c < p.numCand, ¬ i.cutoff ≤ candScore r p c := fun c hc h => by
      obtain ⟨A, hA, _⟩ := (hd.cutoff c hc).2 h
      exact hno A hA
    obtain ⟨t, C, P, g1, g2, g3, g4, g5, g6, g7, g8⟩ := separable_cut r p hp hv.pos hv.le
    have hPn : P.Nodup := by rw [g3]; exact List.nodup_range.filter _
    have hCn : C.Nodup := by rw [g2]; exact List.nodup_range.filter _
    obtain ⟨A, hA, _⟩ := (exists_winner_with (fun c a b => by
        have := ((g4 c).1 a).2
        have := ((g5 c).1 b).2
        linarith) hCn hPn g6.le g7 g8 ∅ (by simp)).1 (by simp)
    exact hno A hA
  obtain ⟨cs, c0, hcs, hget⟩ := answers_get hans hwin hv.max
  have hlt := answers_lt hans (m := p.numCand) hs hcs
  have hne : cs ≠ [] := by rintro rfl; cases hget
  refine ⟨i, cs, hd, hcs, ?_⟩
  have hcomp : separableFrom i a.resolute a.maxNum = .ok cs := by
    have h := separable_split r p a.k a.resolute a.maxNum
    rw [hi] at h
    unfold computeSeparable at hcs
    rw [hal] at hcs
    simp only [bind, Except.bind, if_true] at hcs h
    rw [h]; exact hcs
  unfold computeSeparableVerbose
  rw [hal]
  simp only [bind, Except.bind, if_true, hi, hcomp]
  rw [separableReport_ok num hn a.resolute hne hlt hd hs]

/-- **C86** … and for all calls: same result, same exceptions. -/
theorem C86_result (env : Env) (num : ℚ → Name) (r : SepRule) (p : Profile) (hp : p.WF) (hn : Named p) (a : Args) :
    (computeSeparableVerbose env num r p a).map Prod.snd = computeSeparable env r p a := by
  cases hal : prologue env r.id p a with
  | error e => unfold computeSeparableVerbose computeSeparable; rw [hal]; rfl
  | ok alg =>
    by_cases h : alg = "standard"
    · subst h
      obtain ⟨i, cs, _, h1, h2⟩ := C86_report env num r p hp hn a hal
      rw [h1, h2]; rfl
    · unfold computeSeparableVerbose computeSeparable
      rw [hal]
      simp only [bind, Except.bind, h, if_false]
      rfl

/-- Non-vacuity: one certain candidate, three possible ones of which one is elected. -/
example : (separableInfo .sav ⟨4, [⟨[0, 1, 2], 1⟩, ⟨[3], 1⟩], []⟩ 2).map (fun i => (i.certain, i.possible, i.missing, i.cutoff))
    = .ok ([3], [0, 1, 2], 1, 1 / 3) := by decide +kernel

end Abc
