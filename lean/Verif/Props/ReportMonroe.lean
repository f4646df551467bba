import Verif.Lemmas.ReportMonroe

/-!
# C89: the output of Greedy Monroe
-/

namespace Abc
open Spec

theorem strInt_nat (n : ℕ) : strInt (n : ℤ) = strNat n := by
  unfold strInt
  rw [if_neg (by omega)]
  rfl

theorem gmScoreMsgs_ok (m s : ℕ) : gmScoreMsgs m s = assignmentRemarks s m := by
  unfold gmScoreMsgs assignmentRemarks
  rw [strInt_nat, strInt_nat]
  have : ((m : ℤ) > (s : ℤ)) = (s < m) := by
    rw [gt_iff_lt, Nat.cast_lt]
  simp only [this]
  rfl

/-- **C89** What Greedy Monroe prints (unit weights): the heading; the number of voters represented in the assignment; if (and only if) a
better balanced assignment to the same committee exists, the best possible number; then the assignment itself, one line per member in the
order of election, with the voters that do not approve their representative marked; and the committee.  The assignment is balanced, extends
the districts formed by the greedy run, and represents exactly the voters in these districts. -/
theorem C89_greedy_monroe_report (env : Env) (matching : List MEdge → List MEdge) (hmat : ExactMatching matching)
    (minCost : FlowNet → Except Err ℕ) (hmin : ExactMinCost minCost) (iter : List ℕ) (p : Profile) (hn : Named p)
    (hiter : iter.Perm p.candidates) (a : Args) (hal : prologue env "greedy-monroe" p a = .ok "standard") (hu : p.hasUnitWeights = true) :
    ∃ (W : List ℕ) (Ds : List (Group p)) (φ : Fin p.voters.length → ℕ) (m : ℕ), Run (GMBest p) (gmUpd p a.k) [] [] W Ds ∧ W.length = a.k ∧
      Balanced p W.toFinset φ ∧
      (∀ (t c : ℕ), W[t]? = some c → (Finset.univ.filter (fun i => φ i = c)).card = districtSize p.voters.length a.k t) ∧
      (∀ (t c : ℕ) (D : Group p), W[t]? = some c → Ds[t]? = some D → ∀ i ∈ D, φ i = c) ∧
      (∀ i, φ i ∈ appr p i ↔ ∃ D ∈ Ds, i ∈ D) ∧
      IsMonroeScore p W.toFinset m ∧
      computeGreedyMonroeVerbose env matching minCost iter p a = .ok
        ([heading "greedy-monroe", standardAlgorithm] ++ assignmentRemarks (represented p φ) m ++
          [detailsMsg ("Assignment (unsatisfatied voters marked with *):\n\n".toList ++ W.flatMap (districtLine p φ)),
           winners p [sortNat W]], [sortNat W]) := by
  have hv := validCall_of_prologue hal
  have hkpos : 0 < a.k := hv.pos
  have h0 : GMInv p a.k iter [] (List.range p.voters.length) iter [] [] := by
    refine ⟨.start, fun _ => .start, pairwise_lt_range _, fun x hx => List.mem_range.1 hx, ?_,
      ⟨hiter.nodup_iff.2 List.nodup_range, ?_⟩, ?_, rfl, .nil, by simp, by simp⟩
    · ext i; simp [mem_grp, unassigned]
    · intro c
      rw [hiter.mem_iff]
      simp [Profile.candidates]
    · rintro rfl
      exact pairwise_lt_range _
  obtain ⟨W, rv, rc, asg, Ds, e, hinv, hl⟩ := gmLoop_spec p a.k hv.le iter a.k [] _ _ _ _ h0 (by simp)
  have hnd : W.Nodup ∧ ∀ c ∈ W, c < p.numCand :=
    hinv.run.nodup (fun _ _ _ _ hb => ⟨hb.1, hb.2.1⟩) List.nodup_nil (by simp)
  have hWa : asg.length = a.k := by rw [← hl, ← hinv.names, List.length_map]
  have htot : (asg.flatMap Prod.snd).length + rv.length = p.voters.length := by
    rw [← List.length_append, hinv.perm.length_eq, List.length_range]
  obtain ⟨full, f1, f2, f3, f4⟩ := gmComplete_spec p.voters.length a.k asg 0 rv (by simpa using hinv.sizes)
    (by
      rw [htot, hWa]
      simp only [Nat.zero_add]
      exact (sum_districtSize p.voters.length a.k hkpos).symm)
  have hCne : sortNat W ≠ [] := by
    intro h
    have := congrArg List.length h
    rw [sortNat_length, hl] at this
    simp at this
    omega
  obtain ⟨m, hm, hscore⟩ := C17_monroescore matching hmat minCost hmin p (sortNat W) (sortNat_nodup.2 hnd.1) hCne
  rw [sortNat_toFinset] at hscore
  have hsort : sortedCommittees [sortNat W] = .ok [sortNat W] := by
    rw [sortedCommittees_one (sortNat_nodup.2 hnd.1), sortNat_of_lt (sortNat_lt hnd.1)]
  have hfperm : (full.flatMap Prod.snd).Perm (List.range p.voters.length) := f4.trans hinv.perm
  have hfn : (full.flatMap Prod.snd).Nodup := hfperm.nodup_iff.2 List.nodup_range
  have hnames : full.map Prod.fst = W := by
    rw [← hinv.names]
    have : ∀ (l l' : List (ℕ × List ℕ)), List.Forall₂ (fun (x y : ℕ × List ℕ) => y.1 = x.1 ∧ ∀ i ∈ x.2, i ∈ y.2) l l' →
        l'.map Prod.fst = l.map Prod.fst := by
      intro l l' h
      induction h with
      | nil => rfl
      | cons h1 _ ih => rw [List.map_cons, List.map_cons, ih, h1.1]
    exact this _ _ f2
  have hfnd : (full.map Prod.fst).Nodup := by rw [hnames]; exact hnd.1
  obtain ⟨hDl, hDs⟩ := gmRun_districts hinv.run
  -- the t-th entries of the lists
  have hentry : ∀ (t : ℕ) (x : ℕ × List ℕ), full[t]? = some x → ∃ (y : ℕ × List ℕ) (D : Group p), asg[t]? = some y ∧ x.1 = y.1 ∧ (∀ i ∈ y.2, i ∈ x.2) ∧ Ds[t]? = some D ∧
      grp p y.2 = D ∧ W[t]? = some x.1 ∧ x.2.length = districtSize p.voters.length a.k t := by
    intro t x hx
    have f2' : List.Forall₂ (fun (y x : ℕ × List ℕ) => y.1 = x.1 ∧ ∀ i ∈ x.2, i ∈ y.2) full asg := by
      have := f2.flip
      exact this
    obtain ⟨y, hy, h1, h2⟩ := forall₂_getElem? f2' hx
    obtain ⟨D, hD, h3⟩ := forall₂_getElem? hinv.districts hy
    refine ⟨y, D, hy, h1, h2, hD, h3, ?_, ?_⟩
    · rw [← hnames, List.getElem?_map, hx]; rfl
    · obtain ⟨h, rfl⟩ := List.getElem?_eq_some_iff.1 hx
      have := f3 t h
      simpa using this
  have hlen : full.length = a.k := by rw [← hl, ← hnames, List.length_map]
  have hfullt : ∀ (t c : ℕ), W[t]? = some c → ∃ x : ℕ × List ℕ, full[t]? = some x ∧ x.1 = c := by
    intro t c hc
    rw [← hnames, List.getElem?_map, Option.map_eq_some_iff] at hc
    exact hc
  have hφ : ∀ x ∈ full, ∀ i : Fin p.voters.length, assignedTo full i = x.1 ↔ i ∈ grp p x.2 := by
    intro x hx i
    rw [assignedTo_iff hfperm hfnd hx i.2, mem_grp]
  have hxlt : ∀ x ∈ full, x.2.Nodup ∧ ∀ i ∈ x.2, i < p.voters.length := by
    intro x hx
    exact ⟨(List.nodup_flatMap.1 hfn).1 x hx, fun i hi => List.mem_range.1 (hfperm.mem_iff.1 (List.mem_flatMap.2 ⟨x, hx, hi⟩))⟩
  have hsizes : ∀ (t c : ℕ), W[t]? = some c →
      (Finset.univ.filter (fun i : Fin p.voters.length => assignedTo full i = c)).card = districtSize p.voters.length a.k t := by
    intro t c hc
    obtain ⟨x, hx, rfl⟩ := hfullt t c hc
    have hxm := List.mem_of_getElem? hx
    obtain ⟨_, _, _, _, _, _, _, _, hs⟩ := hentry t x hx
    rw [← hs, ← grp_card (hxlt x hxm).1 (hxlt x hxm).2]
    congr 1
    ext i
    rw [Finset.mem_filter, hφ x hxm i]
    simp
  have hext : ∀ (t c : ℕ) (D : Group p), W[t]? = some c → Ds[t]? = some D → ∀ i ∈ D, assignedTo full i = c := by
    intro t c D hc hD i hi
    obtain ⟨x, hx, rfl⟩ := hfullt t c hc
    obtain ⟨y, D', hy, h1, h2, hD', h3, _, _⟩ := hentry t x hx
    obtain rfl := Option.some.inj (hD.symm.trans hD')
    rw [hφ x (List.mem_of_getElem? hx) i, mem_grp]
    rw [← h3, mem_grp] at hi
    exact h2 i hi
  have hrep : ∀ i : Fin p.voters.length, assignedTo full i ∈ appr p i ↔ ∃ D ∈ Ds, i ∈ D := by
    intro i
    constructor
    · intro hi
      obtain ⟨x, hxm, hix⟩ := List.mem_flatMap.1 (hfperm.mem_iff.2 (List.mem_range.2 i.2))
      rw [assignedTo_eq hfn hxm hix] at hi
      obtain ⟨t, hx⟩ := List.mem_iff_getElem?.1 hxm
      obtain ⟨y, D, hy, h1, h2, hD, h3, hWt, hs⟩ := hentry t x hx
      by_cases hiD : i ∈ D
      · exact ⟨D, List.mem_of_getElem? hD, hiD⟩
      · refine (hDs t x.1 D hWt hD).2 ?_ i (mem_backers.2 (mem_appr.1 hi))
        rw [← hs, ← grp_card (hxlt x hxm).1 (hxlt x hxm).2]
        refine Finset.card_lt_card (Finset.ssubset_iff_subset_ne.2 ⟨?_, ?_⟩)
        · intro j hj
          rw [← h3, mem_grp] at hj
          exact mem_grp.2 (h2 j hj)
        · intro heq
          exact hiD (heq ▸ mem_grp.2 hix)
    · rintro ⟨D, hD, hi⟩
      obtain ⟨t, hDt⟩ := List.mem_iff_getElem?.1 hD
      have htl : t < W.length := by
        rw [← hDl]; exact (List.getElem?_eq_some_iff.1 hDt).1
      obtain ⟨c, hc⟩ : ∃ c, W[t]? = some c := ⟨_, List.getElem?_eq_getElem htl⟩
      rw [hext t c D hc hDt i hi, mem_appr]
      exact mem_backers.1 ((hDs t c D hc hDt).1 hi)
  have hbal : Balanced p W.toFinset (fun i => assignedTo full i) := by
    have hcard : W.toFinset.card = a.k := by rw [List.toFinset_card_of_nodup hnd.1, hl]
    constructor
    · intro i
      obtain ⟨x, hxm, hix⟩ := List.mem_flatMap.1 (hfperm.mem_iff.2 (List.mem_range.2 i.2))
      dsimp only
      rw [assignedTo_eq hfn hxm hix, List.mem_toFinset, ← hnames]
      exact List.mem_map_of_mem hxm
    · intro c hc
      rw [List.mem_toFinset] at hc
      obtain ⟨t, ht⟩ := List.mem_iff_getElem?.1 hc
      rw [hcard, hsizes t c ht]
      exact ceil_district hkpos (by rw [← hl]; exact (List.getElem?_eq_some_iff.1 ht).1)
  have hnum : p.voters.length - rv.length = represented p (fun i => assignedTo full i) := by
    unfold represented
    have h1 : (grp p rv).card = rv.length := grp_card (nodup_of_lt hinv.asc) hinv.lt
    rw [← h1, hinv.rest]
    have h2 : Finset.univ.filter (fun i => assignedTo full i ∈ appr p i) = Finset.univ \ unassigned p Ds := by
      ext i
      rw [Finset.mem_filter, hrep i, Finset.mem_sdiff]
      unfold unassigned
      simp
    rw [h2, Finset.card_sdiff_of_subset (Finset.subset_univ _), Finset.card_univ, Fintype.card_fin]
  have hrvle : rv.length ≤ p.voters.length := by omega
  refine ⟨W, Ds, fun i => assignedTo full i, m, hinv.run, hl, hbal, hsizes, hext, hrep, hscore, ?_⟩
  unfold computeGreedyMonroeVerbose greedyMonroeAlgorithm
  simp only [List.length_nil] at e
  simp only [hal, bind, Except.bind, hu, not_true_eq_false, if_false, if_true, e, sortedCommittees_one hnd.1]
  have hlines : full.mapM (gmDistrictText p) = .ok (W.map (districtLine p (fun i => assignedTo full i))) := by
    rw [mapM_ok_of (g := fun x => districtLine p (fun i => assignedTo full i) x.1), ← hnames, List.map_map]
    · rfl
    · intro x hx
      exact gmDistrictText_ok hn hfperm hfnd hx (hnd.2 x.1 (by rw [← hnames]; exact List.mem_map_of_mem hx))
  have hWlt : ∀ V ∈ [sortNat W], ∀ c ∈ V, c < p.numCand := by
    intro V hV c hc
    rw [List.mem_singleton] at hV
    subst hV
    exact hnd.2 c ((sortNat_perm W).mem_iff.1 hc)
  have hs2 : ((p.voters.length : ℤ) - (rv.length : ℤ)) = ((represented p (fun i => assignedTo full i) : ℕ) : ℤ) := by
    rw [← hnum]; omega
  have hreport : gmReport matching minCost "standard" p a.k ([sortNat W], asg, rv) = .ok
      ([heading "greedy-monroe", standardAlgorithm] ++ assignmentRemarks (represented p (fun i => assignedTo full i)) m ++
        [detailsMsg ("Assignment (unsatisfatied voters marked with *):\n\n".toList ++
          W.flatMap (districtLine p (fun i => assignedTo full i))), winners p [sortNat W]]) := by
    unfold gmReport
    rw [headMsgs_ok, algorithmMsg_standard]
    dsimp only [bind, Except.bind]
    have hget : pyGet [sortNat W] 0 = .ok (sortNat W) := rfl
    rw [hget]
    dsimp only
    rw [hm]
    dsimp only
    rw [f1]
    dsimp only
    rw [hlines, committeesMsg_ok hn hWlt (by simp)]
    dsimp only
    rw [hs2, gmScoreMsgs_ok]
    rfl
  rw [hreport]
  dsimp only
  rw [hsort]

/-- **C89** Printing does not change the committee, and the text can be computed in every valid call. -/
theorem C89_greedy_monroe_result (env : Env) (matching : List MEdge → List MEdge) (hmat : ExactMatching matching)
    (minCost : FlowNet → Except Err ℕ) (hmin : ExactMinCost minCost) (iter : List ℕ) (p : Profile) (hn : Named p)
    (hiter : iter.Perm p.candidates) (a : Args) (hal : prologue env "greedy-monroe" p a = .ok "standard") :
    (computeGreedyMonroeVerbose env matching minCost iter p a).map Prod.snd = computeGreedyMonroe env matching minCost iter p a := by
  cases hu : p.hasUnitWeights with
  | false =>
    rw [(C32_greedy_monroe env matching hmat minCost hmin iter p hiter a hal).2 hu]
    unfold computeGreedyMonroeVerbose
    simp [hal, bind, Except.bind, hu, Except.map]
  | true =>
    obtain ⟨W, Ds, φ, m, _, _, _, _, _, _, _, h⟩ := C89_greedy_monroe_report env matching hmat minCost hmin iter p hn hiter a hal hu
    obtain ⟨W', Ds', C, full, g1, g2, -⟩ := (C32_greedy_monroe env matching hmat minCost hmin iter p hiter a hal).1 hu
    rw [h, g2]
    refine congrArg (fun Z => Except.ok [Z]) ?_
    -- both are computed by the same algorithm
    unfold computeGreedyMonroeVerbose at h
    unfold computeGreedyMonroeFull at g1
    simp only [hal, bind, Except.bind, hu, not_true_eq_false, if_false, if_true] at h g1
    cases hr : greedyMonroeAlgorithm p a.k iter with
    | error e => rw [hr] at h; cases h
    | ok r =>
      rw [hr] at h g1
      dsimp only at h g1
      cases hrep : gmReport matching minCost "standard" p a.k r with
      | error e => rw [hrep] at h; cases h
      | ok ms =>
        rw [hrep] at h
        dsimp only at h
        cases hs : sortedCommittees r.1 with
        | error e => rw [hs] at h; cases h
        | ok ds =>
          rw [hs] at h g1
          dsimp only at h
          have h1 : ds = [sortNat W] := congrArg Prod.snd (Except.ok.inj h)
          cases hc : pyGet r.1 0 with
          | error e => rw [hc] at g1; cases g1
          | ok c =>
            rw [hc] at g1
            dsimp only at g1
            cases hm : monroescore matching minCost p c with
            | error e => rw [hm] at g1; cases g1
            | ok z =>
              rw [hm] at g1
              dsimp only at g1
              cases hf : gmComplete p.voters.length a.k 0 r.2.1 r.2.2 with
              | error e => rw [hf] at g1; cases g1
              | ok q =>
                rw [hf] at g1
                dsimp only at g1
                have h2 : ds = [C] := congrArg Prod.fst (Except.ok.inj g1)
                rw [h1] at h2
                exact List.head_eq_of_cons_eq h2

/-- Non-vacuity: a run whose assignment is not optimal for the committee (the two stand-ins return the values an exact library would
return for this committee). -/
def reportMonroe : Profile := ⟨3, [⟨[0, 1], 1⟩, ⟨[0], 1⟩], ["a".toList, "b".toList, "c".toList]⟩

example : Named reportMonroe ∧ [0, 1, 2].Perm reportMonroe.candidates ∧ reportMonroe.hasUnitWeights = true ∧
    prologue exampleEnv "greedy-monroe" reportMonroe { committeesize := 2, resolute := true } = .ok "standard" ∧
    ((computeGreedyMonroeVerbose exampleEnv (fun _ => [(0, (1, 0)), (1, (0, 0))]) (fun _ => .ok 0) [0, 1, 2] reportMonroe
      { committeesize := 2, resolute := true }).map (fun r => (r.1.drop 2).map (fun m => String.ofList (m.indent ++ m.text)))) =
      .ok ["The Monroe assignment computed by Greedy Monroe", "has a Monroe score of 1.",
        "Monroe assignment found by Greedy Monroe is not optimal for the winning committee,",
        "i.e., by redistributing voters to candidates a higher satisfaction is possible (without changing the committee).",
        "Optimal Monroe score of the winning committee is 2.",
        "Assignment (unsatisfatied voters marked with *):\n\n candidate a assigned to: 0\n candidate b assigned to: 1*\n",
        "1 winning committee:\n {a, b}\n"] := by
  exact ⟨rfl, by decide +kernel, by decide +kernel, by decide +kernel, by decide +kernel⟩

end Abc
