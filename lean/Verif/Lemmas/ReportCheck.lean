import Verif.Spec.ReportCheck
import Verif.Lemmas.Report
import Verif.Lemmas.ReportOptimal
import Verif.Props.Check
import Verif.Props.Dispatch

/-!
# Lemmas about what the checks print
-/

namespace Abc
open Spec

/-- The text of a set does not depend on the order of its listing. -/
theorem strKey_eq {l : List ℕ} (h : l.Nodup) : strKey l = numbersText l.toFinset := by
  have hp : (l.map strNat).Perm ((l.toFinset.sort (· ≤ ·)).map strNat) := by
    refine List.Perm.map _ ?_
    rw [List.perm_ext_iff_of_nodup h (Finset.sort_nodup _ _)]
    simp
  have h1 : (l.map strNat).insertionSort strLe = ((l.toFinset.sort (· ≤ ·)).map strNat).insertionSort strLe := by
    have h3 : ((l.map strNat).insertionSort strLe).Perm (((l.toFinset.sort (· ≤ ·)).map strNat).insertionSort strLe) :=
      (List.perm_insertionSort _ _).trans (hp.trans (List.perm_insertionSort _ _).symm)
    have h4 := strLe_pairwise (l.map strNat)
    have h5 := strLe_pairwise ((l.toFinset.sort (· ≤ ·)).map strNat)
    exact h3.eq_of_pairwise (fun a b _ _ hab hba => List.le_antisymm hab hba) h4 h5
  unfold strKey numbersText
  dsimp only
  rw [h1]
  rfl

theorem strKey_group {p : Profile} {g : List ℕ} (h : g.Nodup) (hlt : ∀ i ∈ g, i < p.voters.length) : strKey g = groupText (grp p g) := by
  rw [strKey_eq h]
  unfold groupText
  congr 1
  ext x
  simp only [List.mem_toFinset, Finset.mem_map, mem_grp, Fin.valEmbedding_apply]
  exact ⟨fun hx => ⟨⟨x, hlt x hx⟩, hx, rfl⟩, by rintro ⟨i, hi, rfl⟩; exact hi⟩

theorem shareText_eq (fmt : Format) {p : Profile} {g : List ℕ} (h : g.Nodup) (hlt : ∀ i ∈ g, i < p.voters.length) :
    shareText fmt p g = groupShare fmt p (grp p g) := by
  unfold shareText groupShare
  rw [groupWeight_eq p g h hlt, totalWeight_eq]
  by_cases hu : ∀ v ∈ p.voters, v.weight = 1
  · rw [if_neg (not_not.2 (unitWeights_iff.2 hu)), if_pos hu]
  · rw [if_pos (fun e => hu (unitWeights_iff.1 e)), if_neg hu]

/-- A group of voters listed without repetition. -/
def IsListing (p : Profile) (g : List ℕ) : Prop := g.Nodup ∧ ∀ i ∈ g, i < p.voters.length

theorem isListing_votersWith (p : Profile) (c : Voter → Bool) : IsListing p (p.votersWith c) :=
  ⟨votersWith_nodup p c, fun _ h => votersWith_lt _ h⟩

theorem isListing_chosenVoters (p : Profile) (x : IVar → ℚ) : IsListing p (chosenVoters p x) :=
  ⟨List.nodup_range.filter _, fun _ h => List.mem_range.1 (List.mem_filter.1 h).1⟩

theorem firstSome_some {α β : Type} {f : α → Except Err (Option β)} {l : List α} {b : β} (h : firstSome f l = .ok (some b)) :
    ∃ a ∈ l, f a = .ok (some b) := by
  induction l with
  | nil => simp [firstSome] at h
  | cons x xs ih =>
    unfold firstSome at h
    cases hx : f x with
    | error e => rw [hx] at h; cases h
    | ok r =>
      rw [hx] at h
      cases r with
      | none => obtain ⟨a, ha, e⟩ := ih h; exact ⟨a, List.mem_cons_of_mem _ ha, e⟩
      | some b' => exact ⟨x, List.mem_cons_self, by rw [hx]; exact h⟩

theorem solveCheck_some {ω : Type} {solve : Program → SolveResult} {P : Program} {info : (IVar → ℚ) → ω} {w : ω}
    (h : solveCheck solve P info = .ok (some w)) : ∃ x, w = info x := by
  unfold solveCheck at h
  split at h
  · exact ⟨_, (Option.some.inj (Except.ok.inj h)).symm⟩
  · cases h
  · cases h

theorem bind_ok {α β : Type} {x : Except Err α} {f : α → Except Err β} {b : β} (h : x.bind f = .ok b) : ∃ a, x = .ok a ∧ f a = .ok b := by
  cases x with
  | error e => cases h
  | ok a => exact ⟨a, rfl, h⟩

/-! ## The shape of the witnesses -/

theorem shape_JR {p : Profile} {W : List ℕ} {q : ℚ} {w : List ℕ × ℕ} (h : checkJRInner p W q = .ok (some w)) :
    IsListing p w.1 ∧ w.2 < p.numCand := by
  obtain ⟨c, hc, e⟩ := firstSome_some h
  dsimp only at e
  split at e
  · obtain rfl := Option.some.inj (Except.ok.inj e)
    refine ⟨?_, List.mem_range.1 hc⟩
    dsimp only
    exact isListing_votersWith _ _
  · cases e

theorem shape_EJRPlus {p : Profile} {W : List ℕ} {q : ℚ} {w : List ℕ × ℕ × ℕ} (h : checkEJRPlusInner p W q = .ok (some w)) :
    IsListing p w.1 ∧ w.2.1 < p.numCand := by
  obtain ⟨b, -, e⟩ := bind_ok h
  obtain ⟨c, hc, e⟩ := firstSome_some e
  unfold ejrPlusCand at e
  split at e
  · cases e
  · split at e
    · cases e
    · rcases ejrPlusLoop_spec p W q c b 0 [] (by
          have : supp p W c 0 = [] := by simp [supp, Profile.votersWith]
          rw [this]) with ⟨h1, -⟩ | ⟨g, l, -, -, h3, -, h5⟩
      · rw [h1] at e; cases e
      · rw [h5] at e
        obtain rfl := Option.some.inj (Except.ok.inj e)
        obtain ⟨k1, k2⟩ := isListing_votersWith p (fun v => decide (c ∈ v.approved) && decide ((inter v.approved W).length < l))
        exact ⟨⟨h3.nodup_iff.2 k1, fun i hi => k2 i (h3.mem_iff.1 hi)⟩, List.mem_range.1 hc⟩

theorem shape_EJR_gurobi {solve : Program → SolveResult} {p : Profile} {W : List ℕ} {q : ℚ} {w : CohesiveInfo}
    (h : checkEJRGurobi solve p W q = .ok (some w)) : IsListing p w.group ∧ w.joint.Nodup := by
  obtain ⟨b, -, e⟩ := bind_ok h
  obtain ⟨x, rfl⟩ := solveCheck_some e
  exact ⟨isListing_chosenVoters _ _, chosenCands_nodup _ _⟩

theorem shape_PJR_gurobi {solve : Program → SolveResult} {p : Profile} {W : List ℕ} {q : ℚ} {w : CohesiveInfo}
    (h : checkPJRGurobi solve p W q = .ok (some w)) : IsListing p w.group ∧ w.joint.Nodup := by
  obtain ⟨b, -, e⟩ := bind_ok h
  obtain ⟨x, rfl⟩ := solveCheck_some e
  exact ⟨isListing_chosenVoters _ _, chosenCands_nodup _ _⟩

theorem shape_FJR_gurobi {solve : Program → SolveResult} {p : Profile} {W : List ℕ} {q : ℚ} {w : FJRInfo}
    (h : checkFJRGurobi solve p W q = .ok (some w)) : IsListing p w.group ∧ w.joint.Nodup := by
  obtain ⟨b, -, e⟩ := bind_ok h
  obtain ⟨x, rfl⟩ := solveCheck_some e
  exact ⟨isListing_chosenVoters _ _, chosenCands_nodup _ _⟩

theorem shape_core_gurobi {solve : Program → SolveResult} {p : Profile} {W : List ℕ} {q : ℚ} {w : List ℕ × List ℕ}
    (h : checkCoreGurobi solve p W q = .ok (some w)) : IsListing p w.1 ∧ w.2.Nodup := by
  obtain ⟨x, rfl⟩ := solveCheck_some h
  exact ⟨isListing_chosenVoters _ _, chosenCands_nodup _ _⟩

theorem powerset_mem_nodup {s l : List ℕ} {m : Option ℕ} (hs : s.Nodup) (h : l ∈ powerset s m) : l.Nodup := by
  unfold powerset at h
  obtain ⟨r, -, hr⟩ := List.mem_flatMap.1 h
  exact (mem_combinations.1 hr).1.nodup hs

theorem shape_FJR {ap : List ℕ} (hap : ap.Nodup) {p : Profile} {W : List ℕ} {q : ℚ} {w : FJRInfo}
    (h : checkFJRInner ap p W q = .ok (some w)) : IsListing p w.group ∧ w.joint.Nodup := by
  obtain ⟨b, -, e⟩ := bind_ok h
  obtain ⟨T, hT, e⟩ := firstSome_some e
  obtain ⟨b', -, e⟩ := firstSome_some e
  dsimp only at e
  split at e
  · obtain rfl := Option.some.inj (Except.ok.inj e)
    refine ⟨?_, powerset_mem_nodup hap hT⟩
    dsimp only
    exact isListing_votersWith _ _
  · cases e

theorem shape_core {ap : List ℕ} (hap : ap.Nodup) {p : Profile} {W : List ℕ} {q : ℚ} {w : List ℕ × List ℕ}
    (h : checkCoreInner ap p W q = .ok (some w)) : IsListing p w.1 ∧ w.2.Nodup := by
  obtain ⟨b, -, e⟩ := bind_ok h
  obtain ⟨T, hT, e⟩ := firstSome_some e
  dsimp only at e
  split at e
  · cases e
  · split at e
    · obtain rfl := Option.some.inj (Except.ok.inj e)
      refine ⟨?_, powerset_mem_nodup hap hT⟩
      dsimp only
      exact isListing_votersWith _ _
    · cases e

theorem shape_pareto {p : Profile} {W X : List ℕ} (h : checkParetoInner p W = .ok (some X)) : X.Nodup := by
  obtain ⟨T, hT, e⟩ := firstSome_some h
  obtain ⟨b, -, e⟩ := bind_ok e
  cases b with
  | false => simp at e
  | true =>
    simp only [if_true] at e
    obtain rfl := Option.some.inj (Except.ok.inj e)
    exact nodup_of_lt (combinations_lt hT)

theorem interAll_nodup {ss : List (List ℕ)} (h : ∀ s ∈ ss, s.Nodup) {r : List ℕ} (hr : interAll ss = .ok r) : r.Nodup := by
  cases ss with
  | nil => cases hr
  | cons s ss =>
    obtain rfl := Except.ok.inj hr
    have h0 := h s (by simp)
    clear hr h
    induction ss generalizing s with
    | nil => exact h0
    | cons t ts ih => exact ih (inter s t) (h0.filter _)

/-! ## The texts -/

section
variable (fmt : Format) {p : Profile}

theorem explainJR_eq (hn : Named p) {w : List ℕ × ℕ} (h : IsListing p w.1 ∧ w.2 < p.numCand) :
    explainJR fmt p w = .ok (detailsMsg ("(The 1-cohesive group of voters ".toList ++ groupText (grp p w.1) ++ " ".toList ++
      groupShare fmt p (grp p w.1) ++ " jointly approve candidate ".toList ++ nameOf p w.2 ++
      ", but none of them approve a candidate in the committee.)".toList)) := by
  unfold explainJR
  rw [nameOf_ok hn h.2, strKey_group h.1.1 h.1.2, shareText_eq fmt h.1.1 h.1.2]
  rfl

theorem explainEJR_eq {w : CohesiveInfo} (h : IsListing p w.group ∧ w.joint.Nodup) :
    explainEJR fmt p w = .ok (detailsMsg (cohesiveText fmt w.ell (grp p w.group) w.joint.toFinset ++
      ", but none of them approves ".toList ++ strNat w.ell ++ " candidates in the committee.)".toList) " ".toList) := by
  unfold explainEJR cohesiveText
  rw [strKey_group h.1.1 h.1.2, shareText_eq fmt h.1.1 h.1.2, strKey_eq h.2]

theorem explainPJR_eq {w : CohesiveInfo} (h : IsListing p w.group ∧ w.joint.Nodup) :
    explainPJR fmt p w = .ok (detailsMsg (cohesiveText fmt w.ell (grp p w.group) w.joint.toFinset ++
      ", but they approve fewer than ".toList ++ strNat w.ell ++ " candidates in the committee.)".toList)) := by
  unfold explainPJR cohesiveText
  rw [strKey_group h.1.1 h.1.2, shareText_eq fmt h.1.1 h.1.2, strKey_eq h.2]

theorem explainEJRPlus_eq (hn : Named p) {w : List ℕ × ℕ × ℕ} (h : IsListing p w.1 ∧ w.2.1 < p.numCand) :
    explainEJRPlus fmt p w = .ok (detailsMsg ("(The group of voters ".toList ++ groupText (grp p w.1) ++ " ".toList ++
      groupShare fmt p (grp p w.1) ++ " deserves ".toList ++ strNat w.2.2 ++ " candidates, and jointly approve candidate ".toList ++
      nameOf p w.2.1 ++ " which is not part of the committee, but no member approves at least ".toList ++ strNat w.2.2 ++
      " members of the committee.)".toList)) := by
  unfold explainEJRPlus
  rw [nameOf_ok hn h.2, strKey_group h.1.1 h.1.2, shareText_eq fmt h.1.1 h.1.2]
  rfl

theorem explainFJR_eq (beta : ℕ → Name) {w : FJRInfo} (h : IsListing p w.group ∧ w.joint.Nodup) :
    explainFJR fmt beta p w = .ok (detailsMsg ("(The weakly cohesive group of voters ".toList ++ groupText (grp p w.group) ++
      groupShare fmt p (grp p w.group) ++ "each approve at least ".toList ++ beta w.beta ++ " of the ".toList ++
      strNat w.joint.toFinset.card ++ " candidates ".toList ++ numbersText w.joint.toFinset ++
      ",but all approve at most ".toList ++ beta (w.beta - 1) ++ " candidates in the committee.)".toList) " ".toList) := by
  unfold explainFJR
  rw [strKey_group h.1.1 h.1.2, shareText_eq fmt h.1.1 h.1.2, strKey_eq h.2, List.toFinset_card_of_nodup h.2]

theorem explainCore_eq {w : List ℕ × List ℕ} (h : IsListing p w.1 ∧ w.2.Nodup) :
    explainCore fmt p w = .ok (detailsMsg ("(The group of voters ".toList ++ groupText (grp p w.1) ++ " ".toList ++
      groupShare fmt p (grp p w.1) ++ " can block the outcome by proposing ".toList ++ numbersText w.2.toFinset ++
      ", in which each group member approves strictly more candidates.)".toList)) := by
  unfold explainCore
  rw [strKey_group h.1.1 h.1.2, shareText_eq fmt h.1.1 h.1.2, strKey_eq h.2]

end

theorem quotaSuffix_eq (fmt : Format) (quota : Option ℚ) : quotaSuffix fmt quota = quotaRemark fmt quota := by
  cases quota <;> rfl

theorem committeeMsg_eq {W : List ℕ} (hW : W.Nodup) (verdict : String) (rest : Name) :
    committeeMsg W (verdict.toList ++ rest) = verdictLine W.toFinset verdict rest := by
  unfold committeeMsg verdictLine
  rw [strKey_eq hW]
  simp only [List.append_assoc]

/-! ## The result -/

/-- Printing does not change the result. -/
theorem reportWith_result {ω : Type} {chk : List ℕ → ℚ → Except Err (Option ω)} {yes no : Name} {explain : ω → Except Err Msg}
    (fmt : Format) (p : Profile) (committee : List ℤ) (quota : Option ℚ)
    (h : ∀ W q w, chk W q = .ok (some w) → ∃ m, explain w = .ok m) :
    (reportWith chk yes no explain fmt p committee quota).2 = checkWith chk p committee quota := by
  unfold reportWith checkWith
  cases quotaOf p committee quota with
  | error e => rfl
  | ok q =>
    cases candidateSet committee (some p.numCand) with
    | error e => rfl
    | ok W =>
      dsimp only [bind, Except.bind]
      cases hc : chk W q with
      | error e => rfl
      | ok r =>
        cases r with
        | none => rfl
        | some w =>
          dsimp only
          split
          · rfl
          · obtain ⟨m, hm⟩ := h W q w hc
            rw [hm]

/-- The report of a check: the right verdict, and an explanation. -/
theorem reportWith_spec {ω : Type} {chk : List ℕ → ℚ → Except Err (Option ω)} {yes no : String} {explain : ω → Except Err Msg}
    (fmt : Format) {p : Profile} {W : List ℕ} (hW : W.Nodup) (hlt : ∀ c ∈ W, c < p.numCand)
    {quota : Option ℚ} (hq : 0 < quotaValue p W.length quota) (ht : total p ≠ 0) {P : Prop} {E : Msg → Prop}
    (h : ∀ V : List ℕ, V.Nodup → V.toFinset = W.toFinset → (∀ c ∈ V, c < p.numCand) →
      ∃ r, chk V (quotaValue p W.length quota) = .ok r ∧ (r = none ↔ P) ∧ ∀ w, r = some w → ∃ m, explain w = .ok m ∧ E m) :
    ∃ msgs b, reportWith chk yes.toList no.toList explain fmt p (W.map Int.ofNat) quota = (msgs, .ok b) ∧ (b = true ↔ P) ∧
      (P → msgs = [verdictLine W.toFinset yes (quotaRemark fmt quota)]) ∧
      (¬ P → ∃ m, E m ∧ msgs = [verdictLine W.toFinset no (quotaRemark fmt quota), m]) := by
  have hqo : quotaOf p (W.map Int.ofNat) quota = .ok (quotaValue p W.length quota) := by
    unfold quotaOf quotaValue
    cases quota with
    | some q => rfl
    | none =>
      have : W.length ≠ 0 := by
        intro h0
        simp only [quotaValue, Option.getD_none, h0] at hq
        norm_num at hq
      simp only [List.length_map, if_neg this, totalWeight_eq, Option.getD_none]
  have hV : (sortNat W).Nodup := sortNat_nodup.2 hW
  have hVW : (sortNat W).toFinset = W.toFinset := sortNat_toFinset W
  have hVlt : ∀ c ∈ sortNat W, c < p.numCand := fun c hc => hlt c ((sortNat_perm W).mem_iff.1 hc)
  obtain ⟨r, h1, h2, h3⟩ := h (sortNat W) hV hVW hVlt
  unfold reportWith
  simp only [hqo, candidateSet_ofNat hW hlt, h1, quotaSuffix_eq, committeeMsg_eq hV, hVW]
  cases r with
  | none =>
    have hP := h2.1 rfl
    exact ⟨_, _, rfl, by simp [hP], fun _ => rfl, fun hn => absurd hP hn⟩
  | some w =>
    obtain ⟨m, hm, hE⟩ := h3 w rfl
    have hP : ¬ P := fun hP => by simpa using h2.2 hP
    simp only [totalWeight_eq, if_neg ht, hm]
    exact ⟨_, _, rfl, by simp [hP], fun h => absurd h hP, fun _ => ⟨m, hE, rfl⟩⟩

end Abc
