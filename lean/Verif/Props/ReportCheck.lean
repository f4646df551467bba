import Verif.Lemmas.ReportCheck
import Verif.Props.Output

/-!
# C93: what the checks print
-/

namespace Abc
open Spec

/-- **C93** Printing does not change the result of a check. -/
theorem C93_result (fmt : Format) (solve : Program → SolveResult) (solveMax : MaxProgram → SolveResult) (ap : List ℕ) (name : String)
    {p : Profile} (hn : Named p) (committee : List ℤ) (quota : Option ℚ) (algorithm : String) :
    (checkReport fmt solve solveMax ap name p committee quota algorithm).2 =
      check solve solveMax ap name p committee quota algorithm := by
  have hprice : ∀ stable, (reportPriceability fmt solve solveMax p committee algorithm stable).2 =
      checkPriceability solve solveMax p committee algorithm stable := by
    intro stable
    unfold reportPriceability checkPriceability
    cases candidateSet committee (some p.numCand) with
    | error e => rfl
    | ok W =>
      dsimp only [bind, Except.bind]
      split
      · have key : (reportPriceabilityGurobi fmt solve solveMax p W stable).2 = checkPriceabilityGurobi solve solveMax p W stable := by
          unfold reportPriceabilityGurobi checkPriceabilityGurobi
          dsimp only
          split
          · rfl
          · generalize (if stable = true then solveMax (stableProgram p W) else solve (priceProgram p W)) = r
            cases r with
            | infeasible => rfl
            | other => rfl
            | optimal x =>
              dsimp only
              by_cases hv : p.voters = [] ∧ p.candidates ≠ []
              · rw [if_pos hv, if_pos (by unfold Profile.hasUnitWeights; rw [hv.1]; rfl)]
                have : priceTable fmt p x = .error .valueError := by
                  unfold priceTable
                  have : p.candidates.mapM (columnWidth fmt p x) = .error .valueError := by
                    obtain ⟨c, cs, e⟩ := List.exists_cons_of_ne_nil hv.2
                    rw [e, List.mapM_cons]
                    have : columnWidth fmt p x c = .error .valueError := by
                      unfold columnWidth
                      rw [hv.1]
                      rfl
                    rw [this]
                    rfl
                  rw [this]
                  rfl
                rw [this]
              · rw [if_neg hv]
                split
                · have : ∃ t, priceTable fmt p x = .ok t := by
                    unfold priceTable
                    have : ∃ ws, p.candidates.mapM (columnWidth fmt p x) = .ok ws := by
                      by_cases he : p.candidates = []
                      · rw [he]; exact ⟨[], rfl⟩
                      · have hvo : p.voters ≠ [] := fun h => hv ⟨h, he⟩
                        have : ∀ c ∈ p.candidates, ∃ m, columnWidth fmt p x c = .ok m := by
                          intro c _
                          obtain ⟨m, hm, -⟩ := pyMaxNat_ok (l := (List.range p.voters.length).map
                            (fun i => (fmt.float (x (.assigned i c))).length)) (by simpa using hvo)
                          exact ⟨max (strNat c).length m, by unfold columnWidth; rw [hm]; rfl⟩
                        choose! g hg using this
                        exact ⟨_, mapM_ok_of hg⟩
                    obtain ⟨ws, hws⟩ := this
                    rw [hws]
                    exact ⟨_, rfl⟩
                  obtain ⟨t, ht⟩ := this
                  rw [ht]
                · rfl
        rw [← key]
        generalize reportPriceabilityGurobi fmt solve solveMax p W stable = r
        obtain ⟨ms, r⟩ := r
        cases r <;> rfl
      · rfl
  have hpareto : (reportPareto solve p committee algorithm).2 = checkParetoOptimality solve p committee algorithm := by
    unfold reportPareto checkParetoOptimality
    cases candidateSet committee (some p.numCand) with
    | error e => rfl
    | ok W =>
      dsimp only [bind, Except.bind]
      generalize byAlgorithm algorithm (checkParetoInner p W) (checkParetoGurobi solve p W) = r
      cases r with
      | error e => rfl
      | ok r => cases r <;> rfl
  unfold checkReport check checkJR checkEJRPlus
  simp only [apply_ite Prod.snd, hprice, hpareto]
  rw [reportWith_result fmt p committee quota (fun W q w h => ⟨_, explainJR_eq fmt hn (shape_JR h)⟩),
    reportWith_result fmt p committee quota (fun W q w h => ⟨_, explainEJRPlus_eq fmt hn (shape_EJRPlus h)⟩),
    reportWith_result (explain := explainPJR fmt p) fmt p committee quota (fun W q w h => ⟨_, rfl⟩),
    reportWith_result (explain := explainEJR fmt p) fmt p committee quota (fun W q w h => ⟨_, rfl⟩),
    reportWith_result (explain := explainFJR fmt (betaText fmt algorithm) p) fmt p committee quota (fun W q w h => ⟨_, rfl⟩),
    reportWith_result (explain := explainCore fmt p) fmt p committee quota (fun W q w h => ⟨_, rfl⟩)]

section
variable (fmt : Format) {p : Profile} {W : List ℕ}

/-- The verdict and the explanation of the property called `name`. -/
theorem reports_of {name : String} {quota : Option ℚ} {beta : ℕ → Name} {P : Prop} (hW : W.Nodup)
    (hP : Satisfies name p W.toFinset (quotaValue p W.length quota) ↔ P) {yes no : String} (hy : verdictText name true = yes)
    (hn : verdictText name false = no) {x : List Msg × Except Err Bool}
    (h : ∃ msgs b, x = (msgs, .ok b) ∧ (b = true ↔ P) ∧ (P → msgs = [verdictLine W.toFinset yes (quotaRemark fmt quota)]) ∧
      (¬ P → ∃ m, Explains fmt beta p W.toFinset (quotaValue p W.length quota) name m ∧
        msgs = [verdictLine W.toFinset no (quotaRemark fmt quota), m])) :
    ∃ msgs b, x = (msgs, .ok b) ∧ (b = true ↔ Satisfies name p W.toFinset (quotaValue p W.length quota)) ∧
      Reports fmt beta p W.toFinset quota name msgs := by
  obtain ⟨msgs, b, h1, h2, h3, h4⟩ := h
  refine ⟨msgs, b, h1, h2.trans hP.symm, ?_⟩
  unfold Reports
  rw [List.toFinset_card_of_nodup hW, hP, hy, hn]
  exact ⟨h3, h4⟩

theorem report_jr (hp : p.WF) (hnm : Named p) (hv : p.voters ≠ []) (hW : W.Nodup) (hlt : ∀ c ∈ W, c < p.numCand) {quota : Option ℚ}
    (hq : 0 < quotaValue p W.length quota) (beta : ℕ → Name) :
    ∃ msgs b, reportWith (checkJRInner p) "satisfies JR".toList "does not satisfy JR".toList (explainJR fmt p) fmt p (W.map Int.ofNat)
        quota = (msgs, .ok b) ∧ (b = true ↔ Satisfies "jr" p W.toFinset (quotaValue p W.length quota)) ∧
      Reports fmt beta p W.toFinset quota "jr" msgs := by
  refine reports_of fmt hW (P := JR p W.toFinset (quotaValue p W.length quota)) Iff.rfl rfl rfl
    (reportWith_spec fmt hW hlt hq (total_pos hp hv).ne' fun V _ hVW _ => ?_)
  obtain ⟨r, h1, h2, h3⟩ := checkJRInner_spec p hp V _ hq
  rw [hVW] at h2 h3
  refine ⟨r, h1, h2, fun w hw => ?_⟩
  subst hw
  obtain ⟨k1, k2⟩ := h3 w.1 w.2 rfl
  exact ⟨_, explainJR_eq fmt hnm (shape_JR h1), .jr _ _ k1 (fun i hi => (k2 i hi).1) (fun i hi => (k2 i hi).2)⟩

theorem report_ejrPlus (hp : p.WF) (hnm : Named p) (hv : p.voters ≠ []) (hW : W.Nodup) (hlt : ∀ c ∈ W, c < p.numCand) {quota : Option ℚ}
    (hq : 0 < quotaValue p W.length quota) (hsat : ∀ i, (sat p W.toFinset i : ℚ) * quotaValue p W.length quota ≤ total p)
    (beta : ℕ → Name) :
    ∃ msgs b, reportWith (checkEJRPlusInner p) "satisfies EJR+".toList "does not satisfy EJR+".toList (explainEJRPlus fmt p) fmt p
        (W.map Int.ofNat) quota = (msgs, .ok b) ∧ (b = true ↔ Satisfies "ejr+" p W.toFinset (quotaValue p W.length quota)) ∧
      Reports fmt beta p W.toFinset quota "ejr+" msgs := by
  refine reports_of fmt hW (P := EJRplus p W.toFinset (quotaValue p W.length quota)) Iff.rfl rfl rfl
    (reportWith_spec fmt hW hlt hq (total_pos hp hv).ne' fun V _ hVW _ => ?_)
  obtain ⟨r, h1, h2, h3⟩ := checkEJRPlusInner_spec p hp V _ hq (by rw [hVW]; exact hsat)
  rw [hVW] at h2 h3
  refine ⟨r, h1, h2, fun w hw => ?_⟩
  subst hw
  obtain ⟨k1, k2, k3, k4⟩ := h3 w.1 w.2.1 w.2.2 rfl
  refine ⟨_, explainEJRPlus_eq fmt hnm (shape_EJRPlus h1), .ejrPlus _ _ _ k1 k3 ?_ (fun i hi => (k4 i hi).1) (fun i hi => (k4 i hi).2)⟩
  rw [← hVW, List.mem_toFinset]
  exact k2

theorem report_fjr (hp : p.WF) (hv : p.voters ≠ []) (hW : W.Nodup) (hlt : ∀ c ∈ W, c < p.numCand) {quota : Option ℚ}
    (hq : 0 < quotaValue p W.length quota) (beta : ℕ → Name) {chk : List ℕ → ℚ → Except Err (Option FJRInfo)}
    (h : ∀ V : List ℕ, ∃ r, chk V (quotaValue p W.length quota) = .ok r ∧ (r = none ↔ FJR p V.toFinset (quotaValue p W.length quota)) ∧
      ∀ w, r = some w → (IsListing p w.group ∧ w.joint.Nodup) ∧ (grp p w.group).Nonempty ∧ 1 ≤ w.beta ∧
        (w.joint.toFinset.card : ℚ) * quotaValue p W.length quota ≤ wt p (grp p w.group) ∧
        ∀ i ∈ grp p w.group, w.beta ≤ (appr p i ∩ w.joint.toFinset).card ∧ sat p V.toFinset i < w.beta) :
    ∃ msgs b, reportWith chk "satisfies FJR".toList "does not satisfy FJR".toList (explainFJR fmt beta p) fmt p
        (W.map Int.ofNat) quota = (msgs, .ok b) ∧ (b = true ↔ Satisfies "fjr" p W.toFinset (quotaValue p W.length quota)) ∧
      Reports fmt beta p W.toFinset quota "fjr" msgs := by
  refine reports_of fmt hW (P := FJR p W.toFinset (quotaValue p W.length quota)) Iff.rfl rfl rfl
    (reportWith_spec fmt hW hlt hq (total_pos hp hv).ne' fun V _ hVW _ => ?_)
  obtain ⟨r, h1, h2, h3⟩ := h V
  rw [hVW] at h2 h3
  refine ⟨r, h1, h2, fun w hw => ?_⟩
  obtain ⟨k0, k1, k2, k3, k4⟩ := h3 w hw
  exact ⟨_, explainFJR_eq fmt beta k0, .fjr _ _ _ k1 k2 k3 (fun i hi => (k4 i hi).1) (fun i hi => by have := (k4 i hi).2; omega)⟩

theorem report_core (hp : p.WF) (hv : p.voters ≠ []) (hW : W.Nodup) (hlt : ∀ c ∈ W, c < p.numCand) {quota : Option ℚ}
    (hq : 0 < quotaValue p W.length quota) (beta : ℕ → Name) {chk : List ℕ → ℚ → Except Err (Option (List ℕ × List ℕ))}
    (h : ∀ V : List ℕ, ∃ r, chk V (quotaValue p W.length quota) = .ok r ∧ (r = none ↔ Core p V.toFinset (quotaValue p W.length quota)) ∧
      ∀ w, r = some w → (IsListing p w.1 ∧ w.2.Nodup) ∧ (grp p w.1).Nonempty ∧
        (w.2.toFinset.card : ℚ) * quotaValue p W.length quota ≤ wt p (grp p w.1) ∧
        ∀ i ∈ grp p w.1, sat p V.toFinset i < (appr p i ∩ w.2.toFinset).card) :
    ∃ msgs b, reportWith chk "is in the core".toList "is not in the core".toList (explainCore fmt p) fmt p
        (W.map Int.ofNat) quota = (msgs, .ok b) ∧ (b = true ↔ Satisfies "core" p W.toFinset (quotaValue p W.length quota)) ∧
      Reports fmt beta p W.toFinset quota "core" msgs := by
  refine reports_of fmt hW (P := Core p W.toFinset (quotaValue p W.length quota)) Iff.rfl rfl rfl
    (reportWith_spec fmt hW hlt hq (total_pos hp hv).ne' fun V _ hVW _ => ?_)
  obtain ⟨r, h1, h2, h3⟩ := h V
  rw [hVW] at h2 h3
  refine ⟨r, h1, h2, fun w hw => ?_⟩
  obtain ⟨k0, k1, k2, k3⟩ := h3 w hw
  exact ⟨_, explainCore_eq fmt k0, .core _ _ k1 k2 k3⟩

theorem report_pareto {solve : Program → SolveResult} (hW : W.Nodup) (hlt : ∀ c ∈ W, c < p.numCand) (beta : ℕ → Name)
    (algorithm : String)
    (h : ∃ r, byAlgorithm algorithm (checkParetoInner p (sortNat W)) (checkParetoGurobi solve p (sortNat W)) = .ok r ∧
      (r = none ↔ ParetoOptimal p W.toFinset) ∧
      ∀ X, r = some X → X.Nodup ∧ IsCommittee p W.toFinset.card X.toFinset ∧ Dominates p X.toFinset W.toFinset) :
    ∃ msgs b, reportPareto solve p (W.map Int.ofNat) algorithm = (msgs, .ok b) ∧
      (b = true ↔ Satisfies "pareto" p W.toFinset (quotaValue p W.length none)) ∧ Reports fmt beta p W.toFinset none "pareto" msgs := by
  refine reports_of fmt hW (P := ParetoOptimal p W.toFinset) Iff.rfl rfl rfl ?_
  obtain ⟨r, h1, h2, h3⟩ := h
  have hV : (sortNat W).Nodup := sortNat_nodup.2 hW
  have e1 : committeeMsg (sortNat W) "is Pareto optimal.".toList =
      verdictLine W.toFinset "is Pareto optimal" (quotaRemark fmt none) := by
    rw [← sortNat_toFinset W, ← committeeMsg_eq hV]
    rfl
  have e2 : committeeMsg (sortNat W) "is not Pareto optimal.".toList =
      verdictLine W.toFinset "is not Pareto optimal" (quotaRemark fmt none) := by
    rw [← sortNat_toFinset W, ← committeeMsg_eq hV]
    rfl
  unfold reportPareto
  simp only [candidateSet_ofNat hW hlt, h1, e1, e2]
  cases r with
  | none =>
    have hP := h2.1 rfl
    exact ⟨_, _, rfl, by simp [hP], fun _ => rfl, fun hn => absurd hP hn⟩
  | some X =>
    obtain ⟨k1, k2, k3⟩ := h3 X rfl
    have hP : ¬ ParetoOptimal p W.toFinset := fun hP => by simpa using h2.2 hP
    refine ⟨_, _, rfl, by simp [hP], fun h => absurd h hP, fun _ => ⟨_, .pareto _ k2 k3, ?_⟩⟩
    rw [strKey_eq k1]
    rfl

end

section
variable (fmt : Format) (solve : Program → SolveResult) (solveMax : MaxProgram → SolveResult) (ap : List ℕ) (p : Profile)
  (committee : List ℤ) (quota : Option ℚ) (algorithm : String)

theorem checkReport_pjr : checkReport fmt solve solveMax ap "pjr" p committee quota algorithm =
    reportWith (fun w q => byAlgorithm algorithm (checkPJRInner p w q) (checkPJRGurobi solve p w q)) "satisfies PJR".toList
      "does not satisfy PJR".toList (explainPJR fmt p) fmt p committee quota := rfl

theorem checkReport_ejr : checkReport fmt solve solveMax ap "ejr" p committee quota algorithm =
    reportWith (fun w q => byAlgorithm algorithm (checkEJRInner p w q) (checkEJRGurobi solve p w q)) "satisfies EJR".toList
      "does not satisfy EJR".toList (explainEJR fmt p) fmt p committee quota := rfl

theorem checkReport_fjr : checkReport fmt solve solveMax ap "fjr" p committee quota algorithm =
    reportWith (fun w q => byAlgorithm algorithm (checkFJRInner ap p w q) (checkFJRGurobi solve p w q)) "satisfies FJR".toList
      "does not satisfy FJR".toList (explainFJR fmt (betaText fmt algorithm) p) fmt p committee quota := rfl

theorem checkReport_core : checkReport fmt solve solveMax ap "core" p committee quota algorithm =
    reportWith (fun w q => byAlgorithm algorithm (checkCoreInner ap p w q) (checkCoreGurobi solve p w q)) "is in the core".toList
      "is not in the core".toList (explainCore fmt p) fmt p committee quota := rfl

end

/-- **C93** With Gurobi (the default) every check reports the right verdict and, for a violation, a true explanation. -/
theorem C93_report (fmt : Format) {solve : Program → SolveResult} (hs : ExactSolver solve) (solveMax : MaxProgram → SolveResult)
    (ap : List ℕ) {p : Profile} (hp : p.WF) (hnm : Named p) (hv : p.voters ≠ []) {W : List ℕ} (hW : W.Nodup)
    (hlt : ∀ c ∈ W, c < p.numCand) {algorithm : String} (ha : algorithm = "fastest" ∨ algorithm = "gurobi") (quota : Option ℚ)
    (hq : 0 < quotaValue p W.length quota) {name : String}
    (hn : name ∈ ["jr", "pjr", "ejr", "fjr", "core"] ∨
      name = "ejr+" ∧ (∀ i, (sat p W.toFinset i : ℚ) * quotaValue p W.length quota ≤ total p) ∨ name = "pareto" ∧ quota = none) :
    ∃ msgs b, checkReport fmt solve solveMax ap name p (W.map Int.ofNat) quota algorithm = (msgs, .ok b) ∧
      (b = true ↔ Satisfies name p W.toFinset (quotaValue p W.length quota)) ∧
      Reports fmt (fun b => fmt.float b) p W.toFinset quota name msgs := by
  have hb : betaText fmt algorithm = fun b : ℕ => fmt.float (b : ℚ) := by
    funext b
    unfold betaText
    rw [if_neg (by rcases ha with rfl | rfl <;> decide)]
  simp only [List.mem_cons, List.not_mem_nil, or_false] at hn
  rcases hn with (rfl | rfl | rfl | rfl | rfl) | ⟨rfl, hsat⟩ | ⟨rfl, rfl⟩
  · exact report_jr fmt hp hnm hv hW hlt hq _
  · rw [checkReport_pjr]
    refine reports_of fmt hW (P := PJR p W.toFinset (quotaValue p W.length quota)) Iff.rfl rfl rfl
      (reportWith_spec fmt hW hlt hq (total_pos hp hv).ne' fun V hV hVW hVlt => ?_)
    simp only [byAlgorithm_gurobi ha]
    obtain ⟨r, h1, h2, h3⟩ := C60_PJR_program hs p hp V hV hVlt _ hq
    rw [hVW] at h2 h3
    refine ⟨r, h1, h2, fun w hw => ?_⟩
    obtain ⟨k1, k2⟩ := h3 w hw
    subst hw
    exact ⟨_, explainPJR_eq fmt (shape_PJR_gurobi h1), .pjr _ _ _ k1 k2⟩
  · rw [checkReport_ejr]
    refine reports_of fmt hW (P := EJR p W.toFinset (quotaValue p W.length quota)) Iff.rfl rfl rfl
      (reportWith_spec fmt hW hlt hq (total_pos hp hv).ne' fun V hV hVW hVlt => ?_)
    simp only [byAlgorithm_gurobi ha]
    obtain ⟨r, h1, h2, h3⟩ := C60_EJR_program hs p hp V _ hq
    rw [hVW] at h2 h3
    refine ⟨r, h1, h2, fun w hw => ?_⟩
    obtain ⟨k1, k2⟩ := h3 w hw
    subst hw
    exact ⟨_, explainEJR_eq fmt (shape_EJR_gurobi h1), .ejr _ _ _ k1 k2⟩
  · rw [checkReport_fjr]
    rw [hb]
    refine report_fjr fmt hp hv hW hlt hq _ fun V => ?_
    simp only [byAlgorithm_gurobi ha]
    obtain ⟨r, h1, h2, h3⟩ := C60_FJR_program hs p hp V _ hq
    refine ⟨r, h1, h2, fun w hw => ?_⟩
    obtain ⟨k1, k2, k3, k4⟩ := h3 w hw
    subst hw
    have hsh := shape_FJR_gurobi h1
    exact ⟨hsh, k1, k2, by rw [List.toFinset_card_of_nodup hsh.2]; exact k3, k4⟩
  · rw [checkReport_core]
    refine report_core fmt hp hv hW hlt hq _ fun V => ?_
    simp only [byAlgorithm_gurobi ha]
    obtain ⟨r, h1, h2, h3⟩ := C60_core_program hs p hp V _ hq
    refine ⟨r, h1, h2, fun w hw => ?_⟩
    obtain ⟨k1, k2, k3⟩ := h3 w.1 w.2 hw
    subst hw
    have hsh := shape_core_gurobi h1
    exact ⟨hsh, k1, by rw [List.toFinset_card_of_nodup hsh.2]; exact k2, k3⟩
  · exact report_ejrPlus fmt hp hnm hv hW hlt hq hsat _
  · show ∃ msgs b, reportPareto solve p _ algorithm = _ ∧ _
    refine report_pareto fmt hW hlt _ algorithm ?_
    obtain ⟨r, h1, h2, h3⟩ := C60_pareto_program hs p hp (sortNat W) (sortNat_nodup.2 hW)
    rw [sortNat_toFinset] at h2 h3
    refine ⟨r, by rw [byAlgorithm_gurobi ha, h1], h2, fun X hX => ?_⟩
    obtain ⟨k1, k2, k3⟩ := h3 X hX
    exact ⟨k1, by rw [List.toFinset_card_of_nodup hW, ← sortNat_length W]; exact k2, k3⟩

/-- **C93** The same for brute force, except for EJR and PJR (see `C93_cohesive_brute_force`). -/
theorem C93_report_brute_force (fmt : Format) (solve : Program → SolveResult) (solveMax : MaxProgram → SolveResult)
    {ap : List ℕ} {p : Profile} (hap : ListsApproved p ap) (hp : p.WF) (hnm : Named p) (hv : p.voters ≠ []) {W : List ℕ} (hW : W.Nodup)
    (hlt : ∀ c ∈ W, c < p.numCand) (quota : Option ℚ) (hq : 0 < quotaValue p W.length quota) {name : String}
    (hn : name ∈ ["jr", "fjr", "core"] ∨
      name = "ejr+" ∧ (∀ i, (sat p W.toFinset i : ℚ) * quotaValue p W.length quota ≤ total p) ∨ name = "pareto" ∧ quota = none) :
    ∃ msgs b, checkReport fmt solve solveMax ap name p (W.map Int.ofNat) quota "brute-force" = (msgs, .ok b) ∧
      (b = true ↔ Satisfies name p W.toFinset (quotaValue p W.length quota)) ∧ Reports fmt strNat p W.toFinset quota name msgs := by
  simp only [List.mem_cons, List.not_mem_nil, or_false] at hn
  have hpos : ∀ G : Group p, ∀ x : ℚ, 0 < x → x ≤ wt p G → G.Nonempty := by
    intro G x hx h
    by_contra he
    rw [Finset.not_nonempty_iff_eq_empty] at he
    rw [he] at h
    simp only [wt, Finset.sum_empty] at h
    linarith
  rcases hn with (rfl | rfl | rfl) | ⟨rfl, hsat⟩ | ⟨rfl, rfl⟩
  · exact report_jr fmt hp hnm hv hW hlt hq _
  · rw [checkReport_fjr]
    refine report_fjr fmt hp hv hW hlt hq _ fun V => ?_
    simp only [byAlgorithm_brute]
    obtain ⟨r, h1, h2, h3⟩ := checkFJRInner_spec p hp ap hap V _ hq
    refine ⟨r, h1, h2, fun w hw => ?_⟩
    obtain ⟨k1, k2, k3⟩ := h3 w hw
    subst hw
    refine ⟨shape_FJR hap.1 h1, ?_, k1, k2, k3⟩
    obtain ⟨b, -, e⟩ := bind_ok h1
    obtain ⟨T, hT, e⟩ := firstSome_some e
    obtain ⟨b', hb', e⟩ := firstSome_some e
    dsimp only at e
    split at e
    · obtain rfl := Option.some.inj (Except.ok.inj e)
      have h0 : 0 < T.length := by have := List.mem_range.1 hb'; omega
      refine hpos _ _ (mul_pos ?_ hq) k2
      rw [List.toFinset_card_of_nodup (powerset_mem_nodup hap.1 hT)]
      exact_mod_cast h0
    · cases e
  · rw [checkReport_core]
    refine report_core fmt hp hv hW hlt hq _ fun V => ?_
    simp only [byAlgorithm_brute]
    obtain ⟨r, h1, h2, h3⟩ := checkCoreInner_spec p hp ap hap V _ hq
    refine ⟨r, h1, h2, fun w hw => ?_⟩
    obtain ⟨k1, k2, k3⟩ := h3 w.1 w.2 hw
    subst hw
    exact ⟨shape_core hap.1 h1, k1, k2, k3⟩
  · exact report_ejrPlus fmt hp hnm hv hW hlt hq hsat _
  · show ∃ msgs b, reportPareto solve p _ "brute-force" = _ ∧ _
    refine report_pareto fmt hW hlt _ "brute-force" ?_
    obtain ⟨r, h1, h2, h3⟩ := checkParetoInner_spec p hp (sortNat W) (sortNat_nodup.2 hW)
    rw [sortNat_toFinset] at h2 h3
    refine ⟨r, by rw [byAlgorithm_brute, h1], h2, fun X hX => ?_⟩
    obtain ⟨k2, k3⟩ := h3 X hX
    subst hX
    exact ⟨shape_pareto h1, by rw [List.toFinset_card_of_nodup hW, ← sortNat_length W]; exact k2, k3⟩

/-! ## EJR and PJR by brute force -/

theorem grp_underserved {p : Profile} (hp : p.WF) (W : List ℕ) (ell : ℕ) :
    grp p (underserved p W ell) = Finset.univ.filter (fun i => sat p W.toFinset i < ell) := by
  ext i
  unfold underserved
  rw [mem_grp, mem_votersWith, voterAt_fin, decide_eq_true_iff, sat_eq hp, Finset.mem_filter]
  exact ⟨fun h => ⟨Finset.mem_univ _, h.2⟩, fun h => ⟨i.2, h.2⟩⟩

theorem voterAt_nodup {p : Profile} (hp : p.WF) (i : ℕ) : (p.voterAt i).approved.Nodup := by
  unfold Profile.voterAt
  by_cases h : i < p.voters.length
  · rw [List.getD_eq_getElem _ _ h]
    exact hp.nodup _ (List.getElem_mem h)
  · rw [List.getD_eq_default _ _ (by omega)]
    exact List.nodup_nil

theorem shape_ejrRound {p : Profile} (hp : p.WF) {W : List ℕ} {q : ℚ} {ell : ℕ} {w : CohesiveInfo}
    (h : ejrRound p W q ell = .ok (some w)) : IsListing p w.group ∧ w.joint.Nodup := by
  unfold ejrRound at h
  dsimp only at h
  split at h
  · cases h
  · obtain ⟨g, -, e⟩ := firstSome_some h
    obtain ⟨cut, hc, e⟩ := bind_ok e
    split at e
    · obtain rfl := Option.some.inj (Except.ok.inj e)
      refine ⟨by dsimp only; unfold underserved; exact isListing_votersWith _ _, interAll_nodup ?_ hc⟩
      intro s hs
      obtain ⟨i, -, rfl⟩ := List.mem_map.1 hs
      exact voterAt_nodup hp i
    · cases e

theorem shape_pjrRound {p : Profile} (hp : p.WF) {W : List ℕ} {q : ℚ} {ell : ℕ} {w : CohesiveInfo}
    (h : pjrRound p W q ell = .ok (some w)) : IsListing p w.group ∧ w.joint.Nodup := by
  unfold pjrRound at h
  dsimp only at h
  split at h
  · cases h
  · obtain ⟨g, -, e⟩ := firstSome_some h
    obtain ⟨cut, hc, e⟩ := bind_ok e
    split at e
    · split at e
      · obtain rfl := Option.some.inj (Except.ok.inj e)
        refine ⟨by dsimp only; unfold underserved; exact isListing_votersWith _ _, interAll_nodup ?_ hc⟩
        intro s hs
        obtain ⟨i, -, rfl⟩ := List.mem_map.1 hs
        exact voterAt_nodup hp i
      · cases e
    · cases e

/-- **C93** For EJR and PJR by brute force (unit weights) the verdict is right; in case of a violation the explanation names all voters
approving fewer than `ℓ` members of the committee, among whom there is an `ℓ`-cohesive group `G` with the joint candidates `T`. -/
theorem C93_cohesive_brute_force (fmt : Format) (solve : Program → SolveResult) (solveMax : MaxProgram → SolveResult)
    (ap : List ℕ) {p : Profile} (hp : p.WF) (hu : p.hasUnitWeights = true) (hv : p.voters ≠ []) {W : List ℕ} (hW : W.Nodup)
    (hlt : ∀ c ∈ W, c < p.numCand) (quota : Option ℚ) (hq : 0 < quotaValue p W.length quota) :
    (∃ msgs b, checkReport fmt solve solveMax ap "ejr" p (W.map Int.ofNat) quota "brute-force" = (msgs, .ok b) ∧
      (b = true ↔ EJR p W.toFinset (quotaValue p W.length quota)) ∧
      (EJR p W.toFinset (quotaValue p W.length quota) → msgs = [verdictLine W.toFinset "satisfies EJR" (quotaRemark fmt quota)]) ∧
      (¬ EJR p W.toFinset (quotaValue p W.length quota) → ∃ m, (∃ (ℓ : ℕ) (G L : Group p) (T : Finset ℕ),
          L = Finset.univ.filter (fun i => sat p W.toFinset i < ℓ) ∧ G ⊆ L ∧ Cohesive p (quotaValue p W.length quota) ℓ G T ∧
          m = detailsMsg (cohesiveText fmt ℓ L T ++ ", but none of them approves ".toList ++ strNat ℓ ++
            " candidates in the committee.)".toList) " ".toList) ∧
        msgs = [verdictLine W.toFinset "does not satisfy EJR" (quotaRemark fmt quota), m])) ∧
    (∃ msgs b, checkReport fmt solve solveMax ap "pjr" p (W.map Int.ofNat) quota "brute-force" = (msgs, .ok b) ∧
      (b = true ↔ PJR p W.toFinset (quotaValue p W.length quota)) ∧
      (PJR p W.toFinset (quotaValue p W.length quota) → msgs = [verdictLine W.toFinset "satisfies PJR" (quotaRemark fmt quota)]) ∧
      (¬ PJR p W.toFinset (quotaValue p W.length quota) → ∃ m, (∃ (ℓ : ℕ) (G L : Group p) (T : Finset ℕ),
          L = Finset.univ.filter (fun i => sat p W.toFinset i < ℓ) ∧ G ⊆ L ∧ Cohesive p (quotaValue p W.length quota) ℓ G T ∧
          (G.biUnion (appr p) ∩ W.toFinset).card < ℓ ∧
          m = detailsMsg (cohesiveText fmt ℓ L T ++ ", but they approve fewer than ".toList ++ strNat ℓ ++
            " candidates in the committee.)".toList)) ∧
        msgs = [verdictLine W.toFinset "does not satisfy PJR" (quotaRemark fmt quota), m])) := by
  constructor
  · rw [checkReport_ejr]
    refine reportWith_spec fmt hW hlt hq (total_pos hp hv).ne' fun V _ hVW _ => ?_
    simp only [byAlgorithm_brute]
    obtain ⟨r, h1, h2, h3⟩ := ellLoop_spec p hp _ hq (ejrRound p V (quotaValue p W.length quota))
      (fun ell G => ∀ i ∈ G, sat p V.toFinset i < ell)
      (fun w => (IsListing p w.group ∧ w.joint.Nodup) ∧ w.group = underserved p V w.ell ∧
        ∃ G : Group p, G ⊆ grp p w.group ∧ Cohesive p (quotaValue p W.length quota) w.ell G w.joint.toFinset)
      (fun ell hell => by
        obtain ⟨r, a, b, c⟩ := ejrRound_spec p hp hu V _ hq ell hell
        refine ⟨r, a, b, fun w hw => ?_⟩
        obtain ⟨e1, e2, G, hG1, hG2, -⟩ := c w hw
        subst hw
        subst e1
        exact ⟨shape_ejrRound hp a, e2, G, hG1, hG2⟩)
    refine ⟨r, h1, hVW ▸ h2.trans (EJR_iff_found p V.toFinset _).symm, fun w hw => ?_⟩
    obtain ⟨k1, k2, G, k3, k4⟩ := h3 w hw
    refine ⟨_, explainEJR_eq fmt k1, w.ell, G, grp p w.group, w.joint.toFinset, ?_, k3, k4, rfl⟩
    rw [k2, grp_underserved hp, hVW]
  · rw [checkReport_pjr]
    refine reportWith_spec fmt hW hlt hq (total_pos hp hv).ne' fun V _ hVW _ => ?_
    simp only [byAlgorithm_brute]
    obtain ⟨r, h1, h2, h3⟩ := ellLoop_spec p hp _ hq (pjrRound p V (quotaValue p W.length quota))
      (fun ell G => (G.biUnion (appr p) ∩ V.toFinset).card < ell)
      (fun w => (IsListing p w.group ∧ w.joint.Nodup) ∧ w.group = underserved p V w.ell ∧
        ∃ G : Group p, G ⊆ grp p w.group ∧ Cohesive p (quotaValue p W.length quota) w.ell G w.joint.toFinset ∧
          (G.biUnion (appr p) ∩ V.toFinset).card < w.ell)
      (fun ell hell => by
        obtain ⟨r, a, b, c⟩ := pjrRound_spec p hp hu V _ hq ell hell
        refine ⟨r, a, b, fun w hw => ?_⟩
        obtain ⟨e1, e2, G, hG1, hG2, hG3⟩ := c w hw
        subst hw
        subst e1
        exact ⟨shape_pjrRound hp a, e2, G, hG1, hG2, hG3⟩)
    refine ⟨r, h1, hVW ▸ h2.trans (PJR_iff_found p V.toFinset _).symm, fun w hw => ?_⟩
    obtain ⟨k1, k2, G, k3, k4, k5⟩ := h3 w hw
    refine ⟨_, explainPJR_eq fmt k1, w.ell, G, grp p w.group, w.joint.toFinset, ?_, k3, k4, hVW ▸ k5, rfl⟩
    rw [k2, grp_underserved hp, hVW]

/-- The profile `fourVoters` with names. -/
def fourNamed : Profile := { fourVoters with candNames := ["a".toList, "b".toList, "c".toList, "d".toList, "e".toList] }

/-- A formatting of numbers for examples. -/
def exampleFormat : Format :=
  ⟨fun x => strNat x.num.natAbs ++ '/' :: strNat x.den, fun x => strNat x.num.natAbs ++ '/' :: strNat x.den, fun x => strNat (x * 100).num.natAbs⟩

/-- **C93**, finding: with brute force the printed explanation can be false.  Voters 0 and 1 approve candidate 0, voter 2 only candidate 1
and voter 3 only candidate 2; all four are said to jointly approve candidate 0. -/
theorem C93_brute_force_wrong (solve : Program → SolveResult) (solveMax : MaxProgram → SolveResult) (ap : List ℕ) : Named fourNamed ∧
    (checkReport exampleFormat solve solveMax ap "ejr" fourNamed [3, 4] none "brute-force").1.map (fun m => (m.level, String.ofList m.text)) =
      [(.info, "Committee {3, 4} does not satisfy EJR."),
       (.details, "(The 1-cohesive group of voters {0, 1, 2, 3} (100% of all voters) jointly approve the candidates {0}, but none of them approves 1 candidates in the committee.)")] ∧
    fourNamed.voters.map Voter.approved = [[0], [0], [1], [2]] := by
  refine ⟨rfl, ?_, rfl⟩
  rw [checkReport_ejr]
  simp only [byAlgorithm_brute]
  decide +kernel

theorem columnWidth_eq (fmt : Format) {p : Profile} (hv : p.voters ≠ []) (x : IVar → ℚ) {c : ℕ} (hc : c < p.numCand) :
    columnWidth fmt p x c = .ok (payWidth fmt (solPay p x) c) := by
  obtain ⟨m, hm, hm1, hm2⟩ := pyMaxNat_ok (l := (List.range p.voters.length).map
    (fun i => (fmt.float (x (.assigned i c))).length)) (by simpa using hv)
  unfold columnWidth payWidth
  rw [hm]
  have : m = Finset.univ.sup fun i => (fmt.float (solPay p x i c)).length := by
    apply le_antisymm
    · obtain ⟨i, hi, rfl⟩ := List.mem_map.1 hm1
      have := Finset.le_sup (f := fun i => (fmt.float (solPay p x i c)).length)
        (Finset.mem_univ (⟨i, List.mem_range.1 hi⟩ : Fin p.voters.length))
      simpa only [solPay, if_pos hc] using this
    · refine Finset.sup_le fun i _ => ?_
      simp only [solPay, if_pos hc]
      exact hm2 _ (List.mem_map.2 ⟨i, List.mem_range.2 i.2, rfl⟩)
  rw [this]
  rfl

theorem zip_map_width {α β γ : Type} (l : List α) (g : α → β) (f : α × β → γ) :
    (l.zip (l.map g)).map f = l.map (fun a => f (a, g a)) := by
  induction l with
  | nil => rfl
  | cons a l ih => simp only [List.map_cons, List.zip_cons_cons, ih]

theorem priceTable_eq (fmt : Format) {p : Profile} (hv : p.voters ≠ []) (x : IVar → ℚ) :
    ∃ t, priceTable fmt p x = .ok t ∧ detailsMsg ("Budget: ".toList ++ fmt.float (x .value)) :: t = payTable fmt (x .value) (solPay p x) := by
  unfold priceTable
  have hw : p.candidates.mapM (columnWidth fmt p x) = .ok (p.candidates.map (payWidth fmt (solPay p x))) :=
    mapM_ok_of (fun c hc => columnWidth_eq fmt hv x (List.mem_range.1 hc))
  rw [hw]
  refine ⟨_, rfl, ?_⟩
  unfold payTable
  congr 1
  have hrow : ∀ (label : Name) (cell : ℕ → Name),
      tableRow (strNat p.voters.length).length label ((p.candidates.zip (p.candidates.map (payWidth fmt (solPay p x)))).map
        (fun cw => rjust cw.2 (cell cw.1))) = payRow fmt (solPay p x) label cell := by
    intro label cell
    rw [zip_map_width]
    rfl
  congr 1
  · exact hrow [] strNat
  · have hl : List.range p.voters.length = (List.finRange p.voters.length).map Fin.val := by
      simp
    rw [hl, List.map_map]
    refine List.map_congr_left fun i _ => ?_
    refine (hrow (strNat i) (fun c => fmt.float (x (.assigned i c)))).trans ?_
    unfold payRow
    congr 3
    refine List.map_congr_left fun c hc => ?_
    simp only [solPay, if_pos (List.mem_range.1 hc)]

/-- **C93** The checks of (stable) priceability print the right verdict, and before it the smallest possible budget and a table of
payments that supports the committee (for unit weights), or that there is none. -/
theorem C93_priceability (fmt : Format) {solve : Program → SolveResult} {solveMax : MaxProgram → SolveResult} (hs : ExactSolver solve)
    (hm : ExactMaxSolver solveMax) (ap : List ℕ) {p : Profile} (hp : p.WF) {W : List ℕ} (hW : W.Nodup) (hlt : ∀ c ∈ W, c < p.numCand)
    (hne : W ≠ []) (algorithm : String) (ha : algorithm = "fastest" ∨ algorithm = "gurobi") (stable : Bool) :
    ∃ ms b, checkReport fmt solve solveMax ap (if stable then "stable-priceability" else "priceability") p (W.map Int.ofNat) none algorithm =
        (ms ++ [verdictLine W.toFinset (verdictText (if stable then "stable-priceability" else "priceability") b) ".".toList], .ok b) ∧
      (b = true ↔ PriceableOrFull stable p W.toFinset) ∧ PricesShown fmt stable p W.toFinset ms := by
  classical
  have hrep : checkReport fmt solve solveMax ap (if stable then "stable-priceability" else "priceability") p (W.map Int.ofNat) none algorithm =
      reportPriceability fmt solve solveMax p (W.map Int.ofNat) algorithm stable := by cases stable <;> rfl
  rw [hrep]
  unfold reportPriceability
  rw [candidateSet_ofNat hW hlt]
  simp only [if_pos ha]
  have hV : (sortNat W).Nodup := sortNat_nodup.2 hW
  have hVW : (sortNat W).toFinset = W.toFinset := sortNat_toFinset W
  have hVlt : ∀ c ∈ sortNat W, c < p.numCand := fun c hc => hlt c (by
    have : c ∈ (sortNat W).toFinset := List.mem_toFinset.2 hc
    rw [hVW] at this
    exact List.mem_toFinset.1 this)
  have hVne : sortNat W ≠ [] := by
    intro h
    rw [h] at hVW
    apply hne
    simpa using hVW.symm
  rw [← hVW]
  generalize sortNat W = V at hV hVlt hVne
  suffices key : ∃ ms b, reportPriceabilityGurobi fmt solve solveMax p V stable = (ms, .ok b) ∧
      (b = true ↔ PriceableOrFull stable p V.toFinset) ∧ PricesShown fmt stable p V.toFinset ms by
    obtain ⟨ms, b, h1, h2, h3⟩ := key
    refine ⟨ms, b, ?_, h2, h3⟩
    rw [h1]
    dsimp only
    rw [← committeeMsg_eq hV]
    cases stable <;> cases b <;> rfl
  have hap : ((p.candidates.filter (fun c => p.voters.any (fun v => decide (c ∈ v.approved)))).Nodup) ∧
      ∀ c, c ∈ p.candidates.filter (fun c => p.voters.any (fun v => decide (c ∈ v.approved))) ↔ c ∈ approvedSet p := by
    refine ⟨List.nodup_range.filter _, fun c => ?_⟩
    unfold approvedSet Profile.candidates
    simp only [List.mem_filter, List.mem_range, List.any_eq_true, decide_eq_true_iff, Finset.mem_biUnion, Finset.mem_univ, true_and]
    constructor
    · rintro ⟨-, v, hv, hc⟩
      obtain ⟨i, rfl⟩ := List.mem_iff_get.1 hv
      exact ⟨i, mem_appr.2 hc⟩
    · rintro ⟨i, hi⟩
      exact ⟨appr_lt hp hi, _, List.get_mem _ i, mem_appr.1 hi⟩
  obtain ⟨hapn, hapm⟩ := hap
  unfold reportPriceabilityGurobi PriceableOrFull
  generalize hA : p.candidates.filter (fun c => p.voters.any (fun v => decide (c ∈ v.approved))) = A at hapn hapm
  have hAl : A.length = (approvedSet p).card := by
    rw [← List.toFinset_card_of_nodup hapn]
    congr 1
    ext c
    rw [List.mem_toFinset, hapm]
  have hVl : V.length = V.toFinset.card := (List.toFinset_card_of_nodup hV).symm
  dsimp only
  rw [hAl, hVl]
  by_cases hfew : (approvedSet p).card < V.toFinset.card
  · rw [if_pos hfew, if_pos hfew]
    refine ⟨_, _, rfl, ?_, ⟨fun _ => rfl, fun h => absurd hfew h⟩⟩
    rw [List.all_eq_true]
    simp only [decide_eq_true_iff]
    exact ⟨fun h c hc => List.mem_toFinset.2 (h c ((hapm c).2 hc)), fun h c hc => List.mem_toFinset.1 (h ((hapm c).1 hc))⟩
  · rw [if_neg hfew, if_neg hfew]
    have hvo : p.voters ≠ [] := by
      intro he
      have h0 : approvedSet p = ∅ := by
        unfold approvedSet
        refine Finset.eq_empty_of_forall_notMem fun c hc => ?_
        obtain ⟨i, -, -⟩ := Finset.mem_biUnion.1 hc
        exact absurd i.2 (by simp [he])
      rw [h0] at hfew
      have : V.toFinset.Nonempty := by
        obtain ⟨c, hc⟩ := List.exists_mem_of_ne_nil V hVne
        exact ⟨c, List.mem_toFinset.2 hc⟩
      exact hfew (by simpa using this)
    -- what the solver finds
    have hsolve : (∃ x, (if stable then solveMax (stableProgram p V) else solve (priceProgram p V)) = .optimal x ∧
          SupportedBy stable p V.toFinset (x .value) (solPay p x) ∧
          ∀ b' pay', SupportedBy stable p V.toFinset b' pay' → x .value ≤ b') ∨
        ((if stable then solveMax (stableProgram p V) else solve (priceProgram p V)) = .infeasible ∧
          ¬ ∃ b pay, SupportedBy stable p V.toFinset b pay) := by
      cases stable with
      | false =>
        simp only [Bool.false_eq_true, if_false]
        have hbound : ∀ x, Feasible (priceProgram p V) x → (priceProgram p V).obj.eval x ≤ 0 := by
          intro x hx
          have := (hx.1 _ List.mem_cons_self).1
          change (0 : ℚ) ≤ x .value at this
          change LinExp.eval x (LinExp.scale (-1) (.var .value)) ≤ 0
          rw [LinExp.eval_scale, LinExp.eval_var]
          linarith
        rcases solve_iff hs (priceProgram_finitary p V) hbound with ⟨x, e, hx⟩ | ⟨e, hx⟩
        · refine Or.inl ⟨x, e, priceProgram_sound hV hVlt hx.1, fun b' pay' h => ?_⟩
          have := hx.2 _ (priceProgram_complete hp hV hVlt h)
          change LinExp.eval _ (LinExp.scale (-1) (.var .value)) ≤ LinExp.eval _ (LinExp.scale (-1) (.var .value)) at this
          simp only [LinExp.eval_scale, LinExp.eval_var, priceSolution_value] at this
          linarith
        · exact Or.inr ⟨e, fun ⟨b, pay, h⟩ => hx ⟨_, priceProgram_complete hp hV hVlt h⟩⟩
      | true =>
        simp only [if_true]
        have hbound : ∀ x, MaxFeasible (stableProgram p V) x → (stableProgram p V).base.obj.eval x ≤ 0 := by
          intro x hx
          have := (hx.1.1 _ List.mem_cons_self).1
          change (0 : ℚ) ≤ x .value at this
          change LinExp.eval x (LinExp.scale (-1) (.var .value)) ≤ 0
          rw [LinExp.eval_scale, LinExp.eval_var]
          linarith
        by_cases hf : ∃ x, MaxFeasible (stableProgram p V) x
        · obtain ⟨x, e, hx⟩ := (hm _).1 ((polyUnion_maxFeasible (stableProgram_finitary p V)).optimum hf hbound)
          refine Or.inl ⟨x, e, stableProgram_sound hV hVlt hx.1, fun b' pay' h => ?_⟩
          have := hx.2 _ (stableProgram_complete hp hV hVlt hVne h)
          change LinExp.eval _ (LinExp.scale (-1) (.var .value)) ≤ LinExp.eval _ (LinExp.scale (-1) (.var .value)) at this
          simp only [LinExp.eval_scale, LinExp.eval_var, priceSolution_value] at this
          linarith
        · exact Or.inr ⟨(hm _).2 hf, fun ⟨b, pay, h⟩ => hf ⟨_, stableProgram_complete hp hV hVlt hVne h⟩⟩
    have hiff : (if stable then StablePriceable p V.toFinset else Priceable p V.toFinset) ↔
        ∃ b pay, SupportedBy stable p V.toFinset b pay := by
      cases stable <;> exact Iff.rfl
    rw [hiff]
    rcases hsolve with ⟨x, e, h1, h2⟩ | ⟨e, h1⟩
    · rw [e]
      dsimp only
      by_cases hu : p.hasUnitWeights = true
      · rw [if_pos hu]
        obtain ⟨t, ht, ht'⟩ := priceTable_eq fmt hvo x
        rw [ht]
        refine ⟨_, true, rfl, by simpa using ⟨_, _, h1⟩, ⟨fun h => absurd h hfew, fun _ => ⟨fun _ _ => ⟨_, _, h1, h2, ht'⟩,
          fun _ h => absurd (unitWeights_iff.1 hu) h, fun h => absurd ⟨_, _, h1⟩ h⟩⟩⟩
      · rw [if_neg hu]
        exact ⟨_, true, rfl, by simpa using ⟨_, _, h1⟩, ⟨fun h => absurd h hfew, fun _ => ⟨fun _ h => absurd (unitWeights_iff.2 h) hu,
          fun _ _ => rfl, fun h => absurd ⟨_, _, h1⟩ h⟩⟩⟩
    · rw [e]
      exact ⟨_, false, rfl, by simpa using h1, ⟨fun h => absurd h hfew, fun _ => ⟨fun h => absurd h h1, fun h => absurd h h1, fun _ => rfl⟩⟩⟩

/-! ## Levels of the messages, and `full_analysis` -/

theorem reportWith_levels {ω : Type} {chk : List ℕ → ℚ → Except Err (Option ω)} {sat viol : Name} {explain : ω → Except Err Msg}
    (he : ∀ w m, explain w = .ok m → m.level = .details) (fmt : Format) (p : Profile) (committee : List ℤ) (quota : Option ℚ) :
    ∀ m ∈ (reportWith chk sat viol explain fmt p committee quota).1, m.level = .info ∨ m.level = .details := by
  intro m hm
  unfold reportWith at hm
  split at hm
  · cases hm
  · split at hm
    · cases hm
    · split at hm
      · cases hm
      · exact Or.inl (by rw [List.mem_singleton.1 hm]; rfl)
      · dsimp only at hm
        split at hm
        · exact Or.inl (by rw [List.mem_singleton.1 hm]; rfl)
        · split at hm
          · exact Or.inl (by rw [List.mem_singleton.1 hm]; rfl)
          · rename_i h
            rcases List.mem_cons.1 hm with rfl | hm
            · exact Or.inl rfl
            · rw [List.mem_singleton.1 hm]
              exact Or.inr (he _ _ h)

/-- **C93** A check prints only at the levels INFO (the verdict) and DETAILS (the explanations). -/
theorem C93_levels (fmt : Format) (solve : Program → SolveResult) (solveMax : MaxProgram → SolveResult) (ap : List ℕ) (name : String)
    (p : Profile) (committee : List ℤ) (quota : Option ℚ) (algorithm : String) :
    ∀ m ∈ (checkReport fmt solve solveMax ap name p committee quota algorithm).1, m.level = .info ∨ m.level = .details := by
  have hname : ∀ (g : Name → Msg) (c : ℕ) (m : Msg), (∀ n, (g n).level = .details) →
      (pyGet p.candNames c).bind (fun n => .ok (g n)) = .ok m → m.level = .details := by
    intro g c m hg h
    obtain ⟨n, -, h⟩ := bind_ok h
    rw [← Except.ok.inj h]
    exact hg n
  have hprice : ∀ stable, ∀ m ∈ (reportPriceability fmt solve solveMax p committee algorithm stable).1, m.level = .info ∨ m.level = .details := by
    intro stable m hm
    have hin : ∀ W, ∀ m ∈ (reportPriceabilityGurobi fmt solve solveMax p W stable).1, m.level = .details := by
      intro W m hm
      unfold reportPriceabilityGurobi at hm
      dsimp only at hm
      split at hm
      · cases hm
      · generalize (if stable = true then solveMax (stableProgram p W) else solve (priceProgram p W)) = r at hm
        cases r with
        | infeasible => rw [List.mem_singleton.1 hm]; rfl
        | other => cases hm
        | optimal x =>
          dsimp only at hm
          split at hm
          · split at hm
            · rw [List.mem_singleton.1 hm]; rfl
            · rename_i t ht
              obtain ⟨ws, -, h⟩ := bind_ok ht
              obtain rfl := Except.ok.inj h
              rcases List.mem_cons.1 hm with rfl | hm
              · rfl
              · rcases List.mem_cons.1 hm with rfl | hm
                · rfl
                · obtain ⟨i, -, rfl⟩ := List.mem_map.1 hm
                  rfl
          · cases hm
    unfold reportPriceability at hm
    split at hm
    · cases hm
    · rename_i W _
      have := hin W
      split at hm
      · generalize reportPriceabilityGurobi fmt solve solveMax p W stable = r at hm this
        obtain ⟨ms, r⟩ := r
        cases r with
        | error e => exact Or.inr (this m hm)
        | ok b =>
          rcases List.mem_append.1 hm with hm | hm
          · exact Or.inr (this m hm)
          · exact Or.inl (by rw [List.mem_singleton.1 hm]; rfl)
      · cases hm
  unfold checkReport
  split
  · split
    · intro m hm; cases hm
    · intro m hm
      unfold reportPareto at hm
      split at hm
      · cases hm
      · split at hm
        · cases hm
        · exact Or.inl (by rw [List.mem_singleton.1 hm]; rfl)
        · rcases List.mem_cons.1 hm with rfl | hm
          · exact Or.inl rfl
          · exact Or.inr (by rw [List.mem_singleton.1 hm]; rfl)
  split
  · exact reportWith_levels (fun w m h => hname _ w.2 m (fun _ => rfl) h) fmt p committee quota
  split
  · exact reportWith_levels (fun w m h => by rw [← Except.ok.inj h]; rfl) fmt p committee quota
  split
  · exact reportWith_levels (fun w m h => by rw [← Except.ok.inj h]; rfl) fmt p committee quota
  split
  · exact reportWith_levels (fun w m h => hname _ w.2.1 m (fun _ => rfl) h) fmt p committee quota
  split
  · exact reportWith_levels (fun w m h => by rw [← Except.ok.inj h]; rfl) fmt p committee quota
  split
  · split
    · intro m hm; cases hm
    · exact hprice false
  split
  · split
    · intro m hm; cases hm
    · exact hprice true
  split
  · exact reportWith_levels (fun w m h => by rw [← Except.ok.inj h]; rfl) fmt p committee quota
  · intro m hm; cases hm

/-- **C93** `full_analysis` (committee not empty, at least one voter) prints nine lines, each with the name of a property and whether the
committee has it; none of the lines of the checks. -/
theorem C93_full_analysis (fill : Name → Name → Name) (fmt : Format) {solve : Program → SolveResult} {solveMax : MaxProgram → SolveResult}
    (hs : ExactSolver solve) (hm : ExactMaxSolver solveMax) (ap : List ℕ) {p : Profile} (hp : p.WF) (hn : Named p) (hv : p.voters ≠ [])
    {W : List ℕ} (hW : W.Nodup) (hlt : ∀ c ∈ W, c < p.numCand) (hne : W ≠ []) (o : Output) :
    ∃ holds : String → Bool, (∀ x ∈ analysisTable, holds x.1 = true ↔ Satisfies x.1 p W.toFinset (total p / W.length)) ∧
      (fullAnalysisReport fill fmt solve solveMax ap p (W.map Int.ofNat) o).2 = .ok (analysisTable.map (fun x => (x.1, holds x.1))) ∧
      (fullAnalysisReport fill fmt solve solveMax ap p (W.map Int.ofNat) o).1.verbosity = o.verbosity ∧
      (fullAnalysisReport fill fmt solve solveMax ap p (W.map Int.ofNat) o).1.printed = o.printed ++
        (if o.verbosity ≤ 20 then analysisTable.map (fun x => wrapText fill [] (alignLeft 50 x.2.toList ++ " : ".toList ++
          (if holds x.1 then "True".toList else "False".toList))) else []) := by
  have hq : ∀ name ∈ propertyNames, ∀ m ∈ (checkReport fmt solve solveMax ap name p (W.map Int.ofNat) none "fastest").1,
      m.level.value < 30 := by
    intro name _ m hm
    rcases C93_levels fmt solve solveMax ap name p _ none "fastest" m hm with h | h <;> rw [h] <;> decide
  have hck : ∀ name ∈ propertyNames, ∃ b, check solve solveMax ap name p (W.map Int.ofNat) none "fastest" = .ok b ∧
      (b = true ↔ Satisfies name p W.toFinset (total p / W.length)) :=
    fun name hn => C60_check hs hm ap hp hW hlt (Or.inl rfl) hv hne (algorithm := "fastest") hn
  obtain ⟨bs, h1, h2, h3, h4, h5⟩ := C65_full_analysis fill
    (fun name => (checkReport fmt solve solveMax ap name p (W.map Int.ofNat) none "fastest").2)
    (fun name => (checkReport fmt solve solveMax ap name p (W.map Int.ofNat) none "fastest").1) analysisLine o hq
    (fun name h => by
      obtain ⟨b, hb, -⟩ := hck name h
      exact ⟨b, by rw [C93_result fmt solve solveMax ap name hn]; exact hb⟩)
  have hnames : analysisTable.map Prod.fst = propertyNames := rfl
  choose! holds hh1 hh2 using hck
  have hbs : bs = analysisTable.map (fun x => (x.1, holds x.1)) := by
    have e1 : bs = (bs.map Prod.fst).map (fun n => (n, holds n)) := by
      rw [List.map_map]
      conv_lhs => rw [← List.map_id bs]
      refine List.map_congr_left fun x hx => ?_
      have hxn : x.1 ∈ propertyNames := by rw [← h2]; exact List.mem_map_of_mem hx
      have := h3 x hx
      rw [C93_result fmt solve solveMax ap x.1 hn, hh1 _ hxn] at this
      rw [id, Function.comp, Except.ok.inj this]
    rw [e1, h2, ← hnames, List.map_map]
    rfl
  refine ⟨holds, fun x hx => hh2 _ (by rw [← hnames]; exact List.mem_map_of_mem hx), ?_, h4, ?_⟩
  · unfold fullAnalysisReport
    rw [h1, hbs]
  · unfold fullAnalysisReport
    rw [h5, hbs, List.map_map]
    have hd : ∀ x ∈ analysisTable, propertyDescription x.1 = x.2.toList := by decide +kernel
    have hl : ∀ x ∈ analysisTable, ((fun x : String × Bool => wrapText fill [] (analysisLine x.1 x.2)) ∘ fun x => (x.1, holds x.1)) x =
        wrapText fill [] (alignLeft 50 x.2.toList ++ " : ".toList ++ (if holds x.1 then "True".toList else "False".toList)) := by
      intro x hx
      dsimp only [Function.comp]
      unfold analysisLine alignLeft
      dsimp only
      rw [hd x hx]
    split
    · exact congrArg (o.printed ++ ·) (List.map_congr_left fun x hx => hl x hx)
    · rfl

/-- **C93** If a check raises, so does `full_analysis`; it prints nothing and leaves the verbosity at WARNING. -/
theorem C93_full_analysis_raises (fill : Name → Name → Name) (fmt : Format) (solve : Program → SolveResult)
    (solveMax : MaxProgram → SolveResult) (ap : List ℕ) {p : Profile} (hn : Named p) (committee : List ℤ) (o : Output)
    (hc : ∃ name ∈ propertyNames, ∃ e, check solve solveMax ap name p committee none "fastest" = .error e) :
    (∃ e, (fullAnalysisReport fill fmt solve solveMax ap p committee o).2 = .error e) ∧
      (fullAnalysisReport fill fmt solve solveMax ap p committee o).1.verbosity = 30 ∧
      (fullAnalysisReport fill fmt solve solveMax ap p committee o).1.printed = o.printed := by
  refine C65_full_analysis_raises fill _ _ analysisLine o ?_ ?_
  · intro name _ m hm
    rcases C93_levels fmt solve solveMax ap name p _ none "fastest" m hm with h | h <;> rw [h] <;> decide
  · obtain ⟨name, h1, e, h2⟩ := hc
    exact ⟨name, h1, e, by rw [C93_result fmt solve solveMax ap name hn]; exact h2⟩

/-! ## Concrete cases -/

/-- Four voters, three candidates: the committee `{2}` violates JR. -/
def reportVoters : Profile :=
  { numCand := 3, candNames := ["a".toList, "b".toList, "c".toList],
    voters := [⟨[0], 1⟩, ⟨[0, 1], 1⟩, ⟨[2], 1⟩, ⟨[2], 1⟩] }

example : reportVoters.WF ∧ Named reportVoters ∧ reportVoters.voters ≠ [] ∧ ([2] : List ℕ).Nodup ∧ (∀ c ∈ [2], c < reportVoters.numCand) ∧
    0 < quotaValue reportVoters 1 (some 2) := by
  refine ⟨?_, rfl, by decide, by decide, by decide, by norm_num [quotaValue]⟩
  constructor <;> decide +kernel

example (solve : Program → SolveResult) (solveMax : MaxProgram → SolveResult) (ap : List ℕ) :
    (checkReport exampleFormat solve solveMax ap "jr" reportVoters [2] (some 2) "fastest").1.map (fun m => (m.level, String.ofList m.text)) =
      [(.info, "Committee {2} does not satisfy JR (for quota = 2/1)."),
       (.details, "(The 1-cohesive group of voters {0, 1} (50% of all voters) jointly approve candidate a, but none of them approve a candidate in the committee.)")] := by
  have : checkReport exampleFormat solve solveMax ap "jr" reportVoters [2] (some 2) "fastest" =
      reportWith (checkJRInner reportVoters) "satisfies JR".toList "does not satisfy JR".toList (explainJR exampleFormat reportVoters)
        exampleFormat reportVoters [2] (some 2) := rfl
  rw [this]
  decide +kernel

example : ∃ (solve : Program → SolveResult) (solveMax : MaxProgram → SolveResult), ExactSolver solve ∧ ExactMaxSolver solveMax := by
  obtain ⟨s, hs⟩ := exists_exactSolver
  obtain ⟨m, hm⟩ := exists_exactMaxSolver
  exact ⟨s, m, hs, hm⟩

end Abc
