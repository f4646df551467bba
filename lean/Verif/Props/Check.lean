import Verif.Props.Priceability

/-!
# C60: the public function `check`
-/

namespace Abc

open Spec

theorem byAlgorithm_gurobi {α : Type} {algorithm : String} (ha : algorithm = "fastest" ∨ algorithm = "gurobi") (b g : Except Err α) :
    byAlgorithm algorithm b g = g := by
  unfold byAlgorithm
  rw [if_neg (by rcases ha with rfl | rfl <;> decide), if_pos ha]

theorem byAlgorithm_brute {α : Type} (b g : Except Err α) : byAlgorithm "brute-force" b g = b := by
  unfold byAlgorithm
  rw [if_pos rfl]

theorem check_pareto (solve : Program → SolveResult) (solveMax : MaxProgram → SolveResult) (ap : List ℕ) (p : Profile) (W : List ℤ)
    (algorithm : String) : check solve solveMax ap "pareto" p W none algorithm = checkParetoOptimality solve p W algorithm := rfl

section
variable {solve : Program → SolveResult} {solveMax : MaxProgram → SolveResult} (hs : ExactSolver solve) (hm : ExactMaxSolver solveMax)
  (ap : List ℕ) {p : Profile} (hp : p.WF) {W : List ℕ} (hW : W.Nodup) (hlt : ∀ c ∈ W, c < p.numCand) {algorithm : String}
  (ha : algorithm = "fastest" ∨ algorithm = "gurobi")

include hs hp hW hlt ha

theorem nodup_lt_of_toFinset {V : List ℕ} (h : V.toFinset = W.toFinset) : ∀ c ∈ V, c < p.numCand := fun c hc => hlt c (by
  have : c ∈ V.toFinset := List.mem_toFinset.2 hc
  rw [h] at this
  exact List.mem_toFinset.1 this)

/-- **C60** `check` with Gurobi for the properties that take a quota: for all weights and all positive quotas it returns True iff the
committee satisfies the property. -/
theorem C60_check_quota (quota : Option ℚ) (hq : 0 < quotaValue p W.length quota) {name : String}
    (hn : name ∈ ["jr", "pjr", "ejr", "fjr", "core"]) :
    ∃ b, check solve solveMax ap name p (W.map Int.ofNat) quota algorithm = .ok b ∧
      (b = true ↔ Satisfies name p W.toFinset (quotaValue p W.length quota)) := by
  have hempty : p.voters = [] → ∀ G : Group p, ¬ G.Nonempty := by
    rintro he G ⟨i, -⟩
    have h1 := i.2
    have h2 : p.voters.length = 0 := by rw [he]; rfl
    omega
  have hco : p.voters = [] → ∀ l G T, ¬ Cohesive p (quotaValue p W.length quota) l G T := by
    intro he l G T hG
    have h1 := hG.2.1
    rw [wt_of_empty he] at h1
    have h2 : (0 : ℚ) < l := by exact_mod_cast hG.1
    have := mul_pos h2 hq
    linarith
  simp only [List.mem_cons, List.not_mem_nil, or_false] at hn
  rcases hn with rfl | rfl | rfl | rfl | rfl
  · exact C51_check_JR p hp W hW hlt quota hq
  · refine checkWith_spec _ (PJR p) p hp W hW hlt quota hq (fun V hV e => ?_) (fun he l G T h => absurd h (hco he l G T))
    simp only [byAlgorithm_gurobi ha]
    obtain ⟨r, h1, h2, -⟩ := C60_PJR_program hs p hp V hV (nodup_lt_of_toFinset hs hp hW hlt ha e) _ hq
    exact ⟨r, h1, h2⟩
  · refine checkWith_spec _ (EJR p) p hp W hW hlt quota hq (fun V hV e => ?_) (fun he l G T h => absurd h (hco he l G T))
    simp only [byAlgorithm_gurobi ha]
    obtain ⟨r, h1, h2, -⟩ := C60_EJR_program hs p hp V _ hq
    exact ⟨r, h1, h2⟩
  · refine checkWith_spec _ (FJR p) p hp W hW hlt quota hq (fun V hV e => ?_) (fun he G T b hG => absurd hG (hempty he G))
    simp only [byAlgorithm_gurobi ha]
    obtain ⟨r, h1, h2, -⟩ := C60_FJR_program hs p hp V _ hq
    exact ⟨r, h1, h2⟩
  · refine checkWith_spec _ (Core p) p hp W hW hlt quota hq (fun V hV e => ?_) (fun he G T hG => absurd hG (hempty he G))
    simp only [byAlgorithm_gurobi ha]
    obtain ⟨r, h1, h2, -⟩ := C60_core_program hs p hp V _ hq
    exact ⟨r, h1, h2⟩

theorem check_pareto_gurobi : ∃ b, checkParetoOptimality solve p (W.map Int.ofNat) algorithm = .ok b ∧
    (b = true ↔ ParetoOptimal p W.toFinset) := by
  unfold checkParetoOptimality
  obtain ⟨r, h1, h2, -⟩ := C60_pareto_program hs p hp (sortNat W) (sortNat_nodup.2 hW)
  rw [candidateSet_ofNat hW hlt]
  simp only [bind, Except.bind, byAlgorithm_gurobi ha, h1]
  refine ⟨_, rfl, ?_⟩
  rw [sortNat_toFinset] at h2
  rw [← h2]
  cases r <;> simp

include hm

/-- **C60** `check(name, profile, committee)` with the default quota and Gurobi: for each of the nine properties, every profile with
at least one voter and every non-empty committee it returns True iff the committee has the property. -/
theorem C60_check (hv : p.voters ≠ []) (hne : W ≠ []) {name : String} (hn : name ∈ propertyNames) :
    ∃ b, check solve solveMax ap name p (W.map Int.ofNat) none algorithm = .ok b ∧
      (b = true ↔ Satisfies name p W.toFinset (total p / W.length)) := by
  have hk : (0 : ℚ) < W.length := by exact_mod_cast List.length_pos_iff.2 hne
  have ht := total_pos hp hv
  have hq : 0 < quotaValue p W.length none := by simp only [quotaValue, Option.getD_none]; positivity
  by_cases h1 : name ∈ ["jr", "pjr", "ejr", "fjr", "core"]
  · exact C60_check_quota hs ap hp hW hlt ha none hq h1
  · unfold propertyNames at hn
    simp only [List.mem_cons, List.not_mem_nil, or_false, not_or] at hn h1
    have h2 : name = "pareto" ∨ name = "ejr+" ∨ name = "priceability" ∨ name = "stable-priceability" := by tauto
    rcases h2 with rfl | rfl | rfl | rfl
    · exact check_pareto_gurobi hs hp hW hlt ha
    · exact C55_check_EJR_plus_default p hp W hW hlt hne hv
    · exact C69_check_priceability hs hm p hp W hW hlt hne algorithm ha false
    · exact C69_check_priceability hs hm p hp W hW hlt hne algorithm ha true

end

/-- **C60** The two algorithms agree (for EJR and PJR on profiles with unit weights). -/
theorem C60_algorithms_agree {solve : Program → SolveResult} (solveMax : MaxProgram → SolveResult) (hs : ExactSolver solve) {p : Profile}
    (hp : p.WF) (ap : List ℕ) (hap : ListsApproved p ap) {W : List ℕ} (hW : W.Nodup) (hlt : ∀ c ∈ W, c < p.numCand) (quota : Option ℚ)
    (hq : 0 < quotaValue p W.length quota) {name : String}
    (hn : name ∈ ["jr", "ejr+", "fjr", "core"] ∨ name ∈ ["pjr", "ejr"] ∧ p.hasUnitWeights = true ∨ name = "pareto" ∧ quota = none) :
    check solve solveMax ap name p (W.map Int.ofNat) quota "brute-force" = check solve solveMax ap name p (W.map Int.ofNat) quota "gurobi" := by
  have key : ∀ {x y : Except Err Bool} {P : Prop}, (∃ b, x = .ok b ∧ (b = true ↔ P)) → (∃ b, y = .ok b ∧ (b = true ↔ P)) → x = y := by
    rintro x y P ⟨b, rfl, h1⟩ ⟨c, rfl, h2⟩
    rw [Bool.eq_iff_iff.2 (h1.trans h2.symm)]
  have hg : ∀ {n}, n ∈ ["jr", "pjr", "ejr", "fjr", "core"] → _ := fun {n} h =>
    C60_check_quota (solveMax := solveMax) hs ap hp hW hlt (Or.inr rfl) quota hq (name := n) h
  simp only [List.mem_cons, List.not_mem_nil, or_false] at hn
  rcases hn with (rfl | rfl | rfl | rfl) | ⟨rfl | rfl, hu⟩ | ⟨rfl, rfl⟩
  · rfl
  · rfl
  · refine key (P := FJR p W.toFinset (quotaValue p W.length quota)) ?_ (hg (by decide))
    exact C56_check_FJR p hp ap hap W hW hlt quota hq
  · refine key (P := Core p W.toFinset (quotaValue p W.length quota)) ?_ (hg (by decide))
    exact C57_check_core p hp ap hap W hW hlt quota hq
  · refine key (P := PJR p W.toFinset (quotaValue p W.length quota)) ?_ (hg (by decide))
    exact C54_check_PJR p hp hu W hW hlt quota hq
  · refine key (P := EJR p W.toFinset (quotaValue p W.length quota)) ?_ (hg (by decide))
    exact C53_check_EJR p hp hu W hW hlt quota hq
  · refine key (P := ParetoOptimal p W.toFinset) ?_ (check_pareto_gurobi hs hp hW hlt (Or.inr rfl))
    exact C52_check_pareto p hp W hW hlt

/-- **C60** Unknown names and superfluous quotas are rejected with ValueError, unknown algorithms with NotImplementedError. -/
theorem C60_check_rejects (solve : Program → SolveResult) (solveMax : MaxProgram → SolveResult) (ap : List ℕ) (p : Profile)
    (W : List ℤ) (quota : Option ℚ) (algorithm : String) :
    (∀ name, name ∉ propertyNames → check solve solveMax ap name p W quota algorithm = .error .valueError) ∧
    (∀ name, name ∈ ["pareto", "priceability", "stable-priceability"] → quota ≠ none →
      check solve solveMax ap name p W quota algorithm = .error .valueError) ∧
    (∀ name, name ∈ ["pareto", "pjr", "ejr", "fjr", "priceability", "stable-priceability", "core"] →
      algorithm ∉ ["brute-force", "fastest", "gurobi"] → ∀ b, check solve solveMax ap name p W quota algorithm ≠ .ok b) := by
  refine ⟨fun name hn => ?_, fun name hn hq => ?_, fun name hn ha b => ?_⟩
  · unfold propertyNames at hn
    simp only [List.mem_cons, List.not_mem_nil, or_false, not_or] at hn
    unfold check
    simp [hn]
  · have : quota.isSome = true := by cases quota <;> simp_all
    simp only [List.mem_cons, List.not_mem_nil, or_false] at hn
    rcases hn with rfl | rfl | rfl <;> (unfold check; simp [this])
  · simp only [List.mem_cons, List.not_mem_nil, or_false, not_or] at ha
    have hby : ∀ {α : Type} (x y : Except Err α), byAlgorithm algorithm x y = .error .notImplemented := by
      intro α x y
      unfold byAlgorithm
      simp [ha]
    have hw : ∀ {ω : Type} (x y : List ℕ → ℚ → Except Err (Option ω)),
        checkWith (fun w q => byAlgorithm algorithm (x w q) (y w q)) p W quota ≠ .ok b := by
      intro ω x y
      unfold checkWith
      simp only [hby, bind, Except.bind]
      cases quotaOf p W quota with
      | error e => simp
      | ok q => cases candidateSet W (some p.numCand) <;> simp
    have hpr : ∀ st, checkPriceability solve solveMax p W algorithm st ≠ .ok b := by
      intro st
      unfold checkPriceability
      simp only [bind, Except.bind]
      cases candidateSet W (some p.numCand) <;> simp [ha]
    simp only [List.mem_cons, List.not_mem_nil, or_false] at hn
    rcases hn with rfl | rfl | rfl | rfl | rfl | rfl | rfl
    · unfold check
      simp only [if_true]
      split
      · simp
      · unfold checkParetoOptimality
        simp only [hby, bind, Except.bind]
        cases candidateSet W (some p.numCand) <;> simp
    · exact hw _ _
    · exact hw _ _
    · exact hw _ _
    · unfold check
      simp only [if_neg (show ("priceability" : String) ≠ "pareto" by decide), if_neg (show ("priceability" : String) ≠ "jr" by decide),
        if_neg (show ("priceability" : String) ≠ "pjr" by decide), if_neg (show ("priceability" : String) ≠ "ejr" by decide),
        if_neg (show ("priceability" : String) ≠ "ejr+" by decide), if_neg (show ("priceability" : String) ≠ "fjr" by decide), if_true]
      split
      · simp
      · exact hpr false
    · unfold check
      simp only [if_neg (show ("stable-priceability" : String) ≠ "pareto" by decide),
        if_neg (show ("stable-priceability" : String) ≠ "jr" by decide),
        if_neg (show ("stable-priceability" : String) ≠ "pjr" by decide), if_neg (show ("stable-priceability" : String) ≠ "ejr" by decide),
        if_neg (show ("stable-priceability" : String) ≠ "ejr+" by decide), if_neg (show ("stable-priceability" : String) ≠ "fjr" by decide),
        if_neg (show ("stable-priceability" : String) ≠ "priceability" by decide), if_true]
      split
      · simp
      · exact hpr true
    · exact hw _ _

/-- There is an exact solver for programs with maxima. -/
theorem exists_exactMaxSolver : ∃ solve, ExactMaxSolver solve := by
  classical
  refine ⟨fun P => if h : ∃ x, MaxFeasible P x ∧ ∀ y, MaxFeasible P y → P.base.obj.eval y ≤ P.base.obj.eval x then .optimal h.choose
    else if ∃ x, MaxFeasible P x then .other else .infeasible, fun P => ⟨fun h => ⟨h.choose, by simp only [dif_pos h], h.choose_spec⟩,
    fun h => ?_⟩⟩
  have h1 : ¬ ∃ x, MaxFeasible P x ∧ ∀ y, MaxFeasible P y → P.base.obj.eval y ≤ P.base.obj.eval x := fun ⟨x, hx⟩ => h ⟨x, hx.1⟩
  simp only [dif_neg h1, if_neg h]

/-- The hypotheses are satisfiable: on a weighted profile, where the brute-force check of EJR is wrong, Gurobi finds the violation. -/
example : ∃ (solve : Program → SolveResult) (solveMax : MaxProgram → SolveResult),
    check solve solveMax [] "ejr" weightedExample [1] none "fastest" = .ok false := by
  obtain ⟨solve, hs⟩ := exists_exactSolver
  obtain ⟨solveMax, hm⟩ := exists_exactMaxSolver
  refine ⟨solve, solveMax, ?_⟩
  obtain ⟨b, h1, h2⟩ := C60_check hs hm [] weightedExample_wf (W := [1]) (by decide) (by decide) (Or.inl rfl) (by decide) (by decide)
    (name := "ejr") (by decide)
  have : b = false := by
    rw [← Bool.not_eq_true, h2]
    have := C53_weighted_fails.2.2
    exact this
  rw [← this]
  exact h1

end Abc
