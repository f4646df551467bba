import Verif.Lemmas.Tolerance
import Mathlib.Algebra.GCDMonoid.Finset
import Mathlib.Algebra.GCDMonoid.Nat

/-!
# C83: solver tolerances do not change the outcome
-/

namespace Abc

open Spec

theorem slack_thr (alg : String) : 0 ≤ slack alg ∧ slack alg < codeThr alg ∧ codeThr alg ≤ 1 - slack alg := by
  unfold slack codeThr thrCp thrMip
  split <;> norm_num

section
variable (w : World) {ε : ℚ} (hw : w.Tolerant ε) (p : Profile) (hp : p.WF) (a : Args) (ruleId alg : String)
  (hal : prologue w.env ruleId p a = .ok alg) {S : Finset ℕ → Prop} (hS : Elects w p a.k alg ruleId S) (hR : Resolves w p a.k ε ruleId)
include hw hp hal hS hR

/-- **C83** With solvers that have tolerances (and may give up): whenever `compute` returns, it returns exactly what the rule elects. -/
theorem C83_compute_sound {cs : List (List ℕ)} (hc : compute w ruleId p a.committeesize none a.kw = .ok cs) : Answers a (.ok cs) S := by
  choose s' h1 h2 h3 using fun alg => exists_agreeing (hw.solve alg) (slack_thr alg).2.1 (slack_thr alg).2.2 (slack_thr alg).1 p.numCand
  have hrun := run_agree w h3 h1 hp (validCall_of_prologue hal) hR
  have hc' : compute { w with solve := s' } ruleId p a.committeesize none a.kw = .ok cs := by
    rw [← hc, compute_none (w := { w with solve := s' }) hal, compute_none hal, hrun]
  exact C81_compute { w with solve := s' } ⟨h1, hw.rest⟩ p hp a ruleId alg hal (elects_solve s' hS) hc'

/-- **C83** If the solvers do not give up, `compute` returns exactly what the rule elects. -/
theorem C83_compute (hd : ∀ alg, Decides (w.solve alg)) : Answers a (compute w ruleId p a.committeesize none a.kw) S := by
  choose s' h1 h2 h3 using fun alg => exists_agreeing (hw.solve alg) (slack_thr alg).2.1 (slack_thr alg).2.2 (slack_thr alg).1 p.numCand
  have hrun := run_agree w h3 h1 hp (validCall_of_prologue hal) hR
  have := C31_compute { w with solve := s' } (hw.rest s' fun alg => h2 alg (hd alg)) p hp a ruleId alg hal (elects_solve s' hS)
  rwa [compute_none (w := { w with solve := s' }) hal, ← hrun, ← compute_none hal] at this

end

/-! ## When are values apart? -/

theorem apart_of_integral {ε : ℚ} {p : Profile} {k : ℕ} {v : Finset ℕ → ℚ} {D : ℚ} (hD : 0 < D)
    (hv : ∀ A, IsCommittee p k A → ∃ z : ℤ, v A * D = z) (he : ε * D < 1) : Apart ε p k v := by
  intro A B hA hB h
  obtain ⟨y, hy⟩ := hv A hA
  obtain ⟨z, hz⟩ := hv B hB
  have h1 : (y : ℚ) < z := by rw [← hy, ← hz]; exact mul_lt_mul_of_pos_right h hD
  have h2 : (y : ℚ) + 1 ≤ z := by
    have : y + 1 ≤ z := by exact_mod_cast h1
    exact_mod_cast this
  rw [← hy, ← hz] at h2
  by_contra hcon
  have := mul_le_mul_of_nonneg_right (not_lt.1 hcon) hD.le
  nlinarith

theorem sum_integral {α : Type} {D : ℚ} (l : List α) {g : α → ℚ} (h : ∀ x ∈ l, ∃ z : ℤ, g x * D = z) : ∃ z : ℤ, (l.map g).sum * D = z := by
  induction l with
  | nil => exact ⟨0, by simp⟩
  | cons x l ih =>
    obtain ⟨y, hy⟩ := h x (by simp)
    obtain ⟨z, hz⟩ := ih fun x hx => h x (by simp [hx])
    exact ⟨y + z, by rw [List.map_cons, List.sum_cons, add_mul, hy, hz]; push_cast; rfl⟩

/-- **C83** Thiele scores are apart if the weights are integers and the marginal scores multiples of `1 / D` with `ε < 1 / D`. -/
theorem C83_thiele_apart {p : Profile} (hw : IntegerWeights p) {k : ℕ} {f : ℕ → ℚ} {D : ℕ} (hD : 0 < D)
    (hf : ∀ i, 1 ≤ i → i ≤ k → ∃ z : ℤ, f i * D = z) {ε : ℚ} (he : ε * D < 1) : Apart ε p k (score f p) := by
  refine apart_of_integral (D := D) (by exact_mod_cast hD) (fun A hA => ?_) he
  unfold score
  refine sum_integral _ fun v hv => ?_
  obtain ⟨n, hn⟩ := hw v hv
  have hle : util v A ≤ k := hA.2 ▸ Finset.card_le_card Finset.inter_subset_right
  have key : ∀ m ≤ k, ∃ z : ℤ, (∑ j ∈ Finset.range m, f (j + 1)) * D = z := by
    intro m
    induction m with
    | zero => intro _; exact ⟨0, by simp⟩
    | succ m ih =>
      intro hm
      obtain ⟨y, hy⟩ := ih (by omega)
      obtain ⟨z, hz⟩ := hf (m + 1) (by omega) hm
      exact ⟨y + z, by rw [Finset.sum_range_succ, add_mul, hy, hz]; push_cast; rfl⟩
  obtain ⟨z, hz⟩ := key _ hle
  exact ⟨n * z, by rw [mul_assoc, hz, hn]; push_cast; rfl⟩

/-- **C83** PAV: integer weights and a gap below `1 / lcm(1, …, k)`. -/
theorem C83_pav_apart {p : Profile} (hw : IntegerWeights p) {k : ℕ} {ε : ℚ} (he : ε * (((Finset.Icc 1 k).lcm id : ℕ) : ℚ) < 1) :
    Apart ε p k (score (marginalFct .pav) p) := by
  refine C83_thiele_apart hw (D := (Finset.Icc 1 k).lcm id) ?_ ?_ he
  · rw [Nat.pos_iff_ne_zero, Ne, Finset.lcm_eq_zero_iff]
    rintro ⟨x, hx, h0⟩
    simp at hx h0
    omega
  · intro i h1 h2
    obtain ⟨c, hc⟩ := Finset.dvd_lcm (f := id) (Finset.mem_Icc.2 ⟨h1, h2⟩)
    refine ⟨c, ?_⟩
    rw [hc]
    have : (i : ℚ) ≠ 0 := by exact_mod_cast (by omega : i ≠ 0)
    have hi : marginalFct .pav i = 1 / (i : ℚ) := by simp [marginalFct]; omega
    rw [hi]
    push_cast
    simp only [id]
    field_simp

/-- **C83** Chamberlin–Courant: integer weights and a gap below 1. -/
theorem C83_cc_apart {p : Profile} (hw : IntegerWeights p) {k : ℕ} {ε : ℚ} (he : ε < 1) :
    Apart ε p k (score (marginalFct .cc) p) := by
  refine C83_thiele_apart hw (D := 1) one_pos (fun i _ _ => ?_) (by simpa using he)
  simp only [marginalFct]
  split
  · exact ⟨1, by simp⟩
  · exact ⟨0, by simp⟩

/-- **C83** lex-CC: integer weights and a gap below 1. -/
theorem C83_lexcc_apart {p : Profile} (hw : IntegerWeights p) {k : ℕ} {ε : ℚ} (he : ε < 1) (l : ℕ) : Apart ε p k (coverage p l) := by
  refine apart_of_integral (D := 1) one_pos (fun A _ => ?_) (by simpa using he)
  have : ∀ v ∈ p.voters, ∃ z : ℤ, v.weight * ((1 : ℕ) : ℚ) = z := by
    intro v hv
    obtain ⟨n, hn⟩ := hw v hv
    exact ⟨n, by rw [hn]; push_cast; ring⟩
  simpa using coverage_granular this l A

/-! ## Checks -/

section
variable {solve : Program → SolveResult} {solveMax : MaxProgram → SolveResult} (hs : StatusSolver solve) (hm : StatusMaxSolver solveMax)
  (ap : List ℕ) {p : Profile} (hp : p.WF) {W : List ℕ} (hW : W.Nodup) (hlt : ∀ c ∈ W, c < p.numCand) {algorithm : String}
  (ha : algorithm = "fastest" ∨ algorithm = "gurobi")

include hs hm hp hW hlt ha

/-- **C83** `check` answers correctly whatever values the solver reports, as long as the statuses OPTIMAL and INFEASIBLE are right. -/
theorem C83_check (hv : p.voters ≠ []) (hne : W ≠ []) {name : String} (hn : name ∈ propertyNames) {b : Bool}
    (hb : check solve solveMax ap name p (W.map Int.ofNat) none algorithm = .ok b) :
    b = true ↔ Satisfies name p W.toFinset (total p / W.length) := by
  obtain ⟨e, s, h1, h2, h3⟩ := exists_status hs
  obtain ⟨e', m, h1', h2', h3'⟩ := exists_statusMax hm
  obtain ⟨b', h5, h6⟩ := C60_check h1 h1' ap hp hW hlt ha hv hne hn
  have h7 := check_mono h2 h2' ap name p (W.map Int.ofNat) none algorithm b hb
  rw [check_status] at h5 h7
  rw [check_mono h3 h3' _ _ _ _ _ _ _ h5] at h7
  rwa [← Except.ok.inj h7]

/-- **C83** The same with a quota. -/
theorem C83_check_quota (quota : Option ℚ) (hq : 0 < quotaValue p W.length quota) {name : String}
    (hn : name ∈ ["jr", "pjr", "ejr", "fjr", "core"]) {b : Bool}
    (hb : check solve solveMax ap name p (W.map Int.ofNat) quota algorithm = .ok b) :
    b = true ↔ Satisfies name p W.toFinset (quotaValue p W.length quota) := by
  obtain ⟨e, s, h1, h2, h3⟩ := exists_status hs
  obtain ⟨e', m, h1', h2', h3'⟩ := exists_statusMax hm
  obtain ⟨b', h5, h6⟩ := C60_check_quota h1 (solveMax := e') ap hp hW hlt ha quota hq hn
  have h7 := check_mono h2 h2' ap name p (W.map Int.ofNat) quota algorithm b hb
  rw [check_status] at h5 h7
  rw [check_mono h3 h3' _ _ _ _ _ _ _ h5] at h7
  rwa [← Except.ok.inj h7]

end

/-! ## Without a gap -/

/-- **C83** If the values are not apart, a Thiele method in resolute mode still returns a committee whose score is optimal up to `ε`. -/
theorem C83_thiele_near {ε : ℚ} {solve : Program → SolveResult} (hs : TolerantSolver (1 / 10) ε solve) (f : ℕ → ℚ) (p : Profile)
    (hp : p.WF) {k : ℕ} (hk : k ≤ p.numCand) {cs : List (List ℕ)}
    (hc : ilpThiele solve f p k true none = .ok cs) :
    ∃ W, cs = [W] ∧ W.Pairwise (· < ·) ∧ IsCommittee p k W.toFinset ∧ ∀ B, IsCommittee p k B → score f p B ≤ score f p W.toFinset + ε := by
  classical
  unfold ilpThiele at hc
  split at hc
  · cases hc
  rename_i hchk
  rw [not_not] at hchk
  have hE := C62_thiele_program hp (scoreValues_antitone hchk)
  cases hmin : pyMin ((scoreValues f k).filter (fun q => decide (q > 0))) with
  | error e => rw [hmin] at hc; cases hc
  | ok q =>
    rw [hmin] at hc
    simp only [bind, Except.bind, optimizeRule] at hc
    unfold optLoop at hc
    cases hS : solve (thieleProgram f p k) with
    | other => rw [hS] at hc; cases hc
    | infeasible => rw [hS] at hc; simp at hc
    | optimal x =>
      rw [hS] at hc
      obtain ⟨y, hy, hbest, hclose⟩ := (hs _).1 x hS
      set W := p.candidates.filter (fun c => decide (thrMip ≤ x (.cand c))) with hWdef
      have hlt : W.Pairwise (· < ·) := List.pairwise_lt_range.sublist List.filter_sublist
      have hWy : W.toFinset = solCommittee p y := by
        ext c
        simp only [hWdef, List.mem_toFinset, List.mem_filter, decide_eq_true_eq, solCommittee, Finset.mem_filter, Finset.mem_range,
          Profile.candidates, List.mem_range]
        refine and_congr_right fun hcn => ?_
        have hcl := abs_le.1 (hclose (.cand c))
        unfold thrMip
        rcases hE.binary y hy c hcn with e | e <;> rw [e] at hcl ⊢
        · constructor
          · intro h; linarith
          · intro h; norm_num at h
        · constructor
          · intro _; rfl
          · intro _; linarith
      have hsnd := hE.sound y hy
      have hlen : ¬ W.length ≠ k := by
        rw [not_not, ← List.toFinset_card_of_nodup (nodup_of_lt hlt), hWy]
        exact hsnd.1.2
      have hcs : sortedCommittees [W] = .ok cs := by
        simpa [hlen, ← hWdef, objectiveValue, bind, Except.bind] using hc
      rw [sortedCommittees_one (nodup_of_lt hlt), sortNat_of_lt hlt] at hcs
      refine ⟨W, (Except.ok.inj hcs).symm, hlt, hWy ▸ hsnd.1, fun B hB => ?_⟩
      obtain ⟨z, hz, -, ez⟩ := hE.complete B hB
      rw [← ez, hWy]
      exact (hbest z hz).trans (by linarith [hsnd.2])

/-- Two voters whose weights differ by less than the tolerance. -/
def gapProfile : Profile := ⟨2, [⟨[0], 1⟩, ⟨[1], 1 + 1 / 10 ^ 9⟩], []⟩

theorem gapProfile_wf : gapProfile.WF := by
  refine ⟨?_, ?_, ?_, ?_⟩ <;> · unfold gapProfile; simp <;> norm_num

theorem tolerant_of_exact {η ε : ℚ} (h0 : 0 ≤ η) (h1 : 0 ≤ ε) {e : Program → SolveResult}
    (he : SoundSolver e) : TolerantSolver η ε e := by
  refine fun P => ⟨fun x hx => ?_, (he P).2⟩
  have := (he P).1 x hx
  exact ⟨x, this.1, fun z hz => by linarith [this.2 z hz], fun u => by simpa using h0⟩

/-- An exact solver that does not report anything else. -/
theorem exists_exact_sound : ∃ e, ExactSolver e ∧ SoundSolver e ∧ Decides e := by
  obtain ⟨e, -, he⟩ := exists_answering soundSolver_other
  classical
  refine ⟨fun P => if h : ∃ x, OptimalSol P x then .optimal h.choose
    else if ∃ x, Feasible P x then .other else .infeasible, ?_⟩
  have hex : ExactSolver (fun P => if h : ∃ x, OptimalSol P x then .optimal h.choose
    else if ∃ x, Feasible P x then .other else .infeasible) := by
    refine fun P => ⟨fun h => ⟨h.choose, by simp only [dif_pos h], h.choose_spec⟩, fun h => ?_⟩
    have h1 : ¬ ∃ x, OptimalSol P x := fun ⟨x, hx⟩ => h ⟨x, hx.1⟩
    simp only [dif_neg h1, if_neg h]
  refine ⟨hex, fun P => ⟨fun x hx => ?_, fun hi => ?_⟩, fun P => ⟨fun h => ?_, (hex P).2⟩⟩
  · by_cases h : ∃ x, OptimalSol P x
    · simp only [dif_pos h, SolveResult.optimal.injEq] at hx
      rw [← hx]; exact h.choose_spec
    · simp only [dif_neg h] at hx
      split at hx <;> cases hx
  · by_cases h : ∃ x, OptimalSol P x
    · simp only [dif_pos h] at hi; cases hi
    · simp only [dif_neg h] at hi
      split at hi
      · cases hi
      · assumption
  · obtain ⟨x, hx, -⟩ := (hex P).1 h
    exact ⟨x, hx⟩

/-- **C83** The gap is needed: with a tolerance of `10⁻⁸`, PAV with a solver can elect a committee that does not win, if the weights of the
voters differ by less than the tolerance. -/
theorem C83_gap_needed : ∃ solve, TolerantSolver (1 / 10) (1 / 10 ^ 8) solve ∧ Decides solve ∧
    ilpThiele solve (marginalFct .pav) gapProfile 1 true none = .ok [[0]] ∧ ¬ ThieleOpt (marginalFct .pav) gapProfile 1 {0} := by
  classical
  obtain ⟨e, he, hs, hd⟩ := exists_exact_sound
  let P₀ := thieleProgram (marginalFct .pav) gapProfile 1
  have h0 : IsCommittee gapProfile 1 {0} := by unfold IsCommittee gapProfile; simp
  have h1 : IsCommittee gapProfile 1 {1} := by unfold IsCommittee gapProfile; decide
  have hfeas := thieleSolution_feasible gapProfile_wf h0
  have hscore : ∀ A, score (marginalFct .pav) gapProfile A =
      (if 0 ∈ A then 1 else 0) + (if 1 ∈ A then 1 + 1 / 10 ^ 9 else 0) := by
    intro A
    have e0 : ∀ c, util ⟨[c], 1⟩ A = if c ∈ A then 1 else 0 := by
      intro c
      unfold util Voter.A
      by_cases h : c ∈ A <;> simp [h]
    have e1 : ∀ c q, util ⟨[c], q⟩ A = if c ∈ A then 1 else 0 := by
      intro c q
      unfold util Voter.A
      by_cases h : c ∈ A <;> simp [h]
    simp only [score, gapProfile, List.map_cons, List.map_nil, List.sum_cons, List.sum_nil, e0, e1]
    by_cases h : 0 ∈ A <;> by_cases h' : 1 ∈ A <;> simp [h, h', marginalFct]
  have hE : Encodes P₀ gapProfile (IsCommittee gapProfile 1) (score (marginalFct .pav) gapProfile) :=
    C62_thiele_program gapProfile_wf (fun i j h h' => by obtain rfl : i = j := by omega
                                                         exact le_rfl)
  refine ⟨fun P => if P = P₀ then .optimal (thieleSolution gapProfile {0}) else e P, ?_, ?_, ?_, ?_⟩
  · intro P
    by_cases hP : P = P₀
    · subst hP
      simp only [if_true]
      refine ⟨fun x hx => ?_, fun h => by cases h⟩
      obtain rfl := SolveResult.optimal.inj hx
      refine ⟨_, ⟨hfeas.1, hfeas.2.1⟩, fun z hz => ?_, fun u => by simp⟩
      have hz' := hE.sound z hz
      have hobj : P₀.obj.eval (thieleSolution gapProfile {0}) = 1 := by
        have := hfeas.2.2 (marginalFct .pav)
        rw [hscore] at this
        refine Eq.trans this ?_
        simp
      rw [hobj]
      refine hz'.2.trans ?_
      rw [hscore]
      have hcard := hz'.1.2
      by_cases ha : 0 ∈ solCommittee gapProfile z
      · by_cases hb : 1 ∈ solCommittee gapProfile z
        · exfalso
          have : ({0, 1} : Finset ℕ).card ≤ (solCommittee gapProfile z).card :=
            Finset.card_le_card (by intro c hc; simp at hc; rcases hc with rfl | rfl <;> assumption)
          rw [hcard] at this
          simp at this
        · rw [if_pos ha, if_neg hb]; norm_num
      · rw [if_neg ha]
        split <;> norm_num
    · simp only [if_neg hP]
      exact tolerant_of_exact (by norm_num) (by norm_num) hs P
  · intro P
    by_cases hP : P = P₀
    · subst hP
      simp only [if_true]
      exact ⟨fun _ => ⟨_, rfl⟩, fun h => absurd ⟨_, hfeas.1, hfeas.2.1⟩ h⟩
    · simp only [if_neg hP]
      exact hd P
  · unfold ilpThiele
    rw [if_neg (by decide +kernel)]
    have : pyMin ((scoreValues (marginalFct .pav) 1).filter (fun q => decide (q > 0))) = .ok 1 := by decide +kernel
    rw [this]
    simp only [bind, Except.bind, optimizeRule]
    unfold optLoop
    rw [if_pos rfl]
    have hf : gapProfile.candidates.filter (fun c => decide (thrMip ≤ thieleSolution gapProfile {0} (.cand c))) = [0] := by decide +kernel
    simp only [hf, objectiveValue]
    rfl
  · intro h
    have := h.2 {1} h1
    rw [hscore, hscore] at this
    norm_num at this

/-- Solvers whose values are all wrong by `1 / 10` (except for OR-Tools) meet the hypotheses. -/
theorem exists_tolerant_world (env : Env) (ε : ℚ) (hε : 0 ≤ ε) : ∃ w : World, w.env = env ∧ w.Tolerant ε ∧ (∀ alg, Decides (w.solve alg)) ∧
    ∀ x, w.solve "gurobi" ⟨[binaryVar .value], [], .var .value⟩ = .optimal x → x .value = 11 / 10 := by
  obtain ⟨w, h1, h2⟩ := exists_exact_world env
  obtain ⟨e, -, hs, hd⟩ := exists_exact_sound
  let off : String → SolveResult → SolveResult := fun alg r => match r with
    | .optimal x => .optimal fun u => x u + slack alg
    | r => r
  refine ⟨{ w with solve := fun alg P => off alg (e P) }, h1, ⟨fun alg P => ⟨fun x hx => ?_, fun hi => ?_⟩, fun s' hs' =>
    ⟨hs', h2.matching, h2.minCost, h2.iter, h2.listing, h2.canonical, h2.shuffle, h2.sample⟩⟩, fun alg P => ⟨fun h => ?_, fun h => ?_⟩, ?_⟩
  · cases hP : e P with
    | other => simp only [off, hP] at hx; cases hx
    | infeasible => simp only [off, hP] at hx; cases hx
    | optimal y =>
      simp only [off, hP, SolveResult.optimal.injEq] at hx
      have := (hs P).1 y hP
      refine ⟨y, this.1, fun z hz => by linarith [this.2 z hz], fun u => ?_⟩
      rw [← hx, add_sub_cancel_left, abs_of_nonneg (slack_thr alg).1]
  · cases hP : e P with
    | other => simp only [off, hP] at hi; cases hi
    | infeasible => exact (hs P).2 hP
    | optimal y => simp only [off, hP] at hi; cases hi
  · obtain ⟨x, hx⟩ := (hd P).1 h
    exact ⟨fun u => x u + slack alg, by simp only [off, hx]⟩
  · simp only [off, (hd P).2 h]
  · intro x hx
    cases hP : e ⟨[binaryVar .value], [], .var .value⟩ with
    | other => simp only [off, hP] at hx; cases hx
    | infeasible => simp only [off, hP] at hx; cases hx
    | optimal y =>
      simp only [off, hP, SolveResult.optimal.injEq] at hx
      have ho := (hs _).1 y hP
      have hb := inBounds_binary.1 (ho.1.1 _ (List.mem_singleton_self _))
      have h1 : Feasible ⟨[binaryVar .value], [], .var .value⟩ (fun _ => 1) :=
        ⟨fun d hd => by
          obtain rfl := List.mem_singleton.1 hd
          exact inBounds_binary.2 (Or.inr rfl), fun c hc => by cases hc⟩
      have h2 := ho.2 _ h1
      simp only [LinExp.eval_var] at h2
      have h3 : y .value = 1 := by
        rcases hb with h | h
        · rw [h] at h2; norm_num at h2
        · exact h
      have h4 := congrFun hx .value
      simp only [h3] at h4
      rw [← h4]
      unfold slack
      rw [if_neg (by decide)]
      norm_num

/-- PAV with such a solver on the example profile (lcm(1, 2) = 2, so any gap below 1/2 will do). -/
example : ∃ w : World, w.Tolerant (49 / 100) ∧ Answers { committeesize := 2, algorithm := "gurobi", resolute := false }
    (compute w "pav" exampleProfile 2 none { algorithm := some "gurobi", resolute := some false })
    (ThieleOpt (marginalFct .pav) exampleProfile 2) := by
  obtain ⟨w, h1, h2, h3, -⟩ := exists_tolerant_world gurobiEnv (49 / 100) (by norm_num)
  refine ⟨w, h2, C83_compute w h2 exampleProfile exampleProfile_wf { committeesize := 2, algorithm := "gurobi", resolute := false }
    "pav" "gurobi" (by rw [h1]; decide +kernel) (.thiele rfl (Or.inl rfl) (by simp)) (.thiele rfl (C83_pav_apart ?_ ?_)) h3⟩
  · intro v hv
    simp only [exampleProfile, List.mem_cons, List.not_mem_nil, or_false] at hv
    rcases hv with rfl | rfl
    · exact ⟨1, by norm_num⟩
    · exact ⟨2, by norm_num⟩
  · have : ((Finset.Icc 1 (Args.k { committeesize := 2, algorithm := "gurobi", resolute := false })).lcm id : ℕ) = 2 := by decide +kernel
    rw [this]
    norm_num

end Abc
