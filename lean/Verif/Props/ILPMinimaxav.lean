import Verif.Props.ILPThiele

/-!
# C62: the integer program of Minimax AV (Gurobi, Python-MIP, OR-Tools) encodes the rule
-/

namespace Abc
open Spec

theorem prologue_alg_mem {env : Env} {rid : String} {p : Profile} {a : Args} {alg : String} (h : prologue env rid p a = .ok alg)
    {ri : RuleInfo} (hri : ruleInfo env rid = .ok ri) : alg ∈ ri.algorithms := by
  obtain ⟨ri', h1, -, -, -, -, h2, -⟩ := (C19_prologue_ok_iff env rid p a alg).1 h
  rw [hri] at h1
  rw [Except.ok.inj h1]; exact h2

theorem mmScore_le (p : Profile) (hp : p.WF) (W : Finset ℕ) (d : ℕ) : mmScore p W ≤ d ↔ ∀ v ∈ p.voters, dist v W ≤ d := by
  unfold mmScore
  rw [minimaxavScore_le_iff p hp _ (sortNat_nodup.2 (Finset.nodup_toList _))]
  simp [sortNat_toFinset]

theorem mmScore_list {p : Profile} {W : List ℕ} (hlt : W.Pairwise (· < ·)) : minimaxavScore p W = mmScore p W.toFinset := by
  unfold mmScore
  congr 1
  refine eq_of_lt_toFinset hlt (sortNat_lt (Finset.nodup_toList _)) ?_
  simp [sortNat_toFinset]

theorem minimaxavOpt_iff (p : Profile) (hp : p.WF) (k : ℕ) (A : Finset ℕ) :
    MinimaxavOpt p k A ↔ IsCommittee p k A ∧ ∀ B, IsCommittee p k B → -(mmScore p B : ℚ) ≤ -(mmScore p A : ℚ) := by
  unfold MinimaxavOpt
  refine and_congr_right fun hA => forall_congr' fun B => forall_congr' fun hB => ?_
  rw [neg_le_neg_iff, Nat.cast_le]
  constructor
  · intro h
    exact (mmScore_le p hp A _).2 (h _ ((mmScore_le p hp B _).1 le_rfl))
  · intro h d hd
    exact (mmScore_le p hp A d).1 (h.trans ((mmScore_le p hp B d).2 hd))

/-- The linear expression for the Hamming distance. -/
theorem hammingExp_eval {p : Profile} (hp : p.WF) {v : Voter} (hv : v ∈ p.voters) {x : IVar → ℚ}
    (hb : ∀ c < p.numCand, x (.cand c) = 0 ∨ x (.cand c) = 1) :
    (hammingExp p v).eval x = (dist v (solCommittee p x) : ℚ) := by
  classical
  have hn := hp.nodup v hv
  have e1 : (LinExp.sum (v.approved.map (fun c => LinExp.sub (.num 1) (.var (.cand c))))).eval x =
      ((v.A \ solCommittee p x).card : ℚ) := by
    rw [LinExp.eval_sum, List.map_map]
    have : v.approved.map (LinExp.eval x ∘ fun c => LinExp.sub (.num 1) (.var (.cand c))) =
        v.approved.map (fun c => 1 - x (.cand c)) := List.map_congr_left fun c _ => by simp
    rw [this, ← List.sum_toFinset _ hn]
    rw [Finset.card_eq_sum_ones, Nat.cast_sum, ← Finset.filter_notMem_eq_sdiff, Finset.sum_filter]
    refine Finset.sum_congr rfl fun c hc => ?_
    have hlt := hp.lt v hv c (by simpa [Voter.A] using hc)
    have hmem : c ∈ solCommittee p x ↔ x (.cand c) = 1 := by simp [solCommittee, hlt]
    rcases hb c hlt with h | h
    · rw [if_pos (by rw [hmem, h]; norm_num), h]; simp
    · rw [if_neg (by rw [hmem, h]; simp), h]; simp
  have hn2 : (p.candidates.filter (fun c => decide (c ∉ v.approved))).Nodup := List.nodup_range.filter _
  have e2 : (candSum (p.candidates.filter (fun c => decide (c ∉ v.approved)))).eval x = ((solCommittee p x \ v.A).card : ℚ) := by
    rw [eval_candSum, sum_cand_eq_card hn2 (fun c hc => hb c (by
      have := (List.mem_filter.1 hc).1; simpa [Profile.candidates] using this))]
    congr 2
    ext c
    simp only [Finset.mem_filter, List.mem_toFinset, List.mem_filter, Profile.candidates, List.mem_range, decide_eq_true_eq,
      solCommittee, Finset.mem_range, Finset.mem_sdiff, Voter.A]
    tauto
  unfold hammingExp
  rw [LinExp.eval_add, e1, e2]
  unfold dist
  rw [symmDiff_def, Finset.sup_eq_union, Finset.card_union_of_disjoint]
  · push_cast; rfl
  · rw [Finset.disjoint_left]
    intro c h1 h2
    exact (Finset.mem_sdiff.1 h1).2 (Finset.mem_sdiff.1 h2).1

/-- The solution of the Minimax AV program describing `A`. -/
noncomputable def minimaxavSolution (p : Profile) (A : Finset ℕ) : IVar → ℚ
  | .cand c => if c ∈ A then 1 else 0
  | .value => mmScore p A
  | _ => 0

/-- **C62** The program of Minimax AV encodes the rule (the value of a committee is minus its largest Hamming distance). -/
theorem C62_minimaxav_program {p : Profile} (hp : p.WF) {k : ℕ} :
    Encodes (minimaxavProgram p k) p (IsCommittee p k) (fun A => -(mmScore p A : ℚ)) := by
  have hvars : ∀ d ∈ candVars p, d ∈ (minimaxavProgram p k).vars := fun d hd => List.mem_append_left _ hd
  refine ⟨fun x hx => feas_cand hx hvars, fun x hx => ⟨feas_committee hx hvars (List.mem_cons_self), ?_⟩, fun A hA => ?_⟩
  · have hb := feas_cand hx hvars
    change (LinExp.scale (-1) (.var .value)).eval x ≤ _
    rw [LinExp.eval_scale, LinExp.eval_var, neg_one_mul, neg_le_neg_iff]
    obtain ⟨h0, -, h1⟩ := hx.1 _ (List.mem_append_right _ (List.mem_singleton_self _))
    obtain ⟨z, hz⟩ := h1 rfl
    have hz0 : (0 : ℤ) ≤ z := by
      have h0' : (0 : ℚ) ≤ x .value := h0
      rw [show x .value = z from hz] at h0'
      exact_mod_cast h0'
    obtain ⟨n, rfl⟩ := Int.eq_ofNat_of_zero_le hz0
    have hz' : x .value = (n : ℚ) := by simpa using hz
    rw [hz']
    have : mmScore p (solCommittee p x) ≤ n := by
      rw [mmScore_le p hp]
      intro v hv
      have hc := hx.2 _ (List.mem_cons_of_mem _ (List.mem_map.2 ⟨v, hv, rfl⟩))
      rw [holds_plain] at hc
      simp only [RelHolds, hammingExp_eval hp hv hb, LinExp.eval_var, hz'] at hc
      exact_mod_cast hc
    exact_mod_cast this
  · have hcand : CandValues p A (minimaxavSolution p A) := fun _ => rfl
    refine ⟨minimaxavSolution p A, ⟨?_, ?_⟩, hcand.sol hA, ?_⟩
    · intro d hd
      rcases List.mem_append.1 hd with h | h
      · exact hcand.vars d h
      · rw [List.mem_singleton] at h
        subst h
        refine ⟨by simp [minimaxavSolution], ?_, fun _ => ⟨mmScore p A, by simp [minimaxavSolution]⟩⟩
        intro u hu
        simp only [Option.some.injEq] at hu
        subst hu
        have : mmScore p A ≤ p.numCand := by
          rw [mmScore_le p hp]
          exact fun v hv => dist_le_numCand p hp k A hA v hv
        simp only [minimaxavSolution]
        exact_mod_cast this
    · intro c hc
      rcases List.mem_cons.1 hc with rfl | h
      · exact hcand.size hA
      · obtain ⟨v, hv, rfl⟩ := List.mem_map.1 h
        rw [holds_plain]
        simp only [RelHolds, LinExp.eval_var]
        rw [hammingExp_eval hp hv (fun c _ => hcand.binary c), hcand.sol hA]
        simp only [minimaxavSolution]
        have := (mmScore_le p hp A _).1 le_rfl v hv
        exact_mod_cast this
    · change (LinExp.scale (-1) (.var .value)).eval _ = _
      simp [minimaxavSolution]

/-- **C62** The solver-based implementations of Minimax AV. -/
theorem C62_ilp_minimaxav {solve : Program → SolveResult} (hs : ExactSolver solve) {thr : ℚ} (h0 : 0 < thr) (h1 : thr ≤ 1)
    (p : Profile) (hp : p.WF) (a : Args) (hv : ValidCall p a) :
    Answers a (ilpMinimaxav solve thr p a.k a.resolute a.maxNum) (MinimaxavOpt p a.k) := by
  have := enumeration_sorted hs h0 h1 hv (C62_minimaxav_program hp) (fun A hA => hA)
    (f := fun W => .ok (minimaxavScoreQ p W))
    (fun W hW _ => by unfold minimaxavScoreQ; rw [mmScore_list hW]) (exists_committee hv.le)
  rw [show MinimaxavOpt p a.k = _ from funext fun A => propext (minimaxavOpt_iff p hp a.k A)]
  exact this

theorem minimaxav_alg {env : Env} {p : Profile} {a : Args} {alg : String} (h : prologue env "minimaxav" p a = .ok alg) :
    alg ∈ ["gurobi", "mip-gurobi", "ortools-cp", "mip-cbc", "brute-force"] :=
  prologue_alg_mem h (ri := ⟨["gurobi", "mip-gurobi", "ortools-cp", "mip-cbc", "brute-force"], resOpt⟩) rfl

/-- **C62** `compute_minimaxav` with any accepted algorithm — solvers being exact — returns exactly the committees minimising the largest
Hamming distance. -/
theorem C62_compute_minimaxav (env : Env) (solve : String → Program → SolveResult) (p : Profile) (hp : p.WF) (a : Args) (alg : String)
    (hal : prologue env "minimaxav" p a = .ok alg) (hsolve : ExactSolver (solve alg)) :
    Answers a (computeMinimaxav env (minimaxavSolver solve p a) p a) (MinimaxavOpt p a.k) := by
  have hv := validCall_of_prologue hal
  have hex : ∃ A, MinimaxavOpt p a.k A := by
    obtain ⟨A, hA⟩ := exists_opt hv.le (fun A => -(mmScore p A : ℚ))
    exact ⟨A, (minimaxavOpt_iff p hp a.k A).2 hA⟩
  have key : ∀ r, Answers a r (MinimaxavOpt p a.k) → (alg ≠ "brute-force") → minimaxavSolver solve p a alg = r →
      Answers a (computeMinimaxav env (minimaxavSolver solve p a) p a) (MinimaxavOpt p a.k) := by
    intro r hr h1 h3
    unfold computeMinimaxav
    rw [hal]
    have := answers_then_get hr hex hv.max
    simp only [bind, Except.bind] at this ⊢
    rw [if_neg h1, h3]
    exact this
  have h := minimaxav_alg hal
  simp only [List.mem_cons, List.not_mem_nil, or_false] at h
  have hm := C62_ilp_minimaxav hsolve thrMip_pos thrMip_le p hp a hv
  rcases h with rfl | rfl | rfl | rfl | rfl
  · exact key _ hm (by decide) (by unfold minimaxavSolver; rw [if_pos (by decide)])
  · exact key _ hm (by decide) (by unfold minimaxavSolver; rw [if_neg (by decide), if_neg (by decide), if_pos (by decide)])
  · exact key _ (C62_ilp_minimaxav hsolve thrCp_pos thrCp_le p hp a hv) (by decide)
      (by unfold minimaxavSolver; rw [if_neg (by decide), if_pos (by decide)])
  · exact key _ hm (by decide) (by unfold minimaxavSolver; rw [if_neg (by decide), if_neg (by decide), if_pos (by decide)])
  · exact C24_minimaxav_optimal env _ p hp a hal

/-- The hypotheses are satisfiable: OR-Tools on a profile of three voters. -/
example : ∃ solve : String → Program → SolveResult, (∀ alg, ExactSolver (solve alg)) ∧
    Answers { committeesize := 2, algorithm := "ortools-cp", resolute := false }
      (computeMinimaxav ⟨["ortools-cp"], fun _ => none, fun _ => none⟩
        (minimaxavSolver solve ⟨3, [⟨[0, 1], 1⟩, ⟨[1, 2], 2⟩, ⟨[0], 1 / 2⟩], []⟩
          { committeesize := 2, algorithm := "ortools-cp", resolute := false })
        ⟨3, [⟨[0, 1], 1⟩, ⟨[1, 2], 2⟩, ⟨[0], 1 / 2⟩], []⟩ { committeesize := 2, algorithm := "ortools-cp", resolute := false })
      (MinimaxavOpt ⟨3, [⟨[0, 1], 1⟩, ⟨[1, 2], 2⟩, ⟨[0], 1 / 2⟩], []⟩ 2) := by
  obtain ⟨solve, hs⟩ := exists_exactSolver
  refine ⟨fun _ => solve, fun _ => hs, ?_⟩
  exact C62_compute_minimaxav _ (fun _ => solve) _
    ⟨by decide, by decide, by decide, by decide +kernel⟩ _ "ortools-cp" (by decide +kernel) hs

end Abc
