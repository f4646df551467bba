import Verif.Lemmas.ReportOptimal

/-!
# C90: the output of the optimisation rules
-/

namespace Abc
open Spec

/-- **C90** What Thiele methods print with any algorithm: a warning iff an ILP solver is used and some positive marginal score is smaller
than 10⁻⁸, then the heading, the remark, the algorithm, the largest score of all committees of size `k`, and the committees returned. -/
theorem C90_thiele_report (env : Env) (num : ℚ → Name) (sid : String) (s : ScoreId) (solve : String → Program → SolveResult) (p : Profile)
    (hp : p.WF) (hn : Named p) (a : Args) (alg : String) (hal : prologue env sid p a = .ok alg) (hsid : env.scoreId sid = .ok s)
    (hsolve : ExactSolver (solve alg)) (hs : s = .pav ∨ s = .slav ∨ s = .cc ∨ ∃ b, 1 < b ∧ s = .geom b)
    (halg : alg ∈ thieleAlgorithms ∨ (alg = "ortools-cp" ∧ sid = "cc" ∧ s = .cc ∧ ∀ v ∈ p.voters, ∃ z : ℤ, v.weight = z)) :
    ∃ cs x ws, computeThieleMethod env sid (thieleSolver solve sid (marginalFct s) p a) p a = .ok cs ∧
      Warned num sid alg (marginalFct s) a.k ws ∧
      IsGreatest {y | ∃ A, IsCommittee p a.k A ∧ y = score (marginalFct s) p A} x ∧
      computeThieleVerbose env num sid (thieleSolver solve sid (marginalFct s) p a) p a = .ok
        (ws ++ (heading sid :: oneRemark a.resolute ++
          [algorithmLine alg, detailsMsg ("Optimal ".toList ++ upper sid ++ "-score: ".toList ++ num x ++ "\n".toList), winners p cs]),
         cs) := by
  have hv := validCall_of_prologue hal
  have hans := C62_compute_thiele env sid s solve p hp a alg hal hsid hsolve hs halg
  obtain ⟨cs, c, e, hget, hmem, hne, hall⟩ := answers_all hans (exists_opt hv.le (score (marginalFct s) p)) hv.max
  obtain ⟨ws, hws, hwarn⟩ := thieleWarnings_ok num sid alg (marginalFct s) a.k hv.pos (proper_scores hs).1 (prologue_title hal)
  refine ⟨cs, score (marginalFct s) p c.toFinset, ws, e, hwarn, ⟨⟨c.toFinset, (hall c hmem).1.1, rfl⟩, ?_⟩, ?_⟩
  · rintro y ⟨A, hA, rfl⟩
    exact (hall c hmem).1.2 A hA
  · have hlt : ∀ W ∈ cs, ∀ x ∈ W, x < p.numCand := fun W hW x hx =>
      Finset.mem_range.1 ((hall W hW).1.1.1 (List.mem_toFinset.2 hx))
    unfold computeThieleVerbose thieleReport
    simp only [bind, Except.bind, hal, hsid, hws, e, headMsgs_ok, algorithmMsg_titles (prologue_title hal), hget, committeesMsg_ok hn hlt hne,
      remark_one, thieleScore_eq]

/-- **C90** When no warning is printed: committees of reasonable size. -/
theorem C90_no_warning (num : ℚ → Name) (sid alg : String) (s : ScoreId) (k : ℕ) (ws : List Msg)
    (hs : s = .cc ∨ (s = .pav ∧ k ≤ 10 ^ 8) ∨ (s = .slav ∧ 2 * k - 1 ≤ 10 ^ 8) ∨ ∃ b, 1 < b ∧ b ^ (k - 1) ≤ 10 ^ 8 ∧ s = .geom b)
    (h : Warned num sid alg (marginalFct s) k ws) : ws = [] := by
  refine warned_nil h fun i h1 h2 h3 => ?_
  have hi0 : i ≠ 0 := by omega
  rcases hs with rfl | ⟨rfl, hk⟩ | ⟨rfl, hk⟩ | ⟨b, hb, hk, rfl⟩
  · simp only [marginalFct] at h3 ⊢
    split at h3
    · rename_i h'
      rw [if_pos h']; norm_num
    · exact absurd h3 (lt_irrefl _)
  · simp only [marginalFct, if_neg hi0] at h3 ⊢
    refine one_div_le_one_div_of_le (by exact_mod_cast h1) ?_
    have : i ≤ 10 ^ 8 := h2.trans hk
    exact_mod_cast this
  · simp only [marginalFct, if_neg hi0] at h3 ⊢
    have h4 : (1 : ℚ) ≤ i := by exact_mod_cast h1
    refine one_div_le_one_div_of_le (by linarith) ?_
    have : 2 * i ≤ 10 ^ 8 + 1 := by omega
    have : (2 * i : ℚ) ≤ 10 ^ 8 + 1 := by exact_mod_cast this
    linarith
  · simp only [marginalFct, if_neg hi0] at h3 ⊢
    refine one_div_le_one_div_of_le (pow_pos (by linarith) _) (le_trans ?_ hk)
    exact pow_le_pow_right₀ hb.le (by omega)

/-- Non-vacuity: a warning for 100-geometric scores and committees of size 6 computed by Gurobi. -/
example : (thieleWarnings (fun q => "1/".toList ++ strNat q.den) "geom100" "gurobi" (marginalFct (.geom 100)) 6).map
    (fun ws => ws.map (fun m => (m.level, String.ofList m.text))) = .ok
      [(.warning, "Thiele scoring function geom100 can take smaller values (min=1/10000000000) than Gurobi accuracy (1e-08).")] := by
  decide +kernel

/-- **C90** What lex-CC prints: the optimal vector, entry by entry. -/
theorem C90_lexcc_report (env : Env) (num : ℚ → Name) (solve : String → Program → SolveResult) (p : Profile) (hp : p.WF) (hn : Named p)
    (a : Args) (alg : String) (hal : prologue env "lexcc" p a = .ok alg) (hsolve : ExactSolver (solve alg))
    (hg : alg = "gurobi" → Granular p) :
    ∃ cs vec, computeLexcc env (lexccSolver solve p a) p a = .ok cs ∧ (∀ A, LexccOpt p a.k A → coverageVector p a.k A = vec) ∧
      computeLexccVerbose env num solve p a = .ok
        (heading "lexcc" :: oneRemark a.resolute ++ [algorithmLine alg, detailsMsg "At-least-ell scores:".toList] ++
          (List.range a.k).map (fun i => atLeastLine num (i + 1) (vec.getD i 0)) ++ [winners p cs], cs) := by
  have hv := validCall_of_prologue hal
  have hans := C62_compute_lexcc env solve p hp a alg hal hsolve hg
  have hex : ∃ A, LexccOpt p a.k A := by
    obtain ⟨A, hA⟩ := exists_lexccLevel hv.le a.k
    exact ⟨A, (lexccOpt_iff p a.k A).2 hA⟩
  obtain ⟨cs, c, e, hget, hmem, hne, hall⟩ := answers_all hans hex hv.max
  have hlt : ∀ W ∈ cs, ∀ x ∈ W, x < p.numCand := fun W hW x hx =>
    Finset.mem_range.1 ((hall W hW).1.1.1 (List.mem_toFinset.2 hx))
  have hdet : ∃ vec, lexccDetailed solve alg p a = .ok (cs, vec) ∧ ∀ A, LexccOpt p a.k A → coverageVector p a.k A = vec := by
    have h : alg ∈ ["gurobi", "brute-force"] := prologue_alg_mem hal (ri := ⟨["gurobi", "brute-force"], resOpt⟩) rfl
    simp only [List.mem_cons, List.not_mem_nil, or_false] at h
    rcases h with rfl | rfl
    · obtain ⟨ds, vec, e', -, h3⟩ := C62_gurobi_lexcc hsolve p hp (hg rfl) a hv
      have : ds = cs := by
        unfold computeLexcc lexccSolver at e
        simp only [hal, bind, Except.bind] at e
        rw [if_neg (by decide), if_pos trivial, e'] at e
        exact Except.ok.inj e
      subst this
      refine ⟨vec, ?_, fun A hA => (h3 A hA).symm⟩
      unfold lexccDetailed
      rw [if_neg (by decide), if_pos rfl, e']
    · obtain ⟨-, ds, vec, e', h3⟩ := C23_lexcc_optimal env (lexccSolver solve p a) p hp a hal
      have : ds = cs := by
        unfold computeLexcc at e
        simp only [hal, bind, Except.bind] at e
        rw [if_pos trivial, e'] at e
        exact Except.ok.inj e
      subst this
      refine ⟨vec, ?_, h3⟩
      unfold lexccDetailed
      rw [if_pos rfl, e']
  obtain ⟨vec, hd, hvec⟩ := hdet
  refine ⟨cs, vec, e, hvec, ?_⟩
  have hlen : vec.length = a.k := by
    obtain ⟨A, hA⟩ := hex
    rw [← hvec A hA]
    simp [coverageVector]
  have hlines : vec.zipIdx.map (fun s => detailsMsg ("at-least-".toList ++ strNat (s.2 + 1) ++ ": ".toList ++ num s.1) " ".toList) =
      (List.range a.k).map (fun i => atLeastLine num (i + 1) (vec.getD i 0)) := by
    refine List.ext_getElem (by simp [hlen]) ?_
    intro i h1 h2
    have hi : i < vec.length := by simpa using h1
    rw [List.getElem_map, List.getElem_map, List.getElem_zipIdx, List.getElem_range]
    unfold atLeastLine
    rw [List.getD_eq_getElem?_getD, List.getElem?_eq_getElem hi, Nat.zero_add]
    rfl
  unfold computeLexccVerbose lexccReport
  simp only [bind, Except.bind, hal, hd, headMsgs_ok, algorithmMsg_titles (prologue_title hal), committeesMsg_ok hn hlt hne,
    remark_one, hlines]

/-- **C90** What Minimax AV prints: the smallest possible maximal distance, and for each committee the distances of the voters, one
committee per line. -/
theorem C90_minimaxav_report (env : Env) (solve : String → Program → SolveResult) (p : Profile) (hp : p.WF) (hn : Named p) (a : Args)
    (alg : String) (hal : prologue env "minimaxav" p a = .ok alg) (hsolve : ExactSolver (solve alg)) :
    ∃ cs d, computeMinimaxav env (minimaxavSolver solve p a) p a = .ok cs ∧
      (∃ A, IsCommittee p a.k A ∧ ∀ v ∈ p.voters, dist v A ≤ d) ∧ (∀ A, IsCommittee p a.k A → ∃ v ∈ p.voters, d ≤ dist v A) ∧
      computeMinimaxavVerbose env (minimaxavSolver solve p a) p a = .ok
        (heading "minimaxav" :: oneRemark a.resolute ++
          [algorithmLine alg, winners p cs, detailsMsg ("Minimum maximal distance: ".toList ++ strNat d),
           detailsMsg ("Corresponding distances to voters:\n".toList ++
             cs.flatMap (fun W => distancesLine p W.toFinset ++ "\n".toList))], cs) := by
  have hv := validCall_of_prologue hal
  have hans := C62_compute_minimaxav env solve p hp a alg hal hsolve
  have hex : ∃ A, MinimaxavOpt p a.k A := by
    obtain ⟨A, hA⟩ := exists_opt hv.le (fun A => -(mmScore p A : ℚ))
    exact ⟨A, (minimaxavOpt_iff p hp a.k A).2 hA⟩
  obtain ⟨cs, c, e, hget, hmem, hne, hall⟩ := answers_all hans hex hv.max
  have hlt : ∀ W ∈ cs, ∀ x ∈ W, x < p.numCand := fun W hW x hx =>
    Finset.mem_range.1 ((hall W hW).1.1.1 (List.mem_toFinset.2 hx))
  have hc := hall c hmem
  refine ⟨cs, minimaxavScore p c, e, ⟨c.toFinset, hc.1.1, ?_⟩, ?_, ?_⟩
  · rw [mmScore_list hc.2]; exact (mmScore_le p hp _ _).1 le_rfl
  · intro A hA
    by_contra hcon
    push Not at hcon
    obtain ⟨v, hvm⟩ := List.exists_mem_of_ne_nil _ hv.voters
    have hpos : 0 < minimaxavScore p c := lt_of_le_of_lt (Nat.zero_le _) (hcon v hvm)
    have h1 := hc.1.2 A hA (minimaxavScore p c - 1) (fun v hv => by have := hcon v hv; omega)
    have h2 := (mmScore_le p hp _ _).2 h1
    rw [← mmScore_list hc.2] at h2
    omega
  · have hd : cs.flatMap (fun W => distancesText p W ++ "\n".toList) = cs.flatMap (fun W => distancesLine p W.toFinset ++ "\n".toList) :=
      List.flatMap_congr fun W hW => by rw [distancesText_eq hp (nodup_of_lt (hall W hW).2)]
    unfold computeMinimaxavVerbose minimaxavReport
    simp only [bind, Except.bind, hal, e, headMsgs_ok, algorithmMsg_titles (prologue_title hal), hget, committeesMsg_ok hn hlt hne,
      remark_one, hd]

/-- **C90** What lex-Minimax-AV prints (unit weights): the smallest possible maximal distance, and the distances of the voters for each
committee — for several committees without separation. -/
theorem C90_lexminimaxav_report (env : Env) (solve : String → Program → SolveResult) (p : Profile) (hp : p.WF) (hn : Named p) (a : Args)
    (alg : String) (hal : prologue env "lexminimaxav" p a = .ok alg) (hsolve : ExactSolver (solve alg))
    (hu : ∀ v ∈ p.voters, v.weight = 1) :
    ∃ cs d, computeLexminimaxav env (lexminimaxavSolver solve p a) p a = .ok cs ∧
      (∃ A, IsCommittee p a.k A ∧ ∀ v ∈ p.voters, dist v A ≤ d) ∧ (∀ A, IsCommittee p a.k A → ∃ v ∈ p.voters, d ≤ dist v A) ∧
      computeLexminimaxavVerbose env solve p a = .ok
        (heading "lexminimaxav" :: oneRemark a.resolute ++
          [algorithmLine alg, winners p cs, detailsMsg ("Minimum maximal distance: ".toList ++ strNat d),
           detailsMsg ("Corresponding distances to voters:\n".toList ++ cs.flatMap (fun W => distancesLine p W.toFinset) ++
             "\n".toList)], cs) := by
  have hv := validCall_of_prologue hal
  have hans := C62_compute_lexminimaxav env solve p hp a alg hal hsolve
  rw [if_pos hu] at hans
  have hunit : p.hasUnitWeights = true := by
    unfold Profile.hasUnitWeights
    simpa using hu
  have hex : ∃ A, LexminimaxavOpt p a.k A := by
    obtain ⟨cs, vec, -, h, -⟩ := lexminimaxavBrute_spec p hp { a with resolute := true, max := none }
      ⟨hv.pos, hv.le, hv.voters, by simp, by simp⟩
    obtain ⟨W, -, -, h⟩ := h
    exact ⟨_, h⟩
  obtain ⟨cs, c, e, hget, hmem, hne, hall⟩ := answers_all hans hex hv.max
  have hlt : ∀ W ∈ cs, ∀ x ∈ W, x < p.numCand := fun W hW x hx =>
    Finset.mem_range.1 ((hall W hW).1.1.1 (List.mem_toFinset.2 hx))
  have hc := hall c hmem
  have hdet : ∃ vec : List ℕ, lexminimaxavDetailed solve alg p a = .ok (cs, vec) ∧ vec.Perm (p.voters.map (fun v => dist v c.toFinset)) := by
    have h : alg ∈ ["gurobi", "brute-force"] := prologue_alg_mem hal (ri := ⟨["gurobi", "brute-force"], resOpt⟩) rfl
    simp only [List.mem_cons, List.not_mem_nil, or_false] at h
    rcases h with rfl | rfl
    · have e' : gurobiLexminimaxav (solve "gurobi") p a.k a.resolute a.maxNum = .ok cs := by
        unfold computeLexminimaxav lexminimaxavSolver at e
        simp only [hal, bind, Except.bind, hunit, not_true_eq_false, if_false] at e
        rwa [if_neg (by decide), if_pos trivial] at e
      refine ⟨p.voters.map (fun v => hamming v.approved c), ?_, ?_⟩
      · unfold lexminimaxavDetailed
        rw [if_neg (by decide), if_pos rfl]
        simp only [bind, Except.bind, e', hget]
      · refine List.Perm.of_eq (List.map_congr_left fun v hvm => ?_)
        exact hamming_dist v (hp.nodup v hvm) c (nodup_of_lt hc.2)
    · obtain ⟨ds, vec, e', -, h3⟩ := lexminimaxavBrute_spec p hp a hv
      have : ds = cs := by
        unfold computeLexminimaxav at e
        simp only [hal, bind, Except.bind, hunit, not_true_eq_false, if_false] at e
        rw [if_pos trivial, e'] at e
        exact Except.ok.inj e
      subst this
      refine ⟨vec, ?_, ?_⟩
      · unfold lexminimaxavDetailed
        rw [if_pos rfl, e']
      · rw [← h3 _ hc.1]
        unfold distVector
        rw [← Multiset.coe_eq_coe, Multiset.sort_eq]
  obtain ⟨vec, hd, hperm⟩ := hdet
  have hvne : vec ≠ [] := by
    intro h
    have := hperm.length_eq
    rw [h, List.length_map] at this
    exact hv.voters (List.length_eq_zero_iff.1 this.symm)
  obtain ⟨d, hmax, hdm, hle⟩ := pyMaxNat_ok hvne
  have hdle : ∀ v ∈ p.voters, dist v c.toFinset ≤ d := fun v hvm =>
    hle _ (hperm.mem_iff.2 (List.mem_map_of_mem hvm))
  obtain ⟨v₀, hv₀, hd₀⟩ := List.mem_map.1 (hperm.mem_iff.1 hdm)
  refine ⟨cs, d, e, ⟨c.toFinset, hc.1.1, hdle⟩, ?_, ?_⟩
  · intro A hA
    by_contra hcon
    push Not at hcon
    -- then the first entry of the vector of `A` would be smaller
    refine hc.1.2 A hA ?_
    have hA' : ∀ x ∈ distVector p A, x < d := by
      intro x hx
      obtain ⟨v, hvm, rfl⟩ := mem_distVector hx
      exact hcon v hvm
    have hAl := length_distVector p A
    have hcl := length_distVector p c.toFinset
    have hhead : d ∈ distVector p c.toFinset := by
      unfold distVector
      rw [Multiset.mem_sort]
      exact List.mem_map.2 ⟨v₀, hv₀, hd₀⟩
    have hpw : (distVector p c.toFinset).Pairwise (· ≥ ·) := Multiset.pairwise_sort _ _
    cases hx : distVector p A with
    | nil => rw [hx] at hAl; exact absurd (List.length_eq_zero_iff.1 hAl.symm) hv.voters
    | cons x xs =>
      cases hy : distVector p c.toFinset with
      | nil => rw [hy] at hhead; cases hhead
      | cons y ys =>
        refine List.Lex.rel ?_
        rw [hy] at hhead hpw
        have h1 : d ≤ y := by
          rcases List.mem_cons.1 hhead with h | h
          · exact h.le
          · exact List.rel_of_pairwise_cons hpw h
        exact lt_of_lt_of_le (hA' x (by rw [hx]; simp)) h1
  · have hdt : cs.flatMap (distancesText p) = cs.flatMap (fun W => distancesLine p W.toFinset) :=
      List.flatMap_congr fun W hW => distancesText_eq hp (nodup_of_lt (hall W hW).2)
    unfold computeLexminimaxavVerbose lexminimaxavReport
    simp only [bind, Except.bind, hal, hunit, not_true_eq_false, if_false, hd, headMsgs_ok, algorithmMsg_titles (prologue_title hal),
      committeesMsg_ok hn hlt hne, hmax, remark_one, hdt]

/-- **C90** What Monroe's rule prints (unit weights): the largest number of voters that a balanced assignment to any committee of size `k`
can represent. -/
theorem C90_monroe_report (env : Env) (matching : List MEdge → List MEdge) (hmat : ExactMatching matching)
    (minCost : FlowNet → Except Err ℕ) (hmin : ExactMinCost minCost) (solve : String → Program → SolveResult) (p : Profile)
    (hn : Named p) (a : Args) (alg : String) (hal : prologue env "monroe" p a = .ok alg) (hsolve : ExactSolver (solve alg))
    (hu : p.hasUnitWeights = true) :
    ∃ cs m, computeMonroe env matching minCost (monroeSolver solve matching minCost p a) p a = .ok cs ∧
      IsGreatest {y | ∃ A φ, IsCommittee p a.k A ∧ Balanced p A φ ∧ y = represented p φ} m ∧
      computeMonroeVerbose env matching minCost (monroeSolver solve matching minCost p a) p a = .ok
        (heading "monroe" :: oneRemark a.resolute ++
          [algorithmLine alg, detailsMsg ("Optimal Monroe score: ".toList ++ strNat m ++ "\n".toList), winners p cs], cs) := by
  have hv := validCall_of_prologue hal
  have hans := (C62_compute_monroe env matching hmat minCost hmin solve p a alg hal hsolve).1 hu
  have hex : ∃ A, MonroeOpt p a.k A := by
    obtain ⟨A, hA⟩ := exists_opt hv.le (monroeValue p)
    exact ⟨A, (monroeOpt_iff p hv.pos A).2 hA⟩
  obtain ⟨cs, c, e, hget, hmem, hne, hall⟩ := answers_all hans hex hv.max
  have hlt : ∀ W ∈ cs, ∀ x ∈ W, x < p.numCand := fun W hW x hx =>
    Finset.mem_range.1 ((hall W hW).1.1.1 (List.mem_toFinset.2 hx))
  have hc := hall c hmem
  have hcne : c ≠ [] := by
    rintro rfl
    have := hc.1.1.2
    have := hv.pos
    simp at *
    omega
  obtain ⟨m, hm, hsc⟩ := C17_monroescore matching hmat minCost hmin p c (nodup_of_lt hc.2) hcne
  refine ⟨cs, m, e, ⟨?_, ?_⟩, ?_⟩
  · obtain ⟨φ, h1, h2⟩ := hsc.1
    exact ⟨c.toFinset, φ, hc.1.1, h1, h2.symm⟩
  · rintro y ⟨A, ψ, hA, hψ, rfl⟩
    obtain ⟨φ, hφ, hbest⟩ := hc.1.2
    exact (hbest A ψ hA hψ).trans (hsc.2 φ hφ)
  · have hm' : strInt (m : ℤ) = strNat m := by
      unfold strInt
      rw [if_neg (by omega)]
      rfl
    unfold computeMonroeVerbose monroeReport
    simp only [bind, Except.bind, hal, e, headMsgs_ok, algorithmMsg_titles (prologue_title hal), hget, hm, committeesMsg_ok hn hlt hne,
      remark_one, hm']

/-! ## Rules without further details -/

theorem plainVerbose_ok {env : Env} {ruleId : String} {r : Remark} {raw : String → Except Err (List (List ℕ))} {sort resolute : Bool}
    {p : Profile} {a : Args} {alg : String} (hn : Named p) (hal : prologue env ruleId p a = .ok alg) {cs ds : List (List ℕ)}
    (hraw : raw alg = .ok cs) (hs : if sort then sortedCommittees cs = .ok ds else cs = ds) (hne : ds ≠ [])
    (hlt : ∀ W ∈ ds, ∀ c ∈ W, c < p.numCand) :
    plainVerbose env ruleId r raw sort resolute p a = .ok
      (heading ruleId :: r.msgs resolute ++ [algorithmLine alg, winners p cs], ds) := by
  have key : cs ≠ [] ∧ ∀ W ∈ cs, ∀ c ∈ W, c < p.numCand := by
    cases sort with
    | false =>
      rw [if_neg (by simp)] at hs
      rw [hs]; exact ⟨hne, hlt⟩
    | true =>
      rw [if_pos rfl] at hs
      have hnd : ∀ W ∈ cs, W.Nodup := by
        intro W hW
        by_contra hn
        unfold sortedCommittees at hs
        rw [mapM_mkSet_error hW hn] at hs
        cases hs
      rw [sortedCommittees_ok hnd] at hs
      have he := Except.ok.inj hs
      refine ⟨?_, ?_⟩
      · rintro rfl
        exact hne (by rw [← he]; rfl)
      · intro W hW c hc
        refine hlt (sortNat W) ?_ c ((sortNat_perm W).mem_iff.2 hc)
        rw [← he, List.mem_insertionSort]
        exact List.mem_map_of_mem hW
  unfold plainVerbose plainReport
  simp only [bind, Except.bind, hal, hraw, headMsgs_ok, algorithmMsg_titles (prologue_title hal), committeesMsg_ok hn key.2 key.1]
  cases sort with
  | false =>
    rw [if_neg (by simp)] at hs ⊢
    rw [hs]
  | true =>
    rw [if_pos rfl] at hs
    rw [if_pos rfl, hs]

/-- **C90** minimax-Phragmén, leximax-Phragmén, Eneström–Phragmén and the consensus rule print the heading, the remark, the algorithm and
the committees they return, whatever the algorithm (provided that valid committees are returned). -/
theorem C90_plain_report (env : Env) (solve : String → Program → SolveResult) (float : Except Err (List (List ℕ))) (p : Profile)
    (hn : Named p) (a : Args) (alg : String) (ds : List (List ℕ)) (hne : ds ≠ []) (hlt : ∀ W ∈ ds, ∀ c ∈ W, c < p.numCand) :
    (prologue env "minimaxphragmen" p a = .ok alg → computeMinimaxphragmen env solve p a = .ok ds →
      computeMinimaxphragmenVerbose env solve p a = .ok
        (heading "minimaxphragmen" :: oneRemark a.resolute ++ [algorithmLine alg, winners p ds], ds)) ∧
    (prologue env "leximaxphragmen" p a = .ok alg → ∀ lex, computeLeximaxphragmen env solve p a lex = .ok ds →
      computeLeximaxphragmenVerbose env solve p a lex = .ok
        (heading "leximaxphragmen" :: oneRemark (a.resolute && !lex) ++ [algorithmLine alg, winners p ds], ds)) ∧
    (prologue env "phragmen-enestroem" p a = .ok alg → computeEnestroem env float p a = .ok ds →
      computeEnestroemVerbose env float p a = .ok
        (heading "phragmen-enestroem" :: allRemark a.resolute ++ [algorithmLine alg, winners p ds], ds)) ∧
    (prologue env "consensus-rule" p a = .ok alg → computeConsensus env float p a = .ok ds →
      computeConsensusVerbose env float p a = .ok
        (heading "consensus-rule" :: allRemark a.resolute ++ [algorithmLine alg, winners p ds], ds)) := by
  refine ⟨fun h e => ?_, fun h lex e => ?_, fun h e => ?_, fun h e => ?_⟩
  · rw [← remark_one]; exact plainVerbose_ok hn h e (by rfl) hne hlt
  · have : (if lex then false else a.resolute) = (a.resolute && !lex) := by cases lex <;> simp
    unfold computeLeximaxphragmenVerbose
    rw [← remark_one, this]
    exact plainVerbose_ok hn h e (by rfl) hne hlt
  · rw [← remark_all]; exact plainVerbose_ok hn h e (by rfl) hne hlt
  · rw [← remark_all]; exact plainVerbose_ok hn h e (by rfl) hne hlt

/-- **C90** The trivial rule, RSD and EPH print the committees they return, possibly in a different order. -/
theorem C90_sorted_report (env : Env) (shuffle : List (List ℕ) → List (List ℕ)) (sample : List ℕ → ℕ → List ℕ)
    (float : Except Err (List (List ℕ))) (iter : List ℕ) (p : Profile) (hn : Named p) (a : Args) (alg : String) (ds : List (List ℕ))
    (hne : ds ≠ []) (hlt : ∀ W ∈ ds, ∀ c ∈ W, c < p.numCand) :
    (prologue env "trivial" p a = .ok alg → computeTrivial env p a = .ok ds → ∃ cs, sortedCommittees cs = .ok ds ∧
      computeTrivialVerbose env p a = .ok
        (heading "trivial" :: oneRemark a.resolute ++ [algorithmLine alg, winners p cs], ds)) ∧
    (prologue env "rsd" p a = .ok alg → computeRsd env shuffle sample p a = .ok ds → ∃ cs, sortedCommittees cs = .ok ds ∧
      computeRsdVerbose env shuffle sample p a = .ok (heading "rsd" :: [algorithmLine alg, winners p cs], ds)) ∧
    (prologue env "eph" p a = .ok alg → computeEph env float iter p a = .ok ds → ∃ cs, sortedCommittees cs = .ok ds ∧
      computeEphVerbose env float iter p a = .ok
        (heading "eph" :: oneRemark a.resolute ++ [algorithmLine alg, winners p cs], ds)) := by
  refine ⟨fun h e => ?_, fun h e => ?_, fun h e => ?_⟩
  · unfold computeTrivial at e
    simp only [bind, Except.bind, h] at e
    split at e
    · rename_i halg
      cases hm : List.mapM mkSet (if a.resolute = true then [List.range a.k] else truncate a.maxNum (combinations p.candidates a.k)) with
      | error x => rw [hm] at e; cases e
      | ok cs =>
        rw [hm] at e
        refine ⟨cs, e, ?_⟩
        rw [← remark_one]
        refine plainVerbose_ok hn h ?_ (by rw [if_pos rfl]; exact e) hne hlt
        rw [if_pos halg, hm]
    · cases e
  · unfold computeRsd at e
    simp only [bind, Except.bind, h] at e
    split at e
    · cases e
    · rename_i hu
      split at e
      · rename_i halg
        refine ⟨_, e, ?_⟩
        refine plainVerbose_ok (r := .nothing) hn h ?_ (by rw [if_pos rfl]; exact e) hne hlt
        rw [if_neg hu, if_pos halg]
      · cases e
  · unfold computeEph at e
    simp only [bind, Except.bind, h] at e
    cases hm : withFractions env alg float (ephLoop p a.k a.effMax (p.numCand + 1) iter) with
    | error x => rw [hm] at e; cases e
    | ok cs =>
      rw [hm] at e
      refine ⟨cs, e, ?_⟩
      rw [← remark_one]
      exact plainVerbose_ok hn h hm (by rw [if_pos rfl]; exact e) hne hlt

/-- Finding: with `lexicographic_tiebreaking=True` leximax-Phragmén does not print the remark for resolute calls. -/
theorem C90_leximax_remark (env : Env) (solve : String → Program → SolveResult) (p : Profile) (hn : Named p) (a : Args) (alg : String)
    (hal : prologue env "leximaxphragmen" p a = .ok alg) (ds : List (List ℕ)) (hne : ds ≠ []) (hlt : ∀ W ∈ ds, ∀ c ∈ W, c < p.numCand)
    (h : computeLeximaxphragmen env solve p a true = .ok ds) :
    computeLeximaxphragmenVerbose env solve p a true = .ok ([heading "leximaxphragmen", algorithmLine alg, winners p ds], ds) := by
  have := (C90_plain_report env solve (.ok []) p hn a alg ds hne hlt).2.1 hal true h
  rw [this]
  simp [oneRemark]

/-! ## Examples -/

/-- Two voters with two best committees. -/
def reportDistances : Profile := ⟨3, [⟨[0, 1], 1⟩, ⟨[1, 2], 1⟩], ["a".toList, "b".toList, "c".toList]⟩

/-- Non-vacuity; the lists of the two committees are not separated. -/
example : reportDistances.WF ∧ Named reportDistances ∧
    prologue exampleEnv "lexminimaxav" reportDistances { committeesize := 2, algorithm := "brute-force", resolute := false }
      = .ok "brute-force" ∧
    ((computeLexminimaxavVerbose exampleEnv (fun _ _ => .other) reportDistances
      { committeesize := 2, algorithm := "brute-force", resolute := false }).map (fun r => r.1.map (fun m => String.ofList m.text))) =
      .ok ["-----------------------------------------------\nLexicographic Minimax Approval Voting (lex-MAV)\n-----------------------------------------------\n",
        "Algorithm: brute-force\n", "2 winning committees:\n {a, b}\n {b, c}\n", "Minimum maximal distance: 2",
        "Corresponding distances to voters:\n[0, 2][2, 0]\n"] ∧
    ((computeMinimaxavVerbose exampleEnv (fun _ => .error .importError) reportDistances
      { committeesize := 2, algorithm := "brute-force", resolute := false }).map (fun r => (r.1.drop 1).map (fun m => String.ofList m.text))) =
      .ok ["Algorithm: brute-force\n", "3 winning committees:\n {a, b}\n {a, c}\n {b, c}\n", "Minimum maximal distance: 2",
        "Corresponding distances to voters:\n[0, 2]\n[2, 2]\n[2, 0]\n"] ∧
    ((computeLexccVerbose exampleEnv (fun q => strNat q.num.natAbs) (fun _ _ => .other) reportDistances
      { committeesize := 2, algorithm := "brute-force", resolute := true }).map (fun r => (r.1.drop 1).map (fun m => String.ofList m.text))) =
      .ok ["Computing only one winning committee (resolute=True)\n", "Algorithm: brute-force\n", "At-least-ell scores:",
        "at-least-1: 2", "at-least-2: 1", "1 winning committee:\n {a, b}\n"] ∧
    ((computeThieleVerbose exampleEnv (fun q => strNat q.num.natAbs) "cc" (fun _ => .error .importError) reportDistances
      { committeesize := 1, algorithm := "brute-force", resolute := true }).map (fun r => (r.1.drop 1).map (fun m => String.ofList m.text))) =
      .ok ["Computing only one winning committee (resolute=True)\n", "Algorithm: brute-force\n", "Optimal CC-score: 2\n",
        "1 winning committee:\n {b}\n"] := by
  exact ⟨by constructor <;> simp [reportDistances], rfl, by decide +kernel, by decide +kernel, by decide +kernel, by decide +kernel,
    by decide +kernel⟩

end Abc
