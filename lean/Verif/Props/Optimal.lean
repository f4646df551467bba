import Verif.Lemmas.Answers
import Verif.Props.Scores

/-!
# C21, C23, C24, C25, C42: the brute-force optimisation rules
-/

namespace Abc
open Spec

/-! ## C21 -/

theorem score_nonneg (f : ℕ → ℚ) (hf : ∀ i, 0 ≤ f i) (p : Profile) (hp : p.WF) (W : Finset ℕ) : 0 ≤ score f p W := by
  unfold score
  refine List.sum_nonneg ?_
  intro x hx
  obtain ⟨v, hv, rfl⟩ := List.mem_map.1 hx
  exact mul_nonneg (hp.weight v hv).le (Finset.sum_nonneg (fun i _ => hf _))

theorem bruteThieleStep_irresolute (f : ℕ → ℚ) (p : Profile) :
    bruteThieleStep f p false = bestStep (· > ·) (thieleScore f p) := by
  funext st c
  unfold bruteThieleStep bestStep
  simp

theorem bruteThiele_resolute (f : ℕ → ℚ) (p : Profile) (l : List (List ℕ)) (h : ∀ W ∈ l, thieleScore f p W ≠ -1) :
    let st := l.foldl (bestStep (· > ·) (thieleScore f p)) ([], -1)
    l.foldl (bruteThieleStep f p true) ([], -1) = (st.1.take 1, st.2) ∧ (st.1 = [] → st.2 = -1) := by
  induction l using List.reverseRecOn with
  | nil => simp
  | append_singleton l c ih =>
    obtain ⟨h1, h2⟩ := ih (fun W hW => h W (by simp [hW]))
    simp only [List.foldl_append, List.foldl_cons, List.foldl_nil, h1]
    set st := l.foldl (bestStep (· > ·) (thieleScore f p)) ([], -1) with hst
    unfold bruteThieleStep bestStep
    by_cases hr : thieleScore f p c > st.2
    · simp [hr]
    · simp only [hr, if_false]
      by_cases he : thieleScore f p c = st.2
      · have hne : st.1 ≠ [] := by
          intro h0
          exact h c (by simp) (he.trans (h2 h0))
        obtain ⟨x, xs, hx, -⟩ := pyGet_zero_of_ne_nil hne
        simp [he, hx]
      · simp only [he, if_false]
        exact ⟨trivial, h2⟩

theorem thieleBruteforce_answers (f : ℕ → ℚ) (hf : ∀ i, 0 ≤ f i) (p : Profile) (hp : p.WF) (a : Args)
    (hv : ValidCall p a) :
    Answers a (thieleBruteforce f p a.k a.resolute a.maxNum) (ThieleOpt f p a.k) ∧
      ∀ cs, thieleBruteforce f p a.k a.resolute a.maxNum = .ok cs → cs ≠ [] := by
  have hge : ∀ W : List ℕ, 0 ≤ thieleScore f p W := fun W => by
    rw [thieleScore_eq]; exact score_nonneg f hf p hp _
  obtain ⟨out, h1, h2, h3, h4, -⟩ := bruteBest (· > ·) (fun a => lt_irrefl a) (fun a b c h h' => lt_trans h' h)
    (fun a b => (lt_trichotomy b a).imp id (Or.imp Eq.symm id)) p a.k hv.le (thieleScore f p) (score f p)
    (fun W _ => thieleScore_eq f p W) (-1) (fun W _ => Or.inl (by have := hge W; linarith)) (ThieleOpt f p a.k)
    (fun A => by simp [ThieleOpt])
  cases hr : a.resolute with
  | false =>
    have hfin := finishA hv h1 h4
    have : thieleBruteforce f p a.k false a.maxNum = .ok (finalList a out) := by
      rw [← hfin]
      unfold thieleBruteforce
      rw [bruteThieleStep_irresolute]
      simp [hr]
    rw [this]
    exact ⟨answers_finalList h2 h3 h4, by rintro cs h; rw [← Except.ok.inj h]; exact finalList_ne_nil hv h4⟩
  | true =>
    have hmax : a.maxNum = none := by simp [Args.maxNum, hv.excl hr]
    set l := combinations p.candidates a.k with hl
    set st := l.foldl (bestStep (· > ·) (thieleScore f p)) ([], -1) with hst
    have hbr := (bruteThiele_resolute f p l (fun W _ => by have := hge W; linarith)).1
    rw [← hst] at hbr
    obtain ⟨out', g1, g2, g3⟩ := sortedCommittees_of_lt (cs := st.1)
      (fun W hW => combinations_lt ((bestFold_sublist (· > ·) (thieleScore f p) (fun a => lt_irrefl a)
        (fun a b c h h' => lt_trans h' h) (fun a b => (lt_trichotomy b a).imp id (Or.imp Eq.symm id)) (-1) l).subset hW))
      ((bestFold_sublist (· > ·) (thieleScore f p) (fun a => lt_irrefl a)
        (fun a b c h h' => lt_trans h' h) (fun a b => (lt_trichotomy b a).imp id (Or.imp Eq.symm id)) (-1) l).nodup
          (combinations_nodup List.nodup_range _))
    rw [h1] at g1
    obtain rfl := Except.ok.inj g1
    have hne : st.1 ≠ [] := by
      intro h0
      rw [h0] at g3
      exact h4 g3.eq_nil
    obtain ⟨x, xs, hx, -⟩ := pyGet_zero_of_ne_nil hne
    have hxout : x ∈ out := g3.mem_iff.2 (by rw [hx]; simp)
    have hxlt := h2.asc x hxout
    obtain ⟨o, o1, o2, o3⟩ := sortedCommittees_of_lt (cs := [x]) (by simpa using hxlt) (by simp)
    obtain rfl : o = [x] := by simpa using o3
    have : thieleBruteforce f p a.k true a.maxNum = .ok [x] := by
      unfold thieleBruteforce
      rw [← hl, hbr, hx, hmax]
      simp [o1, bind, Except.bind, truncate, pyGet]
    rw [this]
    refine ⟨?_, by rintro cs h; rw [← Except.ok.inj h]; simp⟩
    unfold Answers
    rw [hr]
    exact ⟨x, rfl, hxlt, (h3 _).1 ⟨x, hxout, rfl⟩⟩

/-- C21: brute-force Thiele methods return exactly the committees of maximal Thiele score (one of them if resolute,
`min n` of them with `max_num_of_committees = n`), for every score id with a non-negative marginal function. -/
theorem C21_bruteforce_optimal (env : Env) (sid : String) (s : ScoreId) (solver : Solver) (p : Profile) (hp : p.WF) (a : Args)
    (hal : prologue env sid p a = .ok "brute-force") (hsid : env.scoreId sid = .ok s)
    (hf : ∀ i, 0 ≤ marginalFct s i) :
    Answers a (computeThieleMethod env sid solver p a) (ThieleOpt (marginalFct s) p a.k) := by
  have hv := validCall_of_prologue hal
  obtain ⟨h1, h2⟩ := thieleBruteforce_answers (marginalFct s) hf p hp a hv
  have : computeThieleMethod env sid solver p a = thieleBruteforce (marginalFct s) p a.k a.resolute a.maxNum := by
    unfold computeThieleMethod
    rw [hal, hsid]
    simp only [bind, Except.bind]
    rw [if_neg (by decide), if_pos trivial]
    cases hb : thieleBruteforce (marginalFct s) p a.k a.resolute a.maxNum with
    | error e => rfl
    | ok cs =>
      obtain ⟨x, xs, rfl, h⟩ := pyGet_zero_of_ne_nil (h2 cs hb)
      simp [h]
  rw [this]
  exact h1

/-- The marginal functions of all predefined score ids are non-negative (for `geom`, base > 0). -/
theorem marginalFct_nonneg (s : ScoreId) (h : ∀ b, s = .geom b → 0 < b) (i : ℕ) : 0 ≤ marginalFct s i := by
  cases s with
  | pav => simp only [marginalFct]; split <;> positivity
  | slav =>
    simp only [marginalFct]
    split
    · rfl
    · rename_i hi
      have : (1 : ℚ) ≤ i := by exact_mod_cast Nat.one_le_iff_ne_zero.2 hi
      exact div_nonneg zero_le_one (by linarith)
  | cc => simp only [marginalFct]; split <;> norm_num
  | av => simp only [marginalFct]; split <;> norm_num
  | geom b =>
    have := h b rfl
    simp only [marginalFct]; split <;> positivity
  | atleast l => simp only [marginalFct]; split <;> norm_num

/-- Non-vacuity: the hypotheses of C21 hold for PAV on a concrete profile; the result has two tied committees. -/
example : prologue exampleEnv "pav" exampleProfile { committeesize := 2, algorithm := "brute-force", resolute := false }
      = .ok "brute-force" ∧ exampleEnv.scoreId "pav" = .ok .pav ∧
    computeThieleMethod exampleEnv "pav" (fun _ => .error .importError) exampleProfile
      { committeesize := 2, algorithm := "brute-force", resolute := false } = .ok [[1, 2]] := by decide +kernel

theorem exampleProfile_wf : exampleProfile.WF :=
  ⟨by decide, by decide, by decide, by decide +kernel⟩

/-! ## C24 -/

theorem minimaxavScore_le_iff (p : Profile) (hp : p.WF) (W : List ℕ) (hW : W.Nodup) (d : ℕ) :
    minimaxavScore p W ≤ d ↔ ∀ v ∈ p.voters, dist v W.toFinset ≤ d := by
  obtain ⟨h1, h2, h3⟩ := C18_minimaxavScore p hp W hW
  constructor
  · intro h v hv
    exact (h1 v hv).trans h
  · intro h
    by_cases hvs : p.voters = []
    · rw [h2 hvs]; omega
    · obtain ⟨v, hv, he⟩ := h3 hvs
      rw [← he]
      exact h v hv

theorem dist_le_numCand (p : Profile) (hp : p.WF) (k : ℕ) (W : Finset ℕ) (hW : IsCommittee p k W) (v : Voter)
    (hv : v ∈ p.voters) : dist v W ≤ p.numCand := by
  unfold dist
  rw [show p.numCand = (Finset.range p.numCand).card by simp]
  refine Finset.card_le_card ?_
  intro c hc
  rw [Finset.mem_symmDiff] at hc
  rcases hc with ⟨hc, _⟩ | ⟨hc, _⟩
  · have := hp.lt v hv c (by simpa [Voter.A] using hc)
    simpa using this
  · exact hW.1 hc

/-- The set-level minimax score used to instantiate the generic brute-force lemma. -/
noncomputable def mmScore (p : Profile) (W : Finset ℕ) : ℕ := minimaxavScore p (sortNat W.toList)

/-- C24: Minimax AV by brute force returns exactly the committees minimising the maximal Hamming distance. -/
theorem C24_minimaxav_optimal (env : Env) (solver : Solver) (p : Profile) (hp : p.WF) (a : Args)
    (hal : prologue env "minimaxav" p a = .ok "brute-force") :
    Answers a (computeMinimaxav env solver p a) (MinimaxavOpt p a.k) := by
  have hv := validCall_of_prologue hal
  have hmm : ∀ W ∈ combinations p.candidates a.k, minimaxavScore p W = mmScore p W.toFinset := by
    intro W hW
    have hlt := combinations_lt hW
    unfold mmScore
    congr 1
    refine eq_of_lt_toFinset hlt (sortNat_lt (Finset.nodup_toList _)) ?_
    simp [sortNat_toFinset]
  have hle : ∀ (W : Finset ℕ) (d : ℕ), mmScore p W ≤ d ↔ ∀ v ∈ p.voters, dist v W ≤ d := by
    intro W d
    unfold mmScore
    rw [minimaxavScore_le_iff p hp _ (sortNat_nodup.2 (Finset.nodup_toList _))]
    simp [sortNat_toFinset]
  obtain ⟨out, h1, h2, h3, h4, -⟩ := bruteBest (· < ·) (fun a => lt_irrefl a) (fun a b c h h' => lt_trans h h')
    lt_trichotomy p a.k hv.le (minimaxavScore p) (mmScore p) hmm (p.numCand + 1)
    (fun W hW => Or.inl (by
      rw [hmm W hW, Nat.lt_succ_iff, hle]
      intro v hv
      exact dist_le_numCand p hp a.k _ ((isCommittee_iff_combinations p a.k _).2 ⟨W, hW, rfl⟩) v hv))
    (MinimaxavOpt p a.k)
    (fun A => by
      unfold MinimaxavOpt
      refine and_congr_right ?_
      intro hA
      refine forall_congr' fun B => forall_congr' fun hB => ?_
      rw [not_lt]
      constructor
      · intro h
        exact (hle A _).2 (h _ ((hle B _).1 le_rfl))
      · intro h d hd
        exact (hle A d).1 (h.trans ((hle B d).2 hd)))
  have hstep : minimaxavStep p = bestStep (· < ·) (minimaxavScore p) := by
    funext st c; rfl
  obtain ⟨x, g1, -⟩ := finalList_get hv h4
  have : computeMinimaxav env solver p a = .ok (finalList a out) := by
    unfold computeMinimaxav minimaxavBruteforce
    rw [hal, hstep]
    simp only [bind, Except.bind, if_true, h1]
    rcases finishB hv h4 with ⟨hr, y, ys, -, hy, he⟩ | ⟨hr, he⟩
    · simp [hr, hy, he, g1]
    · simp [hr, he, g1]
  rw [this]
  exact answers_finalList h2 h3 h4

example : computeMinimaxav exampleEnv (fun _ => .error .importError) exampleProfile
    { committeesize := 2, algorithm := "brute-force", resolute := false } = .ok [[0, 1], [0, 2], [1, 2]] := by
  decide +kernel

/-! ## lexicographic comparison -/

theorem cmpVec_eq {α : Type} [LinearOrder α] {o n : List α} (h : o.length = n.length) :
    cmpVec o n = (if n < o then .gt else if o < n then .lt else .eq) ∧ (cmpVec o n = .eq ↔ o = n) := by
  induction o generalizing n with
  | nil =>
    have : n = [] := by simpa using h.symm
    subst this
    simp [cmpVec]
  | cons x xs ih =>
    cases n with
    | nil => simp at h
    | cons y ys =>
      have ih := ih (n := ys) (by simpa using h)
      unfold cmpVec
      by_cases h1 : y < x
      · have : (y :: ys) < (x :: xs) := List.Lex.rel h1
        simp [h1, this, h1.ne']
      · by_cases h2 : x < y
        · have h3 : (x :: xs) < (y :: ys) := List.Lex.rel h2
          have h4 : ¬ (y :: ys) < (x :: xs) := not_lt_of_gt h3
          simp [h1, h2, h3, h4, h2.ne]
        · obtain rfl : x = y := le_antisymm (not_lt.1 h1) (not_lt.1 h2)
          have e : ∀ {l l' : List α}, (x :: l) < (x :: l') ↔ l < l' := by
            intro l l'
            exact List.lex_cons_iff
          simp only [lt_irrefl, if_false, e, List.cons.injEq, true_and]
          exact ih

theorem lexFold {β : Type} [LinearOrder β] (g : List ℕ → List β) (n : ℕ) (l : List (List ℕ)) (hg : ∀ W, (g W).length = n)
    (b0 : List β) (hb : b0.length = n) (step : List (List ℕ) × List β → List ℕ → List (List ℕ) × List β)
    (r : List β → List β → Prop) [DecidableRel r]
    (hstep : ∀ st c, st.2.length = n → step st c = bestStep r g st c) :
    l.foldl step ([], b0) = l.foldl (bestStep r g) ([], b0) ∧ (l.foldl step ([], b0)).2.length = n := by
  induction l using List.reverseRecOn with
  | nil => simp [hb]
  | append_singleton l c ih =>
    obtain ⟨h1, h2⟩ := ih
    simp only [List.foldl_append, List.foldl_cons, List.foldl_nil]
    rw [hstep _ _ h2, h1]
    rw [h1] at h2
    refine ⟨rfl, ?_⟩
    unfold bestStep
    split
    · exact hg c
    · split <;> exact h2

/-! ## C23 -/

theorem lexccVector_eq (p : Profile) (k : ℕ) (W : List ℕ) : lexccVector p k W = coverageVector p k W.toFinset := by
  unfold lexccVector coverageVector
  refine List.map_congr_left ?_
  intro i _
  have := C16_atleast_score p W (i + 1) (by omega)
  push_cast at this
  exact this

theorem lexccStep_eq (p : Profile) (k : ℕ) (st : List (List ℕ) × List ℚ) (c : List ℕ) (h : st.2.length = k) :
    lexccStep p k st c = bestStep (· > ·) (lexccVector p k) st c := by
  have hl : st.2.length = (lexccVector p k c).length := by simp [lexccVector, h]
  obtain ⟨h1, h2⟩ := cmpVec_eq hl
  unfold lexccStep bestStep
  simp only
  by_cases a1 : st.2 < lexccVector p k c
  · have : ¬ lexccVector p k c < st.2 := not_lt_of_gt a1
    rw [h1]
    simp [a1, this]
  · by_cases a2 : lexccVector p k c < st.2
    · rw [h1]
      simp [a1, a2, a2.ne]
    · have : lexccVector p k c = st.2 := le_antisymm (not_lt.1 a1) (not_lt.1 a2)
      rw [h2.2 this.symm]
      simp [this]

theorem replicate_le {n : ℕ} (l : List ℚ) (hl : l.length = n) (h0 : ∀ x ∈ l, 0 ≤ x) : List.replicate n 0 ≤ l := by
  induction l generalizing n with
  | nil => subst hl; simp
  | cons x xs ih =>
    subst hl
    have ih := ih rfl (fun y hy => h0 y (by simp [hy]))
    simp only [List.length_cons, List.replicate_succ]
    rcases (h0 x (by simp)).lt_or_eq with h | h
    · exact le_of_lt (List.Lex.rel h)
    · rw [← h]
      rcases ih.lt_or_eq with h' | h'
      · exact le_of_lt (List.Lex.cons h')
      · rw [h']

/-- C23: lex-CC by brute force returns exactly the committees with lexicographically maximal coverage vector, and
reports that vector (`detailed_info["opt_score_vector"]`). -/
theorem C23_lexcc_optimal (env : Env) (solver : Solver) (p : Profile) (hp : p.WF) (a : Args)
    (hal : prologue env "lexcc" p a = .ok "brute-force") :
    Answers a (computeLexcc env solver p a) (LexccOpt p a.k) ∧
    ∃ cs vec, lexccBruteforce p a.k a.resolute a.maxNum = .ok (cs, vec) ∧
      ∀ A, LexccOpt p a.k A → coverageVector p a.k A = vec := by
  have hv := validCall_of_prologue hal
  have hlen : ∀ W, (lexccVector p a.k W).length = a.k := by simp [lexccVector]
  obtain ⟨hf, -⟩ := lexFold (lexccVector p a.k) a.k (combinations p.candidates a.k) hlen (List.replicate a.k 0) (by simp)
    (lexccStep p a.k) (· > ·) (fun st c h => lexccStep_eq p a.k st c h)
  have hge : ∀ W, List.replicate a.k 0 ≤ lexccVector p a.k W := by
    intro W
    refine replicate_le _ (hlen W) ?_
    intro x hx
    rw [lexccVector_eq] at hx
    obtain ⟨i, -, rfl⟩ := List.mem_map.1 hx
    unfold coverage
    refine List.sum_nonneg ?_
    intro y hy
    obtain ⟨v, hv, rfl⟩ := List.mem_map.1 hy
    split
    · exact (hp.weight v hv).le
    · exact le_rfl
  obtain ⟨out, h1, h2, h3, h4, W0, hW0, hW1, hW2⟩ := bruteBest (· > ·) (fun a => lt_irrefl a) (fun a b c h h' => lt_trans h' h)
    (fun a b => (lt_trichotomy b a).imp id (Or.imp Eq.symm id)) p a.k hv.le (lexccVector p a.k) (coverageVector p a.k)
    (fun W _ => lexccVector_eq p a.k W) (List.replicate a.k 0)
    (fun W _ => (hge W).lt_or_eq.imp id Eq.symm) (LexccOpt p a.k) (fun A => by simp only [LexccOpt, gt_iff_lt])
  have hb : lexccBruteforce p a.k a.resolute a.maxNum = .ok (finalList a out,
      ((combinations p.candidates a.k).foldl (bestStep (· > ·) (lexccVector p a.k)) ([], List.replicate a.k 0)).2) := by
    unfold lexccBruteforce
    rw [hf]
    simp only [bind, Except.bind, h1]
    rcases finishB hv h4 with ⟨hr, y, ys, -, hy, he⟩ | ⟨hr, he⟩
    · simp [hr, hy, he]
    · simp [hr, he]
  refine ⟨?_, _, _, hb, ?_⟩
  · have : computeLexcc env solver p a = .ok (finalList a out) := by
      unfold computeLexcc
      rw [hal, hb]
      simp [bind, Except.bind]
    rw [this]
    exact answers_finalList h2 h3 h4
  · intro A hA
    rw [hW1, lexccVector_eq]
    have hB : LexccOpt p a.k W0.toFinset := (h3 _).1 ⟨W0, hW2, rfl⟩
    exact le_antisymm (not_lt.1 (hB.2 A hA.1)) (not_lt.1 (hA.2 _ hB.1))

example : computeLexcc exampleEnv (fun _ => .error .importError) exampleProfile
    { committeesize := 2, algorithm := "brute-force", resolute := false } = .ok [[1, 2]] := by decide +kernel

/-! ## C25 -/

theorem distVector_eq (p : Profile) (hp : p.WF) (W : List ℕ) (hW : W.Nodup) :
    sortNatDesc (p.voters.map (fun v => hamming v.approved W)) = distVector p W.toFinset := by
  have h : p.voters.map (fun v => hamming v.approved W) = p.voters.map (fun v => dist v W.toFinset) :=
    List.map_congr_left (fun v hv => hamming_dist v (hp.nodup v hv) W hW)
  rw [h]
  unfold distVector sortNatDesc
  refine List.Perm.eq_of_pairwise' (r := (· ≥ ·)) (List.pairwise_insertionSort _ _) (Multiset.pairwise_sort _ _) ?_
  refine (List.perm_insertionSort _ _).trans ?_
  rw [← Multiset.coe_eq_coe, Multiset.sort_eq]

/-- the vector computed by the model -/
def distVec (p : Profile) (W : List ℕ) : List ℕ := sortNatDesc (p.voters.map (fun v => hamming v.approved W))

theorem lexminimaxavStep_eq (p : Profile) (st : List (List ℕ) × List ℕ) (c : List ℕ)
    (h : st.2.length = p.voters.length) :
    lexminimaxavStep p st c = bestStep (· < ·) (distVec p) st c := by
  have hl : st.2.length = (distVec p c).length := by
    rw [h]; unfold distVec sortNatDesc
    rw [(List.perm_insertionSort _ _).length_eq]; simp
  obtain ⟨h1, h2⟩ := cmpVec_eq hl
  unfold lexminimaxavStep bestStep
  change (match cmpVec st.2 (distVec p c) with
    | .lt => st
    | .gt => ([c], distVec p c)
    | .eq => (st.1 ++ [c], st.2)) = _
  by_cases a1 : distVec p c < st.2
  · rw [h1]
    simp [a1]
  · by_cases a2 : st.2 < distVec p c
    · rw [h1]
      simp [a1, a2, a2.ne']
    · have : distVec p c = st.2 := le_antisymm (not_lt.1 a2) (not_lt.1 a1)
      rw [h2.2 this.symm]
      simp [this]

theorem lt_replicate {n b : ℕ} (l : List ℕ) (hl : l.length = n) (hn : 0 < n) (h0 : ∀ x ∈ l, x < b) :
    l < List.replicate n b := by
  cases l with
  | nil => simp at hl; omega
  | cons x xs =>
    subst hl
    simp only [List.length_cons, List.replicate_succ]
    exact List.Lex.rel (h0 x (by simp))

/-- The brute-force search of lex-Minimax-AV: the committees and the optimal vector of distances. -/
theorem lexminimaxavBrute_spec (p : Profile) (hp : p.WF) (a : Args) (hv : ValidCall p a) :
    ∃ cs vec, lexminimaxavBruteforce p a.k a.resolute a.maxNum = .ok (cs, vec) ∧ Answers a (.ok cs) (LexminimaxavOpt p a.k) ∧
      ∀ A, LexminimaxavOpt p a.k A → distVector p A = vec := by
  set g := distVec p with hg
  have hlen : ∀ W, (g W).length = p.voters.length := by
    intro W; simp only [hg]; unfold distVec sortNatDesc
    rw [(List.perm_insertionSort _ _).length_eq]; simp
  obtain ⟨hf, -⟩ := lexFold g p.voters.length (combinations p.candidates a.k) hlen
    (List.replicate p.voters.length (p.numCand + 1)) (by simp)
    (lexminimaxavStep p) (· < ·) (fun st c h => lexminimaxavStep_eq p st c h)
  have hgd : ∀ W ∈ combinations p.candidates a.k, g W = distVector p W.toFinset :=
    fun W hW => distVector_eq p hp W (nodup_of_lt (combinations_lt hW))
  obtain ⟨out, h1, h2, h3, h4, W0, hW0, hW1, hW2⟩ := bruteBest (· < ·) (fun a => lt_irrefl a) (fun a b c h h' => lt_trans h h')
    lt_trichotomy p a.k hv.le g (distVector p) hgd (List.replicate p.voters.length (p.numCand + 1))
    (fun W hW => Or.inl (by
      refine lt_replicate _ (hlen W) (List.length_pos_iff.2 hv.voters) ?_
      intro x hx
      simp only [hg, distVec, sortNatDesc, List.mem_insertionSort, List.mem_map] at hx
      obtain ⟨v, hvm, rfl⟩ := hx
      rw [hamming_dist v (hp.nodup v hvm) W (nodup_of_lt (combinations_lt hW)), Nat.lt_succ_iff]
      exact dist_le_numCand p hp a.k _ ((isCommittee_iff_combinations p a.k _).2 ⟨W, hW, rfl⟩) v hvm))
    (LexminimaxavOpt p a.k) (fun A => Iff.rfl)
  refine ⟨finalList a out, ((combinations p.candidates a.k).foldl (bestStep (· < ·) g)
    ([], List.replicate p.voters.length (p.numCand + 1))).2, ?_, answers_finalList h2 h3 h4, ?_⟩
  · unfold lexminimaxavBruteforce
    rw [hf]
    simp only [bind, Except.bind, h1]
    rcases finishB hv h4 with ⟨hr, y, ys, -, hy, he⟩ | ⟨hr, he⟩
    · simp [hr, hy, he]
    · simp [hr, he]
  · intro A hA
    have hB : LexminimaxavOpt p a.k W0.toFinset := (h3 _).1 ⟨W0, hW2, rfl⟩
    rw [hW1, hgd W0 hW0]
    exact le_antisymm (not_lt.1 (hA.2 _ hB.1)) (not_lt.1 (hB.2 A hA.1))

/-- C25: lex-Minimax-AV by brute force returns exactly the committees with lexicographically minimal decreasingly sorted
vector of Hamming distances (unit weights; other weights are rejected with ValueError). -/
theorem C25_lexminimaxav_optimal (env : Env) (solver : Solver) (p : Profile) (hp : p.WF) (a : Args)
    (hal : prologue env "lexminimaxav" p a = .ok "brute-force") :
    if ∀ v ∈ p.voters, v.weight = 1 then Answers a (computeLexminimaxav env solver p a) (LexminimaxavOpt p a.k)
    else computeLexminimaxav env solver p a = .error .valueError := by
  have hu : p.hasUnitWeights = decide (∀ v ∈ p.voters, v.weight = 1) := by
    unfold Profile.hasUnitWeights
    rw [Bool.eq_iff_iff]
    simp
  split
  case isFalse h =>
    unfold computeLexminimaxav
    rw [hal, hu]
    simp [bind, Except.bind, h]
  rename_i hunit
  obtain ⟨cs, vec, e, h, -⟩ := lexminimaxavBrute_spec p hp a (validCall_of_prologue hal)
  have : computeLexminimaxav env solver p a = .ok cs := by
    unfold computeLexminimaxav
    rw [hal, hu]
    simp only [bind, Except.bind, e]
    rw [if_neg (by simpa using hunit), if_pos trivial]
  rw [this]
  exact h

example : computeLexminimaxav exampleEnv (fun _ => .error .importError) ⟨3, [⟨[0, 1], 1⟩, ⟨[1, 2], 1⟩], []⟩
    { committeesize := 2, algorithm := "brute-force", resolute := false } = .ok [[0, 1], [1, 2]] := by
  decide +kernel

/-! ## C42 -/

/-- C42: the trivial rule returns all committees of size `k`; with `resolute` it returns `{0, …, k-1}`. -/
theorem C42_trivial (env : Env) (p : Profile) (a : Args) (hal : prologue env "trivial" p a = .ok "standard") :
    Answers a (computeTrivial env p a) (IsCommittee p a.k) ∧
    (a.resolute = true → computeTrivial env p a = .ok [List.range a.k]) := by
  have hv := validCall_of_prologue hal
  set l := combinations p.candidates a.k with hl
  have hlt : ∀ W ∈ l, W.Pairwise (· < ·) := fun W hW => combinations_lt hW
  have hnd : l.Nodup := combinations_nodup List.nodup_range _
  have hmk : ∀ cs : List (List ℕ), (∀ W ∈ cs, W.Pairwise (· < ·)) → cs.mapM mkSet = .ok cs := by
    intro cs hcs
    induction cs with
    | nil => rfl
    | cons x xs ih =>
      have hx := hcs x (by simp)
      rw [List.mapM_cons, ih (fun W hW => hcs W (by simp [hW]))]
      have : mkSet x = .ok x := by
        unfold mkSet
        rw [if_neg (by simpa using nodup_of_lt hx), sortNat_of_lt hx]
      rw [this]
      rfl
  have hchar : ∀ A, (∃ W ∈ l, W.toFinset = A) ↔ IsCommittee p a.k A :=
    fun A => (isCommittee_iff_combinations p a.k A).symm
  cases hr : a.resolute with
  | true =>
    obtain ⟨o, o1, o2, o3⟩ := sortedCommittees_of_lt (cs := [List.range a.k]) (by simpa using pairwise_lt_range a.k) (by simp)
    obtain rfl : o = [List.range a.k] := by simpa using o3
    have : computeTrivial env p a = .ok [List.range a.k] := by
      unfold computeTrivial
      rw [hal]
      simp only [bind, Except.bind, hr, if_true]
      rw [hmk [List.range a.k] (by simpa using pairwise_lt_range a.k)]
      simp only [o1]
    refine ⟨?_, fun _ => this⟩
    rw [this]
    unfold Answers
    rw [hr]
    refine ⟨_, rfl, pairwise_lt_range a.k, ?_, ?_⟩
    · intro x hx
      have := hv.le
      simp only [List.mem_toFinset, List.mem_range, Finset.mem_range] at hx ⊢
      omega
    · rw [toFinset_card_of_lt (pairwise_lt_range a.k), List.length_range]
  | false =>
    refine ⟨?_, fun h => absurd h (by simp)⟩
    have hsub : ∀ max, (truncate max l).Sublist l := by
      intro max; cases max with
      | none => exact List.Sublist.refl _
      | some n => exact List.take_sublist n l
    have hcomp : ∀ out, sortedCommittees (truncate a.maxNum l) = .ok out → computeTrivial env p a = .ok out := by
      intro out ho
      unfold computeTrivial
      rw [hal]
      simp only [bind, Except.bind, hr, if_true, Bool.false_eq_true, if_false]
      rw [hmk _ (fun W hW => hlt W ((hsub _).subset hW))]
      exact ho
    obtain ⟨out, h1, h2, h3⟩ := sortedCommittees_of_lt (cs := truncate a.maxNum l)
      (fun W hW => hlt W ((hsub _).subset hW)) ((hsub _).nodup hnd)
    rw [hcomp out h1]
    unfold Answers
    rw [hr]
    cases hm : a.max with
    | none =>
      simp only [Args.maxNum, hm, Option.map_none, truncate] at h3 ⊢
      refine ⟨out, rfl, h2, fun A => ?_⟩
      rw [← hchar A]
      constructor
      · rintro ⟨W, hW, e⟩; exact ⟨W, h3.mem_iff.1 hW, e⟩
      · rintro ⟨W, hW, e⟩; exact ⟨W, h3.mem_iff.2 hW, e⟩
    | some n =>
      simp only [Args.maxNum, hm, Option.map_some, truncate] at h3 ⊢
      refine ⟨out, rfl, h2, ?_, (l.map List.toFinset).toFinset, ?_, ?_⟩
      · intro W hW
        exact (hchar _).1 ⟨W, List.mem_of_mem_take (h3.mem_iff.1 hW), rfl⟩
      · intro A
        rw [← hchar A]; simp
      · rw [h3.length_eq, List.length_take, List.toFinset_card_of_nodup (map_toFinset_nodup_of_lt hlt hnd), List.length_map]

/-- `itertools.combinations` lists the subsets in lexicographic order. -/
theorem combinations_lex {l : List ℕ} (hl : l.Pairwise (· < ·)) (k : ℕ) : (combinations l k).Pairwise (· < ·) := by
  induction l generalizing k with
  | nil => cases k <;> simp [combinations]
  | cons x l ih =>
    rw [List.pairwise_cons] at hl
    cases k with
    | zero => simp [combinations]
    | succ k =>
      rw [combinations, List.pairwise_append]
      refine ⟨List.pairwise_map.2 ((ih hl.2 k).imp fun h => List.cons_lt_cons_iff.2 (Or.inr ⟨rfl, h⟩)), ih hl.2 _, ?_⟩
      intro A hA B hB
      obtain ⟨A', -, rfl⟩ := List.mem_map.1 hA
      cases B with
      | nil => exact absurd (mem_combinations.1 hB).2 (by simp)
      | cons y B =>
        exact List.cons_lt_cons_iff.2 (Or.inl (hl.1 y ((mem_combinations.1 hB).1.subset (by simp))))

/-- C42: with `max_num_of_committees` the lexicographically first committees are returned. -/
theorem C42_first (env : Env) (p : Profile) (a : Args) (hal : prologue env "trivial" p a = .ok "standard") (hr : a.resolute = false)
    (cs : List (List ℕ)) (hcs : computeTrivial env p a = .ok cs) (W V : List ℕ) (hW : W ∈ cs) (hV : V.Pairwise (· < ·))
    (hVc : IsCommittee p a.k V.toFinset) (hVn : V ∉ cs) : W < V := by
  set l := combinations p.candidates a.k with hl
  have hlt : ∀ W ∈ l, W.Pairwise (· < ·) := fun W hW => combinations_lt hW
  have hnd : l.Nodup := combinations_nodup List.nodup_range _
  have hsub : (truncate a.maxNum l).Sublist l := by
    cases a.maxNum with
    | none => exact List.Sublist.refl _
    | some n => exact List.take_sublist n l
  obtain ⟨out, h1, h2, h3⟩ := sortedCommittees_of_lt (cs := truncate a.maxNum l)
    (fun W hW => hlt W (hsub.subset hW)) (hsub.nodup hnd)
  have hmk : (truncate a.maxNum l).mapM mkSet = .ok (truncate a.maxNum l) := by
    rw [mapM_mkSet (fun W hW => nodup_of_lt (hlt W (hsub.subset hW)))]
    congr 1
    conv_rhs => rw [← List.map_id (truncate a.maxNum l)]
    exact List.map_congr_left (fun W hW => sortNat_of_lt (hlt W (hsub.subset hW)))
  have e : cs = out := by
    unfold computeTrivial at hcs
    rw [hal] at hcs
    simp only [bind, Except.bind, hr, if_true, Bool.false_eq_true, if_false] at hcs
    rw [hmk] at hcs
    simp only [h1] at hcs
    exact (Except.ok.inj hcs).symm
  subst e
  have hVl : V ∈ l := by
    obtain ⟨V', hV', e⟩ := (isCommittee_iff_combinations p a.k _).1 hVc
    rwa [← eq_of_lt_toFinset (hlt V' hV') hV e]
  rw [h3.mem_iff] at hW hVn
  have hlex : l.Pairwise (· < ·) := combinations_lex (pairwise_lt_range _) _
  cases hm : a.maxNum with
  | none => rw [hm] at hVn; exact absurd hVl hVn
  | some n =>
    rw [hm] at hW hVn
    rw [← List.take_append_drop n l, List.pairwise_append] at hlex
    refine hlex.2.2 W hW V ?_
    rw [← List.take_append_drop n l, List.mem_append] at hVl
    exact hVl.resolve_left hVn

example : computeTrivial exampleEnv exampleProfile { committeesize := 2, resolute := false, max := some 2 }
    = .ok [[0, 1], [0, 2]] := by decide +kernel

end Abc
