import Verif.Lemmas.Electorate
import Verif.Props.EqualSharesRule

/-!
# C50: weights are copies, C49: anonymity

The result of a rule (for all arguments: any committee size, `resolute`, `max_num_of_committees`) depends only on the total weight of
the voters with each approval set.
-/

namespace Abc
open Spec

section
variable {p p' : Profile} (hp : p.WF) (hp' : p'.WF) (h : SameElectorate p p')
include hp hp' h

/-! ## Rules based on scores -/

omit hp hp' in
theorem thieleBruteforce_congr (f : ℕ → ℚ) (k : ℕ) (r : Bool) (max : Option ℕ) :
    thieleBruteforce f p k r max = thieleBruteforce f p' k r max := by
  have hs : bruteThieleStep f p r = bruteThieleStep f p' r := by
    funext st W
    unfold bruteThieleStep
    rw [thieleScore_congr h]
  unfold thieleBruteforce
  rw [hs, candidates_congr h]

theorem seqThieleLoop_congr (f : ℕ → ℚ) (n : ℕ) (W : List ℕ) (info : List SeqInfo) :
    seqThieleLoop f p n W info = seqThieleLoop f p' n W info := by
  induction n generalizing W info with
  | zero => rfl
  | succ n ih =>
    unfold seqThieleLoop
    simp only [marginalAdd_congr hp hp' h, ih]

theorem bnbLoop_congr (f : ℕ → ℚ) (k fuel : ℕ) (st best : List (List ℕ)) (bs : ℚ) :
    bnbLoop f p k fuel st best bs = bnbLoop f p' k fuel st best bs := by
  induction fuel generalizing st best bs with
  | zero => cases st <;> rfl
  | succ fuel ih =>
    cases st with
    | nil => rfl
    | cons W rest =>
      unfold bnbLoop
      simp only [marginalAdd_congr hp hp' h, thieleScore_congr h, ih, h.1]

theorem thieleBranchAndBound_congr (f : ℕ → ℚ) (k : ℕ) (r : Bool) (max : Option ℕ) :
    thieleBranchAndBound f p k r max = thieleBranchAndBound f p' k r max := by
  unfold thieleBranchAndBound seqThieleResolute dfsFuel
  simp only [seqThieleLoop_congr hp hp' h, bnbLoop_congr hp hp' h, thieleScore_congr h, h.1]

/-- C50 for the Thiele methods (brute force and branch-and-bound). -/
theorem C50_thiele (env : Env) (sid : String) (solver solver' : Solver) (a : Args) (alg : String)
    (hal : prologue env sid p a = .ok alg) (halg : alg = "brute-force" ∨ alg = "branch-and-bound") :
    computeThieleMethod env sid solver p a = computeThieleMethod env sid solver' p' a := by
  have hal' := hal
  rw [prologue_congr hp hp' h] at hal'
  unfold computeThieleMethod
  rw [hal, hal']
  simp only [bind, Except.bind]
  rcases halg with rfl | rfl
  · simp only [thieleBruteforce_congr h]
    rfl
  · simp only [thieleBranchAndBound_congr hp hp' h]
    rfl

/-- C50 for the sequential Thiele methods. -/
theorem C50_seqThiele (env : Env) (sid : String) (a : Args) :
    computeSeqThieleMethod env sid p a = computeSeqThieleMethod env sid p' a := by
  have hs : ∀ f, seqThieleSuccs f p = seqThieleSuccs f p' := by
    intro f
    funext W
    unfold seqThieleSuccs
    rw [marginalAdd_congr hp hp' h, candidates_congr h]
  unfold computeSeqThieleMethod seqThieleResolute seqThieleIrresolute dfsFuel
  simp only [prologue_congr hp hp' h, seqThieleLoop_congr hp hp' h, hs, h.1]

/-- C50 for the reverse sequential Thiele methods. -/
theorem C50_revseqThiele (env : Env) (sid : String) (ord : List ℕ → ℕ → List ℕ) (a : Args) :
    computeRevseqThieleMethod env sid ord p a = computeRevseqThieleMethod env sid ord p' a := by
  have h1 : ∀ f n W, revseqLoop f p n W = revseqLoop f p' n W := by
    intro f n
    induction n with
    | zero => intro W; rfl
    | succ n ih =>
      intro W
      unfold revseqLoop
      simp only [marginalRemove_congr hp hp' h, ih]
  have h2 : ∀ f, revseqLevel f p ord = revseqLevel f p' ord := by
    intro f
    funext coms
    unfold revseqLevel
    simp only [marginalRemove_congr hp hp' h]
  have h3 : ∀ f n coms, revseqLevels f p ord n coms = revseqLevels f p' ord n coms := by
    intro f n
    induction n with
    | zero => intro W; rfl
    | succ n ih =>
      intro coms
      unfold revseqLevels
      rw [h2, ih]
  unfold computeRevseqThieleMethod revseqThieleResolute revseqThieleIrresolute
  simp only [prologue_congr hp hp' h, h1, h3, candidates_congr h, h.1]

theorem separableAlgorithm_congr (r : SepRule) (k : ℕ) (res : Bool) (max : Option ℕ) :
    separableAlgorithm r p k res max = separableAlgorithm r p' k res max := by
  unfold separableAlgorithm separableCommittees
  simp only [separableScores_congr hp hp' h, candidates_congr h]

/-- C50 for AV and SAV. -/
theorem C50_separable (env : Env) (r : SepRule) (a : Args) : computeSeparable env r p a = computeSeparable env r p' a := by
  unfold computeSeparable
  simp only [prologue_congr hp hp' h, separableAlgorithm_congr hp hp' h]

/-- C50 for lex-CC (brute force). -/
theorem C50_lexcc (env : Env) (solver solver' : Solver) (a : Args) (hal : prologue env "lexcc" p a = .ok "brute-force") :
    computeLexcc env solver p a = computeLexcc env solver' p' a := by
  have hal' := hal
  rw [prologue_congr hp hp' h] at hal'
  have hs : ∀ k, lexccStep p k = lexccStep p' k := by
    intro k
    funext st W
    unfold lexccStep lexccVector
    simp only [thieleScore_congr h]
  unfold computeLexcc lexccBruteforce
  rw [hal, hal']
  simp only [bind, Except.bind, hs, candidates_congr h, if_true]

/-- C50 for Minimax AV (brute force).  (Minimax AV even ignores weights.) -/
theorem C50_minimaxav (env : Env) (solver solver' : Solver) (a : Args) (hal : prologue env "minimaxav" p a = .ok "brute-force") :
    computeMinimaxav env solver p a = computeMinimaxav env solver' p' a := by
  have hal' := hal
  rw [prologue_congr hp hp' h] at hal'
  have hs : (combinations p.candidates a.k).foldl (minimaxavStep p) ([], p.numCand + 1)
      = (combinations p'.candidates a.k).foldl (minimaxavStep p') ([], p'.numCand + 1) := by
    rw [candidates_congr h, h.1]
    refine List.foldl_ext _ _ _ ?_
    intro st W hW
    unfold minimaxavStep
    rw [minimaxavScore_congr hp hp' h W (nodup_of_lt (combinations_lt (p := p') hW))]
  unfold computeMinimaxav minimaxavBruteforce
  rw [hal, hal']
  simp only [bind, Except.bind, hs, if_true]

/-- C50 for the trivial rule. -/
theorem C50_trivial (env : Env) (a : Args) : computeTrivial env p a = computeTrivial env p' a := by
  unfold computeTrivial
  simp only [prologue_congr hp hp' h, candidates_congr h]

/-! ## seq-Phragmén -/

omit hp hp' in
theorem newMaxload_congr (k : ℕ) (W : List ℕ) (g : Finset ℕ → ℚ) :
    newMaxload p k W (p.voters.map (fun v => g v.A)) = newMaxload p' k W (p'.voters.map (fun v => g v.A)) := by
  have hl : ∀ c, approversLoad p (p.voters.map (fun v => g v.A)) c = approversLoad p' (p'.voters.map (fun v => g v.A)) c := by
    intro c
    unfold approversLoad
    rw [sum_filter_map, sum_filter_map, zip_map_self, zip_map_self, List.map_map, List.map_map]
    refine sum_electorate' h (fun A => if c ∈ A then g A else 0) _ _ ?_ ?_ <;>
    · intro v _
      simp [Voter.A]
  unfold newMaxload
  simp only [hl, approversWeight_congr h, candidates_congr h]

omit hp hp' h in
theorem updateLoad_map (q : Profile) (g : Finset ℕ → ℚ) (c : ℕ) (x : ℚ) :
    updateLoad q (q.voters.map (fun v => g v.A)) c x = q.voters.map (fun v => (fun A => if c ∈ A then x else g A) v.A) := by
  unfold updateLoad
  rw [zipWith_map_self]
  refine List.map_congr_left (fun v _ => ?_)
  simp [Voter.A]

omit hp hp' in
theorem seqphragmenLoop_congr (k n : ℕ) (W : List ℕ) (g : Finset ℕ → ℚ) (info info' : List PhragInfo) :
    (seqphragmenLoop p k n W (p.voters.map (fun v => g v.A)) info).map Prod.fst =
      (seqphragmenLoop p' k n W (p'.voters.map (fun v => g v.A)) info').map Prod.fst := by
  induction n generalizing W g info info' with
  | zero => rfl
  | succ n ih =>
    unfold seqphragmenLoop
    simp only [newMaxload_congr h k W g]
    generalize newMaxload p' k W (p'.voters.map (fun v => g v.A)) = new
    cases hn : pyGet (tiedMin new) 0 with
    | error e => rfl
    | ok c =>
      simp only [bind, Except.bind, updateLoad_map]
      generalize new.getD c 0 = x
      exact ih _ (fun A => if c ∈ A then x else g A) _ _

omit hp hp' in
theorem seqphragmenResolute_congr (k : ℕ) (W : List ℕ) (g : Finset ℕ → ℚ) :
    (do let r ← seqphragmenResolute p k (p.voters.map (fun v => g v.A)) W; Except.ok r.1 : Except Err (List (List ℕ))) =
    (do let r ← seqphragmenResolute p' k (p'.voters.map (fun v => g v.A)) W; Except.ok r.1) := by
  have := seqphragmenLoop_congr h k (k - W.length) W g [] []
  unfold seqphragmenResolute
  cases h1 : seqphragmenLoop p k (k - W.length) W (p.voters.map (fun v => g v.A)) [] with
  | error e =>
    cases h2 : seqphragmenLoop p' k (k - W.length) W (p'.voters.map (fun v => g v.A)) [] with
    | error e' =>
      rw [h1, h2] at this
      simp only [Except.map, Except.error.injEq] at this
      rw [this]
    | ok r' => rw [h1, h2] at this; simp [Except.map] at this
  | ok r =>
    cases h2 : seqphragmenLoop p' k (k - W.length) W (p'.voters.map (fun v => g v.A)) [] with
    | error e' => rw [h1, h2] at this; simp [Except.map] at this
    | ok r' =>
      rw [h1, h2] at this
      simp only [Except.map, Except.ok.injEq] at this
      simp only [bind, Except.bind, this]

/-- states with the same committee and loads given by the same function of the approval set -/
def LoadRel (p p' : Profile) (n n' : List ℕ × List ℚ) : Prop :=
  n.1 = n'.1 ∧ ∃ g : Finset ℕ → ℚ, n.2 = p.voters.map (fun v => g v.A) ∧ n'.2 = p'.voters.map (fun v => g v.A)

omit hp hp' in
theorem seqphragmenIrresolute_congr (k : ℕ) (max : Option ℕ) (W : List ℕ) (g : Finset ℕ → ℚ) :
    seqphragmenIrresolute p k max (p.voters.map (fun v => g v.A)) W =
      seqphragmenIrresolute p' k max (p'.voters.map (fun v => g v.A)) W := by
  unfold seqphragmenIrresolute dfsFuel
  rw [h.1]
  rw [universes_sim (R := LoadRel p p') (full' := fun n => decide (n.1.length = k)) (out' := fun n => sortNat n.1)
    (succs' := fun n => .ok (seqphragmenSuccs p' k n)) (st' := [(W, p'.voters.map (fun v => g v.A))])]
  · rintro n n' ⟨e, -⟩; rw [e]
  · rintro n n' ⟨e, -⟩; rw [e]
  · rintro ⟨V, x⟩ ⟨V', x'⟩ ⟨e, g, hx, hx'⟩
    simp only at e hx hx'
    subst e
    simp only [ExRel, seqphragmenSuccs]
    rw [hx, hx', newMaxload_congr h, candidates_congr h]
    rw [List.forall₂_map_left_iff, List.forall₂_map_right_iff]
    refine List.forall₂_same.2 ?_
    intro c _
    simp only [updateLoad_map]
    generalize (newMaxload p' k V (p'.voters.map (fun v => g v.A))).getD c 0 = x
    exact ⟨rfl, (fun A => if c ∈ A then x else g A), rfl, rfl⟩
  · exact .cons ⟨rfl, g, rfl, rfl⟩ .nil

omit hp hp' h in
theorem zeroLoad_map (q : Profile) : zeroLoad q = q.voters.map (fun v => (fun _ => (0 : ℚ)) v.A) := by
  unfold zeroLoad
  rw [List.map_const']

/-- C50 for seq-Phragmén (exact fractions). -/
theorem C50_seqphragmen (env : Env) (float float' : Except Err (List (List ℕ))) (a : Args) (alg : String)
    (hal : prologue env "seqphragmen" p a = .ok alg) (hex : ExactAlg env alg) :
    computeSeqphragmen env float p a = computeSeqphragmen env float' p' a := by
  have hal' := hal
  rw [prologue_congr hp hp' h] at hal'
  unfold computeSeqphragmen
  rw [hal, hal']
  simp only [bind, Except.bind, withFractions_exact hex, zeroLoad_map]
  have h1 := seqphragmenResolute_congr h a.k [] (fun _ => 0)
  have h2 := seqphragmenIrresolute_congr h a.k a.maxNum [] (fun _ => 0)
  cases a.resolute with
  | true =>
    simp only [bind, Except.bind] at h1
    simp only [if_true, h1]
  | false => simp only [Bool.false_eq_true, if_false, h2]

/-! ## Budgets proportional to weight -/

/-- states with the same committee and budgets per unit of weight given by the same function of the approval set -/
def BudgetRel (p p' : Profile) (n n' : List ℕ × List ℚ) : Prop :=
  n.1 = n'.1 ∧ ∃ g : Finset ℕ → ℚ, n.2 = p.voters.map (fun v => v.weight * g v.A) ∧
    n'.2 = p'.voters.map (fun v => v.weight * g v.A)

theorem budgetSupport_congr (g : Finset ℕ → ℚ) :
    budgetSupport p (p.voters.map (fun v => v.weight * g v.A)) =
      budgetSupport p' (p'.voters.map (fun v => v.weight * g v.A)) := by
  funext c
  unfold budgetSupport
  rw [sum_filter_map, sum_filter_map, zip_map_self, zip_map_self, List.map_map, List.map_map]
  have key : ∀ w : ℚ, 0 < w → ∀ x : ℚ, w * x ≤ 0 ↔ x ≤ 0 := by
    intro w hw x
    constructor
    · intro hx; by_contra hx'; exact absurd (mul_pos hw (not_le.1 hx')) (not_lt.2 hx)
    · intro hx; exact mul_nonpos_of_nonneg_of_nonpos hw.le hx
  refine sum_electorate' h (fun A => if ¬ g A ≤ 0 ∧ c ∈ A then g A else 0) _ _ ?_ ?_
  · intro v hv
    simp only [Function.comp, key v.weight (hp.weight v hv), Voter.A, List.mem_toFinset, Bool.and_eq_true, decide_eq_true_eq]
    split <;> simp
  · intro v hv
    simp only [Function.comp, key v.weight (hp'.weight v hv), Voter.A, List.mem_toFinset, Bool.and_eq_true, decide_eq_true_eq]
    split <;> simp

theorem maxSupport_congr (W : List ℕ) (g : Finset ℕ → ℚ) :
    maxSupport p W (p.voters.map (fun v => v.weight * g v.A)) =
      maxSupport p' W (p'.voters.map (fun v => v.weight * g v.A)) := by
  unfold maxSupport available
  rw [budgetSupport_congr hp hp' h, candidates_congr h]

/-- C50 for Phragmén-Eneström (exact fractions). -/
theorem C50_enestroem (env : Env) (float float' : Except Err (List (List ℕ))) (a : Args) (alg : String)
    (hal : prologue env "phragmen-enestroem" p a = .ok alg) (hex : ExactAlg env alg) :
    computeEnestroem env float p a = computeEnestroem env float' p' a := by
  have hal' := hal
  rw [prologue_congr hp hp' h] at hal'
  unfold computeEnestroem
  rw [hal, hal']
  simp only [bind, Except.bind, withFractions_exact hex]
  unfold enestroemAlgorithm dfsFuel
  rw [h.1, totalWeight_congr h]
  simp only
  rw [universes_sim (R := BudgetRel p p') (full' := fun n => decide (n.1.length = a.k)) (out' := fun n => sortNat n.1)
    (succs' := enestroemSuccs p' _) (st' := [([], p'.voters.map Voter.weight)])]
  · rintro n n' ⟨e, -⟩; rw [e]
  · rintro n n' ⟨e, -⟩; rw [e]
  · rintro ⟨V, x⟩ ⟨V', x'⟩ ⟨e, g, hx, hx'⟩
    simp only at e hx hx'
    subst e
    unfold enestroemSuccs
    simp only [hx, hx', maxSupport_congr hp hp' h]
    cases maxSupport p' V (p'.voters.map (fun v => v.weight * g v.A)) with
    | error e => rfl
    | ok r =>
      simp only [bind, Except.bind, ExRel]
      rw [List.forall₂_map_left_iff, List.forall₂_map_right_iff]
      refine List.forall₂_same.2 ?_
      intro c _
      refine ⟨rfl, fun A => if c ∈ A then g A *
        (if r.2 > (p'.voters.map Voter.weight).sum / (a.k : ℚ) then (r.2 - (p'.voters.map Voter.weight).sum / (a.k : ℚ)) / r.2 else 0)
        else g A, ?_, ?_⟩
      all_goals
        simp only
        rw [zipWith_map_self]
        refine List.map_congr_left (fun v _ => ?_)
        simp only [Voter.A, List.mem_toFinset]
        split <;> ring
  · refine .cons ⟨rfl, fun _ => 1, ?_, ?_⟩ .nil <;> simp

/-- C50 for the consensus rule (exact fractions). -/
theorem C50_consensus (env : Env) (float float' : Except Err (List (List ℕ))) (a : Args) (alg : String)
    (hal : prologue env "consensus-rule" p a = .ok alg) (hex : ExactAlg env alg) :
    computeConsensus env float p a = computeConsensus env float' p' a := by
  have hal' := hal
  rw [prologue_congr hp hp' h] at hal'
  unfold computeConsensus
  rw [hal, hal']
  simp only [bind, Except.bind, withFractions_exact hex]
  unfold consensusAlgorithm dfsFuel
  rw [h.1]
  rw [universes_sim (R := BudgetRel p p') (full' := fun n => decide (n.1.length = a.k)) (out' := fun n => sortNat n.1)
    (succs' := consensusSuccs p') (st' := [([], zeroLoad p')])]
  · rintro n n' ⟨e, -⟩; rw [e]
  · rintro n n' ⟨e, -⟩; rw [e]
  · rintro ⟨V, x⟩ ⟨V', x'⟩ ⟨e, g, hx, hx'⟩
    simp only at e hx hx'
    subst e
    have hb : ∀ q : Profile, List.zipWith (fun (v : Voter) b => b + v.weight) q.voters (q.voters.map (fun v => v.weight * g v.A)) =
        q.voters.map (fun v => v.weight * (fun A => g A + 1) v.A) := by
      intro q
      rw [zipWith_map_self]
      refine List.map_congr_left (fun v _ => ?_)
      simp only
      ring
    have key : ∀ w : ℚ, 0 < w → ∀ x : ℚ, w * x ≤ 0 ↔ x ≤ 0 := by
      intro w hw x
      constructor
      · intro hx; by_contra hx'; exact absurd (mul_pos hw (not_le.1 hx')) (not_lt.2 hx)
      · intro hx; exact mul_nonpos_of_nonneg_of_nonpos hw.le hx
    have hsw : ∀ c, (((p.voters.zip (p.voters.map (fun v => v.weight * (fun A => g A + 1) v.A))).filter
        (fun vb => decide (¬ vb.2 ≤ 0) && decide (c ∈ vb.1.approved))).map (fun vb => vb.1.weight)).sum =
        (((p'.voters.zip (p'.voters.map (fun v => v.weight * (fun A => g A + 1) v.A))).filter
        (fun vb => decide (¬ vb.2 ≤ 0) && decide (c ∈ vb.1.approved))).map (fun vb => vb.1.weight)).sum := by
      intro c
      rw [sum_filter_map, sum_filter_map, zip_map_self, zip_map_self, List.map_map, List.map_map]
      refine sum_electorate' h (fun A => if ¬ g A + 1 ≤ 0 ∧ c ∈ A then 1 else 0) _ _ ?_ ?_
      · intro v hv
        simp only [Function.comp, key v.weight (hp.weight v hv), Voter.A, List.mem_toFinset, Bool.and_eq_true, decide_eq_true_eq]
        split <;> simp
      · intro v hv
        simp only [Function.comp, key v.weight (hp'.weight v hv), Voter.A, List.mem_toFinset, Bool.and_eq_true, decide_eq_true_eq]
        split <;> simp
    unfold consensusSuccs
    simp only [hx, hx', hb, hsw, maxSupport_congr hp hp' h V (fun A => g A + 1)]
    cases maxSupport p' V (p'.voters.map (fun v => v.weight * (g v.A + 1))) with
    | error e => rfl
    | ok r =>
      simp only [bind, Except.bind, ExRel]
      rw [List.forall₂_map_left_iff, List.forall₂_map_right_iff]
      refine List.forall₂_same.2 ?_
      intro c _
      have htw : p.totalWeight = p'.totalWeight := by
        unfold Profile.totalWeight
        exact totalWeight_congr h
      rw [htw]
      generalize p'.totalWeight / _ = z
      refine ⟨rfl, fun A => if ¬ g A + 1 ≤ 0 ∧ c ∈ A then g A + 1 - z else g A + 1, ?_, ?_⟩
      · simp only
        rw [zipWith_map_self]
        refine List.map_congr_left (fun v hv => ?_)
        simp only [key v.weight (hp.weight v hv), Voter.A, List.mem_toFinset, Bool.and_eq_true, decide_eq_true_eq]
        split <;> ring
      · simp only
        rw [zipWith_map_self]
        refine List.map_congr_left (fun v hv => ?_)
        simp only [key v.weight (hp'.weight v hv), Voter.A, List.mem_toFinset, Bool.and_eq_true, decide_eq_true_eq]
        split <;> ring
  · refine .cons ⟨rfl, fun _ => 0, ?_, ?_⟩ .nil <;> simp [zeroLoad]

end

end Abc
