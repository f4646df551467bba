import Verif.Props.ILPMonroe
import Verif.Lemmas.Lex

/-!
# C62: the sequence of integer programs of lex-Minimax-AV (Gurobi)
-/

namespace Abc
open Spec

/-- The number of voters with Hamming distance at most `d`. -/
def cntDist (p : Profile) (A : Finset ℕ) (d : ℕ) : ℕ := p.voters.countP (fun v => decide (dist v A ≤ d))

/-- The committees that satisfy the constraints collected so far. -/
def HdcOk (p : Profile) (k : ℕ) (hdc : List (ℕ × ℕ)) (A : Finset ℕ) : Prop :=
  IsCommittee p k A ∧ ∀ dn ∈ hdc, dn.2 ≤ cntDist p A dn.1

theorem dist_bounds {p : Profile} (hp : p.WF) {k : ℕ} {A : Finset ℕ} (hA : IsCommittee p k A) {v : Voter} (hv : v ∈ p.voters) :
    dist v A ≤ v.approved.length + k ∧ v.approved.length ≤ dist v A + k ∧ k ≤ dist v A + v.approved.length := by
  classical
  have e : v.A.card = v.approved.length := List.toFinset_card_of_nodup (hp.nodup v hv)
  have hd : dist v A = (v.A \ A).card + (A \ v.A).card := by
    unfold dist
    rw [symmDiff_def, Finset.sup_eq_union, Finset.card_union_of_disjoint]
    rw [Finset.disjoint_left]
    intro c h1 h2
    exact (Finset.mem_sdiff.1 h1).2 (Finset.mem_sdiff.1 h2).1
  have h1 := Finset.card_sdiff_add_card_inter v.A A
  have h2 := Finset.card_sdiff_add_card_inter A v.A
  rw [Finset.inter_comm] at h2
  rw [hA.2] at h2
  rw [hd]
  omega

theorem abs_lt_dist {p : Profile} (hp : p.WF) {k : ℕ} {A : Finset ℕ} (hA : IsCommittee p k A) {v : Voter} (hv : v ∈ p.voters) {d : ℕ}
    (hd : (d : ℤ) < |(v.approved.length : ℤ) - k|) : ¬ dist v A ≤ d := by
  obtain ⟨h1, h2, h3⟩ := dist_bounds hp hA hv
  rcases abs_cases ((v.approved.length : ℤ) - k) with ⟨h, -⟩ | ⟨h, -⟩ <;> rw [h] at hd <;> omega

theorem atMostSum_eval (p : Profile) (k d : ℕ) (x : IVar → ℚ) :
    (atMostSum p k d).eval x = (p.voters.zipIdx.map (fun vi => (atMostExp k vi.1 vi.2 d).eval x)).sum := by
  unfold atMostSum
  rw [LinExp.eval_sum, List.map_map]
  rfl

theorem cntDist_zipIdx (p : Profile) (A : Finset ℕ) (d : ℕ) :
    (cntDist p A d : ℚ) = (p.voters.zipIdx.map (fun vi => if dist vi.1 A ≤ d then (1 : ℚ) else 0)).sum := by
  unfold cntDist
  rw [← voters_map_zipIdx p (fun v => if dist v A ≤ d then (1 : ℚ) else 0)]
  induction p.voters with
  | nil => simp
  | cons v vs ih =>
    rw [List.countP_cons, List.map_cons, List.sum_cons, Nat.cast_add, ih]
    by_cases h : dist v A ≤ d <;> simp [h, add_comm]

/-- The distance of the voter at position `i`. -/
def distAt (p : Profile) (A : Finset ℕ) (i : ℕ) : ℕ := (p.voters[i]?.map (fun v => dist v A)).getD 0

/-- The solution describing `A`. -/
def lexminimaxavSolution (p : Profile) (A : Finset ℕ) : IVar → ℚ
  | .cand c => if c ∈ A then 1 else 0
  | .atMost i d => if distAt p A i ≤ d then 1 else 0
  | _ => 0

theorem lexminimaxavSolution_atMost {p : Profile} {A : Finset ℕ} {vi : Voter × ℕ} (hvi : vi ∈ p.voters.zipIdx) (d : ℕ) :
    lexminimaxavSolution p A (.atMost vi.2 d) = if dist vi.1 A ≤ d then 1 else 0 := by
  have : p.voters[vi.2]? = some vi.1 := List.mem_zipIdx_iff_getElem?.1 hvi
  simp only [lexminimaxavSolution, distAt, this, Option.map_some, Option.getD_some]

/-- **C62** The program of lex-Minimax-AV encodes the committees satisfying the constraints collected so far; the value is the number of
voters with distance at most `d`. -/
theorem C62_lexminimaxav_program {p : Profile} (hp : p.WF) {k : ℕ} {hdc : List (ℕ × ℕ)} (hhdc : ∀ dn ∈ hdc, dn.1 ≤ p.numCand) {d : ℕ}
    (hd : d ≤ p.numCand) :
    Encodes (lexminimaxavProgram p k hdc d) p (HdcOk p k hdc) (fun A => (cntDist p A d : ℚ)) := by
  have hvars : ∀ d' ∈ candVars p, d' ∈ (lexminimaxavProgram p k hdc d).vars := fun d' h => List.mem_append_left _ h
  have hsize : sizeConstr p k ∈ (lexminimaxavProgram p k hdc d).constrs :=
    List.mem_append_left _ List.mem_cons_self
  refine ⟨fun x hx => feas_cand hx hvars, fun x hx => ?_, fun A hA => ?_⟩
  · have hb := feas_cand hx hvars
    have hA := feas_committee hx hvars hsize
    have hle : ∀ e ≤ p.numCand, (atMostSum p k e).eval x ≤ cntDist p (solCommittee p x) e := by
      intro e he
      rw [atMostSum_eval, cntDist_zipIdx]
      refine List.sum_le_sum fun vi hvi => ?_
      have hv := mem_voters_of_zipIdx hvi
      unfold atMostExp
      split
      · rw [LinExp.eval_num]; split <;> norm_num
      · rename_i h1
        split
        · rename_i h2
          rw [LinExp.eval_num, if_pos ((dist_bounds hp hA hv).1.trans h2)]
        · rename_i h2
          rw [LinExp.eval_var]
          have hbin : x (.atMost vi.2 e) = 0 ∨ x (.atMost vi.2 e) = 1 := by
            refine inBounds_binary.1 (hx.1 _ (List.mem_append_right _ (List.mem_flatMap.2 ⟨vi, hvi, List.mem_map.2 ⟨e, ?_, rfl⟩⟩)))
            rw [List.mem_range]; omega
          rcases hbin with h | h
          · rw [h]; split <;> norm_num
          · have hc := hx.2 _ (List.mem_append_left _ (List.mem_cons_of_mem _ (List.mem_flatMap.2 ⟨vi, hvi,
              List.mem_map.2 ⟨e, List.mem_filter.2 ⟨List.mem_range.2 (by omega), by
                unfold atMostIsConst; simp [h1, h2]⟩, rfl⟩⟩)))
            rw [holds_guard] at hc
            have hc' := hc h
            simp only [RelHolds, hammingExp_eval hp hv hb, LinExp.eval_num, Nat.cast_le] at hc'
            rw [if_pos hc', h]
    refine ⟨⟨hA, fun dn hdn => ?_⟩, hle d hd⟩
    have hc := hx.2 _ (List.mem_append_right _ (List.mem_map.2 ⟨dn, hdn, rfl⟩))
    rw [holds_plain] at hc
    simp only [RelHolds, LinExp.eval_num] at hc
    have h1 := hc.trans (hle dn.1 (hhdc dn hdn))
    by_contra hcon
    have h2 : cntDist p (solCommittee p x) dn.1 + 1 ≤ dn.2 := by omega
    have h3 : (cntDist p (solCommittee p x) dn.1 : ℚ) + 1 ≤ dn.2 := by exact_mod_cast h2
    unfold accuracy at h1
    norm_num at h1
    linarith
  · have hcand : CandValues p A (lexminimaxavSolution p A) := fun _ => rfl
    have hval : ∀ e, (atMostSum p k e).eval (lexminimaxavSolution p A) = cntDist p A e := by
      intro e
      rw [atMostSum_eval, cntDist_zipIdx]
      congr 1
      refine List.map_congr_left fun vi hvi => ?_
      have hv := mem_voters_of_zipIdx hvi
      unfold atMostExp
      split
      · rename_i h; rw [LinExp.eval_num, if_neg (abs_lt_dist hp hA.1 hv h)]
      · split
        · rename_i h; rw [LinExp.eval_num, if_pos ((dist_bounds hp hA.1 hv).1.trans h)]
        · rw [LinExp.eval_var, lexminimaxavSolution_atMost hvi]
    refine ⟨lexminimaxavSolution p A, ⟨?_, ?_⟩, hcand.sol hA.1, hval d⟩
    · intro d' h
      rcases List.mem_append.1 h with h | h
      · exact hcand.vars d' h
      · obtain ⟨vi, hvi, h⟩ := List.mem_flatMap.1 h
        obtain ⟨e, -, rfl⟩ := List.mem_map.1 h
        rw [inBounds_binary, lexminimaxavSolution_atMost hvi]
        split <;> simp
    · intro c hc
      rcases List.mem_append.1 hc with hc | hc
      · rcases List.mem_cons.1 hc with rfl | hc
        · exact hcand.size hA.1
        · obtain ⟨vi, hvi, hc⟩ := List.mem_flatMap.1 hc
          obtain ⟨e, -, rfl⟩ := List.mem_map.1 hc
          rw [holds_guard, lexminimaxavSolution_atMost hvi]
          intro h
          have hle : dist vi.1 A ≤ e := by
            by_contra hn
            rw [if_neg hn] at h
            exact absurd h (by norm_num)
          simp only [RelHolds, LinExp.eval_num]
          rw [hammingExp_eval hp (mem_voters_of_zipIdx hvi) (fun c _ => hcand.binary c), hcand.sol hA.1]
          exact_mod_cast hle
      · obtain ⟨dn, hdn, rfl⟩ := List.mem_map.1 hc
        rw [holds_plain]
        simp only [RelHolds, LinExp.eval_num, hval]
        have := hA.2 dn hdn
        have h' : (dn.2 : ℚ) ≤ cntDist p A dn.1 := by exact_mod_cast this
        unfold accuracy
        norm_num
        linarith

/-! ## Levels -/

/-- Level `i` is the number of voters with distance at most `numCand - i`. -/
def distLevel (p : Profile) (A : Finset ℕ) (i : ℕ) : ℕ := cntDist p A (p.numCand - i)

theorem cntLe_distVector (p : Profile) (A : Finset ℕ) (d : ℕ) : cntLe d (distVector p A) = cntDist p A d := by
  have hperm : (distVector p A).Perm (p.voters.map (fun v => dist v A)) := by
    rw [← Multiset.coe_eq_coe]
    unfold distVector
    rw [Multiset.sort_eq]
  unfold cntLe cntDist
  rw [hperm.countP_eq, List.countP_map]
  rfl

theorem length_distVector (p : Profile) (A : Finset ℕ) : (distVector p A).length = p.voters.length := by
  unfold distVector; simp

theorem mem_distVector {p : Profile} {A : Finset ℕ} {x : ℕ} (h : x ∈ distVector p A) : ∃ v ∈ p.voters, dist v A = x := by
  unfold distVector at h
  simpa using h

theorem distVector_lt_imp {p : Profile} (hp : p.WF) {k : ℕ} {A B : Finset ℕ} (hA : IsCommittee p k A)
    (h : distVector p B < distVector p A) : LexLt (p.numCand + 1) (distLevel p A) (distLevel p B) := by
  obtain ⟨d, h1, h2, x, hx, hdx⟩ := lt_cnt (l := distVector p B) (l' := distVector p A)
    (by rw [length_distVector, length_distVector]) (Multiset.pairwise_sort _ _)
    (Multiset.pairwise_sort _ _) h
  obtain ⟨v, hv, rfl⟩ := mem_distVector hx
  have hN := dist_le_numCand p hp k A hA v hv
  refine ⟨p.numCand - d, by omega, fun j hj => ?_, ?_⟩
  · unfold distLevel
    have := h1 (p.numCand - j) (by omega)
    rw [cntLe_distVector, cntLe_distVector] at this
    exact this.symm
  · unfold distLevel
    rw [show p.numCand - (p.numCand - d) = d by omega, ← cntLe_distVector, ← cntLe_distVector]
    exact h2

theorem lexLt_irrefl {α : Type} [LinearOrder α] {n : ℕ} {f g : ℕ → α} (h : LexLt n f g) (h' : ∀ j < n, f j = g j) : False := by
  obtain ⟨i, hi, -, h2⟩ := h
  exact absurd (h' i hi) h2.ne

theorem lexLt_asymm {α : Type} [LinearOrder α] {n : ℕ} {f g : ℕ → α} (h : LexLt n f g) (h' : LexLt n g f) : False := by
  obtain ⟨i, hi, h1, h2⟩ := h
  obtain ⟨j, hj, h3, h4⟩ := h'
  rcases lt_trichotomy i j with hij | rfl | hij
  · exact absurd (h3 i hij) h2.ne'
  · exact lt_asymm h2 h4
  · exact absurd (h1 j hij) h4.ne'

theorem lexminimaxavOpt_iff {p : Profile} (hp : p.WF) (k : ℕ) (A : Finset ℕ) :
    LexminimaxavOpt p k A ↔ LexMax (IsCommittee p k) (distLevel p) (p.numCand + 1) A := by
  unfold LexminimaxavOpt LexMax
  refine and_congr_right fun hA => forall₂_congr fun B hB => not_congr ⟨distVector_lt_imp hp hA, fun h => ?_⟩
  rcases lt_trichotomy (distVector p B) (distVector p A) with h1 | h1 | h1
  · exact h1
  · refine absurd h fun h => lexLt_irrefl h fun j _ => ?_
    unfold distLevel
    rw [← cntLe_distVector, ← cntLe_distVector, h1]
  · exact absurd (distVector_lt_imp hp hB h1) fun h' => lexLt_asymm h h'

/-- All voters have distance at most `d`. -/
theorem cntDist_eq_length {p : Profile} {A : Finset ℕ} {d : ℕ} : p.voters.length ≤ cntDist p A d ↔ ∀ v ∈ p.voters, dist v A ≤ d := by
  unfold cntDist
  have hle := List.countP_le_length (p := fun v => decide (dist v A ≤ d)) (l := p.voters)
  constructor
  · intro h
    have : List.countP (fun v => decide (dist v A ≤ d)) p.voters = p.voters.length := by omega
    rw [List.countP_eq_length] at this
    simpa using this
  · intro h
    have : List.countP (fun v => decide (dist v A ≤ d)) p.voters = p.voters.length := by
      rw [List.countP_eq_length]; simpa using h
    omega

theorem cntDist_le (p : Profile) (A : Finset ℕ) (d : ℕ) : cntDist p A d ≤ p.voters.length := List.countP_le_length

/-- The levels down to `M`, where `M` is the optimal value of Minimax AV. -/
theorem lexMax_minimax {p : Profile} {k M : ℕ} {O : Finset ℕ} (hO : IsCommittee p k O)
    (hOM : ∀ v ∈ p.voters, dist v O ≤ M) (hM : M ≤ p.numCand) (A : Finset ℕ) :
    HdcOk p k [(M, p.voters.length)] A ↔ LexMax (IsCommittee p k) (distLevel p) (p.numCand - M + 1) A := by
  have hOl : ∀ i < p.numCand - M + 1, distLevel p O i = p.voters.length := by
    intro i hi
    unfold distLevel
    refine le_antisymm (cntDist_le _ _ _) (cntDist_eq_length.2 fun v hv => (hOM v hv).trans (by omega))
  unfold HdcOk
  simp only [List.mem_singleton, forall_eq]
  constructor
  · rintro ⟨hA, h⟩
    have hAl : ∀ i < p.numCand - M + 1, distLevel p A i = p.voters.length := by
      intro i hi
      unfold distLevel
      refine le_antisymm (cntDist_le _ _ _) (cntDist_eq_length.2 fun v hv => (cntDist_eq_length.1 h v hv).trans (by omega))
    refine ⟨hA, fun B hB hlt => ?_⟩
    obtain ⟨i, hi, -, h2⟩ := hlt
    rw [hAl i hi] at h2
    exact absurd (cntDist_le p B _) (not_le.2 h2)
  · intro h
    refine ⟨h.1, ?_⟩
    by_contra hcon
    have hlow : ∃ i < p.numCand - M + 1, distLevel p A i < p.voters.length := by
      refine ⟨p.numCand - M, by omega, ?_⟩
      unfold distLevel
      rw [show p.numCand - (p.numCand - M) = M by omega]
      omega
    classical
    have hfind := Nat.find_spec hlow
    refine h.2 O hO ⟨Nat.find hlow, hfind.1, fun j hj => ?_, by rw [hOl _ hfind.1]; exact hfind.2⟩
    have hnot := Nat.find_min hlow hj
    rw [hOl j (by omega)]
    have h1 : ¬ distLevel p A j < p.voters.length := fun hl => hnot ⟨by omega, hl⟩
    exact le_antisymm (cntDist_le _ _ _) (not_lt.1 h1)

theorem upperBoundedQ_eq {p : Profile} (hp : p.WF) {W : List ℕ} (hW : W.Nodup) (d : ℕ) :
    numVotersUpperBounded (d : ℤ) p W = cntDist p W.toFinset d := by
  rw [C18_numVotersUpperBounded p hp W hW]
  unfold cntDist
  congr 1
  funext v
  simp

/-- The loop over the distances. -/
theorem lexminimaxavLoop_spec {solve : Program → SolveResult} (hs : ExactSolver solve) {p : Profile} (hp : p.WF) {a : Args}
    (hv : ValidCall p a) : ∀ (D : ℕ) (cs : List (List ℕ)) (hdc : List (ℕ × ℕ)), D < p.numCand + 1 → 0 < D →
      (∀ dn ∈ hdc, dn.1 ≤ p.numCand) → (∃ A, HdcOk p a.k hdc A) →
      (∀ A, HdcOk p a.k hdc A ↔ LexMax (IsCommittee p a.k) (distLevel p) (p.numCand - D + 1) A) →
      ∃ cs', lexminimaxavLoop solve p a.k a.resolute a.maxNum D cs hdc = .ok cs' ∧
        Answers a (sortedCommittees cs') (LexMax (IsCommittee p a.k) (distLevel p) (p.numCand + 1)) := by
  intro D
  induction D with
  | zero => intro _ _ _ h; omega
  | succ D ih =>
    intro cs hdc hD _ hhdc hex hiff
    have hE := C62_lexminimaxav_program hp (k := a.k) hhdc (d := D) (by omega)
    have hsc : ∀ f, some (fun W => Except.ok (ε := Err) (upperBoundedQ p D W)) = some f → ∀ W : List ℕ, W.Pairwise (· < ·) →
        HdcOk p a.k hdc W.toFinset → f W = .ok ((cntDist p W.toFinset D : ℕ) : ℚ) := by
      intro f hf W hW _
      rw [← Option.some.inj hf]
      simp only [upperBoundedQ, upperBoundedQ_eq hp (nodup_of_lt hW)]
    have hlev : ∀ A, distLevel p A (p.numCand - (D + 1) + 1) = cntDist p A D := by
      intro A; unfold distLevel; congr 1; omega
    rcases Nat.eq_zero_or_pos D with rfl | hpos
    · obtain ⟨cs', m, e, -, hne, hcs, -, hans⟩ := C61_enumeration (a := a) hs thrMip_pos thrMip_le hv hE (fun A hA => hA.1) hsc hex
      obtain ⟨c, rest, hc, hget⟩ := pyGet_zero_of_ne_nil hne
      refine ⟨cs', ?_, ?_⟩
      · unfold lexminimaxavLoop
        simp only [if_true, e, bind, Except.bind, hget]
        unfold lexminimaxavLoop
        rfl
      · have : (fun A => HdcOk p a.k hdc A ∧ ∀ B, HdcOk p a.k hdc B → (cntDist p B 0 : ℚ) -
            cmpTol (some (fun W => Except.ok (ε := Err) (upperBoundedQ p 0 W))) ≤ (cntDist p A 0 : ℚ)) =
            LexMax (IsCommittee p a.k) (distLevel p) (p.numCand + 1) := by
          funext A
          rw [cmpTol_some]
          simp only [sub_zero, Nat.cast_le, hiff]
          rw [show p.numCand + 1 = (p.numCand - (0 + 1) + 1) + 1 by omega]
          refine propext (Iff.trans (and_congr_right fun _ => forall₂_congr fun B _ => ?_)
            (lexMax_succ (C := IsCommittee p a.k) (g := distLevel p) (n := p.numCand - (0 + 1) + 1) (A := A)).symm)
          rw [hlev, hlev]
        rw [this] at hans
        exact hans
    · have hv' : ValidCall p { a with resolute := true, max := none } :=
        ⟨hv.pos, hv.le, hv.voters, by simp, by simp⟩
      obtain ⟨cs', m, e, ⟨-, -, -, hm⟩, hne, hcs, hres, -⟩ := C61_enumeration (a := { a with resolute := true, max := none })
        hs thrMip_pos thrMip_le hv' hE (fun A hA => hA.1) hsc hex
      obtain ⟨W, rfl, hW⟩ := hres rfl
      have hWF := (hcs W (by simp)).2.1
      have hWlt := (hcs W (by simp)).1
      have hbest : ∀ B, HdcOk p a.k hdc B → cntDist p B D ≤ cntDist p W.toFinset D := by
        intro B hB
        have := hm B hB
        rw [← hW] at this
        exact_mod_cast this
      have hnew : ∀ A, HdcOk p a.k (hdc ++ [(D, numVotersUpperBounded (D : ℤ) p W)]) A ↔
          HdcOk p a.k hdc A ∧ cntDist p W.toFinset D ≤ cntDist p A D := by
        intro A
        unfold HdcOk
        rw [upperBoundedQ_eq hp (nodup_of_lt hWlt)]
        simp only [List.mem_append, List.mem_singleton, or_imp, forall_and, forall_eq, and_assoc]
      obtain ⟨cs', h1, h2⟩ := ih [W] (hdc ++ [(D, numVotersUpperBounded (D : ℤ) p W)]) (by omega) hpos
        (by
          intro dn hdn
          rcases List.mem_append.1 hdn with h | h
          · exact hhdc dn h
          · rw [List.mem_singleton] at h; subst h; simp only; omega)
        ⟨W.toFinset, (hnew _).2 ⟨hWF, le_rfl⟩⟩
        (by
          intro A
          rw [hnew, show p.numCand - D + 1 = (p.numCand - (D + 1) + 1) + 1 by omega, lexMax_succ, ← hiff]
          refine and_congr_right fun hA => ?_
          rw [hlev]
          constructor
          · intro h B hB
            rw [hlev]
            exact (hbest B ((hiff B).2 hB)).trans h
          · intro h
            have := h _ ((hiff _).1 hWF)
            rwa [hlev] at this)
      refine ⟨cs', ?_, h2⟩
      unfold lexminimaxavLoop
      have e' : optimizeRule solve thrMip (some (fun W => .ok (upperBoundedQ p D W))) p a.k
          (if D = 0 then a.resolute else true) (if D = 0 then a.maxNum else none) (lexminimaxavProgram p a.k hdc D) = .ok ([W], m) := by
        rw [if_neg (by omega), if_neg (by omega)]; exact e
      have hg : pyGet [W] 0 = .ok W := rfl
      simp only [e', bind, Except.bind, hg]
      exact h1

/-- **C62** lex-Minimax-AV with Gurobi answers the call as lex-Minimax-AV should. -/
theorem C62_gurobi_lexminimaxav {solve : Program → SolveResult} (hs : ExactSolver solve) (p : Profile) (hp : p.WF) (a : Args)
    (hv : ValidCall p a) :
    Answers a (gurobiLexminimaxav solve p a.k a.resolute a.maxNum) (LexminimaxavOpt p a.k) := by
  have hspec : LexminimaxavOpt p a.k = LexMax (IsCommittee p a.k) (distLevel p) (p.numCand + 1) :=
    funext fun A => propext (lexminimaxavOpt_iff hp a.k A)
  have hv' : ValidCall p { a with resolute := true, max := none } :=
    ⟨hv.pos, hv.le, hv.voters, by simp, by simp⟩
  have hbase : Answers { a with resolute := true, max := none } (ilpMinimaxav solve thrMip p a.k true none) (MinimaxavOpt p a.k) :=
    C62_ilp_minimaxav hs thrMip_pos thrMip_le p hp { a with resolute := true, max := none } hv'
  unfold Answers at hbase
  obtain ⟨W, e, hlt, hW⟩ := hbase
  have hM : minimaxavScore p W = mmScore p W.toFinset := mmScore_list hlt
  have hMd : ∀ v ∈ p.voters, dist v W.toFinset ≤ minimaxavScore p W := by
    rw [hM]; exact (mmScore_le p hp _ _).1 le_rfl
  have hMN : minimaxavScore p W ≤ p.numCand := by
    rw [hM, mmScore_le p hp]; exact fun v hv => dist_le_numCand p hp a.k _ hW.1 v hv
  have hget : pyGet [W] 0 = .ok W := rfl
  have hiff := lexMax_minimax hW.1 hMd hMN
  have hO : HdcOk p a.k [(minimaxavScore p W, p.voters.length)] W.toFinset :=
    ⟨hW.1, by simp only [List.mem_singleton, forall_eq]; exact cntDist_eq_length.2 hMd⟩
  have key : ∃ cs', lexminimaxavLoop solve p a.k a.resolute a.maxNum (minimaxavScore p W) [W]
      [(minimaxavScore p W, p.voters.length)] = .ok cs' ∧
        Answers a (sortedCommittees cs') (LexMax (IsCommittee p a.k) (distLevel p) (p.numCand + 1)) := by
    rcases Nat.eq_zero_or_pos (minimaxavScore p W) with h0 | hpos
    · refine ⟨[W], by rw [h0]; rfl, ?_⟩
      -- distance 0: the committee is the only one
      have huniq : ∀ A, LexMax (IsCommittee p a.k) (distLevel p) (p.numCand + 1) A ↔ A = W.toFinset := by
        intro A
        rw [h0] at hiff hMd
        have h1 := hiff A
        rw [Nat.sub_zero] at h1
        rw [← h1]
        unfold HdcOk
        simp only [List.mem_singleton, forall_eq]
        rw [cntDist_eq_length]
        have hzero : ∀ (B : Finset ℕ) (v : Voter), dist v B ≤ 0 ↔ v.A = B := by
          intro B v
          unfold dist
          rw [Nat.le_zero, Finset.card_eq_zero]
          constructor
          · intro h; exact symmDiff_eq_bot.1 h
          · rintro rfl; exact symmDiff_self _
        obtain ⟨v, hvm⟩ := List.exists_mem_of_ne_nil _ hv.voters
        constructor
        · rintro ⟨-, h⟩
          rw [← (hzero A v).1 (h v hvm), (hzero _ v).1 (hMd v hvm)]
        · rintro rfl
          exact ⟨hW.1, hMd⟩
      have hcan : sortedCommittees [W] = .ok [W] := by
        rw [sortedCommittees_one (nodup_of_lt hlt)]
        congr 2
        exact eq_of_lt_toFinset (sortNat_lt (nodup_of_lt hlt)) hlt (sortNat_toFinset _)
      rw [hcan]
      have hfin : finalList a [W] = [W] := by
        unfold finalList truncate
        split
        · rfl
        · split
          · rfl
          · rename_i n hn
            obtain ⟨z, hz, rfl⟩ := maxNum_some hn
            have := hv.max z hz
            rw [List.take_of_length_le]
            simp; omega
      have := answers_finalList (a := a) (canonical_singleton hlt)
        (S := LexMax (IsCommittee p a.k) (distLevel p) (p.numCand + 1))
        (fun A => by simp [huniq, eq_comm]) (by simp)
      rwa [hfin] at this
    · exact lexminimaxavLoop_spec hs hp hv _ [W] _ (by omega) hpos (by simpa using hMN) ⟨_, hO⟩ hiff
  obtain ⟨cs', h1, h2⟩ := key
  obtain ⟨ds, d, hd, hg⟩ := answers_get h2 (by
      have hfin : ∃ A, LexminimaxavOpt p a.k A := by
        classical
        have hne : (famOf p a.k (IsCommittee p a.k)).Nonempty :=
          ⟨W.toFinset, (mem_famOf (fun A h => h) _).2 hW.1⟩
        obtain ⟨A, hA, hmin⟩ := (famOf p a.k (IsCommittee p a.k)).exists_min_image (distVector p) hne
        exact ⟨A, (mem_famOf (fun A h => h) _).1 hA, fun B hB => not_lt.2 (hmin B ((mem_famOf (fun A h => h) _).2 hB))⟩
      rw [hspec] at hfin; exact hfin) hv.max
  have : gurobiLexminimaxav solve p a.k a.resolute a.maxNum = .ok ds := by
    unfold gurobiLexminimaxav
    simp only [e, bind, Except.bind, hget, h1, hd, hg]
  rw [this, hspec, ← hd]
  exact h2

/-- **C62** `compute_lexminimaxav` with any accepted algorithm returns exactly the lex-Minimax-AV committees (unit weights; other weights
are rejected with ValueError). -/
theorem C62_compute_lexminimaxav (env : Env) (solve : String → Program → SolveResult) (p : Profile) (hp : p.WF) (a : Args)
    (alg : String) (hal : prologue env "lexminimaxav" p a = .ok alg) (hsolve : ExactSolver (solve alg)) :
    if ∀ v ∈ p.voters, v.weight = 1 then
      Answers a (computeLexminimaxav env (lexminimaxavSolver solve p a) p a) (LexminimaxavOpt p a.k)
    else computeLexminimaxav env (lexminimaxavSolver solve p a) p a = .error .valueError := by
  have hv := validCall_of_prologue hal
  have hu : p.hasUnitWeights = decide (∀ v ∈ p.voters, v.weight = 1) := by
    unfold Profile.hasUnitWeights
    rw [Bool.eq_iff_iff]
    simp
  have h : alg ∈ ["gurobi", "brute-force"] := prologue_alg_mem hal (ri := ⟨["gurobi", "brute-force"], resOpt⟩) rfl
  simp only [List.mem_cons, List.not_mem_nil, or_false] at h
  rcases h with rfl | rfl
  · split
    · rename_i hunit
      unfold computeLexminimaxav
      rw [hal, hu]
      simp only [bind, Except.bind]
      rw [if_neg (by simpa using hunit), if_neg (by decide)]
      unfold lexminimaxavSolver
      rw [if_pos rfl]
      exact C62_gurobi_lexminimaxav hsolve p hp a hv
    · rename_i h
      unfold computeLexminimaxav
      rw [hal, hu]
      simp [bind, Except.bind, h]
  · exact C25_lexminimaxav_optimal env _ p hp a hal

/-- The hypotheses are satisfiable: Gurobi on a profile of three voters. -/
example : ∃ solve : String → Program → SolveResult, (∀ alg, ExactSolver (solve alg)) ∧
    Answers { committeesize := 2, algorithm := "gurobi", resolute := false }
      (computeLexminimaxav ⟨["gurobi"], fun _ => none, fun _ => none⟩
        (lexminimaxavSolver solve monroeExample { committeesize := 2, algorithm := "gurobi", resolute := false })
        monroeExample { committeesize := 2, algorithm := "gurobi", resolute := false })
      (LexminimaxavOpt monroeExample 2) := by
  obtain ⟨solve, hs⟩ := exists_exactSolver
  refine ⟨fun _ => solve, fun _ => hs, ?_⟩
  have := C62_compute_lexminimaxav _ (fun _ => solve) monroeExample ⟨by decide, by decide, by decide, by decide +kernel⟩
    { committeesize := 2, algorithm := "gurobi", resolute := false } "gurobi"
    (show prologue ⟨["gurobi"], fun _ => none, fun _ => none⟩ _ _ _ = _ by decide +kernel) hs
  rw [if_pos (by decide +kernel)] at this
  exact this

end Abc
