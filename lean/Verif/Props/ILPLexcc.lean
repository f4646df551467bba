import Verif.Props.ILPMinimaxav
import Verif.Lemmas.Lex

/-!
# C62: the sequence of integer programs of lex-CC (Gurobi)
-/

namespace Abc
open Spec

/-- The coverage levels of a committee. -/
def covLevel (p : Profile) (A : Finset ℕ) (i : ℕ) : ℚ := coverage p (i + 1) A

/-- The first `n` levels are lexicographically maximal. -/
abbrev LexccLevel (p : Profile) (k : ℕ) (n : ℕ) (A : Finset ℕ) : Prop := LexMax (IsCommittee p k) (covLevel p) n A

theorem lexccOpt_iff (p : Profile) (k : ℕ) (A : Finset ℕ) : LexccOpt p k A ↔ LexccLevel p k k A := by
  unfold LexccOpt LexccLevel LexMax coverageVector
  refine and_congr_right fun _ => forall₂_congr fun B _ => not_congr ?_
  exact map_range_lt_iff (f := covLevel p A) (g := covLevel p B)

/-- All weights are multiples of `1 / D` where `D < 10⁸` (for example integers, or multiples of `1/1000`).  The code compares with a
slack of `10⁻⁸`, so it cannot distinguish finer weights. -/
def Granular (p : Profile) : Prop := ∃ D : ℕ, 0 < D ∧ D < 10 ^ 8 ∧ ∀ v ∈ p.voters, ∃ z : ℤ, v.weight * D = z

theorem coverage_granular {p : Profile} {D : ℕ} (h : ∀ v ∈ p.voters, ∃ z : ℤ, v.weight * D = z) (l : ℕ) (A : Finset ℕ) :
    ∃ z : ℤ, coverage p l A * D = z := by
  unfold coverage
  revert h
  induction p.voters with
  | nil => exact fun _ => ⟨0, by simp⟩
  | cons v vs ih =>
    intro h
    obtain ⟨z, hz⟩ := ih (fun v hv => h v (by simp [hv]))
    obtain ⟨y, hy⟩ := h v (by simp)
    simp only [List.map_cons, List.sum_cons, add_mul, hz]
    by_cases hl : l ≤ util v A
    · rw [if_pos hl, hy]; exact ⟨y + z, by push_cast; ring⟩
    · rw [if_neg hl]; exact ⟨z, by simp⟩

theorem gap_of_granular {D : ℕ} (hD0 : 0 < D) (hD : D < 10 ^ 8) {a b : ℚ} (ha : ∃ z : ℤ, a * D = z) (hb : ∃ z : ℤ, b * D = z)
    (h : b - accuracy ≤ a) : b ≤ a := by
  obtain ⟨y, hy⟩ := ha
  obtain ⟨z, hz⟩ := hb
  have hDq : (0 : ℚ) < D := by exact_mod_cast hD0
  have hDq' : (D : ℚ) < 10 ^ 8 := by exact_mod_cast hD
  by_contra hcon
  have h1 : a * D < b * D := mul_lt_mul_of_pos_right (not_le.1 hcon) hDq
  rw [hy, hz] at h1
  have h2 : y + 1 ≤ z := by
    have : y < z := by exact_mod_cast h1
    omega
  have h3 : a * D + 1 ≤ b * D := by rw [hy, hz]; exact_mod_cast h2
  have h4 : accuracy * D < 1 := by
    unfold accuracy
    rw [div_mul_eq_mul_div, div_lt_one (by positivity)]
    linarith
  nlinarith

/-- Objective of level `y`. -/
theorem atleastObj_eval (p : Profile) (k y : ℕ) (x : IVar → ℚ) :
    (utilityObj (marginalFct (.atleast ((y : ℤ) + 1))) p k).eval x = (p.voters.zipIdx.map (fun vi => vi.1.weight *
      (if y < maxInCommittee k vi.1 then x (.utility vi.2 (y + 1)) else 0))).sum := by
  rw [utilityObj_eval]
  congr 1
  refine List.map_congr_left fun vi _ => ?_
  congr 1
  have : ∀ j ∈ Finset.range (maxInCommittee k vi.1),
      marginalFct (.atleast ((y : ℤ) + 1)) (j + 1) * x (.utility vi.2 (j + 1)) =
        if j = y then x (.utility vi.2 (y + 1)) else 0 := by
    intro j _
    simp only [marginalFct]
    by_cases h : j = y
    · subst h; simp
    · rw [if_neg h, if_neg (by push_cast; omega), zero_mul]
  rw [Finset.sum_congr rfl this, Finset.sum_ite_eq' (Finset.range (maxInCommittee k vi.1)) y]
  simp only [Finset.mem_range]

theorem coverage_zipIdx (p : Profile) (l : ℕ) (A : Finset ℕ) :
    coverage p l A = (p.voters.zipIdx.map (fun vi => vi.1.weight * (if l ≤ util vi.1 A then 1 else 0))).sum := by
  unfold coverage
  rw [voters_map_zipIdx]
  congr 1
  refine List.map_congr_left fun vi _ => ?_
  split <;> simp

/-- If a sum of non-negative terms is at most `b`, so is every term. -/
theorem term_le_sum {α : Type} {l : List α} {f : α → ℚ} (h : ∀ a ∈ l, 0 ≤ f a) {a : α} (ha : a ∈ l) : f a ≤ (l.map f).sum := by
  induction l with
  | nil => simp at ha
  | cons b l ih =>
    rw [List.map_cons, List.sum_cons]
    have hrest : 0 ≤ (l.map f).sum := List.sum_nonneg (by
      intro y hy
      obtain ⟨z, hz, rfl⟩ := List.mem_map.1 hy
      exact h z (by simp [hz]))
    rcases List.mem_cons.1 ha with rfl | h'
    · linarith
    · have := ih (fun c hc => h c (by simp [hc])) h'
      have := h b (by simp)
      linarith

theorem sum_sub_map {α : Type} (l : List α) (f g : α → ℚ) : (l.map f).sum - (l.map g).sum = (l.map (fun a => f a - g a)).sum := by
  induction l with
  | nil => simp
  | cons a l ih => simp only [List.map_cons, List.sum_cons, ← ih]; ring

/-- 0/1 values with sum `t`, the first `y` of which are as in the standard solution: position `y` is at most `[y + 1 ≤ t]`. -/
theorem utility_le {u : ℕ → ℚ} {m t y : ℕ} (hu : ∀ j < m, u j = 0 ∨ u j = 1) (hsum : ∑ j ∈ Finset.range m, u j = t) (hy : y < m)
    (hfirst : ∀ j < y, u j = if j + 1 ≤ t then 1 else 0) : u y ≤ if y + 1 ≤ t then 1 else 0 := by
  by_cases h : y + 1 ≤ t
  · rw [if_pos h]; rcases hu y hy with h | h <;> rw [h]; norm_num
  · rw [if_neg h]
    have hnn : ∀ j ∈ Finset.range m, 0 ≤ u j := fun j hj => by
      rcases hu j (by simpa using hj) with h | h <;> rw [h]; norm_num
    have h1 : ∑ j ∈ Finset.range y, u j = t := by
      have := sum_first_if (m := y) (t := t) (by omega) (fun _ => 1)
      simp only [one_mul, Finset.sum_const, Finset.card_range, nsmul_eq_mul, mul_one] at this
      rw [← this]
      exact Finset.sum_congr rfl fun j hj => hfirst j (by simpa using hj)
    have h2 : ∑ j ∈ Finset.range (y + 1), u j ≤ ∑ j ∈ Finset.range m, u j :=
      Finset.sum_le_sum_of_subset_of_nonneg (by intro j hj; simp at hj ⊢; omega) (fun j hj _ => hnn j hj)
    rw [Finset.sum_range_succ, h1, hsum] at h2
    linarith

/-- What the feasible solutions of the program in iteration `sats.length` look like. -/
theorem lexcc_sound {p : Profile} (hp : p.WF) (hg : Granular p) {k : ℕ} {sats : List ℚ} {O : Finset ℕ}
    (hO : LexccLevel p k sats.length O) (hsats : sats = (List.range sats.length).map (covLevel p O)) {x : IVar → ℚ}
    (hx : Feasible (lexccProgram p k sats) x) (hb : ∀ c < p.numCand, x (.cand c) = 0 ∨ x (.cand c) = 1)
    (hA : IsCommittee p k (solCommittee p x)) :
    ∀ y ≤ sats.length, LexccLevel p k y (solCommittee p x) ∧ ∀ vi ∈ p.voters.zipIdx, ∀ j < y, j < maxInCommittee k vi.1 →
      x (.utility vi.2 (j + 1)) = if j + 1 ≤ util vi.1 (solCommittee p x) then 1 else 0 := by
  obtain ⟨D, hD0, hD, hgr⟩ := hg
  have hfacts : ∀ vi ∈ p.voters.zipIdx, _ := fun vi hvi => utility_facts hp hb
    (fun d hd => hx.1 d (List.mem_append_right _ hd))
    (fun c hc => hx.2 c (List.mem_append_left _ (List.mem_cons_of_mem _ hc))) hvi
  intro y
  induction y with
  | zero => exact fun _ => ⟨lexMax_zero.2 hA, by intro vi _ j hj; omega⟩
  | succ y ih =>
    intro hy
    obtain ⟨ih1, ih2⟩ := ih (by omega)
    have hsy : sats[y]? = some (covLevel p O y) := by
      rw [hsats]; simp [show y < sats.length by omega]
    have hle : ∀ vi ∈ p.voters.zipIdx, (if y < maxInCommittee k vi.1 then x (.utility vi.2 (y + 1)) else 0) ≤
        if y + 1 ≤ util vi.1 (solCommittee p x) then (1 : ℚ) else 0 := by
      intro vi hvi
      by_cases hm : y < maxInCommittee k vi.1
      · rw [if_pos hm]
        exact utility_le (u := fun j => x (.utility vi.2 (j + 1))) (hfacts vi hvi).1 (hfacts vi hvi).2 hm
          (fun j hj => ih2 vi hvi j hj (by omega))
      · rw [if_neg hm]; split <;> norm_num
    -- the constraint of level `y`
    have hc := hx.2 _ (List.mem_append_right _ (List.mem_map.2 ⟨(covLevel p O y, y),
      List.mem_zipIdx_iff_getElem?.2 hsy, rfl⟩))
    rw [holds_plain] at hc
    simp only [RelHolds, atleastObj_eval, LinExp.eval_num] at hc
    set A := solCommittee p x with hAdef
    set S := (p.voters.zipIdx.map (fun vi => vi.1.weight *
      (if y < maxInCommittee k vi.1 then x (.utility vi.2 (y + 1)) else 0))).sum with hS
    have hw : ∀ vi ∈ p.voters.zipIdx, 0 < vi.1.weight := fun vi hvi => hp.weight _ (mem_voters_of_zipIdx hvi)
    have hnn : ∀ vi ∈ p.voters.zipIdx, 0 ≤ vi.1.weight * (if y + 1 ≤ util vi.1 A then (1 : ℚ) else 0) -
        vi.1.weight * (if y < maxInCommittee k vi.1 then x (.utility vi.2 (y + 1)) else 0) := by
      intro vi hvi
      rw [← mul_sub]
      exact mul_nonneg (hw vi hvi).le (by have := hle vi hvi; linarith)
    have hdiff : covLevel p A y - S = (p.voters.zipIdx.map (fun vi => vi.1.weight * (if y + 1 ≤ util vi.1 A then (1 : ℚ) else 0) -
        vi.1.weight * (if y < maxInCommittee k vi.1 then x (.utility vi.2 (y + 1)) else 0))).sum := by
      unfold covLevel
      rw [coverage_zipIdx, hS, sum_sub_map]
    have hSle : S ≤ covLevel p A y := by
      have : 0 ≤ covLevel p A y - S := by
        rw [hdiff]
        exact List.sum_nonneg (by intro q hq; obtain ⟨vi, hvi, rfl⟩ := List.mem_map.1 hq; exact hnn vi hvi)
      linarith
    have hOy : LexccLevel p k (y + 1) O := hO.mono hy
    have hmax : covLevel p A y ≤ covLevel p O y := (lexMax_succ.1 hOy).2 A ih1
    have hge : covLevel p O y ≤ covLevel p A y :=
      gap_of_granular hD0 hD (coverage_granular hgr _ _) (coverage_granular hgr _ _) (by linarith)
    refine ⟨lexMax_succ.2 ⟨ih1, fun B hB => ((lexMax_succ.1 hOy).2 B hB).trans hge⟩, ?_⟩
    intro vi hvi j hj hjm
    rcases Nat.lt_succ_iff_lt_or_eq.1 hj with h | rfl
    · exact ih2 vi hvi j h hjm
    · have hterm := term_le_sum hnn hvi
      rw [← hdiff] at hterm
      have h1 := hle vi hvi
      rw [if_pos hjm] at h1 hterm
      rw [← mul_sub] at hterm
      rcases (hfacts vi hvi).1 j hjm with hu | hu
      · rw [hu] at h1 hterm ⊢
        by_cases hut : j + 1 ≤ util vi.1 A
        · exfalso
          rw [if_pos hut] at hterm
          have hwt : vi.1.weight ≤ accuracy := by linarith
          have : vi.1.weight ≤ 0 := by
            have := gap_of_granular hD0 hD (a := 0) (b := vi.1.weight) ⟨0, by simp⟩ (hgr _ (mem_voters_of_zipIdx hvi)) (by linarith)
            exact this
          exact absurd (hw vi hvi) (not_lt.2 this)
        · rw [if_neg hut]
      · rw [hu] at h1 ⊢
        by_cases hut : j + 1 ≤ util vi.1 A
        · rw [if_pos hut]
        · rw [if_neg hut] at h1; exact absurd h1 (by norm_num)

/-- **C62** In every iteration the program of lex-CC encodes the committees that are lexicographically optimal on the levels fixed so
far, with the coverage of the next level as value. -/
theorem C62_lexcc_program {p : Profile} (hp : p.WF) (hg : Granular p) {k : ℕ} {sats : List ℚ} {O : Finset ℕ}
    (hO : LexccLevel p k sats.length O) (hsats : sats = (List.range sats.length).map (covLevel p O)) :
    Encodes (lexccProgram p k sats) p (LexccLevel p k sats.length) (fun A => covLevel p A sats.length) := by
  have hvars : ∀ d ∈ candVars p, d ∈ (lexccProgram p k sats).vars := fun d hd => List.mem_append_left _ hd
  have hsize : sizeConstr p k ∈ (lexccProgram p k sats).constrs := List.mem_append_left _ List.mem_cons_self
  refine ⟨fun x hx => feas_cand hx hvars, fun x hx => ?_, fun A hA => ?_⟩
  · have hb := feas_cand hx hvars
    obtain ⟨h1, h2⟩ := lexcc_sound hp hg hO hsats hx hb (feas_committee hx hvars hsize) _ le_rfl
    refine ⟨h1, ?_⟩
    change (utilityObj _ p k).eval x ≤ _
    rw [atleastObj_eval]
    unfold covLevel
    rw [coverage_zipIdx]
    refine List.sum_le_sum fun vi hvi => ?_
    refine mul_le_mul_of_nonneg_left ?_ (hp.weight _ (mem_voters_of_zipIdx hvi)).le
    have hfacts := utility_facts hp hb (fun d hd => hx.1 d (List.mem_append_right _ hd))
      (fun c hc => hx.2 c (List.mem_append_left _ (List.mem_cons_of_mem _ hc))) hvi
    by_cases hm : sats.length < maxInCommittee k vi.1
    · rw [if_pos hm]
      exact utility_le (u := fun j => x (.utility vi.2 (j + 1))) hfacts.1 hfacts.2 hm (fun j hj => h2 vi hvi j hj (by omega))
    · rw [if_neg hm]; split <;> norm_num
  · obtain ⟨h1, h2, h3⟩ := thieleSolution_feasible hp hA.1
    have hval : ∀ y : ℕ, (utilityObj (marginalFct (.atleast ((y : ℤ) + 1))) p k).eval (thieleSolution p A) = covLevel p A y := by
      intro y
      rw [atleastObj_eval]
      unfold covLevel
      rw [coverage_zipIdx]
      congr 1
      refine List.map_congr_left fun vi hvi => ?_
      congr 1
      rw [thieleSolution_utility hvi]
      by_cases hm : y < maxInCommittee k vi.1
      · rw [if_pos hm]
      · rw [if_neg hm, if_neg (by have := util_le_max hA.1 vi.1; omega)]
    refine ⟨_, ⟨h1, ?_⟩, (thieleSolution_cand p A).sol hA.1, hval _⟩
    intro c hc
    rcases List.mem_append.1 hc with h | h
    · exact h2 c h
    · obtain ⟨si, hsi, rfl⟩ := List.mem_map.1 h
      rw [holds_plain]
      simp only [RelHolds, hval, LinExp.eval_num]
      have hget := List.mem_zipIdx_iff_getElem?.1 hsi
      have hlt : si.2 < sats.length := (List.getElem?_eq_some_iff.1 hget).1
      rw [hsats] at hget
      simp only [List.getElem?_map, List.getElem?_range hlt, Option.map_some, Option.some.injEq] at hget
      rw [← hget, hO.agree hA si.2 hlt]
      unfold accuracy; norm_num

theorem atLeastScore_eq (p : Profile) (i : ℕ) (W : List ℕ) : atLeastScore p (i + 1) W = covLevel p W.toFinset i := by
  unfold atLeastScore covLevel coverage
  exact C16_atleast_score p W (i + 1) (by omega)

theorem exists_lexccLevel {p : Profile} {k : ℕ} (hk : k ≤ p.numCand) (n : ℕ) : ∃ A, LexccLevel p k n A := by
  classical
  induction n with
  | zero =>
    obtain ⟨A, hA⟩ := exists_committee hk
    exact ⟨A, lexMax_zero.2 hA⟩
  | succ n ih =>
    obtain ⟨A₀, hA₀⟩ := ih
    obtain ⟨A, hA, hmax⟩ := (famOf p k (LexccLevel p k n)).exists_max_image (fun A => covLevel p A n)
      ⟨A₀, (mem_famOf (fun A h => h.1) A₀).2 hA₀⟩
    refine ⟨A, lexMax_succ.2 ⟨(mem_famOf (fun A h => h.1) A).1 hA, fun B hB => ?_⟩⟩
    exact hmax B ((mem_famOf (fun A h => h.1) B).2 hB)

/-- The loop that computes the optimal levels. -/
theorem lexccLoop_spec {solve : Program → SolveResult} (hs : ExactSolver solve) {p : Profile} (hp : p.WF) (hg : Granular p) {a : Args}
    (hv : ValidCall p a) : ∀ (n : ℕ) (sats : List ℚ) (O : Finset ℕ), LexccLevel p a.k sats.length O →
      sats = (List.range sats.length).map (covLevel p O) →
      ∃ sats' O', lexccLoop solve p a.k n sats = .ok sats' ∧ sats'.length = sats.length + n ∧ LexccLevel p a.k sats'.length O' ∧
        sats' = (List.range sats'.length).map (covLevel p O') := by
  intro n
  induction n with
  | zero => intro sats O hO hsats; exact ⟨sats, O, rfl, rfl, hO, hsats⟩
  | succ n ih =>
    intro sats O hO hsats
    have hv' : ValidCall p { a with resolute := true, max := none } :=
      ⟨hv.pos, hv.le, hv.voters, by simp, by simp⟩
    obtain ⟨cs, m, e, ⟨-, -, -, hm⟩, -, hcs, hres, -⟩ := C61_enumeration (a := { a with resolute := true, max := none })
      (score := some (fun W => .ok (atLeastScore p (sats.length + 1) W))) hs thrMip_pos thrMip_le hv'
      (C62_lexcc_program hp hg hO hsats) (fun A hA => hA.1)
      (fun f hf W _ _ => by rw [← Option.some.inj hf]; simp only [atLeastScore_eq]) ⟨O, hO⟩
    obtain ⟨W, rfl, hW⟩ := hres rfl
    have hWF := (hcs W (by simp)).2.1
    have hnext : LexccLevel p a.k (sats.length + 1) W.toFinset :=
      lexMax_succ.2 ⟨hWF, fun B hB => by rw [hW]; exact hm B hB⟩
    obtain ⟨sats', O', h1, h2, h3, h4⟩ := ih (sats ++ [atLeastScore p (sats.length + 1) W]) W.toFinset
      (by simpa using hnext) (by
        rw [List.length_append, List.length_singleton, List.range_succ, List.map_append, List.map_singleton, atLeastScore_eq]
        congr 1
        refine hsats.trans (List.map_congr_left fun i hi => ?_)
        exact hO.agree hWF i (by simpa using hi))
    refine ⟨sats', O', ?_, by rw [h2]; simp; omega, h3, h4⟩
    unfold lexccLoop
    have e' : optimizeRule solve thrMip (some (fun W => .ok (atLeastScore p (sats.length + 1) W))) p a.k true none
        (lexccProgram p a.k sats) = .ok ([W], m) := e
    simp only [e', bind, Except.bind]
    have : pyGet [W] 0 = .ok W := rfl
    rw [this]
    exact h1

/-- **C62** lex-CC with Gurobi: the levels are computed one after the other and the result answers the call as lex-CC should; the
reported vector is the coverage vector of the winners. -/
theorem C62_gurobi_lexcc {solve : Program → SolveResult} (hs : ExactSolver solve) (p : Profile) (hp : p.WF) (hg : Granular p) (a : Args)
    (hv : ValidCall p a) :
    ∃ cs vec, gurobiLexcc solve p a.k a.resolute a.maxNum = .ok (cs, vec) ∧ Answers a (.ok cs) (LexccOpt p a.k) ∧
      ∀ A, LexccOpt p a.k A → vec = coverageVector p a.k A := by
  obtain ⟨A₀, hA₀⟩ := exists_committee hv.le
  obtain ⟨sats, O, h1, h2, h3, h4⟩ := lexccLoop_spec hs hp hg hv (a.k - 1) [] A₀ (lexMax_zero.2 hA₀) rfl
  have hlen : sats.length + 1 = a.k := by have := hv.pos; simp at h2; omega
  have hlev : LexccLevel p a.k a.k = LexccLevel p a.k (sats.length + 1) := by rw [hlen]
  have hscore : ∀ W : List ℕ, atLeastScore p a.k W = covLevel p W.toFinset sats.length := by
    intro W; rw [← hlen, atLeastScore_eq]
  obtain ⟨cs, m, e, ⟨-, -, -, hbest⟩, hne, hcs, -, hans⟩ := C61_enumeration (a := a)
    (score := some (fun W => .ok (atLeastScore p a.k W))) hs thrMip_pos thrMip_le hv
    (C62_lexcc_program hp hg h3 h4) (fun A hA => hA.1)
    (fun f hf W _ _ => by rw [← Option.some.inj hf]; simp only [hscore]) ⟨O, h3⟩
  have hopt : (fun A => LexccLevel p a.k sats.length A ∧ ∀ B, LexccLevel p a.k sats.length B →
      covLevel p B sats.length - cmpTol (some (fun W => Except.ok (ε := Err) (atLeastScore p a.k W))) ≤ covLevel p A sats.length) =
      LexccOpt p a.k := by
    funext A
    rw [cmpTol_some]
    simp only [sub_zero]
    refine propext (Iff.trans ?_ (lexccOpt_iff p a.k A).symm)
    rw [hlev]
    exact lexMax_succ.symm
  rw [hopt] at hans
  obtain ⟨A₁, hA₁⟩ := exists_lexccLevel hv.le a.k
  obtain ⟨ds, d, hd, -⟩ := answers_get hans ⟨A₁, (lexccOpt_iff p a.k A₁).2 hA₁⟩ hv.max
  obtain ⟨c, rest, hc, hget⟩ := pyGet_zero_of_ne_nil hne
  have hcm : c ∈ cs := by rw [hc]; simp
  refine ⟨ds, sats ++ [atLeastScore p a.k c], ?_, by rw [← hd]; exact hans, ?_⟩
  · unfold gurobiLexcc
    simp only [h1, bind, Except.bind, e, hget, hd]
  · -- all returned committees have optimal value
    have hcopt := hcs c hcm
    intro A hA
    have hAl := (lexccOpt_iff p a.k A).1 hA
    have hcl : LexccLevel p a.k a.k c.toFinset := by
      rw [hlev]
      refine lexMax_succ.2 ⟨hcopt.2.1, fun B hB => ?_⟩
      have hcm' := hcopt.2.2
      rw [cmpTol_some, sub_zero] at hcm'
      exact (hbest B hB).trans hcm'
    have hagree := hAl.agree hcl
    unfold coverageVector
    rw [hscore]
    conv_rhs => rw [← hlen, List.range_succ, List.map_append, List.map_singleton]
    have hAO := h3.agree (hAl.mono (by omega : sats.length ≤ a.k))
    congr 1
    · refine h4.trans (List.map_congr_left fun i hi => ?_)
      exact hAO i (by simpa using hi)
    · rw [← hagree sats.length (by omega)]; rfl

/-- **C62** `compute_lexcc` with any accepted algorithm — the solver being exact, and for Gurobi with weights that are multiples of some
`1/D`, `D < 10⁸` — returns exactly the lex-CC committees. -/
theorem C62_compute_lexcc (env : Env) (solve : String → Program → SolveResult) (p : Profile) (hp : p.WF) (a : Args) (alg : String)
    (hal : prologue env "lexcc" p a = .ok alg) (hsolve : ExactSolver (solve alg)) (hg : alg = "gurobi" → Granular p) :
    Answers a (computeLexcc env (lexccSolver solve p a) p a) (LexccOpt p a.k) := by
  have hv := validCall_of_prologue hal
  have h : alg ∈ ["gurobi", "brute-force"] := prologue_alg_mem hal (ri := ⟨["gurobi", "brute-force"], resOpt⟩) rfl
  simp only [List.mem_cons, List.not_mem_nil, or_false] at h
  rcases h with rfl | rfl
  · obtain ⟨cs, vec, e, hans, -⟩ := C62_gurobi_lexcc hsolve p hp (hg rfl) a hv
    unfold computeLexcc
    rw [hal]
    simp only [bind, Except.bind]
    rw [if_neg (by decide)]
    unfold lexccSolver
    rw [if_pos rfl, e]
    exact hans
  · exact (C23_lexcc_optimal env _ p hp a hal).1

/-- The hypotheses are satisfiable: Gurobi on a profile of three voters, one of weight 1/2. -/
example : ∃ solve : String → Program → SolveResult, (∀ alg, ExactSolver (solve alg)) ∧
    Answers { committeesize := 2, algorithm := "gurobi", resolute := false }
      (computeLexcc ⟨["gurobi"], fun _ => none, fun _ => none⟩
        (lexccSolver solve ⟨3, [⟨[0, 1], 1⟩, ⟨[1, 2], 2⟩, ⟨[0], 1 / 2⟩], []⟩
          { committeesize := 2, algorithm := "gurobi", resolute := false })
        ⟨3, [⟨[0, 1], 1⟩, ⟨[1, 2], 2⟩, ⟨[0], 1 / 2⟩], []⟩ { committeesize := 2, algorithm := "gurobi", resolute := false })
      (LexccOpt ⟨3, [⟨[0, 1], 1⟩, ⟨[1, 2], 2⟩, ⟨[0], 1 / 2⟩], []⟩ 2) := by
  obtain ⟨solve, hs⟩ := exists_exactSolver
  refine ⟨fun _ => solve, fun _ => hs, ?_⟩
  refine C62_compute_lexcc _ (fun _ => solve) _
    ⟨by decide, by decide, by decide, by decide +kernel⟩ _ "gurobi" (by decide +kernel) hs (fun _ => ⟨2, by norm_num, by norm_num, ?_⟩)
  intro v hv
  simp only [List.mem_cons, List.not_mem_nil, or_false] at hv
  rcases hv with rfl | rfl | rfl
  · exact ⟨2, by norm_num⟩
  · exact ⟨4, by norm_num⟩
  · exact ⟨1, by norm_num⟩

end Abc
