import Verif.Props.ILPPhragmen
import Verif.Props.Budgets

/-!
# C68: maximin support
-/

namespace Abc
open Spec

/-- The largest possible minimal support of a non-empty committee. -/
noncomputable def maximinValue (p : Profile) (W : Finset ℕ) : ℚ :=
  open Classical in if h : ∃ m, ∀ t, SupportAtLeast p W t ↔ t ≤ m then h.choose else 0

theorem maximinValue_spec {p : Profile} (hp : p.WF) {W : Finset ℕ} (hne : W.Nonempty) (t : ℚ) :
    SupportAtLeast p W t ↔ t ≤ maximinValue p W := by
  have h : ∃ m, ∀ t, SupportAtLeast p W t ↔ t ≤ m := by
    obtain ⟨m, hm, -⟩ := C67_max_support hp hne
    exact ⟨m, hm⟩
  unfold maximinValue
  rw [dif_pos h]
  exact h.choose_spec t

theorem maximinValue_nonneg {p : Profile} (hp : p.WF) {W : Finset ℕ} (hne : W.Nonempty) : 0 ≤ maximinValue p W := by
  rw [← maximinValue_spec hp hne, C67_support_iff hp]
  intro C _
  rw [mul_zero]; exact wt_nonneg' hp _

/-- The sum in the equality constraint of voter `i`. -/
theorem assignedSum_eval {p : Profile} (hp : p.WF) (W : List ℕ) (x : IVar → ℚ) (i : Fin p.voters.length) :
    (LinExp.sum (((p.voters.get i).approved.filter (fun c => decide (c ∈ W))).map (fun c => .var (.assigned i c)))).eval x =
      ∑ c ∈ appr p i ∩ W.toFinset, x (.assigned i c) := by
  rw [LinExp.eval_sum, List.map_map]
  have : (LinExp.eval x ∘ fun c => LinExp.var (IVar.assigned i c)) = fun c => x (.assigned i c) := by
    funext c; simp
  rw [this, ← List.sum_toFinset _ ((hp.nodup _ (List.get_mem _ _)).filter _)]
  refine Finset.sum_congr ?_ fun _ _ => rfl
  ext c
  simp [appr, Voter.A]

theorem supportSum_eval {p : Profile} (x : IVar → ℚ) (c : ℕ) :
    (LinExp.sum ((p.voters.zipIdx.filter (fun vi => decide (c ∈ vi.1.approved))).map (fun vi => .var (.assigned vi.2 c)))).eval x =
      ∑ i, if c ∈ appr p i then x (.assigned i c) else 0 := by
  rw [LinExp.eval_sum, List.map_map, sum_filter_map, sum_zipIdx_rat]
  refine Finset.sum_congr rfl fun i _ => ?_
  simp only [Function.comp, decide_eq_true_eq, LinExp.eval_var, mem_appr]

theorem maximin_sound {p : Profile} (hp : p.WF) {W : List ℕ} (hlt : ∀ c ∈ W, c < p.numCand) {x : IVar → ℚ}
    (hx : Feasible (maximinProgram p W) x) : SupportAtLeast p W.toFinset (x .value) := by
  classical
  have hnn : ∀ (i : Fin p.voters.length) c, c < p.numCand → 0 ≤ x (.assigned i c) := fun i c hc =>
    (hx.1 { v := .assigned i c, integer := false, lb := 0 } (List.mem_cons_of_mem _ (List.mem_flatMap.2
      ⟨i, List.mem_range.2 i.2, List.mem_map.2 ⟨c, List.mem_range.2 hc, rfl⟩⟩))).1
  refine ⟨fun i c => if c ∈ appr p i ∩ W.toFinset then x (.assigned i c) else 0, fun i c => ?_, fun i c h => ?_, fun i => ?_, fun c hc => ?_⟩
  · dsimp only
    split
    · next h => exact hnn i c (hlt c (List.mem_toFinset.1 (Finset.mem_inter.1 h).2))
    · exact le_rfl
  · by_contra hn
    exact h (by simp [hn])
  · rw [← Finset.sum_filter]
    have e : W.toFinset.filter (· ∈ appr p i ∩ W.toFinset) = appr p i ∩ W.toFinset := by
      ext c; simp only [Finset.mem_filter, Finset.mem_inter]; tauto
    rw [e]
    by_cases h : (p.voters.get i).approved.filter (fun c => decide (c ∈ W)) = []
    · have : appr p i ∩ W.toFinset = ∅ := by
        rw [Finset.eq_empty_iff_forall_notMem]
        intro c hc
        rw [Finset.mem_inter, mem_appr, List.mem_toFinset] at hc
        have : c ∈ (p.voters.get i).approved.filter (fun c => decide (c ∈ W)) := List.mem_filter.2 ⟨hc.1, by simpa using hc.2⟩
        rw [h] at this
        simp at this
      rw [this, Finset.sum_empty]
      exact (weight_pos hp i).le
    · have hc := hx.2 _ (List.mem_append_left _ (List.mem_map.2 ⟨(p.voters.get i, (i : ℕ)), List.mem_filter.2
        ⟨mem_zipIdx_get p i, decide_eq_true h⟩, rfl⟩))
      rw [holds_plain] at hc
      simp only [RelHolds, LinExp.eval_num] at hc
      rw [assignedSum_eval hp] at hc
      exact hc.le
  · have hcW := List.mem_toFinset.1 hc
    have h := hx.2 _ (List.mem_append_right _ (List.mem_map.2 ⟨c, hcW, rfl⟩))
    rw [holds_plain] at h
    simp only [RelHolds, supportSum_eval, LinExp.eval_var] at h
    refine h.trans (Finset.sum_le_sum fun i _ => ?_)
    dsimp only
    split <;> split
    · exact le_rfl
    · next h1 h2 => exact absurd (Finset.mem_inter.2 ⟨h1, hc⟩) h2
    · next h1 h2 => exact absurd (Finset.mem_inter.1 h2).1 h1
    · exact le_rfl

theorem maximin_complete {p : Profile} (hp : p.WF) {W : List ℕ} {t : ℚ} (h0 : 0 ≤ t)
    (ht : SupportAtLeast p W.toFinset t) : ∃ x, Feasible (maximinProgram p W) x ∧ x .value = t := by
  classical
  obtain ⟨f, f1, f2, f3, f4⟩ := ht
  -- the approved committee member that receives the unused weight of voter `i`
  let pick : Fin p.voters.length → ℕ := fun i => if h : (appr p i ∩ W.toFinset).Nonempty then h.choose else p.numCand
  let g : Fin p.voters.length → ℕ → ℚ := fun i c =>
    (if c ∈ appr p i ∩ W.toFinset then f i c else 0) +
      (if c = pick i then (p.voters.get i).weight - ∑ d ∈ appr p i ∩ W.toFinset, f i d else 0)
  have hrest : ∀ i, 0 ≤ (p.voters.get i).weight - ∑ d ∈ appr p i ∩ W.toFinset, f i d := fun i => by
    have := (Finset.sum_le_sum_of_subset_of_nonneg (f := f i) (Finset.inter_subset_right (s₁ := appr p i) (s₂ := W.toFinset))
      fun c _ _ => f1 i c).trans (f3 i)
    linarith
  have hg : ∀ i c, 0 ≤ g i c := fun i c => by
    simp only [g]
    refine add_nonneg ?_ ?_
    · split
      · exact f1 i c
      · exact le_rfl
    · split
      · exact hrest i
      · exact le_rfl
  let x : IVar → ℚ := fun v => match v with
    | .assigned i c => loadValue p g i c
    | .value => t
    | _ => 0
  have hxa : ∀ (i : Fin p.voters.length) c, x (.assigned i c) = g i c := fun i c => loadValue_get g i c
  refine ⟨x, ⟨fun d hd => ?_, fun cn hcn => ?_⟩, rfl⟩
  · rcases List.mem_cons.1 hd with rfl | hd
    · exact ⟨h0, by simp, by simp⟩
    · obtain ⟨i, hi, hd⟩ := List.mem_flatMap.1 hd
      obtain ⟨c, -, rfl⟩ := List.mem_map.1 hd
      refine ⟨?_, by simp, by simp⟩
      have := hxa ⟨i, List.mem_range.1 hi⟩ c
      dsimp only at this ⊢
      rw [this]
      exact hg _ _
  · rcases List.mem_append.1 hcn with h | h
    · obtain ⟨vi, hvi, rfl⟩ := List.mem_map.1 h
      obtain ⟨hvi, hne⟩ := List.mem_filter.1 hvi
      obtain ⟨i, rfl⟩ := zipIdx_get hvi
      rw [holds_plain]
      simp only [RelHolds, LinExp.eval_num]
      rw [assignedSum_eval hp]
      simp only [hxa]
      have hnon : (appr p i ∩ W.toFinset).Nonempty := by
        obtain ⟨c, hc⟩ := List.exists_mem_of_ne_nil _ (of_decide_eq_true hne)
        obtain ⟨hc1, hc2⟩ := List.mem_filter.1 hc
        exact ⟨c, Finset.mem_inter.2 ⟨mem_appr.2 hc1, List.mem_toFinset.2 (of_decide_eq_true hc2)⟩⟩
      have hpick : pick i ∈ appr p i ∩ W.toFinset := by
        simp only [pick, dif_pos hnon]; exact hnon.choose_spec
      simp only [g]
      rw [Finset.sum_add_distrib, Finset.sum_ite_eq' (appr p i ∩ W.toFinset), if_pos hpick]
      rw [Finset.sum_congr rfl fun c hc => if_pos hc]
      ring
    · obtain ⟨c, hc, rfl⟩ := List.mem_map.1 h
      rw [holds_plain]
      simp only [RelHolds, supportSum_eval, LinExp.eval_var]
      refine (f4 c (List.mem_toFinset.2 hc)).trans (Finset.sum_le_sum fun i _ => ?_)
      split
      · next hi =>
        rw [hxa]
        simp only [g]
        rw [if_pos (Finset.mem_inter.2 ⟨hi, List.mem_toFinset.2 hc⟩)]
        have := hrest i
        split <;> linarith
      · next hi =>
        by_contra hne
        exact hi (f2 i c (fun e => hne (by rw [e])))

/-- **C68** The linear program has an optimal solution, and the solver's value is the largest possible minimal support. -/
theorem C68_maximin_program {solve : Program → SolveResult} (hs : ExactSolver solve) {p : Profile} (hp : p.WF) {W : List ℕ}
    (hlt : ∀ c ∈ W, c < p.numCand) (hne : W ≠ []) :
    ∃ x, solve (maximinProgram p W) = .optimal x ∧ ∀ t, SupportAtLeast p W.toFinset t ↔ t ≤ x .value := by
  have hne' : W.toFinset.Nonempty := by
    obtain ⟨c, hc⟩ := List.exists_mem_of_ne_nil _ hne
    exact ⟨c, List.mem_toFinset.2 hc⟩
  have hobj : ∀ x, (maximinProgram p W).obj.eval x = x .value := fun x => LinExp.eval_var x _
  obtain ⟨x₀, hx₀, e₀⟩ := maximin_complete hp (maximinValue_nonneg hp hne') ((maximinValue_spec hp hne' _).2 le_rfl)
  have hle : ∀ x, Feasible (maximinProgram p W) x → x .value ≤ maximinValue p W.toFinset := fun x hx =>
    (maximinValue_spec hp hne' _).1 (maximin_sound hp hlt hx)
  obtain ⟨x, hx, hopt⟩ := (hs _).1 ⟨x₀, hx₀, fun y hy => by rw [hobj, hobj, e₀]; exact hle y hy⟩
  refine ⟨x, hx, fun t => ?_⟩
  have h1 := hopt.2 x₀ hx₀
  rw [hobj, hobj, e₀] at h1
  rw [maximinValue_spec hp hne', le_antisymm (hle x hopt.1) h1]

theorem mapM_ok {α β : Type} (l : List α) (f : α → Except Err β) (g : α → β) (h : ∀ c ∈ l, f c = .ok (g c)) :
    l.mapM f = .ok (l.map g) := by
  induction l with
  | nil => rfl
  | cons a l ih =>
    rw [List.mapM_cons, h a List.mem_cons_self, ih (fun c hc => h c (List.mem_cons_of_mem _ hc))]
    rfl

/-- The score function. -/
theorem maximinScores_spec {solve : Program → SolveResult} (hs : ExactSolver solve) {p : Profile} (hp : p.WF) {W : List ℕ}
    (hlt : ∀ c ∈ W, c < p.numCand) : ∃ scores, maximinScores solve p W = .ok scores ∧
      ∀ c < p.numCand, c ∉ W → scores.getD c 0 = maximinValue p (insert c W.toFinset) := by
  refine ⟨p.candidates.map (fun c => if c ∈ W then 0 else maximinValue p (insert c W.toFinset)), ?_, fun c hc hcW => ?_⟩
  · unfold maximinScores
    refine mapM_ok _ _ _ fun c hc => ?_
    have hc' : c < p.numCand := by simpa [Profile.candidates] using hc
    by_cases h : c ∈ W
    · simp only [h, if_true]
    · simp only [h, if_false]
      have hlt' : ∀ d ∈ W ++ [c], d < p.numCand := by
        intro d hd
        rcases List.mem_append.1 hd with hd | hd
        · exact hlt d hd
        · rw [List.mem_singleton.1 hd]; exact hc'
      obtain ⟨x, hx, hv⟩ := C68_maximin_program hs hp hlt' (by simp)
      have hins : (W ++ [c]).toFinset = insert c W.toFinset := by
        ext d; simp [or_comm]
      rw [hx]
      simp only
      congr 1
      rw [hins] at hv
      exact le_antisymm ((maximinValue_spec hp (Finset.insert_nonempty _ _) _).1 ((hv _).2 le_rfl))
        ((hv _).1 ((maximinValue_spec hp (Finset.insert_nonempty _ _) _).2 le_rfl))
  · rw [candidates_getD p _ c hc, if_neg hcW]

/-- The tied candidates. -/
theorem maximinTied_spec {solve : Program → SolveResult} (hs : ExactSolver solve) {iter : List ℕ → List ℕ}
    (hit : ∀ l, (iter l).Perm l) {p : Profile} (hp : p.WF) {W : List ℕ} (hnd : W.Nodup) (hlt : ∀ c ∈ W, c < p.numCand)
    (hlen : W.length < p.numCand) :
    ∃ tied, maximinTied solve iter p W = .ok tied ∧ tied.Nodup ∧ tied ≠ [] ∧ ∀ c, c ∈ tied ↔ MaximinBest (1 / 10 ^ 7) p W c := by
  obtain ⟨scores, h1, h2⟩ := maximinScores_spec hs hp hlt
  set rem := iter (p.candidates.filter (fun c => decide (c ∉ W))) with hrem
  have hmem : ∀ c, c ∈ rem ↔ c < p.numCand ∧ c ∉ W := fun c => by
    rw [hrem, (hit _).mem_iff]; simp [Profile.candidates]
  have hremnd : rem.Nodup := (hit _).nodup_iff.2 (List.nodup_range.filter _)
  have hne : rem ≠ [] := by
    intro h
    have hall : ∀ c < p.numCand, c ∈ W := fun c hc => by
      by_contra hn
      have := (hmem c).2 ⟨hc, hn⟩
      rw [h] at this; simp at this
    have : (Finset.range p.numCand).card ≤ W.toFinset.card := Finset.card_le_card fun c hc =>
      List.mem_toFinset.2 (hall c (Finset.mem_range.1 hc))
    rw [Finset.card_range, List.toFinset_card_of_nodup hnd] at this
    omega
  obtain ⟨M, hM, hMm, hMle⟩ := pyMax_spec (l := rem.map (fun c => scores.getD c 0)) (by simpa using hne)
  obtain ⟨b, hb, hbM⟩ := List.mem_map.1 hMm
  have hsp : ∀ c, SupportAtLeast p (insert c W.toFinset) = fun t => t ≤ maximinValue p (insert c W.toFinset) := fun c =>
    funext fun t => propext (maximinValue_spec hp (Finset.insert_nonempty _ _) t)
  have hiff : ∀ c, c ∈ rem.filter (fun c => decide (M - 1 / 10 ^ 7 ≤ scores.getD c 0)) ↔ MaximinBest (1 / 10 ^ 7) p W c := by
    intro c
    rw [List.mem_filter, hmem, decide_eq_true_eq]
    unfold MaximinBest
    constructor
    · rintro ⟨⟨hc, hcW⟩, h⟩
      refine ⟨hc, hcW, fun d hd hdW t ht => ?_⟩
      rw [hsp] at ht ⊢
      rw [h2 c hc hcW] at h
      have := hMle _ (List.mem_map.2 ⟨d, (hmem d).2 ⟨hd, hdW⟩, rfl⟩)
      rw [h2 d hd hdW] at this
      linarith
    · rintro ⟨hc, hcW, h⟩
      refine ⟨⟨hc, hcW⟩, ?_⟩
      obtain ⟨hbl, hbW⟩ := (hmem b).1 hb
      have := h b hbl hbW (maximinValue p (insert b W.toFinset)) (by rw [hsp])
      rw [hsp] at this
      rw [h2 c hc hcW, ← hbM, h2 b hbl hbW]
      exact this
  refine ⟨_, ?_, hremnd.filter _, ?_, hiff⟩
  · unfold maximinTied
    rw [h1]
    simp only [bind, Except.bind]
    rw [← hrem, hM]
  · refine List.ne_nil_of_mem (a := b) (List.mem_filter.2 ⟨hb, ?_⟩)
    rw [decide_eq_true_eq, hbM]
    norm_num

abbrev mmBest (ε : ℚ) (p : Profile) : List ℕ → Unit → ℕ → Prop := fun W _ c => MaximinBest ε p W c
abbrev mmUpd : List ℕ → Unit → ℕ → Unit := fun _ _ _ => ()

theorem mmRun_nodup {ε : ℚ} {p : Profile} {W : List ℕ} {s : Unit} (h : Run (mmBest ε p) mmUpd [] () W s) :
    W.Nodup ∧ ∀ c ∈ W, c < p.numCand :=
  h.nodup (m := p.numCand) (fun _ _ _ _ hb => ⟨hb.1, hb.2.1⟩) (by simp) (by simp)

theorem maximinLoop_spec {solve : Program → SolveResult} (hs : ExactSolver solve) {iter : List ℕ → List ℕ}
    (hit : ∀ l, (iter l).Perm l) {p : Profile} (hp : p.WF) (n : ℕ) (W : List ℕ) (hr : Run (mmBest (1 / 10 ^ 7) p) mmUpd [] () W ())
    (hle : W.length + n ≤ p.numCand) :
    ∃ V, maximinLoop solve iter p n W = .ok V ∧ Run (mmBest (1 / 10 ^ 7) p) mmUpd [] () V () ∧ V.length = W.length + n := by
  induction n generalizing W with
  | zero => exact ⟨W, rfl, hr, rfl⟩
  | succ n ih =>
    obtain ⟨hnd, hlt⟩ := mmRun_nodup hr
    obtain ⟨tied, e, -, hne, hmem⟩ := maximinTied_spec hs hit hp hnd hlt (by omega)
    obtain ⟨c, rest, rfl⟩ := List.exists_cons_of_ne_nil hne
    have hc : MaximinBest (1 / 10 ^ 7) p W c := (hmem c).1 List.mem_cons_self
    obtain ⟨V, h1, h2, h3⟩ := ih (W ++ [c]) (.step hr hc) (by simp; omega)
    refine ⟨V, ?_, h2, by rw [h3]; simp; omega⟩
    unfold maximinLoop
    rw [e]
    simp only [bind, Except.bind, pyGet]
    simpa using h1

theorem maximin_alg {env : Env} {p : Profile} {a : Args} {alg : String} (h : prologue env "maximin-support" p a = .ok alg) :
    alg ∈ ["gurobi", "mip-gurobi", "mip-cbc"] :=
  prologue_alg_mem h (ri := ⟨["gurobi", "mip-gurobi", "mip-cbc"], resSeq⟩) rfl

/-- **C68** `compute_maximin_support` (exact solver, any iteration order of sets): exactly the committees obtained by `k` times electing a
candidate for which the smallest support is largest up to `10⁻⁷`. -/
theorem C68_compute_maximin_support_tol (env : Env) (solve : String → Program → SolveResult) (iter : List ℕ → List ℕ)
    (hit : ∀ l, (iter l).Perm l) (p : Profile) (hp : p.WF) (a : Args) (alg : String)
    (hal : prologue env "maximin-support" p a = .ok alg) (hs : ExactSolver (solve alg)) :
    Answers a (computeMaximinSupport env solve iter p a) (MaximinWinner (1 / 10 ^ 7) p a.k) := by
  have hv := validCall_of_prologue hal
  have halg : alg = "gurobi" ∨ alg.toList.take 4 = "mip-".toList := by
    have h := maximin_alg hal
    simp only [List.mem_cons, List.not_mem_nil, or_false] at h
    rcases h with rfl | rfl | rfl
    · exact Or.inl rfl
    · exact Or.inr (by decide)
    · exact Or.inr (by decide)
  have e : computeMaximinSupport env solve iter p a =
      (if a.resolute then maximinResolute (solve alg) iter p a.k
        else maximinIrresolute (solve alg) iter p a.k a.maxNum) >>= sortedCommittees := by
    unfold computeMaximinSupport
    rw [hal]
    simp only [bind, Except.bind]
    rw [if_pos halg]
    cases a.resolute <;> rfl
  rw [e]
  refine resort_answers ?_
  refine run_answersN (Best := mmBest (1 / 10 ^ 7) p) (upd := mmUpd) (s₀ := ()) (node := fun W _ => W)
    (succs := fun n => do let tied ← maximinTied (solve alg) iter p n; .ok (tied.map (fun c => n ++ [c])))
    (full := fun n => decide (n.length = a.k)) (out := sortNat) hv ?_ (fun _ _ _ _ hb => ⟨hb.1, hb.2.1⟩) (fun _ _ => rfl)
    (fun _ _ => rfl) ?_ ?_
  · intro W s hr hW
    obtain ⟨hnd, hlt⟩ := mmRun_nodup hr
    obtain ⟨tied, e, h1, h2, h3⟩ := maximinTied_spec hs hit hp hnd hlt (by have := hv.le; omega)
    refine ⟨tied, ?_, h1, h2, fun c hc => ((h3 c).1 hc).1, h3⟩
    dsimp only
    rw [e]; rfl
  · intro hr
    obtain ⟨V, h1, h2, h3⟩ := maximinLoop_spec hs hit hp a.k [] .start (by simpa using hv.le)
    refine ⟨V, (), h2, by simpa using h3, ?_⟩
    rw [hr, if_pos rfl]
    unfold maximinResolute
    rw [h1]; rfl
  · intro hr
    rw [hr]
    rfl

/-- **C68** With integer weights and `k ≤ 3162` the tolerance of the code does not change who is best. -/
theorem C68_maximin_best {p : Profile} (hp : p.WF) (hw : IntegerWeights p) {k : ℕ} (hk : k ≤ 3162) {W : List ℕ} (c : ℕ)
    (hW : W.length < k) : MaximinBest (1 / 10 ^ 7) p W c ↔ MaximinBest 0 p W c := by
  have hsp : ∀ (W : List ℕ) c, SupportAtLeast p (insert c W.toFinset) = fun t => t ≤ maximinValue p (insert c W.toFinset) := fun W c =>
    funext fun t => propext (maximinValue_spec hp (Finset.insert_nonempty _ _) t)
  have hform : ∀ W : Finset ℕ, W.Nonempty → W.card ≤ k → ∃ a w : ℕ, 0 < w ∧ (w : ℚ) ≤ 3162 ∧ maximinValue p W = (a : ℚ) / w := by
    intro W hne hWk
    obtain ⟨m, hm, C, hC, hCn, rfl⟩ := C67_max_support hp hne
    obtain ⟨n, hn⟩ := wt_integer hw (backersOf p C)
    refine ⟨n, C.card, hCn.card_pos, ?_, ?_⟩
    · have := Finset.card_le_card hC
      have : C.card ≤ 3162 := by omega
      exact_mod_cast this
    · rw [← hn]
      exact le_antisymm ((hm _).1 ((maximinValue_spec hp hne _).2 le_rfl)) ((maximinValue_spec hp hne _).1 ((hm _).2 le_rfl))
  have hcmp : (1 / 10 ^ 7 : ℚ) = cmpAccuracy := by norm_num [cmpAccuracy, accuracy]
  unfold MaximinBest
  refine and_congr_right fun hc => and_congr_right fun hcW => forall_congr' fun d => forall_congr' fun hd =>
    forall_congr' fun hdW => ?_
  rw [hsp, hsp]
  have hcard : ∀ c, (insert c W.toFinset).card ≤ k := fun c => by
    have h1 := Finset.card_insert_le c W.toFinset
    have h2 := List.toFinset_card_le W
    omega
  obtain ⟨a, w, hw1, hw2, ea⟩ := hform (insert c W.toFinset) (Finset.insert_nonempty _ _) (hcard c)
  obtain ⟨b, w', hw1', hw2', eb⟩ := hform (insert d W.toFinset) (Finset.insert_nonempty _ _) (hcard d)
  rw [ea, eb]
  constructor
  · intro h t ht
    have h1 := h _ le_rfl
    have := fraction_gap (a := b) (b := a) hw1' hw1 hw2' hw2 (by norm_num) (by rw [← hcmp]; linarith)
    linarith
  · intro h t ht
    have := h t ht
    have h0 : (0 : ℚ) ≤ 1 / 10 ^ 7 := by norm_num
    linarith

/-- **C68** With integer weights and `k ≤ 3162` the tolerance of the code does not change the winners. -/
theorem C68_maximin_tolerance {p : Profile} (hp : p.WF) (hw : IntegerWeights p) {k : ℕ} (hk : k ≤ 3162) (A : Finset ℕ) :
    MaximinWinner (1 / 10 ^ 7) p k A ↔ MaximinWinner 0 p k A := by
  have hbest : ∀ (W : List ℕ) c, W.length < k → (MaximinBest (1 / 10 ^ 7) p W c ↔ MaximinBest 0 p W c) := fun W c h =>
    C68_maximin_best hp hw hk c h
  have hrun : ∀ ε ε' : ℚ, (∀ (W : List ℕ) c, W.length < k → (MaximinBest ε p W c → MaximinBest ε' p W c)) →
      ∀ W s, Run (mmBest ε p) mmUpd [] () W s → W.length ≤ k → Run (mmBest ε' p) mmUpd [] () W s := by
    intro ε ε' hb W s hr
    induction hr with
    | start => exact fun _ => .start
    | @step W s c h1 h2 ih =>
      intro hl
      simp only [List.length_append, List.length_singleton] at hl
      exact .step (ih (by omega)) (hb W c (by omega) h2)
  unfold MaximinWinner RunWinner
  constructor
  · rintro ⟨W, s, hr, hl, rfl⟩
    exact ⟨W, s, hrun _ _ (fun W c h => (hbest W c h).1) W s hr hl.le, hl, rfl⟩
  · rintro ⟨W, s, hr, hl, rfl⟩
    exact ⟨W, s, hrun _ _ (fun W c h => (hbest W c h).2) W s hr hl.le, hl, rfl⟩

/-- **C68** `compute_maximin_support`, integer weights, `k ≤ 3162`: exactly the committees of the rule. -/
theorem C68_compute_maximin_support (env : Env) (solve : String → Program → SolveResult) (iter : List ℕ → List ℕ)
    (hit : ∀ l, (iter l).Perm l) (p : Profile) (hp : p.WF) (hw : IntegerWeights p) (a : Args) (hk : a.k ≤ 3162) (alg : String)
    (hal : prologue env "maximin-support" p a = .ok alg) (hs : ExactSolver (solve alg)) :
    Answers a (computeMaximinSupport env solve iter p a) (MaximinWinner 0 p a.k) := by
  rw [show MaximinWinner 0 p a.k = MaximinWinner (1 / 10 ^ 7) p a.k from
    funext fun A => propext (C68_maximin_tolerance hp hw hk A).symm]
  exact C68_compute_maximin_support_tol env solve iter hit p hp a alg hal hs

/-! ## PJR -/

/-- While a cohesive group is not represented, every elected committee has support at least the quota. -/
theorem mmRun_support {p : Profile} (hp : p.WF) {q : ℚ} (hq : 0 < q) {ℓ : ℕ} {G : Group p} {T : Finset ℕ} (hco : Cohesive p q ℓ G T)
    {W : List ℕ} {s : Unit} (hr : Run (mmBest 0 p) mmUpd [] () W s) (hcon : (G.biUnion (appr p) ∩ W.toFinset).card < ℓ) :
    SupportAtLeast p W.toFinset q := by
  classical
  obtain ⟨hl, hwt, hT, hap⟩ := hco
  induction hr with
  | start =>
    rw [C67_support_iff hp]
    intro C hC
    have : C = ∅ := by simpa using hC
    subst this
    simpa using wt_nonneg' hp _
  | @step W s c hr hc ih =>
    have hins : (W ++ [c]).toFinset = insert c W.toFinset := by ext d; simp [or_comm]
    rw [hins] at hcon ⊢
    have hconW : (G.biUnion (appr p) ∩ W.toFinset).card < ℓ :=
      lt_of_le_of_lt (Finset.card_le_card (Finset.inter_subset_inter_left (Finset.subset_insert _ _))) hcon
    have ihW := ih hconW
    have hGne : G.Nonempty := nonempty_of_wt (x := (ℓ : ℚ) * q) (mul_pos (by exact_mod_cast hl) hq) hwt
    obtain ⟨i0, hi0⟩ := hGne
    obtain ⟨d, hdT, hdW⟩ : ∃ d ∈ T, d ∉ W := by
      by_contra hall
      push Not at hall
      have : T ⊆ G.biUnion (appr p) ∩ W.toFinset := by
        intro d hd
        rw [Finset.mem_inter, Finset.mem_biUnion, List.mem_toFinset]
        exact ⟨⟨i0, hi0, hap i0 hi0 hd⟩, hall d hd⟩
      have := Finset.card_le_card this
      omega
    have hdm : d < p.numCand := appr_lt hp (hap i0 hi0 hdT)
    have key : SupportAtLeast p (insert d W.toFinset) q := by
      rw [C67_support_iff hp] at ihW ⊢
      intro C hC
      by_cases hdC : d ∈ C
      · -- members of `C` approved by the group, and the others
        set U := G.biUnion (appr p) with hU
        set C2 := C.filter (· ∉ U) with hC2
        have hC2W : C2 ⊆ W.toFinset := by
          intro e he
          obtain ⟨he1, he2⟩ := Finset.mem_filter.1 he
          rcases Finset.mem_insert.1 (hC he1) with rfl | h
          · exact absurd (Finset.mem_biUnion.2 ⟨i0, hi0, hap i0 hi0 hdT⟩) he2
          · exact h
        have hcard : C.card ≤ ℓ + C2.card := by
          have h1 : (C.filter (· ∈ U)).card ≤ ℓ := by
            have hsub : (C.filter (· ∈ U)) ⊆ insert d (U ∩ W.toFinset) := by
              intro e he
              obtain ⟨he1, he2⟩ := Finset.mem_filter.1 he
              rcases Finset.mem_insert.1 (hC he1) with rfl | h
              · exact Finset.mem_insert_self _ _
              · exact Finset.mem_insert_of_mem (Finset.mem_inter.2 ⟨he2, h⟩)
            have := (Finset.card_le_card hsub).trans (Finset.card_insert_le _ _)
            omega
          have h2 := Finset.card_filter_add_card_filter_not (s := C) (· ∈ U)
          rw [← hC2] at h2
          omega
        have hdisj : Disjoint G (backersOf p C2) := by
          rw [Finset.disjoint_left]
          intro i hi hi'
          simp only [backersOf, Finset.mem_filter, Finset.mem_univ, true_and] at hi'
          obtain ⟨e, he, hei⟩ := hi'
          exact (Finset.mem_filter.1 he).2 (Finset.mem_biUnion.2 ⟨i, hi, hei⟩)
        have hsub : G ∪ backersOf p C2 ⊆ backersOf p C := by
          intro i hi
          rcases Finset.mem_union.1 hi with hi | hi
          · simp only [backersOf, Finset.mem_filter, Finset.mem_univ, true_and]
            exact ⟨d, hdC, hap i hi hdT⟩
          · exact backersOf_mono (Finset.filter_subset _ _) hi
        have h1 : wt p G + wt p (backersOf p C2) ≤ wt p (backersOf p C) := by
          have := wt_mono hp hsub
          rwa [show wt p (G ∪ backersOf p C2) = wt p G + wt p (backersOf p C2) from Finset.sum_union hdisj] at this
        have h2 := ihW C2 hC2W
        have h3 : (C.card : ℚ) ≤ ℓ + C2.card := by exact_mod_cast hcard
        nlinarith
      · refine ihW C fun e he => ?_
        rcases Finset.mem_insert.1 (hC he) with rfl | h
        · exact absurd he hdC
        · exact h
    have := hc.2.2 d hdm hdW q key
    simpa using this

/-- **C68** Maximin support satisfies PJR (Hare quota). -/
theorem C68_maximin_PJR {p : Profile} (hp : p.WF) (hne : p.voters ≠ []) {k : ℕ} (hk : 0 < k) {A : Finset ℕ}
    (h : MaximinWinner 0 p k A) : PJR p A (total p / k) := by
  classical
  obtain ⟨W, s, hr, hl, rfl⟩ := h
  intro ℓ G T hco
  by_contra hcon
  push Not at hcon
  have htot := total_pos hp hne
  have hkq : (0 : ℚ) < k := by exact_mod_cast hk
  have hq : 0 < total p / k := by positivity
  have hsup := mmRun_support hp hq hco hr hcon
  obtain ⟨-, hwt, -, -⟩ := hco
  rw [C67_support_iff hp] at hsup
  set U := G.biUnion (appr p) with hU
  have h1 := hsup (W.toFinset \ U) Finset.sdiff_subset
  have hcardW : W.toFinset.card = k := by rw [List.toFinset_card_of_nodup (mmRun_nodup hr).1, hl]
  have hcard : k + 1 ≤ ℓ + (W.toFinset \ U).card := by
    have := Finset.card_inter_add_card_sdiff W.toFinset U
    rw [Finset.inter_comm] at this
    omega
  have hdisj : Disjoint G (backersOf p (W.toFinset \ U)) := by
    rw [Finset.disjoint_left]
    intro i hi hi'
    simp only [backersOf, Finset.mem_filter, Finset.mem_univ, true_and] at hi'
    obtain ⟨e, he, hei⟩ := hi'
    exact (Finset.mem_sdiff.1 he).2 (Finset.mem_biUnion.2 ⟨i, hi, hei⟩)
  have h2 : wt p G + wt p (backersOf p (W.toFinset \ U)) ≤ total p := by
    rw [← show wt p (G ∪ backersOf p (W.toFinset \ U)) = wt p G + wt p (backersOf p (W.toFinset \ U)) from Finset.sum_union hdisj]
    exact wt_le_total hp _
  have h3 : (k : ℚ) + 1 ≤ ℓ + (W.toFinset \ U).card := by exact_mod_cast hcard
  have h4 : (k : ℚ) * (total p / k) = total p := by field_simp
  nlinarith

/-- **C68** Every committee returned by `compute_maximin_support` satisfies PJR (integer weights, `k ≤ 3162`). -/
theorem C68_compute_maximin_PJR (env : Env) (solve : String → Program → SolveResult) (iter : List ℕ → List ℕ)
    (hit : ∀ l, (iter l).Perm l) (p : Profile) (hp : p.WF) (hw : IntegerWeights p) (a : Args) (hk : a.k ≤ 3162) (alg : String)
    (hal : prologue env "maximin-support" p a = .ok alg) (hs : ExactSolver (solve alg)) (cs : List (List ℕ))
    (hcs : computeMaximinSupport env solve iter p a = .ok cs) : ∀ W ∈ cs, PJR p W.toFinset (total p / a.k) := by
  intro W hW
  have hv := validCall_of_prologue hal
  exact C68_maximin_PJR hp hv.voters hv.pos
    (answers_mem (C68_compute_maximin_support env solve iter hit p hp hw a hk alg hal hs) hcs hW)

/-- Non-vacuity. -/
example : ∃ solve : String → Program → SolveResult, (∀ alg, ExactSolver (solve alg)) ∧
    Answers { committeesize := 2, algorithm := "mip-cbc", resolute := false }
      (computeMaximinSupport ⟨["mip-cbc"], fun _ => none, fun _ => none⟩ solve List.reverse ⟨3, [⟨[0, 1], 1⟩, ⟨[1, 2], 2⟩, ⟨[0], 1⟩], []⟩
        { committeesize := 2, algorithm := "mip-cbc", resolute := false })
      (MaximinWinner 0 ⟨3, [⟨[0, 1], 1⟩, ⟨[1, 2], 2⟩, ⟨[0], 1⟩], []⟩ 2) := by
  obtain ⟨solve, hs⟩ := exists_exactSolver
  refine ⟨fun _ => solve, fun _ => hs, ?_⟩
  refine C68_compute_maximin_support _ (fun _ => solve) _ (fun l => List.reverse_perm l) _
    ⟨by decide, by decide, by decide, by decide +kernel⟩ ?_ _ (by decide) "mip-cbc" (by decide +kernel) hs
  intro v hv
  simp only [List.mem_cons, List.not_mem_nil, or_false] at hv
  rcases hv with rfl | rfl | rfl
  · exact ⟨1, by norm_num⟩
  · exact ⟨2, by norm_num⟩
  · exact ⟨1, by norm_num⟩

end Abc
