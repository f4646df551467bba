import Verif.Spec.ReportMaximin
import Verif.Lemmas.ReportOptimal
import Verif.Props.MaximinSupport

/-!
# C91: the output of maximin support
-/

namespace Abc
open Spec

/-- The list of scores. -/
theorem maximinScores_list {solve : Program → SolveResult} (hs : ExactSolver solve) {p : Profile} (hp : p.WF) {W : List ℕ}
    (hlt : ∀ c ∈ W, c < p.numCand) :
    maximinScores solve p W = .ok (p.candidates.map (fun c => if c ∈ W then 0 else maximinValue p (insert c W.toFinset))) := by
  unfold maximinScores
  refine mapM_ok _ _ _ fun c hc => ?_
  have hc' : c < p.numCand := by simpa [Profile.candidates] using hc
  by_cases h : c ∈ W
  · simp only [h, if_true]
  · simp only [h, if_false]
    have hlt' : ∀ d ∈ W ++ [c], d < p.numCand := by
      intro d hd
      rcases List.mem_append.1 hd with hd | hd
      · exact hlt d hd
      · rw [List.mem_singleton.1 hd]; exact hc'
    obtain ⟨x, hx, hv⟩ := C68_maximin_program hs hp hlt' (by simp)
    have hins : (W ++ [c]).toFinset = insert c W.toFinset := by
      ext d; simp [or_comm]
    rw [hx]
    simp only
    congr 1
    rw [hins] at hv
    exact le_antisymm ((maximinValue_spec hp (Finset.insert_nonempty _ _) _).1 ((hv _).2 le_rfl))
      ((hv _).1 ((maximinValue_spec hp (Finset.insert_nonempty _ _) _).2 le_rfl))

/-- The value recorded in a round. -/
theorem maximinScores_max {solve : Program → SolveResult} (hs : ExactSolver solve) {p : Profile} (hp : p.WF) {W : List ℕ}
    (hlt : ∀ c ∈ W, c < p.numCand) (hlen : W.length < p.numCand) : ∃ scores v, maximinScores solve p W = .ok scores ∧
      pyMax scores = .ok v ∧ (∃ c < p.numCand, c ∉ W ∧ SupportAtLeast p (insert c W.toFinset) v) ∧
      ∀ c < p.numCand, c ∉ W → ∀ t, SupportAtLeast p (insert c W.toFinset) t → t ≤ v := by
  obtain ⟨b, hb, hbW⟩ : ∃ b < p.numCand, b ∉ W := by
    by_contra hall
    push Not at hall
    have h1 : (Finset.range p.numCand).card ≤ W.toFinset.card := Finset.card_le_card fun c hc =>
      List.mem_toFinset.2 (hall c (Finset.mem_range.1 hc))
    have h2 := List.toFinset_card_le W
    rw [Finset.card_range] at h1
    omega
  have hmem : ∀ c < p.numCand, c ∈ p.candidates := fun c hc => by simpa [Profile.candidates] using hc
  obtain ⟨v, hv, hvm, hvle⟩ := pyMax_spec
    (l := p.candidates.map (fun c => if c ∈ W then 0 else maximinValue p (insert c W.toFinset)))
    (List.ne_nil_of_mem (List.mem_map.2 ⟨b, hmem b hb, rfl⟩))
  have hle : ∀ c < p.numCand, c ∉ W → maximinValue p (insert c W.toFinset) ≤ v := fun c hc hcW => by
    have := hvle _ (List.mem_map.2 ⟨c, hmem c hc, rfl⟩)
    rwa [if_neg hcW] at this
  refine ⟨_, v, maximinScores_list hs hp hlt, hv, ?_, fun c hc hcW t ht =>
    ((maximinValue_spec hp (Finset.insert_nonempty _ _) t).1 ht).trans (hle c hc hcW)⟩
  obtain ⟨c, hc, e⟩ := List.mem_map.1 hvm
  have hc' : c < p.numCand := by simpa [Profile.candidates] using hc
  by_cases hcW : c ∈ W
  · rw [if_pos hcW] at e
    refine ⟨b, hb, hbW, (maximinValue_spec hp (Finset.insert_nonempty _ _) v).2 ?_⟩
    rw [← e]
    exact maximinValue_nonneg hp (Finset.insert_nonempty _ _)
  · rw [if_neg hcW] at e
    exact ⟨c, hc', hcW, (maximinValue_spec hp (Finset.insert_nonempty _ _) v).2 e.ge⟩

/-- The recorded rounds and their lines. -/
theorem maximinInfoLoop_spec {solve : Program → SolveResult} (hs : ExactSolver solve) {iter : List ℕ → List ℕ}
    (hit : ∀ l, (iter l).Perm l) {p : Profile} (hp : p.WF) (hn : Named p) (n : ℕ) (W : List ℕ) (infos : List MaximinInfo)
    (hnd : W.Nodup) (hlt : ∀ c ∈ W, c < p.numCand) (hle : W.length + n ≤ p.numCand) :
    ∃ V new rs, maximinInfoLoop solve iter p n W infos = .ok (V, infos ++ new) ∧ maximinLoop solve iter p n W = .ok V ∧
      V.length = W.length + n ∧ V.Nodup ∧ (∀ c ∈ V, c < p.numCand) ∧ SupportProtocol (1 / 10 ^ 7) p W rs V ∧
      ∀ num, maximinRoundsMsgs num p W.length new = .ok (rs.flatMap (SupportRound.lines num p)) := by
  induction n generalizing W infos with
  | zero => exact ⟨W, [], [], by simp [maximinInfoLoop], rfl, rfl, hnd, hlt, .nil, fun num => rfl⟩
  | succ n ih =>
    obtain ⟨tied, e, htn, hne, hmem⟩ := maximinTied_spec hs hit hp hnd hlt (by omega)
    obtain ⟨scores, v, g1, g2, g3, g4⟩ := maximinScores_max hs hp hlt (by omega)
    obtain ⟨c, rest, rfl⟩ := List.exists_cons_of_ne_nil hne
    have hc : MaximinBest (1 / 10 ^ 7) p W c := (hmem c).1 List.mem_cons_self
    obtain ⟨V, new, rs, h1, h1', h2, h3, h4, h5, h6⟩ := ih (W ++ [c]) (infos ++ [⟨c, c :: rest, v⟩])
      (List.nodup_append.2 ⟨hnd, by simp, by simpa using fun x hx => ne_of_mem_of_not_mem hx hc.2.1⟩)
      (by intro x hx; rcases List.mem_append.1 hx with hx | hx
          · exact hlt x hx
          · rw [List.mem_singleton.1 hx]; exact hc.1)
      (by simp; omega)
    refine ⟨V, ⟨c, c :: rest, v⟩ :: new, ⟨W.length + 1, c, v, c :: rest⟩ :: rs, ?_, ?_, by rw [h2]; simp; omega, h3, h4,
      .cons ⟨rfl, hc, htn, hmem, g3, g4⟩ h5, fun num => ?_⟩
    · unfold maximinInfoLoop
      simp only [bind, Except.bind, g1, e, g2, pyGet, List.getElem?_cons_zero, h1, List.append_assoc, List.cons_append, List.nil_append]
    · unfold maximinLoop
      simp only [bind, Except.bind, e, pyGet, List.getElem?_cons_zero, h1']
    · unfold maximinRoundsMsgs maximinRoundMsgs
      have h6' := h6 num
      rw [List.length_append, List.length_singleton] at h6'
      rw [List.flatMap_cons]
      unfold SupportRound.lines
      have hset := setText_ok hn (W := c :: rest) (fun x hx => ((hmem x).1 hx).1)
      by_cases hl : (c :: rest).length > 1
      · simp only [bind, Except.bind, nameOf_ok hn hc.1, h6', if_pos hl, hset]
        rfl
      · simp only [bind, Except.bind, nameOf_ok hn hc.1, h6', if_neg hl]
        rfl

/-- **C91** Maximin support, `resolute=True` (exact solver, any iteration order of sets): the output is the heading, the algorithm, a
correct protocol of the rounds, and the committee returned, which is the result of the last round. -/
theorem C91_maximin_protocol (env : Env) (num : ℚ → Name) (solve : String → Program → SolveResult) (iter : List ℕ → List ℕ)
    (hit : ∀ l, (iter l).Perm l) (p : Profile) (hp : p.WF) (hn : Named p) (a : Args) (alg : String)
    (hal : prologue env "maximin-support" p a = .ok alg) (hs : ExactSolver (solve alg)) (hr : a.resolute = true) :
    ∃ rs W, SupportProtocol (1 / 10 ^ 7) p [] rs W ∧ W.length = a.k ∧
      computeMaximinSupportVerbose env num solve iter p a = .ok
        ([heading "maximin-support", algorithmLine alg, detailsMsg "starting with the empty committee\n".toList] ++
          rs.flatMap (SupportRound.lines num p) ++ [winners p [sortNat W]], [sortNat W]) ∧
      computeMaximinSupport env solve iter p a = .ok [sortNat W] := by
  have hv := validCall_of_prologue hal
  have halg : alg = "gurobi" ∨ alg.toList.take 4 = "mip-".toList := by
    have h := maximin_alg hal
    simp only [List.mem_cons, List.not_mem_nil, or_false] at h
    rcases h with rfl | rfl | rfl
    · exact Or.inl rfl
    · exact Or.inr (by decide)
    · exact Or.inr (by decide)
  obtain ⟨V, new, rs, h1, h1', h2, h3, h4, h5, h6⟩ := maximinInfoLoop_spec hs hit hp hn a.k [] [] List.nodup_nil (by simp)
    (by simpa using hv.le)
  have hone := sortedCommittees_one h3
  have hidem := sortedCommittees_idem hone
  have hlt : ∀ W ∈ [sortNat V], ∀ c ∈ W, c < p.numCand := by
    intro W hW c hc
    rw [List.mem_singleton.1 hW] at hc
    exact h4 c ((sortNat_perm V).mem_iff.1 hc)
  refine ⟨rs, V, h5, by simpa using h2, ?_, ?_⟩
  · unfold computeMaximinSupportVerbose maximinReport
    simp only [bind, Except.bind, hal, if_pos halg, hr, if_true, h1, hone, List.nil_append, headMsgs_ok,
      algorithmMsg_titles (prologue_title hal), committeesMsg_ok hn hlt (by simp), hidem]
    have h6' := h6 num
    rw [List.length_nil] at h6'
    rw [h6']
    simp only [remark_all, allRemark, if_true, List.cons_append, List.nil_append]
  · unfold computeMaximinSupport maximinResolute
    simp only [bind, Except.bind, hal, if_pos halg, hr, if_true, h1', hone, hidem]

/-- **C91** Maximin support, `resolute=False`: heading, remark, algorithm, and the committees returned. -/
theorem C91_maximin_irresolute (env : Env) (num : ℚ → Name) (solve : String → Program → SolveResult) (iter : List ℕ → List ℕ)
    (hit : ∀ l, (iter l).Perm l) (p : Profile) (hp : p.WF) (hn : Named p) (a : Args) (alg : String)
    (hal : prologue env "maximin-support" p a = .ok alg) (hs : ExactSolver (solve alg)) (hr : a.resolute = false) :
    ∃ cs, computeMaximinSupport env solve iter p a = .ok cs ∧ computeMaximinSupportVerbose env num solve iter p a = .ok
        ([heading "maximin-support"] ++ allRemark false ++ [algorithmLine alg, winners p cs], cs) := by
  have hv := validCall_of_prologue hal
  have halg : alg = "gurobi" ∨ alg.toList.take 4 = "mip-".toList := by
    have h := maximin_alg hal
    simp only [List.mem_cons, List.not_mem_nil, or_false] at h
    rcases h with rfl | rfl | rfl
    · exact Or.inl rfl
    · exact Or.inr (by decide)
    · exact Or.inr (by decide)
  have hA := C68_compute_maximin_support_tol env solve iter hit p hp a alg hal hs
  have hex : ∃ A, MaximinWinner (1 / 10 ^ 7) p a.k A := by
    obtain ⟨V, _, h2, h3⟩ := maximinLoop_spec hs hit hp a.k [] .start (by simpa using hv.le)
    exact ⟨_, V, (), h2, by simpa using h3, rfl⟩
  obtain ⟨cs, c, e, _, _, hne, _⟩ := answers_all hA hex hv.max
  have hlt := answers_lt hA (m := p.numCand) (by
    rintro A ⟨V, s, hV, _, rfl⟩ c hc
    exact (mmRun_nodup hV).2 c (List.mem_toFinset.1 hc)) e
  have e' := e
  unfold computeMaximinSupport at e'
  simp only [bind, Except.bind, hal, if_pos halg, hr, Bool.false_eq_true, if_false] at e'
  cases hm : maximinIrresolute (solve alg) iter p a.k a.maxNum with
  | error x => rw [hm] at e'; cases e'
  | ok ds =>
    rw [hm] at e'
    dsimp only at e'
    have hds : cs = ds := by
      have hm' := hm
      unfold maximinIrresolute at hm'
      cases hu : universes (fun n => decide (n.length = a.k)) sortNat
        (fun n => do let tied ← maximinTied (solve alg) iter p n; .ok (tied.map (fun c => n ++ [c]))) a.maxNum (dfsFuel p a.k) [[]] [] with
      | error x => rw [hu] at hm'; cases hm'
      | ok w =>
        rw [hu] at hm'
        have hm'' : sortedCommittees w = .ok ds := hm'
        have := sortedCommittees_idem hm''
        rw [this] at e'
        exact (Except.ok.inj e').symm
    subst hds
    refine ⟨cs, e, ?_⟩
    unfold computeMaximinSupportVerbose maximinReport
    simp only [bind, Except.bind, hal, if_pos halg, hr, Bool.false_eq_true, if_false, hm, headMsgs_ok,
      algorithmMsg_titles (prologue_title hal), committeesMsg_ok hn hlt hne, e']
    simp only [remark_all, List.cons_append, List.nil_append, List.append_nil, List.append_assoc]

/-- **C91** Printing neither raises an exception nor changes the result. -/
theorem C91_maximin_result (env : Env) (num : ℚ → Name) (solve : String → Program → SolveResult) (iter : List ℕ → List ℕ)
    (hit : ∀ l, (iter l).Perm l) (p : Profile) (hp : p.WF) (hn : Named p) (a : Args) (alg : String)
    (hal : prologue env "maximin-support" p a = .ok alg) (hs : ExactSolver (solve alg)) :
    (computeMaximinSupportVerbose env num solve iter p a).map Prod.snd = computeMaximinSupport env solve iter p a := by
  cases hr : a.resolute with
  | true =>
    obtain ⟨rs, W, _, _, h1, h2⟩ := C91_maximin_protocol env num solve iter hit p hp hn a alg hal hs hr
    rw [h1, h2]; rfl
  | false =>
    obtain ⟨cs, h1, h2⟩ := C91_maximin_irresolute env num solve iter hit p hp hn a alg hal hs hr
    rw [h1, h2]; rfl

/-- **C91** What the protocol means: after every round, the reported value is, up to `ε`, the largest support that all members elected so
far can have at the same time, and it is never smaller than that. -/
theorem C91_protocol_value {ε : ℚ} {p : Profile} {W : List ℕ} {r : SupportRound} (h : r.Correct ε p W) :
    SupportAtLeast p (insert r.cand W.toFinset) (r.value - ε) ∧
      ∀ t, SupportAtLeast p (insert r.cand W.toFinset) t → t ≤ r.value := by
  obtain ⟨c, hc, hcW, hv⟩ := h.attained
  exact ⟨h.best.2.2 c hc hcW _ hv, h.largest _ h.best.1 h.best.2.1⟩

/-- **C91** With integer weights and `k ≤ 3162` the protocol is that of the exact rule: no tolerance remains. -/
theorem C91_protocol_exact {p : Profile} (hp : p.WF) (hw : IntegerWeights p) {k : ℕ} (hk : k ≤ 3162) {rs : List SupportRound}
    {W V : List ℕ} (h : SupportProtocol (1 / 10 ^ 7) p W rs V) (hV : V.length ≤ k) : SupportProtocol 0 p W rs V := by
  have hlen : ∀ {W V rs}, SupportProtocol (1 / 10 ^ 7) p W rs V → W.length ≤ V.length := by
    intro W V rs h
    induction h with
    | nil => exact le_rfl
    | cons _ _ ih => rw [List.length_append, List.length_singleton] at ih; omega
  induction h with
  | nil => exact .nil
  | @cons W V r rs hr hrs ih =>
    have hl := hlen hrs
    rw [List.length_append, List.length_singleton] at hl
    have hb := fun c => C68_maximin_best hp hw hk (W := W) c (by omega)
    exact .cons ⟨hr.number, (hb _).1 hr.best, hr.nodup, fun c => (hr.tied c).trans (hb c), hr.attained, hr.largest⟩ (ih hV)

/-- Non-vacuity: two candidates are tied in the first round, and the protocol is that of the exact rule. -/
example : ∃ solve : String → Program → SolveResult, (∀ alg, ExactSolver (solve alg)) ∧ ∃ rs W,
    SupportProtocol 0 ⟨3, [⟨[0, 1], 1⟩, ⟨[1, 2], 1⟩, ⟨[0], 1⟩], ["a".toList, "b".toList, "c".toList]⟩ [] rs W ∧ W.length = 2 ∧
    computeMaximinSupportVerbose ⟨["mip-cbc"], fun _ => none, fun _ => none⟩ (fun q => strNat q.num.toNat) solve List.reverse
      ⟨3, [⟨[0, 1], 1⟩, ⟨[1, 2], 1⟩, ⟨[0], 1⟩], ["a".toList, "b".toList, "c".toList]⟩ { committeesize := 2, algorithm := "mip-cbc", resolute := true } = .ok
      ([heading "maximin-support", algorithmLine "mip-cbc", detailsMsg "starting with the empty committee\n".toList] ++
        rs.flatMap (SupportRound.lines (fun q => strNat q.num.toNat)
          ⟨3, [⟨[0, 1], 1⟩, ⟨[1, 2], 1⟩, ⟨[0], 1⟩], ["a".toList, "b".toList, "c".toList]⟩) ++
        [winners ⟨3, [⟨[0, 1], 1⟩, ⟨[1, 2], 1⟩, ⟨[0], 1⟩], ["a".toList, "b".toList, "c".toList]⟩ [sortNat W]], [sortNat W]) := by
  obtain ⟨solve, hs⟩ := exists_exactSolver
  have hp : Profile.WF ⟨3, [⟨[0, 1], 1⟩, ⟨[1, 2], 1⟩, ⟨[0], 1⟩], ["a".toList, "b".toList, "c".toList]⟩ :=
    ⟨by decide, by decide, by decide, by decide +kernel⟩
  refine ⟨fun _ => solve, fun _ => hs, ?_⟩
  obtain ⟨rs, W, h1, h2, h3, -⟩ := C91_maximin_protocol ⟨["mip-cbc"], fun _ => none, fun _ => none⟩ (fun q => strNat q.num.toNat)
    (fun _ => solve) List.reverse (fun l => List.reverse_perm l) _ hp rfl { committeesize := 2, algorithm := "mip-cbc", resolute := true } "mip-cbc"
    (by decide +kernel) hs rfl
  refine ⟨rs, W, C91_protocol_exact hp ?_ (k := 2) (by decide) h1 (by rw [h2]; decide), h2, h3⟩
  intro v hv
  simp only [List.mem_cons, List.not_mem_nil, or_false] at hv
  rcases hv with rfl | rfl | rfl
  · exact ⟨1, by norm_num⟩
  · exact ⟨1, by norm_num⟩
  · exact ⟨1, by norm_num⟩

end Abc
