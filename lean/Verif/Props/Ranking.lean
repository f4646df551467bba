import Verif.Spec.Ranking
import Verif.Props.Droop
import Verif.Props.MaximinApprox
import Verif.Props.Check

/-!
# C131: rankings
-/

namespace Abc

open Spec

theorem seqRun_take {f : ℕ → ℚ} {p : Profile} {W : List ℕ} (h : SeqRun f p W) : ∀ j, SeqRun f p (W.take j) := by
  induction h with
  | nil => intro j; rw [List.take_nil]; exact .nil
  | @snoc W c hW h1 h2 h3 ih =>
    intro j
    rcases le_or_gt j W.length with hj | hj
    · rw [List.take_append_of_le_length hj]; exact ih j
    · rw [List.take_of_length_le (by simp; omega)]; exact .snoc hW h1 h2 h3

theorem seqRun_nodup' {f : ℕ → ℚ} {p : Profile} {W : List ℕ} (h : SeqRun f p W) : W.Nodup := by
  induction h with
  | nil => exact List.nodup_nil
  | @snoc W c hW h1 h2 h3 ih => exact List.nodup_append.2 ⟨ih, by simp, by rintro a ha b hb rfl; exact h2 (by rwa [List.mem_singleton.1 hb] at ha)⟩

section
variable {σ : Type} {Best : List ℕ → σ → ℕ → Prop} {upd : List ℕ → σ → ℕ → σ} {s₀ : σ} {W : List ℕ} {s : σ}

theorem run_take (h : Run Best upd [] s₀ W s) : ∀ j, ∃ s', Run Best upd [] s₀ (W.take j) s' := by
  induction h with
  | start => exact fun j => ⟨s₀, by rw [List.take_nil]; exact .start⟩
  | @step W s c hW hb ih =>
    intro j
    rcases le_or_gt j W.length with hj | hj
    · rw [List.take_append_of_le_length hj]; exact ih j
    · rw [List.take_of_length_le (by simp; omega)]; exact ⟨_, .step hW hb⟩

theorem runWinner_take (h : Run Best upd [] s₀ W s) {j : ℕ} (hj : j ≤ W.length) : RunWinner Best upd s₀ j (W.take j).toFinset := by
  obtain ⟨s', h'⟩ := run_take h j
  exact ⟨_, s', h', by rw [List.length_take]; omega, rfl⟩

end

/-- What is claimed about every top part of the ranking. -/
def GoodTop (p : Profile) (names : List String) (j : ℕ) (A : Finset ℕ) : Prop :=
  ∀ q, total p < ((j : ℚ) + 1) * q → ∀ name ∈ names, Satisfies name p A q

theorem goodTop_of_priceable {p : Profile} (hp : p.WF) (hv : p.voters ≠ []) {j : ℕ} {A : Finset ℕ} (hA : IsCommittee p j A)
    (h : PriceableOrFull false p A) : GoodTop p ["jr", "pjr", "priceability"] j A := by
  intro q hq name hn
  have ht := total_pos hp hv
  have hP := (h.pjrplus_droop hp hA.1 ht (by rw [hA.2]; exact hq)).pjr (droop_pos ht hq)
  simp only [List.mem_cons, List.not_mem_nil, or_false] at hn
  rcases hn with rfl | rfl | rfl
  · exact hP.jr
  · exact hP
  · exact h

/-- A run that elects the committee and whose beginnings are good. -/
theorem ranking_elects {w : World} {p : Profile} (hp : p.WF) (hv : p.voters ≠ []) {k : ℕ} {alg ruleId : String}
    {names : List String} (h : RankingRule w p k alg ruleId names) :
    ∃ T, Elects w p k alg ruleId T ∧ ∀ A, T A → ∃ L : List ℕ, L.Nodup ∧ L.toFinset = A ∧ ∀ j, 1 ≤ j → j ≤ k →
      GoodTop p names j (L.take j).toFinset := by
  have ht := total_pos hp hv
  cases h with
  | seqcc =>
    refine ⟨_, .seqThiele (sid := "cc") (s := .cc) rfl (marginalFct_nonneg .cc (by simp)), ?_⟩
    rintro A ⟨L, h1, h2, h3⟩
    refine ⟨L, seqRun_nodup' h1, h3, fun j _ hj q hq name hn => ?_⟩
    obtain rfl := List.mem_singleton.1 hn
    exact seqcc_JR_droop hp ht (seqRun_take h1 j) (by rw [List.length_take, Nat.min_eq_left (by omega)]) hq
  | seqphragmen h1 h2 =>
    refine ⟨_, .seqphragmen h1 h2, ?_⟩
    rintro A ⟨L, s, g1, g2, g3⟩
    refine ⟨L, (g1.nodup (m := p.numCand) (fun W s c _ h => ⟨h.1, h.2.1⟩) (by simp) (by simp)).1, g3, fun j hj1 hj => ?_⟩
    have hR := runWinner_take g1 (j := j) (by omega)
    exact goodTop_of_priceable hp hv (isCommittee_of_run (p := p) (fun W s c h => ⟨h.1, h.2.1⟩) hR) (seqphragmen_priceable hp hR)
  | maximinSupport h1 h2 =>
    refine ⟨_, .maximinSupport h1 h2, ?_⟩
    rintro A ⟨L, s, g1, g2, g3⟩
    refine ⟨L, (g1.nodup (m := p.numCand) (fun W s c _ h => ⟨h.1, h.2.1⟩) (by simp) (by simp)).1, g3, fun j hj1 hj => ?_⟩
    have hR := runWinner_take g1 (j := j) (by omega)
    exact goodTop_of_priceable hp hv (isCommittee_of_run (p := p) (fun W s c h => ⟨h.1, h.2.1⟩) hR) (maximin_priceable hp hj1 hR)

/-- **C131** Rankings: the members of every committee returned by `seqcc`, `seqphragmen` and `maximin-support` can be ranked such that, for
every `j`, the first `j` of them have the properties of the rule as a committee of size `j`, for every quota above `1/(j+1)` of the voters
(in particular for the Hare quota of `j` seats). -/
theorem C131_ranking (w : World) (hw : w.Exact) (p : Profile) (hp : p.WF) (a : Args) {ruleId alg : String}
    (hal : prologue w.env ruleId p a = .ok alg) {names : List String} (h : RankingRule w p a.k alg ruleId names) :
    ∃ cs, compute w ruleId p a.committeesize none a.kw = .ok cs ∧ cs ≠ [] ∧ ∀ W ∈ cs, ∃ L : List ℕ, L.Perm W ∧
      ∀ j : ℕ, 1 ≤ j → j ≤ a.k → ∀ q : ℚ, total p < (j + 1) * q → ∀ name ∈ names, Satisfies name p (L.take j).toFinset q := by
  have hv := validCall_of_prologue hal
  obtain ⟨T, hT, hE⟩ := ranking_elects hp hv.voters h
  obtain ⟨cs, h1, h2, -, h4, -⟩ := C31_valid w hw p hp a ruleId alg hal hT
  refine ⟨cs, h1, h2, fun W hW => ?_⟩
  obtain ⟨L, g1, g2, g3⟩ := hE _ (answers_mem (C31_compute w hw p hp a ruleId alg hal hT) h1 hW)
  exact ⟨L, List.perm_of_nodup_nodup_toFinset_eq g1 (h4 W hW).2.1 g2, g3⟩

/-- **C131** So every top part of the ranking passes `check`, with the default quota and with every quota above `1/(j+1)` of the voters. -/
theorem C131_check (w : World) (hw : w.Exact) {solve : Program → SolveResult} {solveMax : MaxProgram → SolveResult}
    (hs : ExactSolver solve) (hm : ExactMaxSolver solveMax) (ap : List ℕ) (p : Profile) (hp : p.WF) (a : Args) {ruleId alg : String}
    (hal : prologue w.env ruleId p a = .ok alg) {names : List String} (h : RankingRule w p a.k alg ruleId names) {algorithm : String}
    (ha : algorithm = "fastest" ∨ algorithm = "gurobi") :
    ∃ cs, compute w ruleId p a.committeesize none a.kw = .ok cs ∧ cs ≠ [] ∧ ∀ W ∈ cs, ∃ L : List ℕ, L.Perm W ∧
      ∀ j : ℕ, 1 ≤ j → j ≤ a.k →
        (∀ name ∈ names, check solve solveMax ap name p ((L.take j).map Int.ofNat) none algorithm = .ok true) ∧
        ∀ name ∈ names, name ≠ "priceability" → ∀ q : ℚ, total p < (j + 1) * q →
          check solve solveMax ap name p ((L.take j).map Int.ofNat) (some q) algorithm = .ok true := by
  have hv := validCall_of_prologue hal
  have ht := total_pos hp hv.voters
  obtain ⟨T, hT, hE⟩ := ranking_elects hp hv.voters h
  obtain ⟨cs, h1, h2, -, h4, -⟩ := C31_valid w hw p hp a ruleId alg hal hT
  refine ⟨cs, h1, h2, fun W hW => ?_⟩
  obtain ⟨g1, g2, g3, g4⟩ := h4 W hW
  obtain ⟨L, l1, l2, l3⟩ := hE _ (answers_mem (C31_compute w hw p hp a ruleId alg hal hT) h1 hW)
  have hperm : L.Perm W := List.perm_of_nodup_nodup_toFinset_eq l1 g2 l2
  have hlen : L.length = a.k := by
    have hwc : ruleId ∉ withoutCompletion := by cases h <;> decide
    have h5 := g4 hwc
    have h6 := hperm.length_eq
    unfold Args.k
    omega
  refine ⟨L, hperm, fun j hj1 hj => ?_⟩
  have hnd : (L.take j).Nodup := l1.sublist (List.take_sublist _ _)
  have hlt : ∀ c ∈ L.take j, c < p.numCand := fun c hc => g1 c (hperm.subset (List.mem_of_mem_take hc))
  have hjl : (L.take j).length = j := by rw [List.length_take]; omega
  have hne : L.take j ≠ [] := by intro e; rw [e] at hjl; simp at hjl; omega
  constructor
  · intro name hn
    have hname : name ∈ propertyNames := by
      cases h <;> revert name <;> decide
    obtain ⟨b, e1, e2⟩ := C60_check hs hm ap hp hnd hlt ha hv.voters hne hname
    have hj0 : (0 : ℚ) < j := by exact_mod_cast hj1
    have := l3 j hj1 hj (total p / j) (by
      rw [mul_div_assoc', lt_div_iff₀ hj0]
      nlinarith) name hn
    rw [e1, e2.2 (by rw [hjl]; exact this)]
  · intro name hn hnp q hq
    have hname : name ∈ ["jr", "pjr", "ejr", "ejr+", "fjr", "core"] := by
      revert hnp
      cases h <;> revert name <;> decide
    have hnot : name = "ejr+" → ∀ i, (sat p (L.take j).toFinset i : ℚ) * q ≤ total p := by
      intro e
      subst e
      exfalso
      revert hn
      cases h <;> decide
    obtain ⟨b, e1, e2⟩ := check_quota_all (solveMax := solveMax) hs ap hp hnd hlt ha (some q) (droop_pos ht hq) hname hnot
    rw [e1, e2.2 (l3 j hj1 hj q hq name hn)]

/-- **C131** The sequential Thiele methods: the first `j` members have at least `1 - (1 - 1/j)^j` of the score of every committee of size
`j`. -/
theorem C131_seqThiele (w : World) (hw : w.Exact) (p : Profile) (hp : p.WF) (a : Args) {sid alg : String} {s : ScoreId}
    (hs : w.env.scoreId sid = .ok s) (hprop : s.Proper) (hal : prologue w.env ("seq" ++ sid) p a = .ok alg) :
    ∃ cs, compute w ("seq" ++ sid) p a.committeesize none a.kw = .ok cs ∧ cs ≠ [] ∧ ∀ W ∈ cs, ∃ L : List ℕ, L.Perm W ∧
      ∀ j : ℕ, 1 ≤ j → j ≤ a.k → ∀ B, IsCommittee p j B →
        (1 - (1 - 1 / (j : ℚ)) ^ j) * score (marginalFct s) p B ≤ score (marginalFct s) p (L.take j).toFinset := by
  obtain ⟨h0, hanti⟩ := C16_nonneg_nonincreasing s hprop
  have hE : Elects w p a.k alg ("seq" ++ sid) _ := .seqThiele hs h0
  obtain ⟨cs, h1, h2, -, h4, -⟩ := C31_valid w hw p hp a _ alg hal hE
  refine ⟨cs, h1, h2, fun W hW => ?_⟩
  obtain ⟨L, g1, g2, g3⟩ := answers_mem (C31_compute w hw p hp a _ alg hal hE) h1 hW
  refine ⟨L, List.perm_of_nodup_nodup_toFinset_eq (seqRun_nodup' g1) (h4 W hW).2.1 g3, fun j hj1 hj B hB => ?_⟩
  have := seqRun_approx h0 hanti hp hj1 hB (seqRun_take g1 j)
  rw [List.length_take, Nat.min_eq_left (by omega)] at this
  linarith

/-- **C131** Maximin support: the first `j` members have at least half of the smallest support of every committee of size `j`. -/
theorem C131_maximin_support (w : World) (hw : w.Exact) (p : Profile) (hp : p.WF) (a : Args) {alg : String}
    (hal : prologue w.env "maximin-support" p a = .ok alg) (hint : IntegerWeights p) (hk : a.k ≤ 3162) :
    ∃ cs, compute w "maximin-support" p a.committeesize none a.kw = .ok cs ∧ cs ≠ [] ∧ ∀ W ∈ cs, ∃ L : List ℕ, L.Perm W ∧
      ∀ j : ℕ, j ≤ a.k → ∀ B t, IsCommittee p j B → SupportAtLeast p B t → SupportAtLeast p (L.take j).toFinset (t / 2) := by
  have hE : Elects w p a.k alg "maximin-support" _ := .maximinSupport hint hk
  obtain ⟨cs, h1, h2, -, h4, -⟩ := C31_valid w hw p hp a _ alg hal hE
  refine ⟨cs, h1, h2, fun W hW => ?_⟩
  obtain ⟨L, u, g1, g2, g3⟩ := answers_mem (C31_compute w hw p hp a _ alg hal hE) h1 hW
  refine ⟨L, List.perm_of_nodup_nodup_toFinset_eq
    (g1.nodup (m := p.numCand) (fun W s c _ h => ⟨h.1, h.2.1⟩) (by simp) (by simp)).1 (h4 W hW).2.1 g3, fun j hj B t hB ht => ?_⟩
  obtain ⟨⟨⟩, hr⟩ := run_take g1 j
  have := maximin_half hp le_rfl hB.1 ht hr (by rw [List.length_take, hB.2]; omega)
  simpa using this

/-- Non-vacuity: the hypotheses of C131 hold for concrete calls. -/
example : bigAndSmall.WF ∧ ApproversAtLeastOne bigAndSmall ∧
    prologue exampleEnv "seqcc" bigAndSmall { committeesize := 3, resolute := false } = .ok "standard" ∧
    prologue exampleEnv "seqphragmen" bigAndSmall { committeesize := 3, resolute := false, algorithm := "standard-fractions" } =
      .ok "standard-fractions" ∧
    prologue exampleEnv "maximin-support" bigAndSmall { committeesize := 3, resolute := false, algorithm := "gurobi" } = .ok "gurobi" :=
  ⟨⟨by decide, by decide, by decide, by decide⟩, approversAtLeastOne_of_weights (by decide +kernel), by decide +kernel, by decide +kernel,
    by decide +kernel⟩

end Abc
