import Verif.Props.SeqThiele
import Verif.Props.RevSeqThiele
import Verif.Props.Phragmen

/-!
# C48: committee monotonicity of the sequential rules

For resolute rules: the committee for size `k` is contained in the committee for every larger size.  For irresolute rules: every
winning committee of size `k` is contained in a winning committee of size `k + 1`, and every winning committee of size `k + 1`
contains a winning committee of size `k`.
-/

namespace Abc
open Spec

/-- Two results of a resolute rule, for a smaller and a larger committee size: one committee each, the first inside the second. -/
def Spec.Nested (r r' : Except Err (List (List ℕ))) : Prop :=
  ∃ W W' : List ℕ, r = .ok [W] ∧ r' = .ok [W'] ∧ W.toFinset ⊆ W'.toFinset

/-- Two results of an irresolute rule, for sizes `k` and `k + 1`. -/
def Spec.NestedAll (r r' : Except Err (List (List ℕ))) : Prop :=
  ∃ cs cs' : List (List ℕ), r = .ok cs ∧ r' = .ok cs' ∧ (∀ W ∈ cs, ∃ W' ∈ cs', W.toFinset ⊆ W'.toFinset) ∧
    ∀ W' ∈ cs', ∃ W ∈ cs, W.toFinset ⊆ W'.toFinset

/-! ## sequential Thiele -/

theorem seqRunFirst_snoc {f : ℕ → ℚ} {p : Profile} {W : List ℕ} {c : ℕ} (h : SeqRunFirst f p (W ++ [c])) :
    SeqRunFirst f p W ∧ c < p.numCand ∧ c ∉ W ∧ (∀ d < p.numCand, d ∉ W → gain f p W.toFinset d ≤ gain f p W.toFinset c) ∧
      (∀ d < c, d ∉ W → gain f p W.toFinset d < gain f p W.toFinset c) := by
  generalize hV : W ++ [c] = V at h
  cases h with
  | nil => simp at hV
  | @snoc W' c' h1 h2 h3 h4 h5 =>
    obtain ⟨rfl, h⟩ := List.append_inj' hV rfl
    obtain rfl := List.singleton_inj.1 h
    exact ⟨h1, h2, h3, h4, h5⟩

theorem seqRun_snoc {f : ℕ → ℚ} {p : Profile} {W : List ℕ} {c : ℕ} (h : SeqRun f p (W ++ [c])) :
    SeqRun f p W := by
  generalize hV : W ++ [c] = V at h
  cases h with
  | nil => simp at hV
  | @snoc W' c' h1 h2 h3 h4 =>
    obtain ⟨rfl, h⟩ := List.append_inj' hV rfl
    exact h1

theorem seqRunFirst_prefix {f : ℕ → ℚ} {p : Profile} {V W : List ℕ} (hV : SeqRunFirst f p V) (hW : SeqRunFirst f p W)
    (hl : V.length ≤ W.length) : V <+: W := by
  induction hW generalizing V with
  | nil => simp at hl; rw [hl]
  | @snoc W c hW h2 h3 h4 h5 ih =>
    by_cases hle : V.length ≤ W.length
    · exact (ih hV hle).trans (List.prefix_append _ _)
    · rcases List.eq_nil_or_concat V with rfl | ⟨V', d, rfl⟩
      · simp at hle
      · rw [List.concat_eq_append] at hV hl hle ⊢
        obtain ⟨g1, g2, g3, g4, g5⟩ := seqRunFirst_snoc hV
        simp at hl hle
        have : V' = W := (ih g1 hl).eq_of_length (by omega)
        subst this
        have : d = c := by
          rcases lt_trichotomy d c with h | h | h
          · exact absurd (g4 c h2 h3) (not_le.2 (h5 d h g3))
          · exact h
          · exact absurd (h4 d g2 g3) (not_le.2 (g5 c h h3))
        rw [this]

/-- C48: resolute sequential Thiele methods are committee monotone. -/
theorem C48_seqThiele (env : Env) (sid : String) (s : ScoreId) (p : Profile) (hp : p.WF) (a a' : Args)
    (hal : prologue env ("seq" ++ sid) p a = .ok "standard") (hal' : prologue env ("seq" ++ sid) p a' = .ok "standard")
    (hsid : env.scoreId sid = .ok s) (hf : ∀ i, 0 ≤ marginalFct s i) (hr : a.resolute = true) (hr' : a'.resolute = true)
    (hk : a.k ≤ a'.k) : Nested (computeSeqThieleMethod env sid p a) (computeSeqThieleMethod env sid p a') := by
  obtain ⟨W, h1, h2, h3⟩ := C27_seqThiele_resolute env sid s p hp a hal hsid hf hr
  obtain ⟨W', g1, g2, g3⟩ := C27_seqThiele_resolute env sid s p hp a' hal' hsid hf hr'
  refine ⟨_, _, h3, g3, ?_⟩
  rw [sortNat_toFinset, sortNat_toFinset]
  have := (seqRunFirst_prefix h1 g1 (by omega)).subset
  intro c hc
  exact List.mem_toFinset.2 (this (List.mem_toFinset.1 hc))

theorem exists_gain_max (f : ℕ → ℚ) (p : Profile) (W : List ℕ) (h : W.length < p.numCand) :
    ∃ c < p.numCand, c ∉ W ∧ ∀ d < p.numCand, d ∉ W → gain f p W.toFinset d ≤ gain f p W.toFinset c := by
  obtain ⟨c, hc, hcW⟩ := exists_not_mem h
  obtain ⟨m, hm, hmax⟩ := Finset.exists_max_image ((Finset.range p.numCand).filter (· ∉ W)) (gain f p W.toFinset)
    ⟨c, by simp [hc, hcW]⟩
  simp only [Finset.mem_filter, Finset.mem_range] at hm hmax
  exact ⟨m, hm.1, hm.2, fun d hd hdW => hmax d ⟨hd, hdW⟩⟩

theorem returns_of_answers {a : Args} {r : Except Err (List (List ℕ))} {S : Finset ℕ → Prop} (h : Answers a r S)
    (hr : a.resolute = false) (hm : a.max = none) : ∃ cs, r = .ok cs ∧ ∀ A, (∃ W ∈ cs, W.toFinset = A) ↔ S A := by
  unfold Answers at h
  rw [hr, hm] at h
  obtain ⟨cs, h1, -, h2⟩ := h
  exact ⟨cs, h1, h2⟩

theorem nestedAll_of {r r' : Except Err (List (List ℕ))} {S S' : Finset ℕ → Prop}
    (h : ∃ cs, r = .ok cs ∧ ∀ A, (∃ W ∈ cs, W.toFinset = A) ↔ S A)
    (h' : ∃ cs, r' = .ok cs ∧ ∀ A, (∃ W ∈ cs, W.toFinset = A) ↔ S' A)
    (hup : ∀ A, S A → ∃ B, S' B ∧ A ⊆ B) (hdown : ∀ B, S' B → ∃ A, S A ∧ A ⊆ B) : NestedAll r r' := by
  obtain ⟨cs, h1, h2⟩ := h
  obtain ⟨cs', g1, g2⟩ := h'
  refine ⟨cs, cs', h1, g1, ?_, ?_⟩
  · intro W hW
    obtain ⟨B, hB, hs⟩ := hup _ ((h2 W.toFinset).1 ⟨W, hW, rfl⟩)
    obtain ⟨W', hW', rfl⟩ := (g2 B).2 hB
    exact ⟨W', hW', hs⟩
  · intro W' hW'
    obtain ⟨A, hA, hs⟩ := hdown _ ((g2 W'.toFinset).1 ⟨W', hW', rfl⟩)
    obtain ⟨W, hW, rfl⟩ := (h2 A).2 hA
    exact ⟨W, hW, hs⟩

/-- C48: irresolute sequential Thiele methods. -/
theorem C48_seqThiele_irresolute (env : Env) (sid : String) (s : ScoreId) (p : Profile) (hp : p.WF) (a a' : Args)
    (hal : prologue env ("seq" ++ sid) p a = .ok "standard") (hal' : prologue env ("seq" ++ sid) p a' = .ok "standard")
    (hsid : env.scoreId sid = .ok s) (hf : ∀ i, 0 ≤ marginalFct s i) (hr : a.resolute = false) (hr' : a'.resolute = false)
    (hm : a.max = none) (hm' : a'.max = none)
    (hk : a'.k = a.k + 1) : NestedAll (computeSeqThieleMethod env sid p a) (computeSeqThieleMethod env sid p a') := by
  refine nestedAll_of (returns_of_answers (C27_seqThiele env sid s p hp a hal hsid hf) hr hm)
    (returns_of_answers (C27_seqThiele env sid s p hp a' hal' hsid hf) hr' hm') ?_ ?_
  · rintro A ⟨W, h1, h2, rfl⟩
    have hle := (validCall_of_prologue hal').le
    obtain ⟨c, hc, hcW, hmax⟩ := exists_gain_max (marginalFct s) p W (by omega)
    exact ⟨_, ⟨W ++ [c], .snoc h1 hc hcW hmax, by simp [h2, hk], rfl⟩, by simp⟩
  · rintro B ⟨W, h1, h2, rfl⟩
    rcases List.eq_nil_or_concat W with rfl | ⟨V, d, rfl⟩
    · simp at h2; omega
    · rw [List.concat_eq_append] at *
      exact ⟨_, ⟨V, seqRun_snoc h1, by simp at h2; omega, rfl⟩, by simp⟩

/-! ## reverse sequential Thiele -/

theorem revRunLast_subset {f : ℕ → ℚ} {p : Profile} {A : Finset ℕ} (h : RevRunLast f p A) : A ⊆ Finset.range p.numCand := by
  induction h with
  | all => exact subset_rfl
  | remove _ _ _ _ ih => exact (Finset.erase_subset _ _).trans ih

theorem revRunLast_mono {f : ℕ → ℚ} {p : Profile} {A B : Finset ℕ} (hA : RevRunLast f p A) (hB : RevRunLast f p B)
    (hc : A.card ≤ B.card) : A ⊆ B := by
  induction hA generalizing B with
  | all => exact (Finset.eq_of_subset_of_card_le (revRunLast_subset hB) hc).superset
  | @remove W c hW h1 h2 h3 ih =>
    have hcard := Finset.card_erase_of_mem h1
    have hpos : 0 < W.card := Finset.card_pos.2 ⟨c, h1⟩
    by_cases hle : W.card ≤ B.card
    · exact (Finset.erase_subset _ _).trans (ih hB hle)
    · cases hB with
      | all =>
        have := Finset.card_le_card (revRunLast_subset hW)
        omega
      | @remove V d hV g1 g2 g3 =>
        have hcard' := Finset.card_erase_of_mem g1
        have hpos' : 0 < V.card := Finset.card_pos.2 ⟨d, g1⟩
        have hWV : W = V := Finset.eq_of_subset_of_card_le (ih hV (by omega)) (by omega)
        subst hWV
        have : c = d := by
          rcases lt_trichotomy c d with h | h | h
          · exact absurd (g2 c h1) (not_le.2 (h3 d g1 h))
          · exact h
          · exact absurd (h2 d g1) (not_le.2 (g3 c h1 h))
        rw [this]

/-- C48: resolute reverse sequential Thiele methods are committee monotone. -/
theorem C48_revseqThiele (env : Env) (sid : String) (s : ScoreId) (ord : List ℕ → ℕ → List ℕ) (p : Profile) (hp : p.WF)
    (a a' : Args) (hal : prologue env ("revseq" ++ sid) p a = .ok "standard")
    (hal' : prologue env ("revseq" ++ sid) p a' = .ok "standard") (hsid : env.scoreId sid = .ok s)
    (hr : a.resolute = true) (hr' : a'.resolute = true) (hk : a.k ≤ a'.k) :
    Nested (computeRevseqThieleMethod env sid ord p a) (computeRevseqThieleMethod env sid ord p a') := by
  obtain ⟨W, h1, h2, h3, h4⟩ := C28_revseq_resolute env sid s ord p hp a hal hsid hr
  obtain ⟨W', g1, g2, g3, g4⟩ := C28_revseq_resolute env sid s ord p hp a' hal' hsid hr'
  exact ⟨W, W', h1, g1, revRunLast_mono h3 g3 (by omega)⟩

theorem revRun_subset {f : ℕ → ℚ} {p : Profile} {A : Finset ℕ} (h : RevRun f p A) : A ⊆ Finset.range p.numCand := by
  induction h with
  | all => exact subset_rfl
  | remove _ _ _ ih => exact (Finset.erase_subset _ _).trans ih

/-- C48: irresolute reverse sequential Thiele methods. -/
theorem C48_revseqThiele_irresolute (env : Env) (sid : String) (s : ScoreId) (ord : List ℕ → ℕ → List ℕ) (hord : Listing ord)
    (p : Profile) (hp : p.WF) (a a' : Args) (hal : prologue env ("revseq" ++ sid) p a = .ok "standard")
    (hal' : prologue env ("revseq" ++ sid) p a' = .ok "standard") (hsid : env.scoreId sid = .ok s)
    (hr : a.resolute = false) (hr' : a'.resolute = false) (hm : a.max = none) (hm' : a'.max = none) (hk : a'.k = a.k + 1) :
    NestedAll (computeRevseqThieleMethod env sid ord p a) (computeRevseqThieleMethod env sid ord p a') := by
  obtain ⟨cs, h1, -, -, h2⟩ := C28_revseq_committees env sid s ord hord p hp a hal hsid hr hm
  obtain ⟨cs', g1, -, -, g2⟩ := C28_revseq_committees env sid s ord hord p hp a' hal' hsid hr' hm'
  refine nestedAll_of ⟨cs, h1, h2⟩ ⟨cs', g1, g2⟩ ?_ ?_
  · rintro A ⟨hA, hc⟩
    cases hA with
    | all =>
      have := (validCall_of_prologue hal').le
      rw [Finset.card_range] at hc
      omega
    | @remove W c hW hcW hmin =>
      refine ⟨W, ⟨hW, ?_⟩, Finset.erase_subset _ _⟩
      have := Finset.card_erase_of_mem hcW
      have := Finset.card_pos.2 ⟨c, hcW⟩
      omega
  · rintro B ⟨hB, hc⟩
    obtain ⟨m, hmB, hmin⟩ := Finset.exists_min_image B (loss (marginalFct s) p B) (by rw [← Finset.card_pos]; omega)
    refine ⟨B.erase m, ⟨.remove hB hmB hmin, ?_⟩, Finset.erase_subset _ _⟩
    rw [Finset.card_erase_of_mem hmB]
    omega

/-! ## seq-Phragmén -/

theorem runFirst_prefix {σ : Type} {Best : List ℕ → σ → ℕ → Prop} {upd : List ℕ → σ → ℕ → σ} {W₀ : List ℕ} {s₀ : σ}
    {V W : List ℕ} {s t : σ} (hV : RunFirst Best upd W₀ s₀ V s) (hW : RunFirst Best upd W₀ s₀ W t)
    (hl : V.length ≤ W.length) : V <+: W := by
  induction hW generalizing V s with
  | start =>
    have := (run_zero_iff (Best := Best) (upd := upd)).1 ⟨hV.run, le_antisymm hl hV.run.length⟩
    rw [this.1]
  | @step W t c hW h1 h2 ih =>
    by_cases hle : V.length ≤ W.length
    · exact (ih hV hle).trans (List.prefix_append _ _)
    · rw [(hV.unique (.step hW h1 h2) (by simp at hl ⊢; omega)).1]

/-- C48: resolute seq-Phragmén is committee monotone. -/
theorem C48_seqphragmen (env : Env) (float : Except Err (List (List ℕ))) (p : Profile) (hp : p.WF)
    (hw : ApproversAtLeastOne p) (a a' : Args) (alg alg' : String) (hal : prologue env "seqphragmen" p a = .ok alg)
    (hal' : prologue env "seqphragmen" p a' = .ok alg') (hex : ExactAlg env alg) (hex' : ExactAlg env alg')
    (hr : a.resolute = true) (hr' : a'.resolute = true) (hk : a.k ≤ a'.k) :
    Nested (computeSeqphragmen env float p a) (computeSeqphragmen env float p a') := by
  obtain ⟨W, x, h1, h2, h3⟩ := C33_seqphragmen_resolute env float p hp hw a alg hal hex hr
  obtain ⟨W', x', g1, g2, g3⟩ := C33_seqphragmen_resolute env float p hp hw a' alg' hal' hex' hr'
  refine ⟨_, _, h3, g3, ?_⟩
  rw [sortNat_toFinset, sortNat_toFinset]
  have := (runFirst_prefix h1 g1 (by omega)).subset
  intro c hc
  exact List.mem_toFinset.2 (this (List.mem_toFinset.1 hc))

theorem exists_phragBest (p : Profile) (W : List ℕ) (x : VoterMap p) (h : W.length < p.numCand) : ∃ c, PhragBest p W x c := by
  obtain ⟨c, hc, hcW⟩ := exists_not_mem h
  by_cases hne : ∃ d < p.numCand, d ∉ W ∧ (backers p d).Nonempty
  · obtain ⟨d, hd, hdW, hdn⟩ := hne
    obtain ⟨m, hm, hmin⟩ := Finset.exists_min_image
      ((Finset.range p.numCand).filter (fun d => d ∉ W ∧ (backers p d).Nonempty)) (newLoad p x) ⟨d, by simp [hd, hdW, hdn]⟩
    simp only [Finset.mem_filter, Finset.mem_range] at hm hmin
    exact ⟨m, hm.1, hm.2.1, Or.inl ⟨hm.2.2, fun e he heW hen => hmin e ⟨he, heW, hen⟩⟩⟩
  · refine ⟨c, hc, hcW, Or.inr ?_⟩
    intro d hd hdW
    by_contra hd'
    exact hne ⟨d, hd, hdW, Finset.nonempty_iff_ne_empty.2 hd'⟩

/-- C48: irresolute seq-Phragmén. -/
theorem C48_seqphragmen_irresolute (env : Env) (float : Except Err (List (List ℕ))) (p : Profile) (hp : p.WF)
    (hw : ApproversAtLeastOne p) (a a' : Args) (alg alg' : String) (hal : prologue env "seqphragmen" p a = .ok alg)
    (hal' : prologue env "seqphragmen" p a' = .ok alg') (hex : ExactAlg env alg) (hex' : ExactAlg env alg')
    (hr : a.resolute = false) (hr' : a'.resolute = false) (hm : a.max = none) (hm' : a'.max = none) (hk : a'.k = a.k + 1) :
    NestedAll (computeSeqphragmen env float p a) (computeSeqphragmen env float p a') := by
  refine nestedAll_of (returns_of_answers (C33_seqphragmen env float p hp hw a alg hal hex) hr hm)
    (returns_of_answers (C33_seqphragmen env float p hp hw a' alg' hal' hex') hr' hm') ?_ ?_
  · rintro A ⟨W, x, h1, h2, rfl⟩
    have hle := (validCall_of_prologue hal').le
    obtain ⟨c, hc⟩ := exists_phragBest p W x (by omega)
    exact ⟨_, ⟨W ++ [c], _, .step h1 hc, by simp [h2, hk], rfl⟩, by simp⟩
  · rintro B ⟨W, x, h1, h2, rfl⟩
    rcases List.eq_nil_or_concat W with rfl | ⟨V, d, rfl⟩
    · simp at h2; omega
    · rw [List.concat_eq_append] at *
      obtain ⟨s, g1, -, -⟩ := (run_snoc_iff (by simp)).1 h1
      exact ⟨_, ⟨V, s, g1, by simp at h2; omega, rfl⟩, by simp⟩

/-! ## Non-vacuity -/

/-- Three voters, four candidates. -/
def monoProfile : Profile := ⟨4, [⟨[0, 1], 1⟩, ⟨[0, 2], 1⟩, ⟨[3], 2⟩], []⟩

example : monoProfile.WF := ⟨by decide, by decide, by decide, by decide +kernel⟩
example : prologue exampleEnv "seqpav" monoProfile { committeesize := 2, resolute := true } = .ok "standard" ∧
    prologue exampleEnv "seqpav" monoProfile { committeesize := 3, resolute := true } = .ok "standard" ∧
    prologue exampleEnv "revseqpav" monoProfile { committeesize := 2, resolute := true } = .ok "standard" ∧
    prologue exampleEnv "revseqpav" monoProfile { committeesize := 3, resolute := false } = .ok "standard" := by
  decide +kernel
example : prologue exampleEnv "seqphragmen" monoProfile { committeesize := 2, resolute := true, algorithm := "standard-fractions" }
      = .ok "standard-fractions" ∧
    computeSeqphragmen exampleEnv (.ok []) monoProfile { committeesize := 2, resolute := true, algorithm := "standard-fractions" }
      = .ok [[0, 3]] ∧
    computeSeqphragmen exampleEnv (.ok []) monoProfile { committeesize := 3, resolute := false, algorithm := "standard-fractions" }
      = .ok [[0, 1, 3], [0, 2, 3]] := by
  decide +kernel

end Abc
