import Verif.Lemmas.Extrema
import Verif.Spec.Sequential
import Verif.Props.Optimal

/-!
# C27: sequential Thiele methods
-/

namespace Abc
open Spec

theorem gain_nonneg (f : ℕ → ℚ) (hf : ∀ i, 0 ≤ f i) (p : Profile) (hp : p.WF) (W : Finset ℕ) (c : ℕ) :
    0 ≤ gain f p W c := by
  unfold gain
  by_cases hc : c ∈ W
  · rw [Finset.insert_eq_of_mem hc, sub_self]
  · rw [score_insert f p W c hc]
    refine List.sum_nonneg ?_
    intro x hx
    obtain ⟨v, hv, rfl⟩ := List.mem_map.1 hx
    split
    · exact mul_nonneg (hp.weight v hv).le (hf _)
    · exact le_rfl

theorem marginalAdd_gain (f : ℕ → ℚ) (p : Profile) (hp : p.WF) (W : List ℕ) (c : ℕ) (hc : c < p.numCand) (hW : c ∉ W) :
    (marginalAdd f p W).getD c 0 = gain f p W.toFinset c := by
  rw [marginalAdd_getD f p hp W c hc, if_neg hW]
  unfold gain
  rw [score_insert f p _ c (by simpa using hW)]

/-- The tied candidates of a round are exactly the non-members of maximal gain. -/
theorem mem_tiedMax_marginalAdd (f : ℕ → ℚ) (hf : ∀ i, 0 ≤ f i) (p : Profile) (hp : p.WF) (W : List ℕ)
    (hlen : W.length < p.numCand) (c : ℕ) :
    c ∈ tiedMax (marginalAdd f p W) ↔ c < p.numCand ∧ c ∉ W ∧
      ∀ d < p.numCand, d ∉ W → gain f p W.toFinset d ≤ gain f p W.toFinset c := by
  rw [mem_tiedMax, marginalAdd_length]
  refine and_congr_right fun hc => ?_
  obtain ⟨d0, hd0, hdW⟩ := exists_not_mem hlen
  constructor
  · intro h
    have hcW : c ∉ W := by
      intro hcW
      have h1 := h d0 hd0
      rw [marginalAdd_gain f p hp W d0 hd0 hdW, marginalAdd_getD f p hp W c hc, if_pos hcW] at h1
      have := gain_nonneg f hf p hp W.toFinset d0
      linarith
    refine ⟨hcW, ?_⟩
    intro d hd hdW
    have := h d hd
    rwa [marginalAdd_gain f p hp W d hd hdW, marginalAdd_gain f p hp W c hc hcW] at this
  · rintro ⟨hcW, h⟩ d hd
    rw [marginalAdd_gain f p hp W c hc hcW]
    by_cases hdW : d ∈ W
    · rw [marginalAdd_getD f p hp W d hd, if_pos hdW]
      have := gain_nonneg f hf p hp W.toFinset c
      linarith
    · rw [marginalAdd_gain f p hp W d hd hdW]
      exact h d hd hdW

theorem seqThieleSuccs_eq (f : ℕ → ℚ) (p : Profile) (W : List ℕ) :
    seqThieleSuccs f p W = (tiedMax (marginalAdd f p W)).map (fun c => W ++ [c]) := by
  unfold seqThieleSuccs tiedMax
  simp only
  rw [marginalAdd_length]
  congr 1
  refine List.filter_congr ?_
  intro c hc
  have hc' : c < (marginalAdd f p W).length := by
    rw [marginalAdd_length]; simpa [Profile.candidates] using hc
  rw [decide_eq_decide]
  exact ⟨fun h => le_antisymm (getD_le_listMax hc') h, fun h => h.ge⟩

theorem Spec.SeqRun.nodup {f : ℕ → ℚ} {p : Profile} {W : List ℕ} (h : SeqRun f p W) : W.Nodup ∧ ∀ c ∈ W, c < p.numCand := by
  induction h with
  | nil => simp
  | snoc h hc hcW _ ih =>
    refine ⟨?_, ?_⟩
    · rw [List.nodup_append]
      refine ⟨ih.1, by simp, ?_⟩
      rintro x hx y hy rfl
      simp at hy
      exact hcW (hy ▸ hx)
    · intro x hx
      rcases List.mem_append.1 hx with hx | hx
      · exact ih.2 x hx
      · simp at hx; omega

theorem Spec.SeqRunFirst.seqRun {f : ℕ → ℚ} {p : Profile} {W : List ℕ} (h : SeqRunFirst f p W) : SeqRun f p W := by
  induction h with
  | nil => exact .nil
  | snoc _ h1 h2 h3 _ ih => exact .snoc ih h1 h2 h3

theorem seqRun_snoc_iff {f : ℕ → ℚ} {p : Profile} {W : List ℕ} {c : ℕ} : SeqRun f p (W ++ [c]) ↔
    SeqRun f p W ∧ c < p.numCand ∧ c ∉ W ∧ ∀ d < p.numCand, d ∉ W → gain f p W.toFinset d ≤ gain f p W.toFinset c := by
  constructor
  · intro h
    generalize hV : W ++ [c] = V at h
    cases h with
    | nil => simp at hV
    | snoc h1 h2 h3 h4 =>
      obtain ⟨rfl, h5⟩ := List.append_inj' hV rfl
      obtain rfl : c = _ := by simpa using h5
      exact ⟨h1, h2, h3, h4⟩
  · rintro ⟨h1, h2, h3, h4⟩
    exact .snoc h1 h2 h3 h4

theorem mem_leaves_seqThiele (f : ℕ → ℚ) (hf : ∀ i, 0 ≤ f i) (p : Profile) (hp : p.WF) (r : ℕ) (hr : r ≤ p.numCand)
    (W : List ℕ) : W ∈ leaves (seqThieleSuccs f p) r [] ↔ SeqRun f p W ∧ W.length = r := by
  induction r generalizing W with
  | zero =>
    simp only [leaves, List.mem_singleton, List.length_eq_zero_iff]
    constructor
    · rintro rfl; exact ⟨.nil, rfl⟩
    · exact fun h => h.2
  | succ r ih =>
    rw [mem_leaves_snoc]
    constructor
    · rintro ⟨V, hV, hW⟩
      obtain ⟨h1, h2⟩ := (ih (by omega) V).1 hV
      rw [seqThieleSuccs_eq, List.mem_map] at hW
      obtain ⟨c, hc, rfl⟩ := hW
      rw [mem_tiedMax_marginalAdd f hf p hp V (by omega)] at hc
      exact ⟨.snoc h1 hc.1 hc.2.1 hc.2.2, by simp [h2]⟩
    · rintro ⟨h1, h2⟩
      rcases List.eq_nil_or_concat W with rfl | ⟨V, c, rfl⟩
      · simp at h2
      · rw [List.concat_eq_append] at h1 h2 ⊢
        obtain ⟨g1, g2⟩ := seqRun_snoc_iff.1 h1
        have hl : V.length = r := by simpa using h2
        refine ⟨V, (ih (by omega) V).2 ⟨g1, hl⟩, ?_⟩
        rw [seqThieleSuccs_eq, List.mem_map]
        exact ⟨c, (mem_tiedMax_marginalAdd f hf p hp V (by omega) c).2 g2, rfl⟩

/-- the resolute loop: it never fails, and it produces the smallest-index run together with the recorded information -/
theorem seqThieleLoop_spec (f : ℕ → ℚ) (hf : ∀ i, 0 ≤ f i) (p : Profile) (hp : p.WF) (n : ℕ) (W : List ℕ)
    (info : List SeqInfo) (hW : SeqRunFirst f p W) (hlen : W.length + n ≤ p.numCand) :
    ∃ V info', seqThieleLoop f p n W info = .ok (V, info') ∧ SeqRunFirst f p V ∧ V.length = W.length + n ∧ W <+: V := by
  induction n generalizing W info with
  | zero => exact ⟨W, info, rfl, hW, rfl, List.prefix_rfl⟩
  | succ n ih =>
    have hne : marginalAdd f p W ≠ [] := by
      intro h
      have := congrArg List.length h
      rw [marginalAdd_length] at this
      have := hp.pos
      simp at *
      omega
    obtain ⟨c, cs, hcs, hget⟩ := pyGet_zero_of_ne_nil (tiedMax_ne_nil hne)
    obtain ⟨h1, h2⟩ := head_le_of_lt (tiedMax_lt _) hget
    have h3 := (mem_tiedMax_marginalAdd f hf p hp W (by omega) c).1 h1
    have hstep : SeqRunFirst f p (W ++ [c]) := by
      refine .snoc hW h3.1 h3.2.1 h3.2.2 ?_
      intro d hd hdW
      refine lt_of_le_of_ne (h3.2.2 d (by omega) hdW) ?_
      intro he
      have : d ∈ tiedMax (marginalAdd f p W) := by
        rw [mem_tiedMax_marginalAdd f hf p hp W (by omega)]
        exact ⟨by omega, hdW, fun e he1 he2 => he ▸ h3.2.2 e he1 he2⟩
      have := h2 d this
      omega
    obtain ⟨V, info', g1, g2, g3, g4⟩ := ih (W ++ [c]) (info ++ [⟨c, tiedMax (marginalAdd f p W), listMax (marginalAdd f p W)⟩])
      hstep (by simp; omega)
    refine ⟨V, info', ?_, g2, by simp at g3; omega, (List.prefix_append _ _).trans g4⟩
    unfold seqThieleLoop
    simp only [hget, bind, Except.bind]
    exact g1

theorem sortedCommittees_of_sorted {W : List ℕ} (h : W.Pairwise (· < ·)) : sortedCommittees [W] = .ok [W] := by
  rw [sortedCommittees_one (nodup_of_lt h), sortNat_of_lt h]

/-- C27: seq-Thiele with `resolute=False` returns exactly the committees obtainable by `k` times adding some candidate of
maximal marginal score (at most `max_num_of_committees` many), with `resolute=True` one of them. -/
theorem C27_seqThiele (env : Env) (sid : String) (s : ScoreId) (p : Profile) (hp : p.WF) (a : Args)
    (hal : prologue env ("seq" ++ sid) p a = .ok "standard") (hsid : env.scoreId sid = .ok s)
    (hf : ∀ i, 0 ≤ marginalFct s i) :
    Answers a (computeSeqThieleMethod env sid p a) (SeqThieleWinner (marginalFct s) p a.k) := by
  have hv := validCall_of_prologue hal
  set f := marginalFct s with hfdef
  have hcomp : computeSeqThieleMethod env sid p a =
      (do let committees ← (if a.resolute then (do let r ← seqThieleResolute f p a.k; .ok r.1)
            else seqThieleIrresolute f p a.k a.maxNum)
          sortedCommittees committees) := by
    unfold computeSeqThieleMethod
    rw [hal, hsid]
    simp only [bind, Except.bind, if_true, ← hfdef]
    cases a.resolute <;> simp
  -- the irresolute part, for the call without the final re-sorting
  have hirr : ∀ r, (a.resolute = true → ∃ W : List ℕ, W.Nodup ∧ SeqThieleWinner f p a.k W.toFinset ∧ r = sortedCommittees [W]) →
      (a.resolute = false → r = seqThieleIrresolute f p a.k a.maxNum) → Answers a r (SeqThieleWinner f p a.k) := by
    intro r h1 h2
    refine universes_answers (full := fun c => decide (c.length = a.k)) (out := sortNat)
      (succs := fun c => .ok (seqThieleSuccs f p c)) (seqThieleSuccs f p)
      (fun W => SeqRun f p W ∧ W.length ≤ a.k) (fun W => a.k - W.length) p.numCand ?_ ?_ hv [] ⟨.nil, by simp⟩ (by simp) rfl
      ?_ ?_ h1 ?_
    · rintro W ⟨-, hW⟩
      simp only [decide_eq_true_eq]
      omega
    · rintro W ⟨hW, hlen⟩ hr
      have hl2 : W.length < p.numCand := by have := hv.le; omega
      refine ⟨rfl, ?_, ?_⟩
      · rw [seqThieleSuccs_eq, List.length_map]
        refine (List.length_filter_le _ _).trans ?_
        rw [marginalAdd_length, List.length_range]
      · intro V hV
        rw [seqThieleSuccs_eq, List.mem_map] at hV
        obtain ⟨c, hc, rfl⟩ := hV
        rw [mem_tiedMax_marginalAdd f hf p hp W hl2] at hc
        refine ⟨⟨.snoc hW hc.1 hc.2.1 hc.2.2, by simp; omega⟩, by simp; omega⟩
    · intro W hW
      rw [mem_leaves_seqThiele f hf p hp a.k hv.le] at hW
      exact sortNat_lt hW.1.nodup.1
    · intro A
      unfold SeqThieleWinner
      constructor
      · rintro ⟨W, hW, rfl⟩
        rw [mem_leaves_seqThiele f hf p hp a.k hv.le] at hW
        exact ⟨W, hW.1, hW.2, by rw [sortNat_toFinset]⟩
      · rintro ⟨W, h1, h2, rfl⟩
        exact ⟨W, (mem_leaves_seqThiele f hf p hp a.k hv.le W).2 ⟨h1, h2⟩, by rw [sortNat_toFinset]⟩
    · exact h2
  -- re-sorting a canonical list changes nothing
  cases hr : a.resolute with
  | true =>
    refine hirr _ (fun _ => ?_) (fun h => absurd h (by simp [hr]))
    obtain ⟨V, info, g1, g2, g3, -⟩ := seqThieleLoop_spec f hf p hp a.k [] [] .nil (by simpa using hv.le)
    have hVn := g2.seqRun.nodup.1
    refine ⟨V, hVn, ⟨V, g2.seqRun, by simpa using g3, rfl⟩, ?_⟩
    rw [hcomp, hr]
    unfold seqThieleResolute
    rw [g1]
    simp only [bind, Except.bind, if_true, sortedCommittees_one hVn]
    rw [sortedCommittees_of_sorted (sortNat_lt hVn)]
  | false =>
    have h1 := hirr (seqThieleIrresolute f p a.k a.maxNum) (fun h => absurd h (by simp [hr])) (fun _ => rfl)
    have hcan : ∀ cs, seqThieleIrresolute f p a.k a.maxNum = .ok cs → Canonical cs := by
      intro cs hcs
      unfold Answers at h1
      rw [hr, hcs] at h1
      cases hm : a.max with
      | none =>
        rw [hm] at h1
        obtain ⟨ds, e, h, -⟩ := h1
        rw [Except.ok.inj e]; exact h
      | some n =>
        rw [hm] at h1
        obtain ⟨ds, e, h, -⟩ := h1
        rw [Except.ok.inj e]; exact h
    have : computeSeqThieleMethod env sid p a = seqThieleIrresolute f p a.k a.maxNum := by
      rw [hcomp, hr]
      simp only [Bool.false_eq_true, if_false]
      cases hi : seqThieleIrresolute f p a.k a.maxNum with
      | error e => rfl
      | ok cs =>
        have hc := hcan cs hi
        obtain ⟨ds, e1, e2, e3⟩ := sortedCommittees_of_lt hc.asc hc.nodup
        simp only [bind, Except.bind]
        rw [e1]
        rw [canonical_ext e2 hc (fun A => ⟨fun ⟨W, h, e⟩ => ⟨W, e3.mem_iff.1 h, e⟩, fun ⟨W, h, e⟩ => ⟨W, e3.mem_iff.2 h, e⟩⟩)]
    rw [this]
    exact h1

/-- C27: the resolute variant takes the maximiser with the smallest index in every round. -/
theorem C27_seqThiele_resolute (env : Env) (sid : String) (s : ScoreId) (p : Profile) (hp : p.WF) (a : Args)
    (hal : prologue env ("seq" ++ sid) p a = .ok "standard") (hsid : env.scoreId sid = .ok s)
    (hf : ∀ i, 0 ≤ marginalFct s i) (hr : a.resolute = true) :
    ∃ W, SeqRunFirst (marginalFct s) p W ∧ W.length = a.k ∧
      computeSeqThieleMethod env sid p a = .ok [sortNat W] := by
  have hv := validCall_of_prologue hal
  obtain ⟨V, info, g1, g2, g3, -⟩ := seqThieleLoop_spec (marginalFct s) hf p hp a.k [] [] .nil (by simpa using hv.le)
  have hVn := g2.seqRun.nodup.1
  refine ⟨V, g2, by simpa using g3, ?_⟩
  unfold computeSeqThieleMethod
  rw [hal, hsid, hr]
  unfold seqThieleResolute
  simp only [bind, Except.bind, if_true, g1, sortedCommittees_one hVn]
  rw [sortedCommittees_of_sorted (sortNat_lt hVn)]

/-- The smallest-index run of a given length is unique. -/
theorem Spec.SeqRunFirst.unique {f : ℕ → ℚ} {p : Profile} {V W : List ℕ} (hV : SeqRunFirst f p V) (hW : SeqRunFirst f p W)
    (hl : V.length = W.length) : V = W := by
  induction hV generalizing W with
  | nil => exact (List.length_eq_zero_iff.1 hl.symm).symm
  | @snoc V c hV h1 h2 h3 h4 ih =>
    cases hW with
    | nil => simp at hl
    | @snoc W d hW g1 g2 g3 g4 =>
      obtain rfl : V = W := ih hW (by simpa using hl)
      rcases lt_trichotomy c d with h | h | h
      · have := g4 c h h2
        have := h3 d g1 g2
        linarith
      · rw [h]
      · have := h4 d h g2
        have := g3 c h1 h2
        linarith

/-- Non-vacuity: seq-PAV on a profile with ties. -/
example : prologue exampleEnv ("seq" ++ "pav") ⟨3, [⟨[0, 1], 1⟩, ⟨[1, 2], 1⟩], []⟩ { committeesize := 2, resolute := false }
      = .ok "standard" ∧ exampleEnv.scoreId "pav" = .ok .pav ∧
    computeSeqThieleMethod exampleEnv "pav" ⟨3, [⟨[0, 1], 1⟩, ⟨[1, 2], 1⟩], []⟩ { committeesize := 2, resolute := false }
      = .ok [[0, 1], [1, 2]] := by decide +kernel

end Abc
