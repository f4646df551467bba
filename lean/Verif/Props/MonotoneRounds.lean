import Verif.Props.CandidateMonotonicity
import Verif.Props.MaximinPriceable

/-!
# C99 (continued): additional approvals never harm a candidate, for further rules that elect one candidate after the other
-/

namespace Abc

open Spec

/-! ### Runs -/

section
variable {σ τ : Type} {Best : List ℕ → σ → ℕ → Prop} {upd : List ℕ → σ → ℕ → σ} {Best' : List ℕ → τ → ℕ → Prop}
  {upd' : List ℕ → τ → ℕ → τ} {W₀ : List ℕ} {s₀ : σ} {m : σ → τ} {c : ℕ}

/-- How the choices of a round before and after the change are related, as long as `c` is not elected. -/
structure Favours (c : ℕ) (Best : List ℕ → σ → ℕ → Prop) (upd : List ℕ → σ → ℕ → σ) (Best' : List ℕ → τ → ℕ → Prop)
    (upd' : List ℕ → τ → ℕ → τ) (W₀ : List ℕ) (s₀ : σ) (m : σ → τ) : Prop where
  step : ∀ W s d, d ≠ c → upd' W (m s) d = m (upd W s d)
  self : ∀ W s, Run Best upd W₀ s₀ W s → c ∉ W → Best W s c → Best' W (m s) c
  other : ∀ W s d, Run Best upd W₀ s₀ W s → c ∉ W → d ≠ c → Best W s d → Best' W (m s) d ∨ Best' W (m s) c
  back : ∀ W s d, Run Best upd W₀ s₀ W s → c ∉ W → d ≠ c → Best' W (m s) d → Best W s d
  ties : ∀ W s d e, Run Best upd W₀ s₀ W s → c ∉ W → d ≠ c → e ≠ c → Best' W (m s) d → Best W s e → Best' W (m s) e

/-- A run can be followed until `c` is elected, at the latest when it is elected in the given run. -/
theorem favours_forward (F : Favours c Best upd Best' upd' W₀ s₀ m) (h0 : c ∉ W₀) {V : List ℕ} {x : σ} (h : Run Best upd W₀ s₀ V x) :
    (∃ U y, Run Best' upd' W₀ (m s₀) U y ∧ U.length ≤ V.length ∧ c ∈ U) ∨ (Run Best' upd' W₀ (m s₀) V (m x) ∧ c ∉ V) := by
  induction h with
  | start => exact Or.inr ⟨.start, h0⟩
  | @step V x d hr hb ih =>
    rcases ih with ⟨U, y, u1, u2, u3⟩ | ⟨hV, hcV⟩
    · exact Or.inl ⟨U, y, u1, by rw [List.length_append]; omega, u3⟩
    · have elect : Best' V (m x) c → ∃ U y, Run Best' upd' W₀ (m s₀) U y ∧ U.length ≤ (V ++ [d]).length ∧ c ∈ U := fun g =>
        ⟨V ++ [c], _, .step hV g, by simp, by simp⟩
      by_cases hdc : d = c
      · subst hdc
        exact Or.inl (elect (F.self V x hr hcV hb))
      · rcases F.other V x d hr hcV hdc hb with g | g
        · refine Or.inr ⟨?_, ?_⟩
          · rw [← F.step V x d hdc]
            exact .step hV g
          · rw [List.mem_append, not_or, List.mem_singleton]
            exact ⟨hcV, fun g => hdc g.symm⟩
        · exact Or.inl (elect g)

/-- A run after the change that does not elect `c` was possible before. -/
theorem favours_back (F : Favours c Best upd Best' upd' W₀ s₀ m) {V : List ℕ} {y : τ} (h : Run Best' upd' W₀ (m s₀) V y) (hc : c ∉ V) :
    ∃ x, y = m x ∧ Run Best upd W₀ s₀ V x := by
  induction h with
  | start => exact ⟨_, rfl, .start⟩
  | @step V y d hr hb ih =>
    rw [List.mem_append, not_or, List.mem_singleton] at hc
    have hdc : d ≠ c := fun g => hc.2 g.symm
    obtain ⟨x, rfl, hx⟩ := ih hc.1
    exact ⟨_, F.step V x d hdc, .step hx (F.back V x d hx hc.1 hdc hb)⟩

/-- The same for runs with smallest-index tie-breaking. -/
theorem favours_back_first (F : Favours c Best upd Best' upd' W₀ s₀ m) {V : List ℕ} {y : τ} (h : RunFirst Best' upd' W₀ (m s₀) V y)
    (hc : c ∉ V) : ∃ x, y = m x ∧ RunFirst Best upd W₀ s₀ V x := by
  induction h with
  | start => exact ⟨_, rfl, .start⟩
  | @step V y d hr hb hmin ih =>
    rw [List.mem_append, not_or, List.mem_singleton] at hc
    have hdc : d ≠ c := fun g => hc.2 g.symm
    obtain ⟨x, rfl, hx⟩ := ih hc.1
    refine ⟨_, F.step V x d hdc, .step hx (F.back V x d hx.run hc.1 hdc hb) fun e he hbe => ?_⟩
    refine hmin e he ?_
    by_cases hec : e = c
    · subst hec
      exact F.self V x hx.run hc.1 hbe
    · exact F.ties V x d e hx.run hc.1 hdc hec hb hbe

/-- A run can be continued if there always is a next candidate. -/
theorem run_extend {Best : List ℕ → σ → ℕ → Prop} {upd : List ℕ → σ → ℕ → σ} {W₀ : List ℕ} {s₀ : σ} {k : ℕ}
    (hex : ∀ W s, W.length < k → ∃ d, Best W s d) (n : ℕ) : ∀ (V : List ℕ) (x : σ), Run Best upd W₀ s₀ V x → V.length + n = k →
      ∃ U y, Run Best upd W₀ s₀ U y ∧ U.length = k ∧ V ⊆ U := by
  induction n with
  | zero => exact fun V x h hl => ⟨V, x, h, by omega, fun _ h => h⟩
  | succ n ih =>
    intro V x h hl
    obtain ⟨d, hd⟩ := hex V x (by omega)
    obtain ⟨U, y, u1, u2, u3⟩ := ih (V ++ [d]) _ (.step h hd) (by rw [List.length_append, List.length_singleton]; omega)
    exact ⟨U, y, u1, u2, fun z hz => u3 (List.mem_append_left _ hz)⟩

theorem others_run_from (F : Favours c Best upd Best' upd' W₀ s₀ m) (h0 : c ∉ W₀) {k : ℕ}
    (hex : ∀ W s, W.length < k → ∃ d, Best' W s d) :
    KeepsOthers c (fun A => ∃ V x, Run Best upd W₀ s₀ V x ∧ V.length = k ∧ V.toFinset = A)
      (fun A => ∃ V x, Run Best' upd' W₀ (m s₀) V x ∧ V.length = k ∧ V.toFinset = A) := by
  constructor
  · rintro A ⟨W, y, hrun, hlen, rfl⟩ hc
    obtain ⟨x, -, hx⟩ := favours_back F hrun (by simpa using hc)
    exact ⟨W, x, hx, hlen, rfl⟩
  · rintro hno A ⟨W, x, hrun, hlen, rfl⟩
    rcases favours_forward F h0 hrun with ⟨U, y, u1, u2, u3⟩ | ⟨hW, hcW⟩
    · obtain ⟨T, z, t1, t2, t3⟩ := run_extend hex (k - U.length) U y u1 (by omega)
      exact absurd (List.mem_toFinset.2 (t3 u3)) (hno _ ⟨T, z, t1, t2, rfl⟩)
    · exact ⟨W, _, hW, hlen, rfl⟩

theorem others_run {s₀' : τ} (F : Favours c Best upd Best' upd' [] s₀ m) (h0 : s₀' = m s₀) {k : ℕ}
    (hex : ∀ W s, W.length < k → ∃ d, Best' W s d) : KeepsOthers c (RunWinner Best upd s₀ k) (RunWinner Best' upd' s₀' k) := by
  subst h0
  exact others_run_from F (by simp) hex

/-- The choice of a candidate of maximal value favours a candidate whose value increases. -/
theorem favours_of_values {α : Type} [LinearOrder α] {n : ℕ} {v : List ℕ → σ → ℕ → α} {v' : List ℕ → τ → ℕ → α}
    (hupd : ∀ W s d, d ≠ c → upd' W (m s) d = m (upd W s d))
    (hsame : ∀ W s d, Run (fun W s e => e < n ∧ e ∉ W ∧ ∀ d < n, d ∉ W → v W s d ≤ v W s e) upd W₀ s₀ W s → c ∉ W → d ≠ c →
      v' W (m s) d = v W s d)
    (hmore : ∀ W s, Run (fun W s e => e < n ∧ e ∉ W ∧ ∀ d < n, d ∉ W → v W s d ≤ v W s e) upd W₀ s₀ W s → c ∉ W →
      v W s c ≤ v' W (m s) c) :
    Favours c (fun W s e => e < n ∧ e ∉ W ∧ ∀ d < n, d ∉ W → v W s d ≤ v W s e) upd
      (fun W s e => e < n ∧ e ∉ W ∧ ∀ d < n, d ∉ W → v' W s d ≤ v' W s e) upd' W₀ s₀ m where
  step := hupd
  self := by
    rintro W s hr hcW ⟨b1, b2, b3⟩
    refine ⟨b1, b2, fun d hd hdW => ?_⟩
    by_cases hdc : d = c
    · rw [hdc]
    · rw [hsame W s d hr hcW hdc]
      exact (b3 d hd hdW).trans (hmore W s hr hcW)
  other := by
    rintro W s d hr hcW hdc ⟨b1, b2, b3⟩
    by_cases hlt : c < n ∧ v W s d < v' W (m s) c
    · refine Or.inr ⟨hlt.1, hcW, fun e he heW => ?_⟩
      by_cases hec : e = c
      · rw [hec]
      · rw [hsame W s e hr hcW hec]
        exact (b3 e he heW).trans hlt.2.le
    · refine Or.inl ⟨b1, b2, fun e he heW => ?_⟩
      rw [hsame W s d hr hcW hdc]
      by_cases hec : e = c
      · subst hec
        exact not_lt.1 fun h => hlt ⟨he, h⟩
      · rw [hsame W s e hr hcW hec]
        exact b3 e he heW
  back := by
    rintro W s d hr hcW hdc ⟨b1, b2, b3⟩
    refine ⟨b1, b2, fun e he heW => ?_⟩
    have h1 := b3 e he heW
    rw [hsame W s d hr hcW hdc] at h1
    by_cases hec : e = c
    · subst hec
      exact (hmore W s hr hcW).trans h1
    · rwa [hsame W s e hr hcW hec] at h1
  ties := by
    rintro W s d e hr hcW hdc hec ⟨b1, b2, b3⟩ ⟨g1, g2, g3⟩
    refine ⟨g1, g2, fun x hx hxW => (b3 x hx hxW).trans ?_⟩
    rw [hsame W s d hr hcW hdc, hsame W s e hr hcW hec]
    exact g3 d b1 b2

/-- If there are enough candidates there always is one of maximal value. -/
theorem exists_best_value {α : Type} [LinearOrder α] {n k : ℕ} (hk : k ≤ n) (v : List ℕ → τ → ℕ → α) (W : List ℕ) (s : τ)
    (h : W.length < k) : ∃ e, e < n ∧ e ∉ W ∧ ∀ d < n, d ∉ W → v W s d ≤ v W s e := by
  obtain ⟨e, he, hmax⟩ := Finset.exists_max_image _ (v W s) (exists_unelected_mono (q := ⟨n, [], []⟩) (W := W) (by dsimp only; omega))
  obtain ⟨e1, e2⟩ := Finset.mem_filter.1 he
  exact ⟨e, Finset.mem_range.1 e1, e2, fun d hd hdW => hmax d (Finset.mem_filter.2 ⟨Finset.mem_range.2 hd, hdW⟩)⟩

end

/-! ### Maximin support, Phragmén-Eneström, consensus rule -/

section
variable {c : ℕ} {p p' : Profile} (hp : p.WF) (M : MoreApprovals c p p')
include M

/-- The image of a sum under the correspondence of the voters. -/
theorem sum_moved (F : Fin p'.voters.length → ℚ) : ∑ j, F j = ∑ i, F (Fin.cast M.voters.length_eq i) :=
  (Fintype.sum_equiv (finCongr M.voters.length_eq) _ _ (fun _ => rfl)).symm

theorem total_new : total p' = total p := by
  unfold total
  rw [sum_moved M]
  exact Finset.sum_congr rfl fun i _ => (newBallot_get M i).1

/-- Flows to a committee with `c` remain possible. -/
theorem support_new {W : Finset ℕ} {t : ℚ} (h : SupportAtLeast p W t) : SupportAtLeast p' W t := by
  obtain ⟨f, f1, f2, f3, f4⟩ := h
  refine ⟨fun j => f (Fin.cast M.voters.length_eq.symm j), fun j d => f1 _ d, fun j d hne => ?_, fun j => ?_, fun d hd => ?_⟩
  · exact appr_new_sub M _ (f2 _ d hne)
  · refine (f3 _).trans (le_of_eq ?_)
    exact ((newBallot_get M (Fin.cast M.voters.length_eq.symm j)).1).symm
  · rw [sum_moved M]
    exact f4 d hd

/-- Flows to a committee without `c` are as before. -/
theorem support_new_other {W : Finset ℕ} (hc : c ∉ W) (t : ℚ) : SupportAtLeast p' W t ↔ SupportAtLeast p W t := by
  refine ⟨?_, support_new M⟩
  rintro ⟨f, f1, f2, f3, f4⟩
  refine ⟨fun i d => if d ∈ W then f (Fin.cast M.voters.length_eq i) d else 0, fun i d => ?_, fun i d hne => ?_, fun i => ?_, fun d hd => ?_⟩
  · dsimp only
    split
    · exact f1 _ d
    · exact le_rfl
  · dsimp only at hne
    by_cases hd : d ∈ W
    · rw [if_pos hd] at hne
      exact (appr_new_other M i (fun h => hc (h ▸ hd))).1 (f2 _ d hne)
    · rw [if_neg hd] at hne
      exact absurd rfl hne
  · rw [Finset.sum_congr rfl (fun d hd => if_pos hd)]
    exact (f3 _).trans (le_of_eq (newBallot_get M i).1)
  · simp only [hd, if_true]
    have := f4 d hd
    rwa [sum_moved M] at this

include hp in
theorem favours_maximin (hp' : p'.WF) {W₀ : List ℕ} {s₀ : Unit} : Favours c (fun W (_ : Unit) e => MaximinBest 0 p W e) (fun _ _ _ => ())
    (fun W (_ : Unit) e => MaximinBest 0 p' W e) (fun _ _ _ => ()) W₀ s₀ id := by
  have hbest : ∀ q : Profile, q.WF → q.numCand = p.numCand → (fun W (_ : Unit) e => MaximinBest 0 q W e) =
      (fun W (_ : Unit) e => e < p.numCand ∧ e ∉ W ∧ ∀ d < p.numCand, d ∉ W →
        maximinValue q (insert d W.toFinset) ≤ maximinValue q (insert e W.toFinset)) := by
    intro q hq hn
    funext W _ e
    unfold MaximinBest
    rw [hn]
    refine propext (and_congr_right fun _ => and_congr_right fun _ => ⟨fun h d hd hdW => ?_, fun h d hd hdW t ht => ?_⟩)
    · have := h d hd hdW _ ((maximinValue_spec hq (Finset.insert_nonempty _ _) _).2 le_rfl)
      rw [sub_zero] at this
      exact (maximinValue_spec hq (Finset.insert_nonempty _ _) _).1 this
    · rw [sub_zero]
      exact (maximinValue_spec hq (Finset.insert_nonempty _ _) _).2
        (((maximinValue_spec hq (Finset.insert_nonempty _ _) _).1 ht).trans (h d hd hdW))
  rw [hbest p hp rfl, hbest p' hp' M.cand]
  refine favours_of_values (v := fun W (_ : Unit) e => maximinValue p (insert e W.toFinset))
    (v' := fun W (_ : Unit) e => maximinValue p' (insert e W.toFinset)) (fun _ _ _ _ => rfl) (fun W s d _ hcW hdc => ?_)
    (fun W s _ hcW => ?_)
  · have hc' : c ∉ insert d W.toFinset := by
      rw [Finset.mem_insert, not_or, List.mem_toFinset]
      exact ⟨fun h => hdc h.symm, hcW⟩
    refine le_antisymm ?_ ?_
    · rw [← maximinValue_spec hp (Finset.insert_nonempty _ _), ← support_new_other M hc', maximinValue_spec hp' (Finset.insert_nonempty _ _)]
    · rw [← maximinValue_spec hp' (Finset.insert_nonempty _ _), support_new_other M hc', maximinValue_spec hp (Finset.insert_nonempty _ _)]
  · rw [← maximinValue_spec hp' (Finset.insert_nonempty _ _)]
    exact support_new M ((maximinValue_spec hp (Finset.insert_nonempty _ _) _).2 le_rfl)

include hp in
theorem others_maximin (hp' : p'.WF) {k : ℕ} (hk : k ≤ p.numCand) : KeepsOthers c (MaximinWinner 0 p k) (MaximinWinner 0 p' k) := by
  refine others_run (favours_maximin hp M hp') rfl (fun W s h => ?_)
  obtain ⟨e, e1, e2, e3⟩ := exists_best_value (k := k) (n := p'.numCand) (by rw [M.cand]; exact hk)
    (fun W (_ : Unit) e => maximinValue p' (insert e W.toFinset)) W s h
  refine ⟨e, e1, e2, fun d hd hdW t ht => ?_⟩
  rw [sub_zero]
  exact (maximinValue_spec hp' (Finset.insert_nonempty _ _) _).2
    (((maximinValue_spec hp' (Finset.insert_nonempty _ _) _).1 ht).trans (e3 d hd hdW))

theorem mem_backers_new (i : Fin p.voters.length) {d : ℕ} (hd : d ≠ c) :
    Fin.cast M.voters.length_eq i ∈ backers p' d ↔ i ∈ backers p d := by
  unfold backers
  simp only [Finset.mem_filter, Finset.mem_univ, true_and]
  exact appr_new_other M i hd

theorem sum_backers_other {d : ℕ} (hd : d ≠ c) (F : Fin p'.voters.length → ℚ) :
    ∑ j ∈ backers p' d, F j = ∑ i ∈ backers p d, F (Fin.cast M.voters.length_eq i) := by
  rw [sum_new M]
  refine Finset.sum_congr ?_ fun _ _ => rfl
  ext i
  simp only [backers, Finset.mem_filter, Finset.mem_univ, true_and]
  exact appr_new_other M i hd

theorem sum_backers_self {F : Fin p'.voters.length → ℚ} (hF : ∀ j, 0 ≤ F j) :
    ∑ i ∈ backers p c, F (Fin.cast M.voters.length_eq i) ≤ ∑ j ∈ backers p' c, F j := by
  rw [sum_new M]
  refine Finset.sum_le_sum_of_subset_of_nonneg (fun i hi => ?_) (fun i _ _ => hF _)
  exact Finset.mem_filter.2 ⟨Finset.mem_univ _, appr_new_sub M i (Finset.mem_filter.1 hi).2⟩

theorem support_other (b : VoterMap p) {d : ℕ} (hd : d ≠ c) : support p' (moved M.voters.length_eq b) d = support p b d := by
  unfold support
  rw [Finset.sum_filter, Finset.sum_filter, sum_backers_other M hd]
  rfl

theorem support_self (b : VoterMap p) : support p b c ≤ support p' (moved M.voters.length_eq b) c := by
  unfold support
  rw [Finset.sum_filter, Finset.sum_filter]
  refine (sum_backers_self M (F := fun j => if 0 < moved M.voters.length_eq b j then moved M.voters.length_eq b j else 0) fun j => ?_)
  split
  · next h => exact h.le
  · exact le_rfl

theorem favours_enestroem (q : ℚ) {W₀ : List ℕ} {s₀ : VoterMap p} : Favours c (SupportBest p) (enestroemUpd p q) (SupportBest p')
    (enestroemUpd p' q) W₀ s₀ (moved M.voters.length_eq) := by
  have hbest : SupportBest p' = fun W b e => e < p.numCand ∧ e ∉ W ∧ ∀ d < p.numCand, d ∉ W → support p' b d ≤ support p' b e := by
    funext W b e
    unfold SupportBest
    rw [M.cand]
  rw [hbest]
  refine favours_of_values (v := fun _ => support p) (v' := fun _ => support p')
    (fun W b d hd => ?_) (fun W b d _ _ hd => support_other M b hd) (fun W b _ _ => support_self M b)
  funext j
  have hj := mem_backers_new M (Fin.cast M.voters.length_eq.symm j) hd
  unfold enestroemUpd
  rw [support_other M b hd]
  simp only [moved]
  refine if_congr hj ?_ rfl
  rfl

theorem weights_new : (fun j => (p'.voters.get j).weight) = moved M.voters.length_eq (fun i => (p.voters.get i).weight) := by
  funext j
  exact (newBallot_get M (Fin.cast M.voters.length_eq.symm j)).1

theorem others_enestroem {k : ℕ} (hk : k ≤ p.numCand) : KeepsOthers c (EnestroemWinner p k) (EnestroemWinner p' k) := by
  unfold EnestroemWinner
  rw [total_new M]
  exact others_run (favours_enestroem M _) (weights_new M)
    (fun W s h => exists_best_value (by rw [M.cand]; exact hk) (fun _ => support p') W s h)

theorem income_new (b : VoterMap p) : income p' (moved M.voters.length_eq b) = moved M.voters.length_eq (income p b) := by
  funext j
  unfold income moved
  rw [show (p'.voters.get j).weight = _ from (newBallot_get M (Fin.cast M.voters.length_eq.symm j)).1]

theorem favours_consensus {W₀ : List ℕ} {s₀ : VoterMap p} : Favours c (ConsensusBest p) (consensusUpd p) (ConsensusBest p')
    (consensusUpd p') W₀ s₀ (moved M.voters.length_eq) := by
  have hbest : ConsensusBest p' = fun W b e => e < p.numCand ∧ e ∉ W ∧
      ∀ d < p.numCand, d ∉ W → support p' (income p' b) d ≤ support p' (income p' b) e := by
    funext W b e
    unfold ConsensusBest SupportBest
    rw [M.cand]
  rw [hbest]
  refine favours_of_values (v := fun _ b => support p (income p b)) (v' := fun _ b => support p' (income p' b))
    (fun W b d hd => ?_) (fun W b d _ _ hd => ?_) (fun W b _ _ => ?_)
  · funext j
    have hj := mem_backers_new M (Fin.cast M.voters.length_eq.symm j) hd
    have hw : (p'.voters.get j).weight = _ := (newBallot_get M (Fin.cast M.voters.length_eq.symm j)).1
    unfold consensusUpd
    rw [income_new M, total_new M, Finset.sum_filter, sum_backers_other M hd, hw]
    simp only [moved]
    refine if_congr (and_congr_left fun _ => hj) ?_ rfl
    rw [Finset.sum_filter]
    congr 3
    refine Finset.sum_congr rfl fun i _ => ?_
    rw [show (p'.voters.get (Fin.cast M.voters.length_eq i)).weight = _ from (newBallot_get M i).1]
    rfl
  · rw [income_new M]
    exact support_other M _ hd
  · rw [income_new M]
    exact support_self M _

theorem others_consensus {k : ℕ} (hk : k ≤ p.numCand) : KeepsOthers c (ConsensusWinner p k) (ConsensusWinner p' k) :=
  others_run (favours_consensus M) rfl
    (fun W s h => exists_best_value (by rw [M.cand]; exact hk) (fun _ b => support p' (income p' b)) W s h)

/-! ### Greedy Monroe -/

/-- A group of voters after the change. -/
def movedGroup (h : p.voters.length = p'.voters.length) (D : Group p) : Group p' := D.map (finCongr h).toEmbedding

omit M in
theorem mem_movedGroup (h : p.voters.length = p'.voters.length) (D : Group p) (i : Fin p.voters.length) :
    Fin.cast h i ∈ movedGroup h D ↔ i ∈ D := by
  unfold movedGroup
  rw [Finset.mem_map]
  constructor
  · rintro ⟨j, hj, e⟩
    have : j = i := Fin.ext (by simpa [Fin.ext_iff] using e)
    exact this ▸ hj
  · exact fun hi => ⟨i, hi, rfl⟩

omit M in
theorem movedGroup_ext {h : p.voters.length = p'.voters.length} {D : Group p} {D' : Group p'}
    (he : ∀ i, Fin.cast h i ∈ D' ↔ i ∈ D) : D' = movedGroup h D := by
  ext j
  have := he (Fin.cast h.symm j)
  rw [← mem_movedGroup h] at this
  exact this

omit M in
theorem unassigned_moved (h : p.voters.length = p'.voters.length) (Ds : List (Group p)) :
    unassigned p' (Ds.map (movedGroup h)) = movedGroup h (unassigned p Ds) := by
  refine movedGroup_ext fun i => ?_
  unfold unassigned
  simp only [Finset.mem_filter, Finset.mem_univ, true_and, List.mem_map, forall_exists_index, and_imp, forall_apply_eq_imp_iff₂,
    mem_movedGroup]

omit M in
theorem firstVoters_moved (h : p.voters.length = p'.voters.length) (S : Group p) (n : ℕ) :
    firstVoters (movedGroup h S) n = movedGroup h (firstVoters S n) := by
  refine movedGroup_ext fun i => ?_
  unfold firstVoters
  rw [Finset.mem_filter, Finset.mem_filter, mem_movedGroup]
  have : (movedGroup h S).filter (fun j => j < Fin.cast h i) = movedGroup h (S.filter (fun j => j < i)) := by
    refine movedGroup_ext fun j => ?_
    rw [Finset.mem_filter, mem_movedGroup, Finset.mem_filter]
    exact Iff.rfl
  rw [this, movedGroup, Finset.card_map]

theorem inter_backers_other (S : Group p) {d : ℕ} (hd : d ≠ c) :
    movedGroup M.voters.length_eq S ∩ backers p' d = movedGroup M.voters.length_eq (S ∩ backers p d) := by
  refine movedGroup_ext fun i => ?_
  rw [Finset.mem_inter, mem_movedGroup, mem_backers_new M i hd, Finset.mem_inter]

theorem favours_greedyMonroe (k : ℕ) {W₀ : List ℕ} {s₀ : List (Group p)} : Favours c (GMBest p) (gmUpd p k) (GMBest p')
    (gmUpd p' k) W₀ s₀ (List.map (movedGroup M.voters.length_eq)) := by
  have hbest : GMBest p' = fun W Ds e => e < p.numCand ∧ e ∉ W ∧ ∀ d < p.numCand, d ∉ W →
      (unassigned p' Ds ∩ backers p' d).card ≤ (unassigned p' Ds ∩ backers p' e).card := by
    funext W b e
    unfold GMBest
    rw [M.cand]
  rw [hbest]
  refine favours_of_values (v := fun _ Ds e => (unassigned p Ds ∩ backers p e).card) (v' := fun _ Ds e => (unassigned p' Ds ∩ backers p' e).card)
    (fun W Ds d hd => ?_) (fun W Ds d _ _ hd => ?_) (fun W Ds _ _ => ?_)
  · unfold gmUpd
    have hn : districtSize p'.voters.length k W.length = districtSize p.voters.length k W.length := by
      rw [M.voters.length_eq]
    rw [unassigned_moved, inter_backers_other M _ hd, firstVoters_moved, List.map_append, hn]
    rfl
  · rw [unassigned_moved, inter_backers_other M _ hd, movedGroup, Finset.card_map]
  · rw [unassigned_moved]
    refine le_trans (le_of_eq ?_) (Finset.card_le_card (s := movedGroup M.voters.length_eq (unassigned p Ds ∩ backers p c)) fun j hj => ?_)
    · rw [movedGroup, Finset.card_map]
    · have hj' := (mem_movedGroup M.voters.length_eq _ (Fin.cast M.voters.length_eq.symm j)).1 hj
      rw [Finset.mem_inter] at hj' ⊢
      refine ⟨(mem_movedGroup M.voters.length_eq _ (Fin.cast M.voters.length_eq.symm j)).2 hj'.1, ?_⟩
      exact Finset.mem_filter.2 ⟨Finset.mem_univ _, appr_new_sub M _ (Finset.mem_filter.1 hj'.2).2⟩

theorem others_greedyMonroe {k : ℕ} (hk : k ≤ p.numCand) : KeepsOthers c (RunWinner (GMBest p) (gmUpd p k) [] k)
    (RunWinner (GMBest p') (gmUpd p' k) [] k) :=
  others_run (favours_greedyMonroe M k) rfl
    (fun W s h => exists_best_value (by rw [M.cand]; exact hk) (fun _ Ds e => (unassigned p' Ds ∩ backers p' e).card) W s h)

/-! ### Equal Shares -/

theorem payments_other (b : VoterMap p) {d : ℕ} (hd : d ≠ c) (q : ℚ) :
    payments p' (moved M.voters.length_eq b) d q = payments p b d q := by
  unfold payments
  rw [sum_backers_other M hd]
  refine Finset.sum_congr rfl fun i _ => ?_
  rw [show (p'.voters.get (Fin.cast M.voters.length_eq i)).weight = _ from (newBallot_get M i).1]
  rfl

theorem isPrice_other (b : VoterMap p) {d : ℕ} (hd : d ≠ c) (q : ℚ) :
    IsPrice p' (moved M.voters.length_eq b) d q ↔ IsPrice p b d q := by
  unfold IsPrice
  simp only [payments_other M b hd]

include hp in
theorem payments_self {b : VoterMap p} (hb : ∀ i, 0 ≤ b i) {q : ℚ} (hq : 0 ≤ q) :
    payments p b c q ≤ payments p' (moved M.voters.length_eq b) c q := by
  have hw : ∀ j : Fin p'.voters.length, (p'.voters.get j).weight = (p.voters.get (Fin.cast M.voters.length_eq.symm j)).weight := fun j =>
    (newBallot_get M (Fin.cast M.voters.length_eq.symm j)).1
  unfold payments
  refine le_trans (le_of_eq ?_) (sum_backers_self M fun j => ?_)
  · refine Finset.sum_congr rfl fun i _ => ?_
    rw [hw]
    rfl
  · rw [hw]
    exact le_min (hb _) (mul_nonneg hq (weight_pos hp _).le)

theorem affordable_self {b : VoterMap p} (hb : ∀ i, 0 ≤ b i) (h : Affordable p b c) : Affordable p' (moved M.voters.length_eq b) c :=
  le_trans h (sum_backers_self M (F := moved M.voters.length_eq b) fun _ => hb _)

theorem affordable_other (b : VoterMap p) {d : ℕ} (hd : d ≠ c) : Affordable p' (moved M.voters.length_eq b) d ↔ Affordable p b d := by
  unfold Affordable
  rw [sum_backers_other M hd]
  rfl

omit M in
include hp in
theorem isPrice_nonneg {b : VoterMap p} {d : ℕ} {q : ℚ} (h : IsPrice p b d q) : 0 ≤ q := by
  by_contra hneg
  have : payments p b d q ≤ 0 := by
    refine Finset.sum_nonpos fun i _ => (min_le_right _ _).trans ?_
    exact mul_nonpos_of_nonpos_of_nonneg (not_le.1 hneg).le (weight_pos hp i).le
  have := h.1
  linarith

include hp in
/-- With more supporters `c` is not more expensive. -/
theorem isPrice_self (hp' : p'.WF) {b : VoterMap p} (hb : ∀ i, 0 ≤ b i) {q : ℚ} (h : IsPrice p b c q) :
    ∃ q' ≤ q, IsPrice p' (moved M.voters.length_eq b) c q' := by
  obtain ⟨q', hq'⟩ := (exists_price_iff hp' _ c).2 (affordable_self M hb ((exists_price_iff hp b c).1 ⟨q, h⟩))
  refine ⟨q', ?_, hq'⟩
  by_contra hlt
  have h1 := hq'.2 q (not_le.1 hlt)
  have h2 := payments_self hp M hb (isPrice_nonneg hp h)
  have h3 := h.1
  linarith

theorem mesUpd_other (W : List ℕ) (b : VoterMap p) {d : ℕ} (hd : d ≠ c) :
    mesUpd p' W (moved M.voters.length_eq b) d = moved M.voters.length_eq (mesUpd p W b d) := by
  have hpr : price p' (moved M.voters.length_eq b) d = price p b d := by
    unfold price
    congr 1
    funext q
    exact propext (isPrice_other M b hd q)
  funext j
  have hj := mem_backers_new M (Fin.cast M.voters.length_eq.symm j) hd
  have hw : (p'.voters.get j).weight = _ := (newBallot_get M (Fin.cast M.voters.length_eq.symm j)).1
  unfold mesUpd
  rw [hpr, hw]
  exact if_congr hj rfl rfl

include hp in
theorem favours_mes (hp' : p'.WF) {r : ℚ} (hr : 0 ≤ r) :
    Favours c (MESBest p) (mesUpd p) (MESBest p') (mesUpd p') [] (budgetOf p r) (moved M.voters.length_eq) where
  step := fun W b d hd => mesUpd_other M W b hd
  self := by
    rintro W b hrun hcW ⟨b1, b2, q, hq, hmin⟩
    have hb := (C36_budgets p hp r hr W b hrun).1
    obtain ⟨q', hle, hq'⟩ := isPrice_self hp M hp' hb hq
    refine ⟨by rw [M.cand]; exact b1, b2, q', hq', fun d hd hdW q'' hq'' => ?_⟩
    by_cases hdc : d = c
    · subst hdc
      exact (isPrice_unique hq' hq'').le
    · exact hle.trans (hmin d (by rw [← M.cand]; exact hd) hdW q'' ((isPrice_other M b hdc q'').1 hq''))
  other := by
    rintro W b d hrun hcW hdc ⟨b1, b2, q, hq, hmin⟩
    by_cases hex : c < p.numCand ∧ ∃ q' < q, IsPrice p' (moved M.voters.length_eq b) c q'
    · obtain ⟨hc, q', hlt, hq'⟩ := hex
      refine Or.inr ⟨by rw [M.cand]; exact hc, hcW, q', hq', fun e he heW q'' hq'' => ?_⟩
      by_cases hec : e = c
      · subst hec
        exact (isPrice_unique hq' hq'').le
      · exact hlt.le.trans (hmin e (by rw [← M.cand]; exact he) heW q'' ((isPrice_other M b hec q'').1 hq''))
    · refine Or.inl ⟨by rw [M.cand]; exact b1, b2, q, (isPrice_other M b hdc q).2 hq, fun e he heW q'' hq'' => ?_⟩
      by_cases hec : e = c
      · subst hec
        by_contra hlt
        exact hex ⟨by rw [← M.cand]; exact he, q'', not_le.1 hlt, hq''⟩
      · exact hmin e (by rw [← M.cand]; exact he) heW q'' ((isPrice_other M b hec q'').1 hq'')
  back := by
    rintro W b d hrun hcW hdc ⟨b1, b2, q, hq, hmin⟩
    have hb := (C36_budgets p hp r hr W b hrun).1
    refine ⟨by rw [← M.cand]; exact b1, b2, q, (isPrice_other M b hdc q).1 hq, fun e he heW q'' hq'' => ?_⟩
    by_cases hec : e = c
    · subst hec
      obtain ⟨q', hle, hq'⟩ := isPrice_self hp M hp' hb hq''
      exact (hmin e (by rw [M.cand]; exact he) heW q' hq').trans hle
    · exact hmin e (by rw [M.cand]; exact he) heW q'' ((isPrice_other M b hec q'').2 hq'')
  ties := by
    rintro W b d e hrun hcW hdc hec ⟨b1, b2, q, hq, hmin⟩ ⟨g1, g2, q', hq', hmin'⟩
    refine ⟨by rw [M.cand]; exact g1, g2, q', (isPrice_other M b hec q').2 hq', fun x hx hxW q'' hq'' => ?_⟩
    exact (hmin' d (by rw [← M.cand]; exact b1) b2 q ((isPrice_other M b hdc q).1 hq)).trans (hmin x hx hxW q'' hq'')

/-! The completion by seq-Phragmén -/

omit M in
include hp in
/-- No voter has a larger load than the next candidate would cause, if this is so in the beginning. -/
theorem phragLoad_le_from {W₀ : List ℕ} {x₀ : VoterMap p}
    (h0 : ∀ d < p.numCand, d ∉ W₀ → (backers p d).Nonempty → ∀ i, x₀ i ≤ newLoad p x₀ d) {W : List ℕ} {x : VoterMap p}
    (h : Run (PhragBest p) (phragUpd p) W₀ x₀ W x) :
    ∀ d < p.numCand, d ∉ W → (backers p d).Nonempty → ∀ i, x i ≤ newLoad p x d := by
  induction h with
  | start => exact h0
  | @step W x e hr hb ih =>
    intro d hd hdW hne i
    rw [List.mem_append, not_or] at hdW
    have hmono : ∀ j, x j ≤ phragUpd p W x e j := by
      intro j
      unfold phragUpd
      split_ifs with hj
      · exact ih e hb.1 hb.2.1 ⟨j, hj⟩ j
      · exact le_rfl
    have h1 : newLoad p x d ≤ newLoad p (phragUpd p W x e) d := by
      unfold newLoad
      refine div_le_div_of_nonneg_right ?_ (Finset.sum_nonneg (fun i _ => (weight_pos hp i).le))
      have : ∑ i ∈ backers p d, (p.voters.get i).weight * x i ≤ ∑ i ∈ backers p d, (p.voters.get i).weight * phragUpd p W x e i :=
        Finset.sum_le_sum (fun i _ => mul_le_mul_of_nonneg_left (hmono i) (weight_pos hp i).le)
      linarith
    refine le_trans ?_ h1
    unfold phragUpd
    split_ifs with hi
    · rcases hb.2.2 with ⟨-, h⟩ | h
      · exact h d hd hdW.1 hne
      · exact absurd (h d hd hdW.1) (Finset.nonempty_iff_ne_empty.1 hne)
    · exact ih d hd hdW.1 hne i

include hp in
theorem favours_phragmen {W₀ : List ℕ} {x₀ : VoterMap p}
    (h0 : ∀ d < p.numCand, d ∉ W₀ → (backers p d).Nonempty → ∀ i, x₀ i ≤ newLoad p x₀ d) :
    Favours c (PhragBest p) (phragUpd p) (PhragBest p') (phragUpd p') W₀ x₀ (moved M.voters.length_eq) where
  step := fun W b d hd => phragUpd_new_other M W b hd
  self := by
    rintro W x hr hcW ⟨b1, b2, b3⟩
    refine ⟨by rw [M.cand]; exact b1, b2, ?_⟩
    by_cases hne' : (backers p' c).Nonempty
    · refine Or.inl ⟨hne', fun e he heV hen => ?_⟩
      by_cases hed : e = c
      · rw [hed]
      · rw [backers_new_other M hed] at hen
        rw [newLoad_new_other M x hed]
        rcases b3 with ⟨hne, h4⟩ | h4
        · have h5 := h4 e (by rw [← M.cand]; exact he) heV hen
          have h6 := (newLoad_new_self hp M x hne (s := newLoad p x c) (phragLoad_le_from hp h0 hr c b1 b2 hne)).1 le_rfl
          exact h6.trans h5
        · exact absurd (h4 e (by rw [← M.cand]; exact he) heV) (Finset.nonempty_iff_ne_empty.1 hen)
    · refine Or.inr (fun e he heV => ?_)
      by_cases hed : e = c
      · rw [hed]; exact Finset.not_nonempty_iff_eq_empty.1 hne'
      · rcases b3 with ⟨hne, -⟩ | h4
        · exact absurd (backers_new_sub M hne) hne'
        · rw [← Finset.not_nonempty_iff_eq_empty, backers_new_other M hed, Finset.not_nonempty_iff_eq_empty]
          exact h4 e (by rw [← M.cand]; exact he) heV
  other := by
    rintro W x d hr hcV hdc ⟨b1, b2, b3⟩
    by_cases hcb : c < p.numCand ∧ (backers p' c).Nonempty ∧
        ((backers p d).Nonempty → newLoad p' (moved M.voters.length_eq x) c < newLoad p x d)
    · refine Or.inr ⟨by rw [M.cand]; exact hcb.1, hcV, Or.inl ⟨hcb.2.1, fun e he heV hen => ?_⟩⟩
      by_cases hec : e = c
      · rw [hec]
      · rw [backers_new_other M hec] at hen
        rw [newLoad_new_other M x hec]
        rcases b3 with ⟨hne, h4⟩ | h4
        · exact (hcb.2.2 hne).le.trans (h4 e (by rw [← M.cand]; exact he) heV hen)
        · exact absurd (h4 e (by rw [← M.cand]; exact he) heV) (Finset.nonempty_iff_ne_empty.1 hen)
    · refine Or.inl ⟨by rw [M.cand]; exact b1, b2, ?_⟩
      rcases b3 with ⟨hne, h4⟩ | h4
      · refine Or.inl ⟨(backers_new_other M hdc).2 hne, fun e he heV hen => ?_⟩
        rw [newLoad_new_other M x hdc]
        by_cases hec : e = c
        · subst hec
          by_contra hlt
          exact hcb ⟨by rw [← M.cand]; exact he, hen, fun _ => not_le.1 hlt⟩
        · rw [newLoad_new_other M x hec]
          exact h4 e (by rw [← M.cand]; exact he) heV ((backers_new_other M hec).1 hen)
      · refine Or.inr (fun e he heV => ?_)
        have he' : e < p.numCand := by rw [← M.cand]; exact he
        by_cases hec : e = c
        · subst hec
          by_contra hne
          exact hcb ⟨he', Finset.nonempty_iff_ne_empty.2 hne, fun g => absurd (h4 d b1 b2) (Finset.nonempty_iff_ne_empty.1 g)⟩
        · rw [← Finset.not_nonempty_iff_eq_empty, backers_new_other M hec, Finset.not_nonempty_iff_eq_empty]
          exact h4 e he' heV
  back := by
    rintro W x d hx hcV hdc ⟨b1, b2, b3⟩
    have b1' : d < p.numCand := by rw [← M.cand]; exact b1
    refine ⟨b1', b2, ?_⟩
    rcases b3 with ⟨hne, h4⟩ | h4
    · rw [backers_new_other M hdc] at hne
      refine Or.inl ⟨hne, fun e he heV hen => ?_⟩
      have h5 := h4 e (by rw [M.cand]; exact he) heV (backers_new_sub M hen)
      rw [newLoad_new_other M x hdc] at h5
      by_cases hec : e = c
      · subst hec
        exact (newLoad_new_self hp M x hen (s := newLoad p x d) (phragLoad_le_from hp h0 hx d b1' b2 hne)).2 h5
      · rwa [newLoad_new_other M x hec] at h5
    · refine Or.inr (fun e he heV => ?_)
      by_contra hne
      exact absurd (h4 e (by rw [M.cand]; exact he) heV)
        (Finset.nonempty_iff_ne_empty.1 (backers_new_sub M (Finset.nonempty_iff_ne_empty.2 hne)))
  ties := by
    rintro W x d e hr hcV hdc hec ⟨b1, b2, b3⟩ ⟨g1, g2, g3⟩
    have b1' : d < p.numCand := by rw [← M.cand]; exact b1
    refine ⟨by rw [M.cand]; exact g1, g2, ?_⟩
    rcases b3 with ⟨hne, h4⟩ | h4
    · have hne' := (backers_new_other M hdc).1 hne
      rcases g3 with ⟨gne, g4⟩ | g4
      · refine Or.inl ⟨(backers_new_other M hec).2 gne, fun z hz hzV hzn => ?_⟩
        have := h4 z hz hzV hzn
        rw [newLoad_new_other M x hdc] at this
        rw [newLoad_new_other M x hec]
        exact (g4 d b1' b2 hne').trans this
      · exact absurd (g4 d b1' b2) (Finset.nonempty_iff_ne_empty.1 hne')
    · exact Or.inr h4

omit M in
theorem mesBest_exists {q : Profile} (hq : q.WF) {W : List ℕ} {b : VoterMap q} {d : ℕ} (hd : d < q.numCand) (hdW : d ∉ W)
    (ha : Affordable q b d) : ∃ e, MESBest q W b e := by
  classical
  obtain ⟨e, he, hmin⟩ := Finset.exists_min_image ((Finset.range q.numCand).filter (fun d => d ∉ W ∧ Affordable q b d)) (price q b)
    ⟨d, Finset.mem_filter.2 ⟨Finset.mem_range.2 hd, hdW, ha⟩⟩
  obtain ⟨e1, e2, e3⟩ := Finset.mem_filter.1 he
  obtain ⟨r, hr⟩ := (exists_price_iff hq b e).2 e3
  refine ⟨e, Finset.mem_range.1 e1, e2, r, hr, fun x hx hxW r' hr' => ?_⟩
  have := hmin x (Finset.mem_filter.2 ⟨Finset.mem_range.2 hx, hxW, (exists_price_iff hq b x).1 ⟨r', hr'⟩⟩)
  rwa [price_eq hr, price_eq hr'] at this

omit M in
/-- Whatever Equal Shares has bought can be extended to an outcome. -/
theorem mes_extend {q : Profile} (hq : q.WF) {k : ℕ} {cp : Completion} {r : ℚ}
    (hex : ∀ W b, Run (MESBest q) (mesUpd q) [] (budgetOf q r) W b → W.length < k → ∃ A, Completed q k cp W b A) (n : ℕ) :
    ∀ W b, Run (MESBest q) (mesUpd q) [] (budgetOf q r) W b → W.length + n = k → ∃ A, MESWinner q k cp r A ∧ W.toFinset ⊆ A := by
  induction n with
  | zero => exact fun W b h hl => ⟨W.toFinset, ⟨W, b, h, Or.inl ⟨by omega, rfl⟩⟩, fun _ h => h⟩
  | succ n ih =>
    intro W b h hl
    by_cases hdone : MESDone q W b
    · obtain ⟨A, hA⟩ := hex W b h (by omega)
      exact ⟨A, ⟨W, b, h, Or.inr ⟨by omega, hdone, hA⟩⟩, completed_superset hA⟩
    · unfold MESDone at hdone
      push Not at hdone
      obtain ⟨d, hd, hdW, ha⟩ := hdone
      obtain ⟨e, he⟩ := mesBest_exists hq hd hdW ha
      obtain ⟨A, hA, hs⟩ := ih (W ++ [e]) _ (.step h he) (by rw [List.length_append, List.length_singleton]; omega)
      exact ⟨A, hA, fun x hx => hs (by rw [List.mem_toFinset] at hx ⊢; exact List.mem_append_left _ hx)⟩

theorem done_of_new {W : List ℕ} {b : VoterMap p} (hb : ∀ i, 0 ≤ b i) (hdone : MESDone p' W (moved M.voters.length_eq b)) : MESDone p W b := by
  intro d hd hdW ha
  refine hdone d (by rw [M.cand]; exact hd) hdW ?_
  by_cases hdc : d = c
  · subst hdc
    exact affordable_self M hb ha
  · exact (affordable_other M b hdc).2 ha

theorem budgetOf_new (r : ℚ) : budgetOf p' r = moved M.voters.length_eq (budgetOf p r) := by
  funext j
  have hw : (p'.voters.get j).weight = _ := (newBallot_get M (Fin.cast M.voters.length_eq.symm j)).1
  unfold budgetOf
  rw [hw]
  rfl

theorem startLoads_new (b : VoterMap p) : (fun j => - (moved M.voters.length_eq b) j / (p'.voters.get j).weight)
    = moved M.voters.length_eq (fun i => - b i / (p.voters.get i).weight) := by
  funext j
  have hw : (p'.voters.get j).weight = _ := (newBallot_get M (Fin.cast M.voters.length_eq.symm j)).1
  rw [hw]
  rfl

include hp in
theorem favours_completion {W : List ℕ} {b : VoterMap p} (hb : ∀ i, 0 ≤ b i) (hdone : MESDone p W b) :
    Favours c (PhragBest p) (phragUpd p) (PhragBest p') (phragUpd p') W (fun i => - b i / (p.voters.get i).weight)
      (moved M.voters.length_eq) := by
  refine favours_phragmen hp M ?_
  intro d hd hdW hne i
  have h1 : - b i / (p.voters.get i).weight ≤ 0 := div_nonpos_of_nonpos_of_nonneg (by linarith [hb i]) (weight_pos hp i).le
  refine h1.trans ?_
  unfold newLoad
  refine div_nonneg ?_ (Finset.sum_nonneg (fun i _ => (weight_pos hp i).le))
  have h2 := hdone d hd hdW
  unfold Affordable at h2
  have h3 : ∑ i ∈ backers p d, (p.voters.get i).weight * (- b i / (p.voters.get i).weight) = - ∑ i ∈ backers p d, b i := by
    rw [← Finset.sum_neg_distrib]
    refine Finset.sum_congr rfl fun j _ => ?_
    have := (weight_pos hp j).ne'
    field_simp
  rw [h3]
  linarith

include hp in
theorem others_mes (hp' : p'.WF) {k : ℕ} {cp : Completion} {r : ℚ} (hr : 0 ≤ r)
    (hex : ∀ W b, Run (MESBest p') (mesUpd p') [] (budgetOf p' r) W b → W.length < k → ∃ A, Completed p' k cp W b A)
    (hcomp : ∀ W b, Run (MESBest p) (mesUpd p) [] (budgetOf p r) W b → W.length < k → MESDone p W b → c ∉ W →
      KeepsOthers c (Completed p k cp W b) (Completed p' k cp W (moved M.voters.length_eq b))) :
    KeepsOthers c (MESWinner p k cp r) (MESWinner p' k cp r) := by
  have F := favours_mes hp M hp' hr
  have h0 := budgetOf_new M r
  constructor
  · rintro A ⟨W, y, hrun, hend⟩ hc
    have hcW : c ∉ W := by
      intro g
      rcases hend with ⟨-, rfl⟩ | ⟨-, -, hC⟩
      · exact hc (List.mem_toFinset.2 g)
      · exact hc (completed_superset hC (List.mem_toFinset.2 g))
    rw [h0] at hrun
    obtain ⟨b, rfl, hrun'⟩ := favours_back F hrun hcW
    rcases hend with ⟨hlen, rfl⟩ | ⟨hlen, hdone, hC⟩
    · exact ⟨W, b, hrun', Or.inl ⟨hlen, rfl⟩⟩
    · have hb := (C36_budgets p hp r hr W b hrun').1
      have hdone' : MESDone p W b := done_of_new M hb hdone
      exact ⟨W, b, hrun', Or.inr ⟨hlen, hdone', (hcomp W b hrun' hlen hdone' hcW).1 A hC hc⟩⟩
  · rintro hno A ⟨W, b, hrun, hend⟩
    rcases favours_forward F (by simp) hrun with ⟨U, y, u1, u2, u3⟩ | ⟨hrun', hcW⟩
    · rw [← h0] at u1
      have hlen : U.length ≤ k := by
        rcases hend with h | h
        · omega
        · omega
      obtain ⟨A', hA', hs⟩ := mes_extend hp' hex (k - U.length) U y u1 (by omega)
      exact absurd (hs (List.mem_toFinset.2 u3)) (hno A' hA')
    · rw [← h0] at hrun'
      rcases hend with ⟨hlen, rfl⟩ | ⟨hlen, hdone, hC⟩
      · exact ⟨W, _, hrun', Or.inl ⟨hlen, rfl⟩⟩
      · by_cases hdone' : MESDone p' W (moved M.voters.length_eq b)
        · exact ⟨W, _, hrun', Or.inr ⟨hlen, hdone', (hcomp W b hrun hlen hdone hcW).2
            (fun B hB => hno B ⟨W, _, hrun', Or.inr ⟨hlen, hdone', hB⟩⟩) A hC⟩⟩
        · unfold MESDone at hdone'
          push Not at hdone'
          obtain ⟨d, hd, hdW, ha⟩ := hdone'
          have hnot : ∀ e < p.numCand, e ∉ W → Affordable p' (moved M.voters.length_eq b) e → e = c := by
            intro e he heW hae
            by_contra hec
            exact hdone e he heW ((affordable_other M b hec).1 hae)
          obtain ⟨e, he⟩ := mesBest_exists hp' hd hdW ha
          have hec : e = c := by
            obtain ⟨e1, e2, q, hq, -⟩ := he
            exact hnot e (by rw [← M.cand]; exact e1) e2 ((exists_price_iff hp' _ e).1 ⟨q, hq⟩)
          subst hec
          obtain ⟨A', hA', hs⟩ := mes_extend hp' hex (k - (W.length + 1)) (W ++ [e]) _ (.step hrun' he)
            (by rw [List.length_append, List.length_singleton]; omega)
          exact absurd (hs (by simp)) (hno A' hA')

include hp in
theorem others_mes_none (hp' : p'.WF) {k : ℕ} {r : ℚ} (hr : 0 ≤ r) :
    KeepsOthers c (MESWinner p k .none r) (MESWinner p' k .none r) := by
  exact others_mes hp M hp' hr (fun W b _ _ => ⟨W.toFinset, rfl⟩) (fun W b _ _ _ hcW => ⟨fun A h _ => h, fun _ A h => h⟩)

include hp in
theorem others_mes_phragmen (hp' : p'.WF) {k : ℕ} (hk : k ≤ p.numCand) {r : ℚ} (hr : 0 ≤ r) :
    KeepsOthers c (MESWinner p k .seqphragmen r) (MESWinner p' k .seqphragmen r) := by
  have hbest : ∀ W x, W.length < k → ∃ d, PhragBest p' W x d := fun W x h => phragBest_exists x (by rw [M.cand]; omega)
  refine others_mes hp M hp' hr (fun W b _ hl => ?_) (fun W b hrun hl hdone hcW => ?_)
  · obtain ⟨U, y, u1, u2, -⟩ := run_extend (upd := phragUpd p') (W₀ := W) (s₀ := fun i => - b i / (p'.voters.get i).weight)
      hbest (k - W.length) W _ .start (by omega)
    exact ⟨U.toFinset, U, y, u1, u2, rfl⟩
  · have hb := (C36_budgets p hp r hr W b hrun).1
    have F := favours_completion hp M hb hdone
    have hm := startLoads_new M b
    have := others_run_from F hcW hbest
    rw [← hm] at this
    exact this

omit M in
theorem candScore_av (q : Profile) (d : ℕ) : candScore .av q d = (q.voters.map (fun v => if d ∈ v.A then v.weight else 0)).sum := rfl

theorem candScore_other {d : ℕ} (hd : d ≠ c) : candScore .av p' d = candScore .av p d := by
  rw [candScore_av, candScore_av]
  have hiff : ∀ {v v' : Voter}, (v'.weight = v.weight ∧ (v'.A = v.A ∨ v'.A = insert c v.A)) →
      (if d ∈ v'.A then v'.weight else 0) = if d ∈ v.A then v.weight else 0 := by
    rintro v v' ⟨hw, h | h⟩
    · rw [hw, h]
    · rw [hw, h]
      simp [hd]
  exact le_antisymm (forall₂_sum_ge M.voters fun v v' _ h => (hiff h).le) (forall₂_sum_le M.voters fun v v' _ h => (hiff h).ge)

include hp in
theorem candScore_self : candScore .av p c ≤ candScore .av p' c := by
  rw [candScore_av, candScore_av]
  refine forall₂_sum_le M.voters ?_
  rintro v v' hv ⟨hw, h | h⟩
  · rw [hw, h]
  · rw [hw, h, if_pos (Finset.mem_insert_self _ _)]
    split_ifs
    · exact le_rfl
    · exact (hp.weight v hv).le

include hp in
theorem others_mes_av (hp' : p'.WF) {k : ℕ} (hk : k ≤ p.numCand) {r : ℚ} (hr : 0 ≤ r) :
    KeepsOthers c (MESWinner p k .av r) (MESWinner p' k .av r) := by
  refine others_mes hp M hp' hr (fun W b hrun hl => ?_) (fun W b hrun hl hdone hcW => ?_)
  · obtain ⟨h3, h4⟩ := hrun.nodup (m := p'.numCand) (fun W s c _ h => ⟨h.1, h.2.1⟩) (by simp) (by simp)
    obtain ⟨A, hA1, hA2, hA3⟩ := Finset.exists_subsuperset_card_eq (s := W.toFinset) (t := Finset.range p'.numCand) (n := k)
      (fun d hd => Finset.mem_range.2 (h4 d (List.mem_toFinset.1 hd))) (by rw [List.toFinset_card_of_nodup h3]; omega)
      (by rw [Finset.card_range, M.cand]; exact hk)
    obtain ⟨B, hB, hmax⟩ := Set.exists_max_image {A | IsCommittee p' k A ∧ W.toFinset ⊆ A} (fun A => ∑ d ∈ A, candScore .av p' d)
      ((committees_finite p' k).subset (fun A h => h.1)) ⟨A, ⟨hA2, hA3⟩, hA1⟩
    exact ⟨B, hB.1, hB.2, fun D hD1 hD2 => hmax D ⟨hD1, hD2⟩⟩
  · have := others_of_values (C := fun A => IsCommittee p k A ∧ W.toFinset ⊆ A) (v := fun A => ∑ d ∈ A, candScore .av p d)
      (v' := fun A => ∑ d ∈ A, candScore .av p' d) (c := c) ((committees_finite p k).subset (fun A h => h.1))
      (fun A _ hc => Finset.sum_le_sum fun d _ => by
        by_cases hdc : d = c
        · rw [hdc]; exact candScore_self hp M
        · exact (candScore_other M hdc).ge)
      (fun B _ hc => Finset.sum_congr rfl fun d hd => candScore_other M fun g => hc (g ▸ hd))
    replace this := this.1
    unfold Completed
    simp only [more_committee M]
    simp only [and_assoc, and_imp] at this
    exact this

/-! ### Minimax-Phragmén -/

theorem loadWithin_new {A : Finset ℕ} {t : ℚ} (h : LoadWithin p A t) : LoadWithin p' A t := by
  obtain ⟨x, hx, ht⟩ := h
  refine ⟨fun j d => x (Fin.cast M.voters.length_eq.symm j) d, ⟨fun j d => hx.nonneg _ _, fun j d hj => ?_, fun d hd => ?_⟩, fun j => ht _⟩
  · exact ⟨appr_new_sub M _ (hx.approved _ _ hj).1, (hx.approved _ _ hj).2⟩
  · rw [sum_moved M, ← hx.one d hd]
    refine Finset.sum_congr rfl fun i _ => ?_
    rw [(newBallot_get M i).1]
    rfl

theorem loadWithin_old {A : Finset ℕ} {t : ℚ} (hc : c ∉ A) (h : LoadWithin p' A t) : LoadWithin p A t := by
  obtain ⟨x, hx, ht⟩ := h
  refine ⟨fun i d => x (Fin.cast M.voters.length_eq i) d, ⟨fun j d => hx.nonneg _ _, fun i d hi => ?_, fun d hd => ?_⟩, fun j => ht _⟩
  · have := hx.approved _ _ hi
    exact ⟨(appr_new_other M i fun g => hc (g ▸ this.2)).1 this.1, this.2⟩
  · rw [← hx.one d hd, sum_moved M]
    refine Finset.sum_congr rfl fun i _ => ?_
    rw [(newBallot_get M i).1]

theorem approvedSet_new : approvedSet p ⊆ approvedSet p' := by
  intro d hd
  obtain ⟨i, -, hi⟩ := Finset.mem_biUnion.1 hd
  exact Finset.mem_biUnion.2 ⟨_, Finset.mem_univ _, appr_new_sub M i hi⟩

theorem others_minimaxphragmen {k : ℕ} (hcard : k ≤ (approvedSet p).card) (hne : ∃ A, MinimaxPhragmenOpt 0 p' k A) :
    KeepsOthers c (MinimaxPhragmenOpt 0 p k) (MinimaxPhragmenOpt 0 p' k) := by
  unfold MinimaxPhragmenOpt at hne ⊢
  simp only [add_zero] at hne ⊢
  have hback : ∀ A, ((IsCommittee p' k A ∧ (A ⊆ approvedSet p' ∨ approvedSet p' ⊆ A)) ∧
      ∀ B t, IsCommittee p' k B → LoadWithin p' B t → LoadWithin p' A t) → c ∉ A →
      ((IsCommittee p k A ∧ (A ⊆ approvedSet p ∨ approvedSet p ⊆ A)) ∧ ∀ B t, IsCommittee p k B → LoadWithin p B t → LoadWithin p A t) := by
    rintro A ⟨⟨hA, hA'⟩, hmin⟩ hc
    refine ⟨⟨(more_committee M k A).1 hA, ?_⟩, fun B t hB ht => ?_⟩
    · rcases hA' with g | g
      · refine Or.inl fun d hd => ?_
        obtain ⟨j, -, hj⟩ := Finset.mem_biUnion.1 (g hd)
        exact Finset.mem_biUnion.2 ⟨Fin.cast M.voters.length_eq.symm j, Finset.mem_univ _,
          (appr_new_other M (Fin.cast M.voters.length_eq.symm j) fun e => hc (e ▸ hd)).1 hj⟩
      · exact Or.inr ((approvedSet_new M).trans g)
    · exact loadWithin_old M hc (hmin B t ((more_committee M k B).2 hB) (loadWithin_new M ht))
  refine ⟨hback, ?_⟩
  rintro hno A ⟨⟨hA, hA'⟩, hmin⟩
  obtain ⟨B, hB, hBmin⟩ := hne
  have hcB := hno B ⟨hB, hBmin⟩
  refine ⟨⟨(more_committee M k A).2 hA, Or.inl ?_⟩, fun D t hD ht => ?_⟩
  · rcases hA' with g | g
    · exact g.trans (approvedSet_new M)
    · rw [← Finset.eq_of_subset_of_card_le g (by rw [hA.2]; exact hcard)]
      exact approvedSet_new M
  · exact loadWithin_new M (hmin B t ((more_committee M k B).1 hB.1) (loadWithin_old M hcB (hBmin D t hD ht)))

theorem integerWeights_new (hi : IntegerWeights p) : IntegerWeights p' := by
  intro v hv
  obtain ⟨j, rfl⟩ := List.get_of_mem hv
  have hw : (p'.voters.get j).weight = _ := (newBallot_get M (Fin.cast M.voters.length_eq.symm j)).1
  rw [hw]
  exact hi _ (List.get_mem _ _)

end

/-! ## The theorems -/

section
variable {w w' : World} (hw : w.Exact) (hw' : w'.Exact) {c : ℕ} {p p' : Profile} (hp : p.WF) (hp' : p'.WF)
  (M : MoreApprovals c p p') {a a' : Args} (h : AllCommittees a) (h' : AllCommittees a') (hk : a'.k = a.k)
  {ruleId alg alg' : String} (hal : prologue w.env ruleId p a = .ok alg) (hal' : prologue w'.env ruleId p' a' = .ok alg')
include hw hw' hp hp' M h h' hk hal hal'

/-- **C99** The maximin support method, integer weights. -/
theorem C99_maximin_support (hrule : ruleId = "maximin-support") (hi : IntegerWeights p) (hk' : a.k ≤ 3162) :
    StillElected c (compute w ruleId p a.committeesize none a.kw) (compute w' ruleId p' a'.committeesize none a'.kw) := by
  subst hrule
  have hle := (validCall_of_prologue hal).le
  refine stillElected_of_answers h h' (C31_compute w hw p hp a _ _ hal (.maximinSupport hi hk'))
    (C31_compute w' hw' p' hp' a' _ _ hal' (.maximinSupport (integerWeights_new M hi) (by omega))) ?_
  rw [hk]
  exact (others_maximin hp M hp' hle).keeps

/-- **C99** Minimax-Phragmén, integer weights, enough approved candidates. -/
theorem C99_minimaxphragmen (hrule : ruleId = "minimaxphragmen") (hi : IntegerWeights p) (ht : total p ≤ 3162)
    (hcard : a.k ≤ (approvedSet p).card) :
    StillElected c (compute w ruleId p a.committeesize none a.kw) (compute w' ruleId p' a'.committeesize none a'.kw) := by
  subst hrule
  have hS := Elects.minimaxphragmen (w := w') (alg := alg') (integerWeights_new M hi) (by rw [total_new M]; exact ht)
    (show a'.k ≤ (approvedSet p').card by rw [hk]; exact hcard.trans (Finset.card_le_card (approvedSet_new M)))
  refine stillElected_of_answers h h' (C31_compute w hw p hp a _ _ hal (.minimaxphragmen hi ht hcard))
    (C31_compute w' hw' p' hp' a' _ _ hal' hS) ?_
  have hne := elects_nonempty hw' hp' hal' hS
  rw [hk] at hne ⊢
  exact (others_minimaxphragmen M hcard hne).keeps

/-- **C99** Phragmén-Eneström. -/
theorem C99_enestroem (hrule : ruleId = "phragmen-enestroem") (he : ExactAlg w.env alg) (he' : ExactAlg w'.env alg') :
    StillElected c (compute w ruleId p a.committeesize none a.kw) (compute w' ruleId p' a'.committeesize none a'.kw) := by
  subst hrule
  have hle := (validCall_of_prologue hal).le
  refine stillElected_of_answers h h' (C31_compute w hw p hp a _ _ hal (.enestroem he))
    (C31_compute w' hw' p' hp' a' _ _ hal' (.enestroem he')) ?_
  rw [hk]
  exact (others_enestroem M hle).keeps

/-- **C99** The consensus rule. -/
theorem C99_consensus (hrule : ruleId = "consensus-rule") (he : ExactAlg w.env alg) (he' : ExactAlg w'.env alg') :
    StillElected c (compute w ruleId p a.committeesize none a.kw) (compute w' ruleId p' a'.committeesize none a'.kw) := by
  subst hrule
  have hle := (validCall_of_prologue hal).le
  refine stillElected_of_answers h h' (C31_compute w hw p hp a _ _ hal (.consensus he))
    (C31_compute w' hw' p' hp' a' _ _ hal' (.consensus he')) ?_
  rw [hk]
  exact (others_consensus M hle).keeps

/-- **C99** Equal Shares completed by sequential Phragmén. -/
theorem C99_equal_shares (hrule : ruleId ∈ ["rule-x", "equal-shares", "equal-shares-with-seqphragmen-completion"])
    (ha : ApproversAtLeastOne p) (ha' : ApproversAtLeastOne p') (he : ExactAlg w.env alg) (he' : ExactAlg w'.env alg') :
    StillElected c (compute w ruleId p a.committeesize none a.kw) (compute w' ruleId p' a'.committeesize none a'.kw) := by
  have hle := (validCall_of_prologue hal).le
  have hn := (validCall_of_prologue hal).voters
  refine stillElected_of_answers h h' (C31_compute w hw p hp a _ _ hal (.equalShares hrule ha he))
    (C31_compute w' hw' p' hp' a' _ _ hal' (.equalShares hrule ha' he')) ?_
  rw [hk, total_new M]
  exact (others_mes_phragmen hp M hp' hle (div_nonneg (Nat.cast_nonneg _) (total_pos hp hn).le)).keeps

/-- **C99** Equal Shares completed by approval voting. -/
theorem C99_equal_shares_av (hrule : ruleId = "equal-shares-with-av-completion")
    (he : ExactAlg w.env alg) (he' : ExactAlg w'.env alg') :
    StillElected c (compute w ruleId p a.committeesize none a.kw) (compute w' ruleId p' a'.committeesize none a'.kw) := by
  subst hrule
  have hle := (validCall_of_prologue hal).le
  have hn := (validCall_of_prologue hal).voters
  refine stillElected_of_answers h h' (C31_compute w hw p hp a _ _ hal (.equalSharesAv he))
    (C31_compute w' hw' p' hp' a' _ _ hal' (.equalSharesAv he')) ?_
  rw [hk, total_new M]
  exact (others_mes_av hp M hp' hle (div_nonneg (Nat.cast_nonneg _) (total_pos hp hn).le)).keeps

/-- **C99** Equal Shares without completion. -/
theorem C99_equal_shares_none (hrule : ruleId ∈ ["rule-x-without-phragmen-phase", "equal-shares-without-phragmen-phase",
      "equal-shares-without-completion"]) (he : ExactAlg w.env alg) (he' : ExactAlg w'.env alg') :
    StillElected c (compute w ruleId p a.committeesize none a.kw) (compute w' ruleId p' a'.committeesize none a'.kw) := by
  have hn := (validCall_of_prologue hal).voters
  refine stillElected_of_answers h h' (C31_compute w hw p hp a _ _ hal (.equalSharesNone hrule he))
    (C31_compute w' hw' p' hp' a' _ _ hal' (.equalSharesNone hrule he')) ?_
  rw [hk, total_new M]
  exact (others_mes_none hp M hp' (div_nonneg (Nat.cast_nonneg _) (total_pos hp hn).le)).keeps

end

/-! ### The hypotheses can be met -/

example (w : World) (hw : w.env = exampleEnv) (p' : Profile) (hp' : p' = ⟨3, [⟨[0, 1, 2], 1⟩, ⟨[1, 2], 2⟩], []⟩) :
    MoreApprovals 2 exampleProfile p' ∧ IntegerWeights exampleProfile ∧ total exampleProfile ≤ 3162 ∧ 2 ≤ (approvedSet exampleProfile).card ∧
    (∀ ruleId ∈ ["equal-shares", "equal-shares-with-av-completion", "equal-shares-without-completion", "phragmen-enestroem", "consensus-rule"],
      prologue w.env ruleId exampleProfile { committeesize := 2, resolute := false } = .ok "standard-fractions" ∧
      prologue w.env ruleId p' { committeesize := 2, resolute := false } = .ok "standard-fractions") ∧
    prologue w.env "maximin-support" p' { committeesize := 2, algorithm := "gurobi", resolute := false } = .ok "gurobi" := by
  subst hp'
  refine ⟨⟨rfl, .cons ⟨rfl, Or.inr (by decide)⟩ (.cons ⟨rfl, Or.inl rfl⟩ .nil)⟩, ?_, by decide +kernel, by decide +kernel, ?_, ?_⟩
  · intro v hv
    simp only [exampleProfile, List.mem_cons, List.not_mem_nil, or_false] at hv
    rcases hv with rfl | rfl
    · exact ⟨1, by norm_num⟩
    · exact ⟨2, by norm_num⟩
  · rw [hw]; decide +kernel
  · rw [hw]; decide +kernel

end Abc
