import Verif.Spec.ReportOptimal
import Verif.Lemmas.ReportMonroe
import Verif.Props.Axioms
import Verif.Props.ILPLexcc
import Verif.Props.ILPLexminimaxav
import Verif.Props.ILPMonroe

/-!
# Lemmas on the output of the optimisation rules
-/

namespace Abc
open Spec

theorem algorithmMsg_titles {alg : String} (h : alg ∈ algorithmTitles.map Prod.fst) : algorithmMsg alg = .ok (algorithmLine alg) := by
  have : ∀ x ∈ algorithmTitles, algorithmMsg x.1 = .ok (algorithmLine x.1) := by
    intro x hx
    simp only [algorithmTitles, List.mem_cons, List.not_mem_nil, or_false] at hx
    rcases hx with rfl | rfl | rfl | rfl | rfl | rfl | rfl | rfl | rfl | rfl <;> rfl
  obtain ⟨x, hx, rfl⟩ := List.mem_map.1 h
  exact this x hx

theorem remark_one (resolute : Bool) : Remark.one.msgs resolute = oneRemark resolute := rfl

theorem remark_all (resolute : Bool) : Remark.all.msgs resolute = allRemark resolute := by
  cases resolute <;> rfl

theorem ite_ok_cases {P : RuleInfo → Prop} {c : Prop} [Decidable c] {x : RuleInfo} {r : Except Err RuleInfo} (h1 : P x)
    (h2 : ∀ ri, r = .ok ri → P ri) : ∀ ri, (if c then Except.ok x else r) = .ok ri → P ri := by
  intro ri h
  split at h
  · rw [← Except.ok.inj h]; exact h1
  · exact h2 ri h

/-- The algorithm chosen by a successful prologue has a printed name. -/
theorem prologue_title {env : Env} {ruleId : String} {p : Profile} {a : Args} {alg : String} (h : prologue env ruleId p a = .ok alg) :
    alg ∈ algorithmTitles.map Prod.fst := by
  have key : ∀ rid ri, ruleInfoBase rid = .ok ri → ∀ x ∈ ri.algorithms, x ∈ algorithmTitles.map Prod.fst := by
    intro rid ri hri
    have hsub : ∀ l : List String, l ⊆ algorithmTitles.map Prod.fst → ∀ x ∈ l, x ∈ algorithmTitles.map Prod.fst := fun l hl x h => hl h
    unfold ruleInfoBase at hri
    revert ri
    repeat (refine ite_ok_cases ?_ ?_; · exact hsub _ (by decide))
    intro ri hri
    cases hri
  have hri : ∃ ri, ruleInfo env ruleId = .ok ri ∧ ∀ x ∈ ri.algorithms, x ∈ algorithmTitles.map Prod.fst := by
    cases hr : ruleInfo env ruleId with
    | error e => unfold prologue at h; rw [hr] at h; cases h
    | ok ri =>
      refine ⟨ri, rfl, ?_⟩
      unfold ruleInfo at hr
      split at hr
      · rename_i ri' hb
        obtain rfl := Except.ok.inj hr
        exact key _ _ hb
      · dsimp only at hr
        split at hr
        · cases hr
        · rename_i sid _
          split at hr
          · cases hr
          · cases hr
          · cases hb : ruleInfoBase (String.ofList sid) with
            | error e => rw [hb] at hr; cases hr
            | ok ri' =>
              rw [hb] at hr
              obtain rfl := Except.ok.inj hr
              intro x hx
              have : x = "standard" := by simpa using hx
              subst this
              decide
  obtain ⟨ri, h1, h2⟩ := hri
  exact h2 _ (prologue_alg_mem h h1)

/-- What a call that answers correctly returns. -/
theorem answers_all {a : Args} {r : Except Err (List (List ℕ))} {S : Finset ℕ → Prop} (h : Answers a r S) (hS : ∃ A, S A)
    (hmax : ∀ n, a.max = some n → 1 ≤ n) :
    ∃ cs c, r = .ok cs ∧ pyGet cs 0 = .ok c ∧ c ∈ cs ∧ cs ≠ [] ∧ (∀ W ∈ cs, S W.toFinset ∧ W.Pairwise (· < ·)) := by
  obtain ⟨cs, c, e, hc⟩ := answers_get h hS hmax
  have hmem : c ∈ cs := by
    cases cs with
    | nil => simp [pyGet] at hc
    | cons y ys =>
      have : y = c := by simpa [pyGet] using hc
      simp [this]
  refine ⟨cs, c, e, hc, hmem, List.ne_nil_of_mem hmem, fun W hW => ⟨answers_mem h e hW, ?_⟩⟩
  unfold Answers at h
  split at h
  · obtain ⟨V, e', hlt, -⟩ := h
    rw [e] at e'
    rw [Except.ok.inj e', List.mem_singleton] at hW
    rw [hW]; exact hlt
  · obtain ⟨ds, e', hcan, -⟩ := h
    rw [e] at e'
    rw [Except.ok.inj e'] at hW
    exact hcan.asc W hW
  · obtain ⟨ds, e', hcan, -⟩ := h
    rw [e] at e'
    rw [Except.ok.inj e'] at hW
    exact hcan.asc W hW

theorem strNatList_eq (l : List ℕ) : strNatList l = "[".toList ++ ", ".toList.intercalate (l.map strNat) ++ "]".toList := by
  unfold strNatList joinText
  rfl

theorem distancesText_eq {p : Profile} (hp : p.WF) {W : List ℕ} (hW : W.Nodup) : distancesText p W = distancesLine p W.toFinset := by
  unfold distancesText distancesLine
  rw [strNatList_eq, List.map_map]
  have : p.voters.map (strNat ∘ fun v => hamming v.approved W) = p.voters.map (fun v => strNat (dist v W.toFinset)) :=
    List.map_congr_left fun v hv => by rw [Function.comp, hamming_dist v (hp.nodup v hv) W hW]
  rw [this]

/-- `max` of a non-empty list is its greatest element. -/
theorem pyMaxNat_ok {l : List ℕ} (h : l ≠ []) : ∃ m, pyMaxNat l = .ok m ∧ m ∈ l ∧ ∀ x ∈ l, x ≤ m := by
  cases l with
  | nil => exact absurd rfl h
  | cons x xs =>
    refine ⟨xs.foldl max x, rfl, ?_, ?_⟩
    · clear h
      induction xs generalizing x with
      | nil => simp
      | cons y ys ih =>
        rw [List.foldl_cons]
        have := ih (max x y)
        rcases List.mem_cons.1 this with h | h
        · rcases max_choice x y with h' | h' <;> rw [h, h'] <;> simp
        · simp [h]
    · clear h
      induction xs generalizing x with
      | nil => simp
      | cons y ys ih =>
        intro z hz
        rw [List.foldl_cons]
        have hm : max x y ≤ ys.foldl max (max x y) := ih (max x y) _ (by simp)
        rcases List.mem_cons.1 hz with rfl | hz
        · exact (le_max_left _ _).trans hm
        · rcases List.mem_cons.1 hz with rfl | hz
          · exact (le_max_right _ _).trans hm
          · exact ih (max x y) z (by simp [hz])

theorem foldl_min_spec (l : List ℚ) (x : ℚ) : (l.foldl min x = x ∨ l.foldl min x ∈ l) ∧ l.foldl min x ≤ x ∧ ∀ y ∈ l, l.foldl min x ≤ y := by
  induction l generalizing x with
  | nil => exact ⟨Or.inl rfl, le_refl _, by simp⟩
  | cons z zs ih =>
    obtain ⟨h1, h2, h3⟩ := ih (min x z)
    rw [List.foldl_cons]
    refine ⟨?_, h2.trans (min_le_left _ _), ?_⟩
    · rcases h1 with h1 | h1
      · rw [h1]
        rcases min_choice x z with h | h
        · exact Or.inl h
        · rw [h]; exact Or.inr List.mem_cons_self
      · exact Or.inr (List.mem_cons_of_mem _ h1)
    · intro y hy
      rcases List.mem_cons.1 hy with rfl | hy
      · exact h2.trans (min_le_right _ _)
      · exact h3 y hy

theorem pyMin_spec {l : List ℚ} (h : l ≠ []) : ∃ x, pyMin l = .ok x ∧ x ∈ l ∧ ∀ y ∈ l, x ≤ y := by
  cases l with
  | nil => exact absurd rfl h
  | cons z zs =>
    obtain ⟨h1, h2, h3⟩ := foldl_min_spec zs z
    refine ⟨_, rfl, ?_, ?_⟩
    · rcases h1 with h1 | h1
      · rw [h1]; exact List.mem_cons_self
      · exact List.mem_cons_of_mem _ h1
    · intro y hy
      rcases List.mem_cons.1 hy with rfl | hy
      · exact h2
      · exact h3 y hy

/-- The warnings of a Thiele method. -/
theorem thieleWarnings_ok (num : ℚ → Name) (sid alg : String) (f : ℕ → ℚ) (k : ℕ) (hk : 1 ≤ k) (hf : 0 < f 1)
    (halg : alg ∈ algorithmTitles.map Prod.fst) :
    ∃ ws, thieleWarnings num sid alg f k = .ok ws ∧ Warned num sid alg f k ws := by
  unfold thieleWarnings
  by_cases hi : alg = "gurobi" ∨ alg.toList.take 4 = "mip-".toList
  · have hsome : solverTitle alg = some (if alg = "gurobi" then "Gurobi" else "mip") := by
      have : ∀ x ∈ algorithmTitles.map Prod.fst, (x = "gurobi" ∨ x.toList.take 4 = "mip-".toList) →
        solverTitle x = some (if x = "gurobi" then "Gurobi" else "mip") := by decide
      exact this alg halg hi
    have hmem : ∀ y, y ∈ (scoreValues f k).filter (fun q => decide (q > 0)) ↔ 0 < y ∧ ∃ i, 1 ≤ i ∧ i ≤ k ∧ y = f i := by
      intro y
      unfold scoreValues
      rw [List.mem_filter, List.mem_map]
      constructor
      · rintro ⟨⟨i, hi, rfl⟩, h⟩
        exact ⟨of_decide_eq_true h, i + 1, by omega, by have := List.mem_range.1 hi; omega, rfl⟩
      · rintro ⟨h, i, h1, h2, rfl⟩
        exact ⟨⟨i - 1, List.mem_range.2 (by omega), by rw [Nat.sub_add_cancel h1]⟩, decide_eq_true h⟩
    obtain ⟨x, hx, hxm, hle⟩ := pyMin_spec (List.ne_nil_of_mem ((hmem (f 1)).2 ⟨hf, 1, le_refl _, hk, rfl⟩))
    rw [if_pos hi]
    dsimp only [bind, Except.bind]
    rw [hx]
    refine ⟨_, rfl, ?_⟩
    have hleast : LeastScore f k x := ⟨(hmem x).1 hxm, fun y hy => hle y ((hmem y).2 hy)⟩
    by_cases hlt : x < accuracy
    · exact Or.inl ⟨_, x, hsome, hleast, hlt, by rw [if_pos hlt]; rfl⟩
    · refine Or.inr ⟨Or.inr fun i h1 h2 h3 => ?_, by rw [if_neg hlt]⟩
      exact (not_lt.1 hlt).trans (hle _ ((hmem _).2 ⟨h3, i, h1, h2, rfl⟩))
  · rw [if_neg hi]
    refine ⟨[], rfl, Or.inr ⟨Or.inl ?_, rfl⟩⟩
    have : ∀ x ∈ algorithmTitles.map Prod.fst, ¬ (x = "gurobi" ∨ x.toList.take 4 = "mip-".toList) → solverTitle x = none := by decide
    exact this alg halg hi

/-- Reasonable committee sizes: no warning. -/
theorem warned_nil {num : ℚ → Name} {sid alg : String} {f : ℕ → ℚ} {k : ℕ} {ws : List Msg} (h : Warned num sid alg f k ws)
    (hf : ∀ i, 1 ≤ i → i ≤ k → 0 < f i → 1 / 10 ^ 8 ≤ f i) : ws = [] := by
  rcases h with ⟨_, x, _, ⟨⟨h0, i, h1, h2, rfl⟩, _⟩, h3, _⟩ | ⟨_, h⟩
  · exact absurd h3 (not_lt.2 (hf i h1 h2 h0))
  · exact h

theorem warned_level {num : ℚ → Name} {sid alg : String} {f : ℕ → ℚ} {k : ℕ} {ws : List Msg} (h : Warned num sid alg f k ws) :
    ∀ m ∈ ws, m.level = .warning := by
  rcases h with ⟨_, x, _, _, _, rfl⟩ | ⟨_, rfl⟩
  · intro m hm
    rw [List.mem_singleton.1 hm]; rfl
  · simp

end Abc
