import Verif.Spec.ILP
import Verif.Lemmas.Answers
import Mathlib.Algebra.BigOperators.Ring.Finset

/-!
# Evaluation of linear expressions; the enumeration loop with an exact solver
-/

namespace Abc
open Spec

namespace LinExp

@[simp] theorem eval_var (x : IVar → ℚ) (v : IVar) : (var v).eval x = x v := by simp [eval, var]

@[simp] theorem eval_num (x : IVar → ℚ) (q : ℚ) : (num q).eval x = q := by simp [eval, num]

@[simp] theorem eval_add (x : IVar → ℚ) (e f : LinExp) : (add e f).eval x = e.eval x + f.eval x := by
  simp only [eval, add, List.map_append, List.sum_append]; ring

@[simp] theorem eval_scale (x : IVar → ℚ) (q : ℚ) (e : LinExp) : (scale q e).eval x = q * e.eval x := by
  simp only [eval, scale, List.map_map, mul_add]
  congr 1
  induction e.terms with
  | nil => simp
  | cons t l ih => simp only [List.map_cons, List.sum_cons, ih, Function.comp]; ring

@[simp] theorem eval_sub (x : IVar → ℚ) (e f : LinExp) : (sub e f).eval x = e.eval x - f.eval x := by
  simp [sub]; ring

@[simp] theorem eval_sum (x : IVar → ℚ) (l : List LinExp) : (sum l).eval x = (l.map (eval x)).sum := by
  induction l with
  | nil => simp [sum]
  | cons e l ih =>
    have : sum (e :: l) = add e (sum l) := rfl
    rw [this, eval_add, ih]; simp

end LinExp

@[simp] theorem eval_candSum (x : IVar → ℚ) (l : List ℕ) : (candSum l).eval x = (l.map (fun c => x (.cand c))).sum := by
  unfold candSum
  rw [LinExp.eval_sum, List.map_map]
  congr 1
  refine List.map_congr_left fun c _ => ?_
  simp

theorem sum_cand_eq_card {x : IVar → ℚ} {l : List ℕ} (hl : l.Nodup) (hx : ∀ c ∈ l, x (.cand c) = 0 ∨ x (.cand c) = 1) :
    (l.map (fun c => x (.cand c))).sum = ((l.toFinset.filter (fun c => x (.cand c) = 1)).card : ℚ) := by
  classical
  rw [← List.sum_toFinset _ hl, ← Finset.sum_boole]
  refine Finset.sum_congr rfl fun c hc => ?_
  rcases hx c (by simpa using hc) with h | h <;> simp [h]

/-- Excluding a committee. -/
theorem Spec.Encodes.exclude {P : Program} {p : Profile} {F : Finset ℕ → Prop} {v : Finset ℕ → ℚ} (h : Encodes P p F v) {k : ℕ}
    (hF : ∀ A, F A → IsCommittee p k A) {W : List ℕ} (hn : W.Nodup) (hW : IsCommittee p k W.toFinset) :
    Encodes (P.addConstr (excludeConstr k W)) p (fun A => F A ∧ A ≠ W.toFinset) v := by
  classical
  have hlt : ∀ c ∈ W, c < p.numCand := fun c hc => by simpa using hW.1 (by simpa using hc)
  have key : ∀ x, Feasible P x → (Holds x (excludeConstr k W) ↔ solCommittee p x ≠ W.toFinset) := by
    intro x hx
    have hb := h.binary x hx
    have hA := hF _ (h.sound x hx).1
    have he : (W.map (fun c => x (.cand c))).sum = ((W.toFinset ∩ solCommittee p x).card : ℚ) := by
      rw [sum_cand_eq_card hn (fun c hc => hb c (hlt c hc))]
      congr 2
      ext c
      simp only [Finset.mem_filter, Finset.mem_inter, solCommittee, Finset.mem_range, List.mem_toFinset]
      exact ⟨fun hc => ⟨hc.1, hlt c hc.1, hc.2⟩, fun hc => ⟨hc.1, hc.2.2⟩⟩
    have : Holds x (excludeConstr k W) ↔ ((W.toFinset ∩ solCommittee p x).card : ℚ) ≤ (k : ℚ) - 1 := by
      unfold Holds excludeConstr
      simp only [reduceCtorEq, false_imp_iff, implies_true, true_imp_iff, RelHolds]
      have e := eval_candSum x W
      unfold candSum at e
      rw [e, he]; simp
    rw [this]
    have hc : ((W.toFinset ∩ solCommittee p x).card : ℚ) ≤ (k : ℚ) - 1 ↔ (W.toFinset ∩ solCommittee p x).card < k := by
      rw [le_sub_iff_add_le]; exact_mod_cast Iff.rfl
    rw [hc]
    constructor
    · intro hlt heq
      rw [heq, Finset.inter_self, hW.2] at hlt
      exact lt_irrefl _ hlt
    · intro hne
      have h1 : (W.toFinset ∩ solCommittee p x).card ≤ k := hW.2 ▸ Finset.card_le_card Finset.inter_subset_left
      refine lt_of_le_of_ne h1 fun heq => hne ?_
      have e1 : W.toFinset ∩ solCommittee p x = W.toFinset :=
        Finset.eq_of_subset_of_card_le Finset.inter_subset_left (by rw [heq, hW.2])
      have e2 : W.toFinset ∩ solCommittee p x = solCommittee p x :=
        Finset.eq_of_subset_of_card_le Finset.inter_subset_right (by rw [heq, hA.2])
      rw [← e2, e1]
  have hfe : ∀ x, Feasible (P.addConstr (excludeConstr k W)) x ↔ Feasible P x ∧ solCommittee p x ≠ W.toFinset := by
    intro x
    have : Feasible (P.addConstr (excludeConstr k W)) x ↔ Feasible P x ∧ Holds x (excludeConstr k W) := by
      unfold Feasible Program.addConstr
      simp only [List.mem_append, List.mem_singleton]
      constructor
      · rintro ⟨h1, h2⟩; exact ⟨⟨h1, fun c hc => h2 c (Or.inl hc)⟩, h2 _ (Or.inr rfl)⟩
      · rintro ⟨⟨h1, h2⟩, h3⟩
        refine ⟨h1, ?_⟩
        rintro c (hc | rfl)
        · exact h2 c hc
        · exact h3
    rw [this]
    exact and_congr_right fun hx => key x hx
  refine ⟨fun x hx => h.binary x ((hfe x).1 hx).1, fun x hx => ?_, fun A hA => ?_⟩
  · obtain ⟨h1, h2⟩ := (hfe x).1 hx
    exact ⟨⟨(h.sound x h1).1, h2⟩, (h.sound x h1).2⟩
  · obtain ⟨x, h1, h2, h3⟩ := h.complete A hA.1
    exact ⟨x, (hfe x).2 ⟨h1, h2 ▸ hA.2⟩, h2, h3⟩

/-- What an exact solver returns on a program that encodes the non-empty set `S` of committees. -/
theorem solve_nonempty {solve : Program → SolveResult} (hs : ExactSolver solve) {P : Program} {p : Profile}
    {S : Finset (Finset ℕ)} {v : Finset ℕ → ℚ} (h : Encodes P p (· ∈ S) v) (hne : S.Nonempty) {thr : ℚ} (h0 : 0 < thr)
    (h1 : thr ≤ 1) :
    ∃ x A, solve P = .optimal x ∧ A ∈ S ∧ (∀ B ∈ S, v B ≤ v A) ∧ P.obj.eval x = v A ∧
      (p.candidates.filter (fun c => decide (thr ≤ x (.cand c)))).toFinset = A ∧
      (p.candidates.filter (fun c => decide (thr ≤ x (.cand c)))).Pairwise (· < ·) := by
  classical
  obtain ⟨A₀, hA₀, hmax⟩ := S.exists_max_image v hne
  obtain ⟨x₀, hx₀, e₀, ev₀⟩ := h.complete A₀ hA₀
  obtain ⟨x, hx, hopt⟩ := (hs P).1 ⟨x₀, hx₀, fun y hy => by
    rw [ev₀]; exact (h.sound y hy).2.trans (hmax _ (h.sound y hy).1)⟩
  have hsnd := h.sound x hopt.1
  refine ⟨x, solCommittee p x, hx, hsnd.1, ?_, ?_, ?_, ?_⟩
  · intro B hB
    refine (hmax B hB).trans ?_
    rw [← ev₀]
    exact (hopt.2 x₀ hx₀).trans hsnd.2
  · refine le_antisymm hsnd.2 ?_
    obtain ⟨y, hy, -, e⟩ := h.complete _ hsnd.1
    rw [← e]; exact hopt.2 y hy
  · ext c
    simp only [List.mem_toFinset, List.mem_filter, decide_eq_true_eq, solCommittee, Finset.mem_filter, Finset.mem_range,
      Profile.candidates, List.mem_range]
    refine and_congr_right fun hc => ?_
    rcases h.binary x hopt.1 c hc with e | e <;> rw [e]
    · simp; linarith
    · simp; linarith
  · exact (List.pairwise_lt_range).sublist List.filter_sublist

section loop
variable {solve : Program → SolveResult} {thr : ℚ} {score : Option (List ℕ → Except Err ℚ)} {p : Profile} {k : ℕ}
  {v : Finset ℕ → ℚ}

/-- `committeescorefct`, if given, computes `v` on the committees in `S`. -/
def ScoreOk (score : Option (List ℕ → Except Err ℚ)) (S : Finset (Finset ℕ)) (v : Finset ℕ → ℚ) : Prop :=
  ∀ f, score = some f → ∀ W : List ℕ, W.Pairwise (· < ·) → W.toFinset ∈ S → f W = .ok (v W.toFinset)

theorem objectiveValue_eq {S : Finset (Finset ℕ)} (hsc : ScoreOk score S v) {P : Program} {x : IVar → ℚ} {W : List ℕ}
    (hW : W.Pairwise (· < ·)) (hS : W.toFinset ∈ S) (hx : P.obj.eval x = v W.toFinset) :
    objectiveValue score P x W = .ok (v W.toFinset) := by
  cases hs : score with
  | none => simp [objectiveValue, hx]
  | some f => exact hsc f hs W hW hS

theorem cmpTol_nonneg (score : Option (List ℕ → Except Err ℚ)) : 0 ≤ cmpTol score := by
  unfold cmpTol cmpAccuracy accuracy; split <;> norm_num

/-- The first iteration in resolute mode. -/
theorem optLoop_resolute (hs : ExactSolver solve) (h0 : 0 < thr) (h1 : thr ≤ 1) {P : Program} {S : Finset (Finset ℕ)}
    (hE : Encodes P p (· ∈ S) v) (hS : ∀ A ∈ S, IsCommittee p k A) (hsc : ScoreOk score S v) (hne : S.Nonempty)
    (max : Option ℕ) (fuel : ℕ) :
    ∃ W : List ℕ, optLoop solve thr score p k true max (fuel + 1) P [] none = .ok ([W], v W.toFinset) ∧
      W.Pairwise (· < ·) ∧ W.toFinset ∈ S ∧ ∀ B ∈ S, v B ≤ v W.toFinset := by
  obtain ⟨x, A, hx, hA, hmax, hobj, rfl, hlt⟩ := solve_nonempty hs hE hne h0 h1
  generalize hW : p.candidates.filter (fun c => decide (thr ≤ x (.cand c))) = W at *
  have hlen : W.length = k := by rw [← toFinset_card_of_lt hlt, (hS _ hA).2]
  refine ⟨W, ?_, hlt, hA, hmax⟩
  unfold optLoop
  simp only [hx, hW, hlen, ne_eq, not_true_eq_false, if_false, objectiveValue_eq hsc hlt hA hobj, bind, Except.bind,
    Option.any_none, Bool.false_eq_true, List.nil_append, Option.getD_none, if_true]

/-- The loop in irresolute mode. -/
theorem optLoop_irresolute (hs : ExactSolver solve) (h0 : 0 < thr) (h1 : thr ≤ 1) (max : Option ℕ) :
    ∀ (fuel : ℕ) (P : Program) (S : Finset (Finset ℕ)) (cs : List (List ℕ)) (ms : Option ℚ) (m : ℚ),
      Encodes P p (· ∈ S) v → (∀ A ∈ S, IsCommittee p k A) → ScoreOk score S v → S.card < fuel →
      (cs ≠ [] ∨ S.Nonempty) → (ms = none ↔ cs = []) → (∀ m', ms = some m' → m' = m) → (∀ A ∈ S, v A ≤ m) →
      (ms = none → ∃ A ∈ S, v A = m) →
      (∀ n, max = some n → cs.length < n) →
      ∃ ds : List (List ℕ), optLoop solve thr score p k false max fuel P cs ms = .ok (cs ++ ds, m) ∧
        (∀ W ∈ ds, W.Pairwise (· < ·) ∧ W.toFinset ∈ S ∧ m - cmpTol score ≤ v W.toFinset) ∧ (ds.map List.toFinset).Nodup ∧
        (∀ n, max = some n → (cs ++ ds).length ≤ n) ∧
        ((∀ A ∈ S, m - cmpTol score ≤ v A → ∃ W ∈ ds, W.toFinset = A) ∨ ∃ n, max = some n ∧ (cs ++ ds).length = n) := by
  intro fuel
  induction fuel with
  | zero => intro P S cs ms m _ _ _ h; exact absurd h (by simp)
  | succ fuel ih =>
    intro P S cs ms m hE hS hsc hcard hne hnone hms hle hex hmax
    have htol := cmpTol_nonneg score
    rcases S.eq_empty_or_nonempty with he | hne'
    · -- infeasible
      have hinf : solve P = .infeasible := by
        refine (hs P).2 ?_
        rintro ⟨x, hx⟩
        have := (hE.sound x hx).1
        rw [he] at this; simp at this
      have hcs : cs ≠ [] := by
        rcases hne with h | h
        · exact h
        · rw [he] at h; simp at h
      have hm : ms = some m := by
        cases hms' : ms with
        | none => exact absurd (hnone.1 hms') hcs
        | some m' => rw [hms m' hms']
      refine ⟨[], ?_, by simp, by simp, fun n hn => ?_, Or.inl (by simp [he])⟩
      · unfold optLoop
        simp [hinf, hcs, hm]
      · simpa using (hmax n hn).le
    · obtain ⟨x, A, hx, hA, hAmax, hobj, hWA, hlt⟩ := solve_nonempty hs hE hne' h0 h1
      generalize hW : p.candidates.filter (fun c => decide (thr ≤ x (.cand c))) = W at *
      subst hWA
      have hlen : W.length = k := by rw [← toFinset_card_of_lt hlt, (hS _ hA).2]
      have hov := objectiveValue_eq hsc hlt hA hobj
      have hnb : (ms.any fun m => decide (m + cmpTol score < v W.toFinset)) = false := by
        cases hms' : ms with
        | none => rfl
        | some m' =>
          have := hms m' hms'
          have h2 := hle _ hA
          simp only [Option.any_some, decide_eq_false_iff_not, not_lt]
          linarith
      by_cases hw : v W.toFinset < m - cmpTol score
      · -- no longer optimal
        have hm : ms = some m := by
          cases hms' : ms with
          | none =>
            obtain ⟨B, hB, e⟩ := hex hms'
            have := hAmax B hB
            linarith
          | some m' => rw [hms m' hms']
        have hnw : (ms.any fun m => decide (v W.toFinset < m - cmpTol score)) = true := by rw [hm]; simpa using hw
        refine ⟨[], ?_, by simp, by simp, fun n hn => ?_, Or.inl ?_⟩
        · unfold optLoop
          simp only [hx, hW, hlen, ne_eq, not_true_eq_false, if_false, hov, bind, Except.bind, hnb, hnw,
            Bool.false_eq_true, if_true]
          simp [hm]
        · simpa using (hmax n hn).le
        · intro B hB hBm
          have := hAmax B hB
          linarith
      · have hnw : (ms.any fun m => decide (v W.toFinset < m - cmpTol score)) = false := by
          cases hms' : ms with
          | none => rfl
          | some m' => rw [hms m' hms']; simpa using hw
        have hgd : ms.getD (v W.toFinset) = m := by
          cases hms' : ms with
          | none =>
            obtain ⟨B, hB, e⟩ := hex hms'
            exact le_antisymm (hle _ hA) (e ▸ hAmax B hB)
          | some m' => exact hms m' hms'
        by_cases hfull : ∃ n, max = some n ∧ n ≤ (cs ++ [W]).length
        · obtain ⟨n, hn, hge⟩ := hfull
          have hlt' := hmax n hn
          have hlen' : (cs ++ [W]).length = n := by
            simp only [List.length_append, List.length_singleton] at hge ⊢; omega
          refine ⟨[W], ?_, ?_, by simp, fun n' hn' => ?_, Or.inr ⟨n, hn, hlen'⟩⟩
          · unfold optLoop
            simp only [hx, hW, hlen, ne_eq, not_true_eq_false, if_false, hov, bind, Except.bind, hnb, hnw,
              Bool.false_eq_true, hgd, hn, Option.any_some, hge, decide_true, if_true]
          · intro W' hW'
            rw [List.mem_singleton] at hW'
            subst hW'
            exact ⟨hlt, hA, not_lt.1 hw⟩
          · rw [hn] at hn'; rw [hlen', Option.some.inj hn']
        · have hnf : (max.any fun n => decide (n ≤ (cs ++ [W]).length)) = false := by
            cases hm : max with
            | none => rfl
            | some n =>
              simp only [Option.any_some, decide_eq_false_iff_not]
              exact fun h => hfull ⟨n, hm, h⟩
          have hE' := hE.exclude (fun A hA => hS A hA) (nodup_of_lt hlt) (hS _ hA)
          have hE'' : Encodes (P.addConstr (excludeConstr k W)) p (· ∈ S.erase W.toFinset) v := by
            have : (fun A => A ∈ S ∧ A ≠ W.toFinset) = (· ∈ S.erase W.toFinset) := by
              funext A; simp [and_comm]
            rw [← this]; exact hE'
          obtain ⟨ds, e1, e2, e3, e4, e5⟩ := ih (P.addConstr (excludeConstr k W)) (S.erase W.toFinset) (cs ++ [W]) (some m) m
            hE'' (fun A hA => hS A (Finset.mem_of_mem_erase hA))
            (fun f hf V hV hVS => hsc f hf V hV (Finset.mem_of_mem_erase hVS))
            (by rw [Finset.card_erase_of_mem hA]; have := hne'.card_pos; omega) (Or.inl (by simp))
            (by simp) (by simp) (fun A hA => hle A (Finset.mem_of_mem_erase hA)) (by simp)
            (fun n hn => by
              by_contra hcon
              exact hfull ⟨n, hn, not_lt.1 hcon⟩)
          refine ⟨W :: ds, ?_, ?_, ?_, ?_, ?_⟩
          · unfold optLoop
            simp only [hx, hW, hlen, ne_eq, not_true_eq_false, if_false, hov, bind, Except.bind, hnb, hnw,
              Bool.false_eq_true, hgd, hnf]
            rw [e1]; simp
          · intro W' hW'
            rcases List.mem_cons.1 hW' with rfl | h
            · exact ⟨hlt, hA, not_lt.1 hw⟩
            · exact ⟨(e2 W' h).1, Finset.mem_of_mem_erase (e2 W' h).2.1, (e2 W' h).2.2⟩
          · simp only [List.map_cons, List.nodup_cons]
            refine ⟨fun hmem => ?_, e3⟩
            obtain ⟨V, hV, e⟩ := List.mem_map.1 hmem
            exact Finset.ne_of_mem_erase (e2 V hV).2.1 e
          · intro n hn
            have := e4 n hn
            simpa using this
          · rcases e5 with h | ⟨n, hn, h⟩
            · left
              intro B hB hBm
              by_cases hBW : B = W.toFinset
              · exact ⟨W, by simp, hBW.symm⟩
              · obtain ⟨V, hV, e⟩ := h B (Finset.mem_erase.2 ⟨hBW, hB⟩) hBm
                exact ⟨V, by simp [hV], e⟩
            · right
              exact ⟨n, hn, by simpa using h⟩

end loop

end Abc
