import Verif.Props.EqualShares

/-!
# The main loop of Equal Shares
-/

namespace Abc
open Spec

/-- the inner loop when all extensions are full committees -/
theorem expandLoop_full {N : Type} (full : N → Bool) (out : N → List ℕ) (max : Option ℕ) (ns : List N) (win : List (List ℕ))
    (h : ∀ n ∈ ns, full n = true) (hn : win.Nodup) (hlt : ∀ m, max = some m → win.length < m) :
    (∃ w, expandLoop full out max ns [] win = .inl w ∧ w.Nodup ∧ (∀ X ∈ w, X ∈ win ∨ X ∈ ns.map out) ∧ max = some w.length) ∨
    (∃ w, expandLoop full out max ns [] win = .inr ([], w) ∧ w.Nodup ∧ (∀ X, X ∈ w ↔ X ∈ win ∨ X ∈ ns.map out) ∧
      ∀ m, max = some m → w.length < m) := by
  induction ns generalizing win with
  | nil => exact Or.inr ⟨win, rfl, hn, by simp, hlt⟩
  | cons n ns ih =>
    unfold expandLoop
    rw [if_pos (h n (by simp))]
    simp only
    have h1 := setAdd_length_le win (out n)
    by_cases he : max = some (setAdd win (out n)).length
    · left
      rw [if_pos he]
      refine ⟨_, rfl, setAdd_nodup hn, ?_, he⟩
      intro X hX
      rcases mem_setAdd.1 hX with h | h
      · exact Or.inl h
      · exact Or.inr (by simp [h])
    · rw [if_neg he]
      have hlt' : ∀ m, max = some m → (setAdd win (out n)).length < m := by
        intro m hm
        have := hlt m hm
        have : m ≠ (setAdd win (out n)).length := by rintro rfl; exact he hm
        omega
      rcases ih _ (fun m hm => h m (by simp [hm])) (setAdd_nodup hn) hlt' with ⟨w, e1, e2, e3, e4⟩ | ⟨w, e1, e2, e3, e4⟩
      · left
        refine ⟨w, e1, e2, ?_, e4⟩
        intro X hX
        rcases e3 X hX with h | h
        · rcases mem_setAdd.1 h with h | h
          · exact Or.inl h
          · exact Or.inr (by simp [h])
        · exact Or.inr (by rw [List.map_cons, List.mem_cons]; exact Or.inr h)
      · right
        refine ⟨w, e1, e2, ?_, e4⟩
        intro X
        rw [e3, mem_setAdd, List.map_cons, List.mem_cons]
        tauto

section
variable {p : Profile} {k : ℕ} {resolute : Bool} {completion : Completion}

/-- The committees (as sorted tuples) that are reachable from a node; `Comp` describes the completion. -/
inductive MOut (p : Profile) (k : ℕ) (resolute : Bool) (Comp : List ℕ → VoterMap p → List ℕ → Prop) :
    List ℕ → VoterMap p → List ℕ → Prop
  | done {W b X} : MESDone p W b → Comp W b X → MOut p k resolute Comp W b X
  | full {W b c} : MESNext p resolute W b c → W.length + 1 = k → MOut p k resolute Comp W b (sortNat (W ++ [c]))
  | step {W b c X} : MESNext p resolute W b c → W.length + 1 < k → MOut p k resolute Comp (W ++ [c]) (mesUpd p W b c) X →
      MOut p k resolute Comp W b X

theorem next_not_done (hp : p.WF) {W : List ℕ} {b : VoterMap p} {c : ℕ} (h : MESNext p resolute W b c) : ¬ MESDone p W b := by
  intro hd
  obtain ⟨⟨h1, h2, q, hq, -⟩, -⟩ := h
  exact hd c h1 h2 ((exists_price_iff hp b c).1 ⟨q, hq⟩)

/-- What is required of the completion. -/
def CompSpec (p : Profile) (k : ℕ) (resolute : Bool) (completion : Completion) (r : ℚ)
    (Comp : List ℕ → VoterMap p → List ℕ → Prop) : Prop :=
  ∀ W b, Run (MESNext p resolute) (mesUpd p) [] (budgetOf p r) W b → W.length < k → MESDone p W b →
    ∃ new, mesComplete p k resolute completion W (List.ofFn b) = .ok new ∧ new ≠ [] ∧
      (∀ X ∈ new, X.Pairwise (· < ·)) ∧ ∀ X, X ∈ new ↔ Comp W b X

theorem mnext_lt {r : ℚ} : ∀ W s c, Run (MESNext p resolute) (mesUpd p) [] (budgetOf p r) W s → MESNext p resolute W s c →
    c < p.numCand ∧ c ∉ W := fun _ _ _ _ h => ⟨h.1.1, h.1.2.1⟩

theorem mesLoop_spec (hp : p.WF) {r : ℚ} {Comp : List ℕ → VoterMap p → List ℕ → Prop}
    (hC : CompSpec p k resolute completion r Comp) (max : Option ℕ) (fuel : ℕ) (stack : List (List ℕ × VoterMap p))
    (win : List (List ℕ))
    (hst : ∀ n ∈ stack, Run (MESNext p resolute) (mesUpd p) [] (budgetOf p r) n.1 n.2 ∧ n.1.length < k)
    (hfuel : (stack.map (fun n => (p.numCand + 1) ^ (k - n.1.length))).sum ≤ fuel)
    (hn : win.Nodup) (hw : ∀ X ∈ win, X.Pairwise (· < ·)) (hlt : ∀ m, max = some m → win.length < m) :
    ∃ w, mesLoop p k resolute completion max fuel (stack.map (fun n => (n.1, List.ofFn n.2))) win = .ok w ∧ w.Nodup ∧
      (∀ X ∈ w, X.Pairwise (· < ·)) ∧
      (∀ X ∈ w, X ∈ win ∨ ∃ n ∈ stack, MOut p k resolute Comp n.1 n.2 X) ∧
      ((max = some w.length) ∨
       ((∀ X ∈ win, X ∈ w) ∧ (∀ n ∈ stack, ∀ X, MOut p k resolute Comp n.1 n.2 X → X ∈ w) ∧ ∀ m, max = some m → w.length < m)) := by
  induction fuel generalizing stack win with
  | zero =>
    cases stack with
    | nil => exact ⟨win, rfl, hn, hw, fun X hX => Or.inl hX, Or.inr ⟨fun X hX => hX, by simp, hlt⟩⟩
    | cons n rest =>
      have : 0 < (p.numCand + 1) ^ (k - n.1.length) := by positivity
      simp at hfuel
  | succ fuel ih =>
    cases stack with
    | nil => exact ⟨win, rfl, hn, hw, fun X hX => Or.inl hX, Or.inr ⟨fun X hX => hX, by simp, hlt⟩⟩
    | cons n rest =>
      obtain ⟨W, b⟩ := n
      obtain ⟨hrun, hW⟩ := hst (W, b) (by simp)
      simp only at hrun hW
      obtain ⟨minQ, hq, hcase⟩ := mesSuccs_spec hp resolute W b
      simp only [List.map_cons]
      unfold mesLoop mesStep
      simp only [hq, bind, Except.bind]
      obtain ⟨s, hs⟩ : ∃ s, k - W.length = s + 1 := ⟨k - W.length - 1, by omega⟩
      have hpot : (rest.map (fun n => (p.numCand + 1) ^ (k - n.1.length))).sum + p.numCand * (p.numCand + 1) ^ s ≤ fuel := by
        simp only [List.map_cons, List.sum_cons, hs, pow_succ] at hfuel
        have : 1 ≤ (p.numCand + 1) ^ s := Nat.one_le_pow _ _ (by omega)
        nlinarith
      have hrest : ∀ n ∈ rest, Run (MESNext p resolute) (mesUpd p) [] (budgetOf p r) n.1 n.2 ∧ n.1.length < k :=
        fun n hn => hst n (by simp [hn])
      rcases hcase with ⟨hnil, hdone⟩ | ⟨hne, cands, hsucc, hasc, hcne, hcm⟩
      · -- completion
        rw [if_neg (by simp [hnil])]
        obtain ⟨new, e1, e2, e3, e4⟩ := hC W b hrun hW hdone
        rw [e1]
        simp only
        set win' := new.foldl setAdd win with hwin'
        have hn' : win'.Nodup := foldl_setAdd_nodup hn
        have hm' : ∀ X, X ∈ win' ↔ X ∈ win ∨ X ∈ new := fun X => mem_foldl_setAdd
        have hw' : ∀ X ∈ win', X.Pairwise (· < ·) := fun X hX => ((hm' X).1 hX).elim (hw X) (e3 X)
        have hout : ∀ X, MOut p k resolute Comp W b X ↔ X ∈ new := by
          intro X
          rw [e4]
          constructor
          · intro h
            cases h with
            | done _ h => exact h
            | full h _ => exact absurd hdone (next_not_done hp h)
            | step h _ _ => exact absurd hdone (next_not_done hp h)
          · exact MOut.done hdone
        cases hbr : boundReached max win'.length with
        | true =>
          obtain ⟨m, rfl, hm⟩ : ∃ m, max = some m ∧ m ≤ win'.length := by
            unfold boundReached at hbr
            cases max with
            | none => simp at hbr
            | some m => exact ⟨m, rfl, by simpa using hbr⟩
          obtain ⟨ds, d1, d2, d3⟩ := sortedCommittees_of_lt hw' hn'
          rw [if_pos rfl, d1]
          simp only [truncate]
          refine ⟨ds.take m, rfl, (d3.nodup_iff.2 hn').sublist (List.take_sublist _ _), ?_, ?_, Or.inl ?_⟩
          · intro X hX; exact hw' X (d3.mem_iff.1 (List.mem_of_mem_take hX))
          · intro X hX
            rcases (hm' X).1 (d3.mem_iff.1 (List.mem_of_mem_take hX)) with h | h
            · exact Or.inl h
            · exact Or.inr ⟨(W, b), by simp, (hout X).2 h⟩
          · rw [List.length_take, d3.length_eq, min_eq_left hm]
        | false =>
          rw [if_neg (by simp)]
          have hlt' : ∀ m, max = some m → win'.length < m := by
            rintro m rfl
            simpa [boundReached] using hbr
          obtain ⟨w, g1, g2, g3, g4, g5⟩ := ih rest win' hrest (by omega) hn' hw' hlt'
          refine ⟨w, by simpa using g1, g2, g3, ?_, ?_⟩
          · intro X hX
            rcases g4 X hX with h | ⟨n, hn, h⟩
            · rcases (hm' X).1 h with h | h
              · exact Or.inl h
              · exact Or.inr ⟨(W, b), by simp, (hout X).2 h⟩
            · exact Or.inr ⟨n, by simp [hn], h⟩
          · rcases g5 with g5 | ⟨g5, g6, g7⟩
            · exact Or.inl g5
            · right
              refine ⟨fun X hX => g5 X ((hm' X).2 (Or.inl hX)), ?_, g7⟩
              intro n hn X hX
              rcases List.mem_cons.1 hn with rfl | hn
              · exact g5 X ((hm' X).2 (Or.inr ((hout X).1 hX)))
              · exact g6 n hn X hX
      · -- extension
        rw [if_pos (by simpa using List.length_pos_of_ne_nil hne), hsucc]
        have hnd : ¬ MESDone p W b := by
          obtain ⟨c, hc⟩ := List.exists_mem_of_ne_nil cands hcne
          exact next_not_done hp ((hcm c).1 hc)
        simp only
        by_cases h0 : W.length + 1 = k
        · have hout : ∀ X, MOut p k resolute Comp W b X ↔ ∃ c ∈ cands, X = sortNat (W ++ [c]) := by
            intro X
            constructor
            · intro h
              cases h with
              | done h _ => exact absurd h hnd
              | full h _ => exact ⟨_, (hcm _).2 h, rfl⟩
              | step _ h _ => omega
            · rintro ⟨c, hc, rfl⟩
              exact MOut.full ((hcm c).1 hc) h0
          have hWn := hrun.nodup (m := p.numCand) mnext_lt (by simp) (by simp)
          have hout' : ∀ X, X ∈ (cands.map (fun c => (W ++ [c], List.ofFn (mesUpd p W b c)))).map (fun n => sortNat n.1) ↔
              MOut p k resolute Comp W b X := by
            intro X
            rw [hout, List.map_map, List.mem_map]
            constructor
            · rintro ⟨c, hc, rfl⟩; exact ⟨c, hc, rfl⟩
            · rintro ⟨c, hc, rfl⟩; exact ⟨c, hc, rfl⟩
          have hasc' : ∀ X, MOut p k resolute Comp W b X → X.Pairwise (· < ·) := by
            intro X hX
            obtain ⟨c, hc, rfl⟩ := (hout X).1 hX
            refine sortNat_lt ?_
            exact ((Run.step hrun ((hcm c).1 hc)).nodup (m := p.numCand) mnext_lt (by simp) (by simp)).1
          rcases expandLoop_full (fun n : List ℕ × List ℚ => decide (n.1.length = k)) (fun n => sortNat n.1) max
            (cands.map (fun c => (W ++ [c], List.ofFn (mesUpd p W b c)))) win (by
              intro n hn
              obtain ⟨c, -, rfl⟩ := List.mem_map.1 hn
              simpa using h0) hn hlt with ⟨w, e1, e2, e3, e4⟩ | ⟨w, e1, e2, e3, e4⟩
          · rw [e1]
            refine ⟨w, rfl, e2, ?_, ?_, Or.inl e4⟩
            · intro X hX
              rcases e3 X hX with h | h
              · exact hw X h
              · exact hasc' X ((hout' X).1 h)
            · intro X hX
              rcases e3 X hX with h | h
              · exact Or.inl h
              · exact Or.inr ⟨(W, b), by simp, (hout' X).1 h⟩
          · rw [e1]
            simp only
            have hbr : boundReached max w.length = false := by
              unfold boundReached
              cases max with
              | none => rfl
              | some m => have := e4 m rfl; simpa using this
            rw [hbr, if_neg (by simp)]
            have hw' : ∀ X ∈ w, X.Pairwise (· < ·) := by
              intro X hX
              rcases (e3 X).1 hX with h | h
              · exact hw X h
              · exact hasc' X ((hout' X).1 h)
            obtain ⟨v, g1, g2, g3, g4, g5⟩ := ih rest w hrest (by omega) e2 hw' e4
            refine ⟨v, by simpa using g1, g2, g3, ?_, ?_⟩
            · intro X hX
              rcases g4 X hX with h | ⟨n, hn, h⟩
              · rcases (e3 X).1 h with h | h
                · exact Or.inl h
                · exact Or.inr ⟨(W, b), by simp, (hout' X).1 h⟩
              · exact Or.inr ⟨n, by simp [hn], h⟩
            · rcases g5 with g5 | ⟨g5, g6, g7⟩
              · exact Or.inl g5
              · right
                refine ⟨fun X hX => g5 X ((e3 X).2 (Or.inl hX)), ?_, g7⟩
                intro n hn X hX
                rcases List.mem_cons.1 hn with rfl | hn
                · exact g5 X ((e3 X).2 (Or.inr ((hout' X).2 hX)))
                · exact g6 n hn X hX
        · rw [expandLoop_none_full _ _ max _ [] win (by
            intro n hn
            obtain ⟨c, -, rfl⟩ := List.mem_map.1 hn
            simpa using h0)]
          simp only [List.nil_append]
          have hbr : boundReached max win.length = false := by
            unfold boundReached
            cases max with
            | none => rfl
            | some m => have := hlt m rfl; simpa using this
          rw [hbr, if_neg (by simp)]
          have hcl : cands.length ≤ p.numCand := sorted_length_le_of_lt hasc (fun c hc => ((hcm c).1 hc).1.1)
          have hih := ih (cands.map (fun c => (W ++ [c], mesUpd p W b c)) ++ rest) win ?_ ?_ hn hw hlt
          · obtain ⟨v, g1, g2, g3, g4, g5⟩ := hih
            have hout : ∀ X, MOut p k resolute Comp W b X ↔ ∃ c ∈ cands, MOut p k resolute Comp (W ++ [c]) (mesUpd p W b c) X := by
              intro X
              constructor
              · intro h
                cases h with
                | done h _ => exact absurd h hnd
                | full _ h => exact absurd h h0
                | step h _ h' => exact ⟨_, (hcm _).2 h, h'⟩
              · rintro ⟨c, hc, h⟩
                exact MOut.step ((hcm c).1 hc) (by omega) h
            refine ⟨v, ?_, g2, g3, ?_, ?_⟩
            · rw [← g1, List.map_append, List.map_map]
              rfl
            · intro X hX
              rcases g4 X hX with h | ⟨n, hn, h⟩
              · exact Or.inl h
              · rcases List.mem_append.1 hn with hn | hn
                · obtain ⟨c, hc, rfl⟩ := List.mem_map.1 hn
                  exact Or.inr ⟨(W, b), by simp, (hout X).2 ⟨c, hc, h⟩⟩
                · exact Or.inr ⟨n, by simp [hn], h⟩
            · rcases g5 with g5 | ⟨g5, g6, g7⟩
              · exact Or.inl g5
              · right
                refine ⟨g5, ?_, g7⟩
                intro n hn X hX
                rcases List.mem_cons.1 hn with rfl | hn
                · obtain ⟨c, hc, h⟩ := (hout X).1 hX
                  exact g6 (W ++ [c], mesUpd p W b c) (List.mem_append.2 (Or.inl (List.mem_map.2 ⟨c, hc, rfl⟩))) X h
                · exact g6 n (by simp [hn]) X hX
          · intro n hn
            rcases List.mem_append.1 hn with hn | hn
            · obtain ⟨c, hc, rfl⟩ := List.mem_map.1 hn
              exact ⟨.step hrun ((hcm c).1 hc), by simp; omega⟩
            · exact hrest n hn
          · rw [List.map_append, List.sum_append]
            have : ((cands.map (fun c => (W ++ [c], mesUpd p W b c))).map (fun n => (p.numCand + 1) ^ (k - n.1.length))).sum
                ≤ p.numCand * (p.numCand + 1) ^ s := by
              have e3 : (cands.map (fun c => (W ++ [c], mesUpd p W b c))).map (fun n => (p.numCand + 1) ^ (k - n.1.length))
                  = cands.map (fun _ => (p.numCand + 1) ^ s) := by
                rw [List.map_map]
                refine List.map_congr_left (fun c _ => ?_)
                simp only [Function.comp, List.length_append, List.length_singleton]
                congr 1
                omega
              rw [e3]
              simp only [List.map_const', List.sum_replicate, nsmul_eq_mul, Nat.cast_id]
              exact Nat.mul_le_mul_right _ hcl
            omega

/-- reachable committees in terms of runs -/
theorem mout_iff {r : ℚ} {Comp : List ℕ → VoterMap p → List ℕ → Prop} (hk : 0 < k) (X : List ℕ) :
    MOut p k resolute Comp [] (budgetOf p r) X ↔ ∃ W b, Run (MESNext p resolute) (mesUpd p) [] (budgetOf p r) W b ∧
      ((W.length = k ∧ X = sortNat W) ∨ (W.length < k ∧ MESDone p W b ∧ Comp W b X)) := by
  constructor
  · have : ∀ W b, MOut p k resolute Comp W b X → W.length < k → Run (MESNext p resolute) (mesUpd p) [] (budgetOf p r) W b →
        ∃ W b, Run (MESNext p resolute) (mesUpd p) [] (budgetOf p r) W b ∧
      ((W.length = k ∧ X = sortNat W) ∨ (W.length < k ∧ MESDone p W b ∧ Comp W b X)) := by
      intro W b h
      induction h with
      | done h1 h2 => intro hl hrun; exact ⟨_, _, hrun, Or.inr ⟨hl, h1, h2⟩⟩
      | full h1 h2 => intro hl hrun; exact ⟨_, _, .step hrun h1, Or.inl ⟨by simpa using h2, rfl⟩⟩
      | step h1 h2 _ ih => intro hl hrun; exact ih (by simpa using h2) (.step hrun h1)
    intro h
    exact this [] _ h (by simpa using hk) .start
  · rintro ⟨W, b, hrun, hfin⟩
    -- going back along the run
    have back : ∀ W b, Run (MESNext p resolute) (mesUpd p) [] (budgetOf p r) W b → W.length < k →
        MOut p k resolute Comp W b X → MOut p k resolute Comp [] (budgetOf p r) X := by
      intro W b hrun
      induction hrun with
      | start => intro _ h; exact h
      | @step W b c _ hc ih =>
        intro hl h
        simp only [List.length_append, List.length_singleton] at hl
        exact ih (by omega) (.step hc hl h)
    rcases hfin with ⟨hl, rfl⟩ | ⟨hl, hd, hX⟩
    · cases hrun with
      | start => simp at hl; omega
      | @step W b c hrun hc =>
        simp only [List.length_append, List.length_singleton] at hl
        exact back W b hrun (by omega) (.full hc hl)
    · exact back W b hrun hl (.done hd hX)

/-- there is always a reachable committee -/
theorem mout_exists (hp : p.WF) {r : ℚ} {Comp : List ℕ → VoterMap p → List ℕ → Prop}
    (hC : CompSpec p k resolute completion r Comp) (W : List ℕ) (b : VoterMap p)
    (hrun : Run (MESNext p resolute) (mesUpd p) [] (budgetOf p r) W b) (hl : W.length < k) :
    ∃ X, MOut p k resolute Comp W b X := by
  induction hs : k - W.length generalizing W b with
  | zero => omega
  | succ s ih =>
    obtain ⟨minQ, hq, hcase⟩ := mesSuccs_spec hp resolute W b
    rcases hcase with ⟨hnil, hdone⟩ | ⟨hne, cands, hsucc, hasc, hcne, hcm⟩
    · obtain ⟨new, e1, e2, e3, e4⟩ := hC W b hrun hl hdone
      obtain ⟨X, hX⟩ := List.exists_mem_of_ne_nil new e2
      exact ⟨X, .done hdone ((e4 X).1 hX)⟩
    · obtain ⟨c, hc⟩ := List.exists_mem_of_ne_nil cands hcne
      have hc := (hcm c).1 hc
      by_cases h0 : W.length + 1 = k
      · exact ⟨_, .full hc h0⟩
      · obtain ⟨X, hX⟩ := ih (W ++ [c]) (mesUpd p W b c) (.step hrun hc) (by simp; omega) (by simp; omega)
        exact ⟨X, .step hc (by omega) hX⟩

end

end Abc
