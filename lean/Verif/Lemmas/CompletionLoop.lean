import Verif.Lemmas.MesLoop
import Verif.Model.Float

/-!
# The main loop of Equal Shares over abstract states
-/

namespace Abc
open Spec

section
variable {σ : Type} {m k : ℕ} {I : List ℕ × σ → Prop} {succs : List ℕ × σ → Except Err (Option (List (List ℕ × σ)))}
  {complete : List ℕ × σ → Except Err (List (List ℕ))}

/-- The committees (as sorted tuples) that are reachable from a node. -/
inductive COut (k : ℕ) (succs : List ℕ × σ → Except Err (Option (List (List ℕ × σ))))
    (complete : List ℕ × σ → Except Err (List (List ℕ))) : List ℕ × σ → List ℕ → Prop
  | done {n new X} : succs n = .ok none → complete n = .ok new → X ∈ new → COut k succs complete n X
  | full {n ns n'} : succs n = .ok (some ns) → n' ∈ ns → n'.1.length = k → COut k succs complete n (sortNat n'.1)
  | step {n ns n' X} : succs n = .ok (some ns) → n' ∈ ns → n'.1.length < k → COut k succs complete n' X → COut k succs complete n X

/-- Every node with the invariant `I` is either completed or has between 1 and `m` extensions with the invariant. -/
def StepOK (m k : ℕ) (I : List ℕ × σ → Prop) (succs : List ℕ × σ → Except Err (Option (List (List ℕ × σ))))
    (complete : List ℕ × σ → Except Err (List (List ℕ))) : Prop :=
  ∀ n, I n → n.1.length < k →
    (succs n = .ok none ∧ ∃ new, complete n = .ok new ∧ new ≠ [] ∧ ∀ X ∈ new, X.Pairwise (· < ·)) ∨
    ∃ ns, succs n = .ok (some ns) ∧ ns ≠ [] ∧ ns.length ≤ m ∧ ∀ n' ∈ ns, n'.1.length = n.1.length + 1 ∧ n'.1.Nodup ∧ I n'

theorem completionLoop_spec (hC : StepOK m k I succs complete) (max : Option ℕ) (fuel : ℕ) (stack : List (List ℕ × σ))
    (win : List (List ℕ)) (hst : ∀ n ∈ stack, I n ∧ n.1.length < k)
    (hfuel : (stack.map (fun n => (m + 1) ^ (k - n.1.length))).sum ≤ fuel)
    (hn : win.Nodup) (hw : ∀ X ∈ win, X.Pairwise (· < ·)) (hlt : ∀ b, max = some b → win.length < b) :
    ∃ w, completionLoop (fun n : List ℕ × σ => decide (n.1.length = k)) (fun n => sortNat n.1) succs complete max fuel stack win = .ok w ∧
      w.Nodup ∧ (∀ X ∈ w, X.Pairwise (· < ·)) ∧
      (∀ X ∈ w, X ∈ win ∨ ∃ n ∈ stack, COut k succs complete n X) ∧
      ((max = some w.length) ∨
       ((∀ X ∈ win, X ∈ w) ∧ (∀ n ∈ stack, ∀ X, COut k succs complete n X → X ∈ w) ∧ ∀ b, max = some b → w.length < b)) := by
  induction fuel generalizing stack win with
  | zero =>
    cases stack with
    | nil => exact ⟨win, rfl, hn, hw, fun X hX => Or.inl hX, Or.inr ⟨fun X hX => hX, by simp, hlt⟩⟩
    | cons n rest =>
      have : 0 < (m + 1) ^ (k - n.1.length) := by positivity
      simp at hfuel
  | succ fuel ih =>
    cases stack with
    | nil => exact ⟨win, rfl, hn, hw, fun X hX => Or.inl hX, Or.inr ⟨fun X hX => hX, by simp, hlt⟩⟩
    | cons n rest =>
      obtain ⟨hrun, hW⟩ := hst n (by simp)
      unfold completionLoop
      obtain ⟨s, hs⟩ : ∃ s, k - n.1.length = s + 1 := ⟨k - n.1.length - 1, by omega⟩
      have hpot : (rest.map (fun n => (m + 1) ^ (k - n.1.length))).sum + m * (m + 1) ^ s ≤ fuel := by
        simp only [List.map_cons, List.sum_cons, hs, pow_succ] at hfuel
        have : 1 ≤ (m + 1) ^ s := Nat.one_le_pow _ _ (by omega)
        nlinarith
      have hrest : ∀ n ∈ rest, I n ∧ n.1.length < k := fun n hn => hst n (by simp [hn])
      rcases hC n hrun hW with ⟨hnone, new, e1, e2, e3⟩ | ⟨ns, hsucc, hne, hlen, hns⟩
      · -- completion
        simp only [hnone, e1, bind, Except.bind]
        set win' := new.foldl setAdd win with hwin'
        have hn' : win'.Nodup := foldl_setAdd_nodup hn
        have hm' : ∀ X, X ∈ win' ↔ X ∈ win ∨ X ∈ new := fun X => mem_foldl_setAdd
        have hw' : ∀ X ∈ win', X.Pairwise (· < ·) := fun X hX => ((hm' X).1 hX).elim (hw X) (e3 X)
        have hout : ∀ X, COut k succs complete n X ↔ X ∈ new := by
          intro X
          constructor
          · intro h
            cases h with
            | done _ h h' => rw [e1] at h; obtain rfl := Except.ok.inj h; exact h'
            | full h _ _ => rw [hnone] at h; simp at h
            | step h _ _ _ => rw [hnone] at h; simp at h
          · exact COut.done hnone e1
        cases hbr : boundReached max win'.length with
        | true =>
          obtain ⟨b, rfl, hm⟩ : ∃ b, max = some b ∧ b ≤ win'.length := by
            unfold boundReached at hbr
            cases max with
            | none => simp at hbr
            | some b => exact ⟨b, rfl, by simpa using hbr⟩
          obtain ⟨ds, d1, d2, d3⟩ := sortedCommittees_of_lt hw' hn'
          rw [if_pos rfl, d1]
          simp only [truncate]
          refine ⟨ds.take b, rfl, (d3.nodup_iff.2 hn').sublist (List.take_sublist _ _), ?_, ?_, Or.inl ?_⟩
          · intro X hX; exact hw' X (d3.mem_iff.1 (List.mem_of_mem_take hX))
          · intro X hX
            rcases (hm' X).1 (d3.mem_iff.1 (List.mem_of_mem_take hX)) with h | h
            · exact Or.inl h
            · exact Or.inr ⟨n, by simp, (hout X).2 h⟩
          · rw [List.length_take, d3.length_eq, min_eq_left hm]
        | false =>
          rw [if_neg (by simp)]
          have hlt' : ∀ b, max = some b → win'.length < b := by
            rintro b rfl
            simpa [boundReached] using hbr
          obtain ⟨w, g1, g2, g3, g4, g5⟩ := ih rest win' hrest (by omega) hn' hw' hlt'
          refine ⟨w, by simpa using g1, g2, g3, ?_, ?_⟩
          · intro X hX
            rcases g4 X hX with h | ⟨n', hn, h⟩
            · rcases (hm' X).1 h with h | h
              · exact Or.inl h
              · exact Or.inr ⟨n, by simp, (hout X).2 h⟩
            · exact Or.inr ⟨n', by simp [hn], h⟩
          · rcases g5 with g5 | ⟨g5, g6, g7⟩
            · exact Or.inl g5
            · right
              refine ⟨fun X hX => g5 X ((hm' X).2 (Or.inl hX)), ?_, g7⟩
              intro n hn X hX
              rcases List.mem_cons.1 hn with rfl | hn
              · exact g5 X ((hm' X).2 (Or.inr ((hout X).1 hX)))
              · exact g6 n hn X hX
      · -- extension
        simp only [hsucc, bind, Except.bind]
        by_cases h0 : n.1.length + 1 = k
        · have hout' : ∀ X, X ∈ ns.map (fun n => sortNat n.1) ↔ COut k succs complete n X := by
            intro X
            rw [List.mem_map]
            constructor
            · rintro ⟨n', hn', rfl⟩
              exact COut.full hsucc hn' ((hns n' hn').1.trans h0)
            · intro h
              cases h with
              | done h _ _ => rw [hsucc] at h; simp at h
              | @full _ ns' n' h h1 _ =>
                rw [hsucc] at h
                obtain rfl := Option.some.inj (Except.ok.inj h)
                exact ⟨n', h1, rfl⟩
              | step h h1 h2 _ =>
                rw [hsucc] at h
                obtain rfl := Option.some.inj (Except.ok.inj h)
                have := (hns _ h1).1
                omega
          have hasc' : ∀ X, COut k succs complete n X → X.Pairwise (· < ·) := by
            intro X hX
            obtain ⟨n', hn', rfl⟩ := List.mem_map.1 ((hout' X).2 hX)
            exact sortNat_lt (hns n' hn').2.1
          rcases expandLoop_full (fun n : List ℕ × σ => decide (n.1.length = k)) (fun n => sortNat n.1) max ns win (by
              intro n' hn'
              have := (hns n' hn').1
              simp; omega) hn hlt with ⟨w, e1, e2, e3, e4⟩ | ⟨w, e1, e2, e3, e4⟩
          · rw [e1]
            refine ⟨w, rfl, e2, ?_, ?_, Or.inl e4⟩
            · intro X hX
              rcases e3 X hX with h | h
              · exact hw X h
              · exact hasc' X ((hout' X).1 h)
            · intro X hX
              rcases e3 X hX with h | h
              · exact Or.inl h
              · exact Or.inr ⟨n, by simp, (hout' X).1 h⟩
          · rw [e1]
            simp only
            have hbr : boundReached max w.length = false := by
              unfold boundReached
              cases max with
              | none => rfl
              | some b => have := e4 b rfl; simpa using this
            rw [hbr, if_neg (by simp)]
            have hw' : ∀ X ∈ w, X.Pairwise (· < ·) := by
              intro X hX
              rcases (e3 X).1 hX with h | h
              · exact hw X h
              · exact hasc' X ((hout' X).1 h)
            obtain ⟨v, g1, g2, g3, g4, g5⟩ := ih rest w hrest (by omega) e2 hw' e4
            refine ⟨v, by simpa using g1, g2, g3, ?_, ?_⟩
            · intro X hX
              rcases g4 X hX with h | ⟨n', hn, h⟩
              · rcases (e3 X).1 h with h | h
                · exact Or.inl h
                · exact Or.inr ⟨n, by simp, (hout' X).1 h⟩
              · exact Or.inr ⟨n', by simp [hn], h⟩
            · rcases g5 with g5 | ⟨g5, g6, g7⟩
              · exact Or.inl g5
              · right
                refine ⟨fun X hX => g5 X ((e3 X).2 (Or.inl hX)), ?_, g7⟩
                intro n hn X hX
                rcases List.mem_cons.1 hn with rfl | hn
                · exact g5 X ((e3 X).2 (Or.inr ((hout' X).2 hX)))
                · exact g6 n hn X hX
        · rw [expandLoop_none_full _ _ max _ [] win (by
            intro n' hn'
            have := (hns n' hn').1
            simp; omega)]
          simp only [List.nil_append]
          have hbr : boundReached max win.length = false := by
            unfold boundReached
            cases max with
            | none => rfl
            | some b => have := hlt b rfl; simpa using this
          rw [hbr, if_neg (by simp)]
          have hih := ih (ns ++ rest) win ?_ ?_ hn hw hlt
          · obtain ⟨v, g1, g2, g3, g4, g5⟩ := hih
            have hout : ∀ X, COut k succs complete n X ↔ ∃ n' ∈ ns, COut k succs complete n' X := by
              intro X
              constructor
              · intro h
                cases h with
                | done h _ _ => rw [hsucc] at h; simp at h
                | full h h1 h2 =>
                  rw [hsucc] at h
                  obtain rfl := Option.some.inj (Except.ok.inj h)
                  have := (hns _ h1).1
                  omega
                | @step _ ns' n' _ h h1 _ h3 =>
                  rw [hsucc] at h
                  obtain rfl := Option.some.inj (Except.ok.inj h)
                  exact ⟨n', h1, h3⟩
              · rintro ⟨n', hn', h⟩
                exact COut.step hsucc hn' (by have := (hns _ hn').1; omega) h
            refine ⟨v, g1, g2, g3, ?_, ?_⟩
            · intro X hX
              rcases g4 X hX with h | ⟨n', hn, h⟩
              · exact Or.inl h
              · rcases List.mem_append.1 hn with hn | hn
                · exact Or.inr ⟨n, by simp, (hout X).2 ⟨n', hn, h⟩⟩
                · exact Or.inr ⟨n', by simp [hn], h⟩
            · rcases g5 with g5 | ⟨g5, g6, g7⟩
              · exact Or.inl g5
              · right
                refine ⟨g5, ?_, g7⟩
                intro n hn X hX
                rcases List.mem_cons.1 hn with rfl | hn
                · obtain ⟨n', hn', h⟩ := (hout X).1 hX
                  exact g6 n' (List.mem_append.2 (Or.inl hn')) X h
                · exact g6 n (by simp [hn]) X hX
          · intro n' hn
            rcases List.mem_append.1 hn with hn | hn
            · exact ⟨(hns n' hn).2.2, by have := (hns _ hn).1; omega⟩
            · exact hrest n' hn
          · rw [List.map_append, List.sum_append]
            have : (ns.map (fun n => (m + 1) ^ (k - n.1.length))).sum ≤ m * (m + 1) ^ s := by
              have e3 : ns.map (fun n => (m + 1) ^ (k - n.1.length)) = ns.map (fun _ => (m + 1) ^ s) := by
                refine List.map_congr_left (fun n' hn' => ?_)
                have := (hns _ hn').1
                congr 1
                omega
              rw [e3]
              simp only [List.map_const', List.sum_replicate, nsmul_eq_mul, Nat.cast_id]
              exact Nat.mul_le_mul_right _ hlen
            omega

/-- there is always a reachable committee -/
theorem cout_exists (hC : StepOK m k I succs complete) (n : List ℕ × σ) (hI : I n) (hl : n.1.length < k) :
    ∃ X, COut k succs complete n X := by
  induction hs : k - n.1.length generalizing n with
  | zero => omega
  | succ s ih =>
    rcases hC n hI hl with ⟨hnone, new, e1, e2, e3⟩ | ⟨ns, hsucc, hne, hlen, hns⟩
    · obtain ⟨X, hX⟩ := List.exists_mem_of_ne_nil new e2
      exact ⟨X, .done hnone e1 hX⟩
    · obtain ⟨n', hn'⟩ := List.exists_mem_of_ne_nil ns hne
      have hn1 := hns n' hn'
      by_cases h0 : n'.1.length = k
      · exact ⟨_, .full hsucc hn' h0⟩
      · obtain ⟨X, hX⟩ := ih n' hn1.2.2 (by omega) (by omega)
        exact ⟨X, .step hsucc hn' (by omega) hX⟩

/-- properties of reachable committees by the invariant -/
theorem cout_property (hC : StepOK m k I succs complete) (P : List ℕ → Prop)
    (hdone : ∀ n, I n → n.1.length < k → ∀ new, succs n = .ok none → complete n = .ok new → ∀ X ∈ new, P X)
    (hfull : ∀ n, I n → n.1.length = k → P (sortNat n.1)) (n : List ℕ × σ) (X : List ℕ) (h : COut k succs complete n X)
    (hI : I n) (hl : n.1.length < k) : P X := by
  have key : ∀ {n ns n'}, I n → n.1.length < k → succs n = .ok (some ns) → n' ∈ ns → I n' := by
    intro n ns n' hI hl hs hn'
    rcases hC n hI hl with ⟨hnone, -⟩ | ⟨ns', hsucc, hne, hlen, hns⟩
    · rw [hnone] at hs; simp at hs
    · rw [hsucc] at hs
      obtain rfl := Option.some.inj (Except.ok.inj hs)
      exact (hns n' hn').2.2
  induction h with
  | done h1 h2 h3 => exact hdone _ hI hl _ h1 h2 _ h3
  | full h1 h2 h3 => exact hfull _ (key hI hl h1 h2) h3
  | step h1 h2 h3 _ ih => exact ih (key hI hl h1 h2) h3

/-- a search with fewer extensions and completions reaches fewer committees -/
theorem cout_mono {succs' : List ℕ × σ → Except Err (Option (List (List ℕ × σ)))} {complete' : List ℕ × σ → Except Err (List (List ℕ))}
    (hC : StepOK m k I succs complete)
    (hs : ∀ n ns, I n → n.1.length < k → succs' n = .ok (some ns) → ∃ ns', succs n = .ok (some ns') ∧ ∀ x ∈ ns, x ∈ ns')
    (hs0 : ∀ n, I n → n.1.length < k → succs' n = .ok none → succs n = .ok none)
    (hc : ∀ n new, I n → n.1.length < k → succs n = .ok none → complete' n = .ok new → ∃ new', complete n = .ok new' ∧ ∀ x ∈ new, x ∈ new')
    (n : List ℕ × σ) (X : List ℕ) (h : COut k succs' complete' n X) (hI : I n) (hl : n.1.length < k) : COut k succs complete n X := by
  have key : ∀ {n ns n'}, I n → n.1.length < k → succs n = .ok (some ns) → n' ∈ ns → I n' := by
    intro n ns n' hI hl hs hn'
    rcases hC n hI hl with ⟨hnone, -⟩ | ⟨ns', hsucc, hne, hlen, hns⟩
    · rw [hnone] at hs; simp at hs
    · rw [hsucc] at hs
      obtain rfl := Option.some.inj (Except.ok.inj hs)
      exact (hns n' hn').2.2
  induction h with
  | done h1 h2 h3 =>
    have h1' := hs0 _ hI hl h1
    obtain ⟨new', e1, e2⟩ := hc _ _ hI hl h1' h2
    exact .done h1' e1 (e2 _ h3)
  | full h1 h2 h3 =>
    obtain ⟨ns', e1, e2⟩ := hs _ _ hI hl h1
    exact .full e1 (e2 _ h2) h3
  | step h1 h2 h3 _ ih =>
    obtain ⟨ns', e1, e2⟩ := hs _ _ hI hl h1
    exact .step e1 (e2 _ h2) h3 (ih (key hI hl e1 (e2 _ h2)) h3)

/-- The loop as an answer to a call, given that the resolute search is part of the irresolute search. -/
theorem completionLoop_answers {p : Profile} {a : Args} (hv : ValidCall p a) (hk : a.k = k)
    {succs' : List ℕ × σ → Except Err (Option (List (List ℕ × σ)))} {complete' : List ℕ × σ → Except Err (List (List ℕ))}
    (hC : StepOK p.numCand k I succs complete) (hC' : StepOK p.numCand k I succs' complete') (n₀ : List ℕ × σ) (hn₀ : n₀.1 = []) (hI : I n₀)
    (hmono : ∀ X, COut k succs' complete' n₀ X → COut k succs complete n₀ X)
    (hsub : ∀ X, COut k succs complete n₀ X → ∀ c ∈ X, c < p.numCand) (ssel : Bool → List ℕ × σ → Except Err (Option (List (List ℕ × σ))))
    (csel : Bool → List ℕ × σ → Except Err (List (List ℕ))) (hs1 : ssel true = succs') (hs2 : ssel false = succs)
    (hc1 : csel true = complete') (hc2 : csel false = complete) :
    Answers a (do
      let winning ← completionLoop (fun n : List ℕ × σ => decide (n.1.length = k)) (fun n => sortNat n.1) (ssel a.resolute) (csel a.resolute)
        (if a.resolute then some 1 else a.maxNum) (dfsFuel p k) [n₀] []
      sortedCommittees winning) (fun A => ∃ X, COut k succs complete n₀ X ∧ X.toFinset = A) := by
  have hk1 : 0 < k := hk ▸ hv.pos
  cases hr : a.resolute with
  | true =>
    obtain ⟨w, g1, g2, g3, g4, g5⟩ := completionLoop_spec hC' (some 1) (dfsFuel p k) [n₀] []
      (by simpa [hn₀] using ⟨hI, hk1⟩) (by simp [dfsFuel, hn₀]) (by simp) (by simp) (by simp)
    have hlen : w.length = 1 := by
      rcases g5 with g5 | ⟨-, g6, g7⟩
      · exact (Option.some.inj g5).symm
      · obtain ⟨X, hX⟩ := cout_exists hC' n₀ hI (by simpa [hn₀] using hk1)
        have := List.length_pos_of_mem (g6 n₀ (by simp) X hX)
        have := g7 1 rfl
        omega
    obtain ⟨X, rfl⟩ := List.length_eq_one_iff.1 hlen
    have hX := g3 X (by simp)
    unfold Answers
    rw [hr, if_pos rfl]
    refine ⟨X, ?_, hX, X, ?_, rfl⟩
    · simp only [hs1, hc1, if_true, g1, bind, Except.bind]
      rw [sortedCommittees_one (nodup_of_lt hX), sortNat_of_lt hX]
    · rcases g4 X (by simp) with h | ⟨n, hn, h⟩
      · simp at h
      · rw [List.mem_singleton] at hn
        subst hn
        exact hmono X h
  | false =>
    obtain ⟨w, g1, g2, g3, g4, g6⟩ := completionLoop_spec hC a.maxNum (dfsFuel p k) [n₀] []
      (by simpa [hn₀] using ⟨hI, hk1⟩) (by simp [dfsFuel, hn₀]) (by simp) (by simp) (by
        intro b hb
        obtain ⟨z, hz, rfl⟩ := maxNum_some hb
        have := hv.max z hz
        simp only [List.length_nil]
        omega)
    obtain ⟨ds, d1, d2, d3⟩ := sortedCommittees_of_lt g3 g2
    simp only [hs2, hc2, Bool.false_eq_true, if_false, g1, bind, Except.bind, d1]
    set S : Finset ℕ → Prop := fun A => ∃ X, COut k succs complete n₀ X ∧ X.toFinset = A with hS
    have hsound : ∀ X ∈ ds, S X.toFinset := by
      intro X hX
      rcases g4 X (d3.mem_iff.1 hX) with h | ⟨n, hn, h⟩
      · simp at h
      · rw [List.mem_singleton] at hn
        subst hn
        exact ⟨X, h, rfl⟩
    unfold Answers
    rw [hr]
    cases hm : a.max with
    | none =>
      have hmn : a.maxNum = none := by simp [Args.maxNum, hm]
      rw [hmn] at g6
      refine ⟨ds, rfl, d2, ?_⟩
      intro A
      constructor
      · rintro ⟨X, hX, rfl⟩; exact hsound X hX
      · rintro ⟨X, hX, rfl⟩
        rcases g6 with g6 | ⟨-, g6, -⟩
        · simp at g6
        · exact ⟨X, d3.mem_iff.2 (g6 n₀ (by simp) X hX), rfl⟩
    | some n =>
      have hmn : a.maxNum = some n.toNat := by simp [Args.maxNum, hm]
      rw [hmn] at g6
      refine ⟨ds, rfl, d2, hsound, ?_⟩
      have hbound : ∀ A, S A → A ∈ (Finset.range p.numCand).powerset := by
        rintro A ⟨X, hX, rfl⟩
        rw [Finset.mem_powerset]
        intro c hc
        rw [Finset.mem_range]
        exact hsub X hX c (by simpa using hc)
      classical
      refine ⟨(Finset.range p.numCand).powerset.filter S, ?_, ?_⟩
      · intro A
        rw [Finset.mem_filter]
        exact ⟨fun h => h.2, fun h => ⟨hbound A h, h⟩⟩
      · have himg : (ds.map List.toFinset).toFinset.card = ds.length := by
          rw [List.toFinset_card_of_nodup (map_toFinset_nodup_of_lt d2.asc d2.nodup), List.length_map]
        have hsub' : (ds.map List.toFinset).toFinset ⊆ (Finset.range p.numCand).powerset.filter S := by
          intro A hA
          rw [List.mem_toFinset, List.mem_map] at hA
          obtain ⟨X, hX, rfl⟩ := hA
          rw [Finset.mem_filter]
          exact ⟨hbound _ (hsound X hX), hsound X hX⟩
        have hle := Finset.card_le_card hsub'
        rw [himg] at hle
        rcases g6 with g6 | ⟨-, g6, g7⟩
        · have : ds.length = n.toNat := by rw [d3.length_eq]; exact (Option.some.inj g6).symm
          omega
        · have h7 := g7 _ rfl
          rw [← d3.length_eq] at h7
          have heq : (Finset.range p.numCand).powerset.filter S ⊆ (ds.map List.toFinset).toFinset := by
            intro A hA
            rw [Finset.mem_filter] at hA
            obtain ⟨X, hX, rfl⟩ := hA.2
            rw [List.mem_toFinset, List.mem_map]
            exact ⟨X, d3.mem_iff.2 (g6 n₀ (by simp) X hX), rfl⟩
          have hle2 := Finset.card_le_card heq
          rw [himg] at hle2
          omega

end

end Abc
