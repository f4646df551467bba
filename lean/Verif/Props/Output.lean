import Verif.Model.Output
import Verif.Props.Check

/-!
# C65: output and `full_analysis`
-/

namespace Abc
open Spec

/-- The text shown for a message. -/
def Spec.shown (fill : Name → Name → Name) (m : Msg) : Name := if m.wrap then wrapText fill m.indent m.text else m.text

/-- The verbosity after a history: the last one set, or the initial one. -/
def Spec.verbosityAfter (v₀ : ℤ) : List OutputOp → ℤ
  | [] => v₀
  | .setVerbosity v :: ops => verbosityAfter v ops
  | .print _ :: ops => verbosityAfter v₀ ops

/-- The messages of a history that are at least as important as the verbosity at that moment. -/
def Spec.visible (v₀ : ℤ) : List OutputOp → List Msg
  | [] => []
  | .setVerbosity v :: ops => visible v ops
  | .print m :: ops => if v₀ ≤ m.level.value then m :: visible v₀ ops else visible v₀ ops

theorem print_spec (fill : Name → Name → Name) (o : Output) (m : Msg) :
    (o.print fill m).verbosity = o.verbosity ∧ (o.print fill m).logger = o.logger ∧
    (o.print fill m).printed = o.printed ++ (if o.verbosity ≤ m.level.value then [shown fill m] else []) := by
  unfold Output.print shown
  by_cases h : o.verbosity ≤ m.level.value <;> by_cases hl : o.logger = true <;> simp [h, hl]

theorem C65_print_verbosity (fill : Name → Name → Name) (o : Output) (m : Msg) :
    (o.print fill m).verbosity = o.verbosity := (print_spec fill o m).1

/-- C65: after any history the terminal shows, in order, exactly the messages whose level was at least the verbosity set last
before; the presence of a logger makes no difference. -/
theorem C65_printed (fill : Name → Name → Name) (o : Output) (ops : List OutputOp) :
    (o.run fill ops).printed = o.printed ++ (visible o.verbosity ops).map (shown fill) ∧
    (o.run fill ops).verbosity = verbosityAfter o.verbosity ops := by
  unfold Output.run
  induction ops generalizing o with
  | nil => simp [visible, verbosityAfter]
  | cons op ops ih =>
    rw [List.foldl_cons]
    obtain ⟨h1, h2⟩ := ih (o.step fill op)
    rw [h1, h2]
    cases op with
    | setVerbosity v => exact ⟨rfl, rfl⟩
    | print m =>
      obtain ⟨g1, -, g3⟩ := print_spec fill o m
      refine ⟨?_, ?_⟩
      · show (o.print fill m).printed ++ (visible (o.print fill m).verbosity ops).map (shown fill) = _
        rw [g3, g1]
        rw [visible]
        split <;> simp
      · show verbosityAfter (o.print fill m).verbosity ops = _
        rw [g1]
        rfl

theorem C65_print_all (fill : Name → Name → Name) (o : Output) (ms : List Msg) :
    (o.printAll fill ms).verbosity = o.verbosity ∧
    (o.printAll fill ms).printed = o.printed ++ ((ms.filter (fun m => decide (o.verbosity ≤ m.level.value))).map (shown fill)) := by
  unfold Output.printAll
  induction ms generalizing o with
  | nil => simp
  | cons m ms ih =>
    rw [List.foldl_cons]
    obtain ⟨h1, h2⟩ := ih (o.print fill m)
    obtain ⟨g1, -, g3⟩ := print_spec fill o m
    refine ⟨by rw [h1, g1], ?_⟩
    rw [h2, g3, g1, List.filter_cons]
    by_cases h : o.verbosity ≤ m.level.value <;> simp [h]

/-- C65: the seven levels are ordered debug2 < debug < details < info < warning < error < critical, with the numbers of the logging
module for the five levels that module knows. -/
theorem C65_levels : ([.debug2, .debug, .details, .info, .warning, .error, .critical] : List Level).Pairwise (fun l l' => l.value < l'.value) ∧
    [Level.debug.value, Level.info.value, Level.warning.value, Level.error.value, Level.critical.value] = [10, 20, 30, 40, 50] := by
  refine ⟨?_, rfl⟩
  decide

/-- C65: the logger receives every message, whatever the verbosity. -/
theorem C65_logged (fill : Name → Name → Name) (o : Output) (m : Msg) (hl : o.logger = true) :
    ∃ t, (o.print fill m).logged = o.logged ++ [(if m.level = .details ∨ m.level = .debug2 then 10 else m.level.value, t)] ∧
      (t = m.text ∨ t = shown fill m) := by
  unfold Output.print shown
  have e : Level.debug.value = 10 := rfl
  rw [e]
  generalize m.level.value = lv
  by_cases h : o.verbosity ≤ lv <;> by_cases hw : m.wrap = true <;> simp [h, hl, hw]

theorem analysisLoop_spec (fill : Name → Name → Name) (chk : String → Except Err Bool) (msgs : String → List Msg) (names : List String)
    (hq : ∀ name ∈ names, ∀ m ∈ msgs name, m.level.value < 30) (o : Output) (ho : o.verbosity = 30) (results : List (String × Bool)) :
    (analysisLoop fill chk msgs names o results).1.verbosity = 30 ∧
    (analysisLoop fill chk msgs names o results).1.printed = o.printed ∧
    ((∃ bs, (analysisLoop fill chk msgs names o results).2 = .ok (results ++ bs) ∧ bs.map Prod.fst = names ∧
        ∀ x ∈ bs, chk x.1 = .ok x.2) ∨
      ∃ good bad rest e, names = good ++ bad :: rest ∧ (∀ n ∈ good, ∃ b, chk n = .ok b) ∧ chk bad = .error e ∧
        (analysisLoop fill chk msgs names o results).2 = .error e) := by
  induction names generalizing o results with
  | nil => exact ⟨ho, rfl, Or.inl ⟨[], by simp [analysisLoop], rfl, by simp⟩⟩
  | cons n names ih =>
    obtain ⟨g1, g2⟩ := C65_print_all fill o (msgs n)
    have g3 : (o.printAll fill (msgs n)).printed = o.printed := by
      rw [g2, ho, List.filter_eq_nil_iff.2]
      · simp
      · intro m hm
        have := hq n (by simp) m hm
        simp only [decide_eq_true_eq]
        omega
    unfold analysisLoop
    cases hc : chk n with
    | error e =>
      dsimp only
      exact ⟨by rw [g1, ho], g3, Or.inr ⟨[], n, names, e, rfl, by simp, hc, rfl⟩⟩
    | ok b =>
      dsimp only
      obtain ⟨k1, k2, k3⟩ := ih (fun x hx => hq x (by simp [hx])) (o.printAll fill (msgs n)) (by rw [g1, ho]) (results ++ [(n, b)])
      refine ⟨k1, by rw [k2, g3], ?_⟩
      rcases k3 with ⟨bs, a1, a2, a3⟩ | ⟨good, bad, rest, e, a1, a2, a3, a4⟩
      · refine Or.inl ⟨(n, b) :: bs, by rw [a1]; simp, by simp [a2], ?_⟩
        intro x hx
        rcases List.mem_cons.1 hx with rfl | hx
        · exact hc
        · exact a3 x hx
      · refine Or.inr ⟨n :: good, bad, rest, e, by simp [a1], ?_, a3, a4⟩
        intro x hx
        rcases List.mem_cons.1 hx with rfl | hx
        · exact ⟨b, hc⟩
        · exact a2 x hx

/-- C65: if all checks return, `full_analysis` returns their values under the nine property names, leaves the verbosity as it was,
prints nothing during the checks, and afterwards one line per property iff the verbosity is INFO or lower.
(`hq`: the checks only print messages below WARNING, as is the case in properties.py.) -/
theorem C65_full_analysis (fill : Name → Name → Name) (chk : String → Except Err Bool) (msgs : String → List Msg)
    (line : String → Bool → Name) (o : Output) (hq : ∀ name ∈ propertyNames, ∀ m ∈ msgs name, m.level.value < 30)
    (hc : ∀ name ∈ propertyNames, ∃ b, chk name = .ok b) :
    ∃ bs, (fullAnalysisWith fill chk msgs line o).2 = .ok bs ∧ bs.map Prod.fst = propertyNames ∧ (∀ x ∈ bs, chk x.1 = .ok x.2) ∧
      (fullAnalysisWith fill chk msgs line o).1.verbosity = o.verbosity ∧
      (fullAnalysisWith fill chk msgs line o).1.printed =
        o.printed ++ (if o.verbosity ≤ 20 then bs.map (fun x => wrapText fill [] (line x.1 x.2)) else []) := by
  obtain ⟨h1, h2, h3⟩ := analysisLoop_spec fill chk msgs propertyNames hq (o.setVerbosity 30) rfl []
  unfold fullAnalysisWith
  have e : Level.warning.value = 30 := rfl
  rw [e]
  dsimp only
  generalize analysisLoop fill chk msgs propertyNames (o.setVerbosity 30) [] = r at h1 h2 h3
  obtain ⟨o', r⟩ := r
  rcases h3 with ⟨bs, a1, a2, a3⟩ | ⟨good, bad, rest, e, a1, a2, a3, a4⟩
  · dsimp only at a1 h1 h2
    subst a1
    dsimp only
    obtain ⟨k1, k2⟩ := C65_print_all fill (o'.setVerbosity o.verbosity)
      ((List.map (fun r => ({ level := Level.info, text := line r.1 r.2 } : Msg)) ([] ++ bs)))
    refine ⟨bs, by simp, a2, a3, k1, ?_⟩
    rw [k2]
    show o'.printed ++ _ = _
    rw [h2]
    show o.printed ++ _ = _
    congr 1
    simp only [List.nil_append, Output.setVerbosity]
    by_cases h : o.verbosity ≤ 20
    · rw [if_pos h, List.filter_eq_self.2]
      · rw [List.map_map]
        rfl
      · intro m hm
        obtain ⟨x, -, rfl⟩ := List.mem_map.1 hm
        exact decide_eq_true h
    · rw [if_neg h, List.filter_eq_nil_iff.2]
      · rfl
      · intro m hm
        obtain ⟨x, -, rfl⟩ := List.mem_map.1 hm
        intro hd
        exact h (of_decide_eq_true hd)
  · obtain ⟨b, hb⟩ := hc bad (by rw [a1]; simp)
    rw [hb] at a3
    simp at a3

/-- C65, finding: if a check raises an exception, `full_analysis` raises it and the verbosity stays at WARNING, whatever it was. -/
theorem C65_full_analysis_raises (fill : Name → Name → Name) (chk : String → Except Err Bool) (msgs : String → List Msg)
    (line : String → Bool → Name) (o : Output) (hq : ∀ name ∈ propertyNames, ∀ m ∈ msgs name, m.level.value < 30)
    (hc : ∃ name ∈ propertyNames, ∃ e, chk name = .error e) :
    (∃ e, (fullAnalysisWith fill chk msgs line o).2 = .error e) ∧ (fullAnalysisWith fill chk msgs line o).1.verbosity = 30 ∧
      (fullAnalysisWith fill chk msgs line o).1.printed = o.printed := by
  obtain ⟨h1, h2, h3⟩ := analysisLoop_spec fill chk msgs propertyNames hq (o.setVerbosity 30) rfl []
  unfold fullAnalysisWith
  have e : Level.warning.value = 30 := rfl
  rw [e]
  dsimp only
  generalize analysisLoop fill chk msgs propertyNames (o.setVerbosity 30) [] = r at h1 h2 h3
  obtain ⟨o', r⟩ := r
  rcases h3 with ⟨bs, a1, a2, a3⟩ | ⟨good, bad, rest, e, a1, a2, a3, a4⟩
  · obtain ⟨n, hn, e, he⟩ := hc
    rw [← a2] at hn
    obtain ⟨x, hx, rfl⟩ := List.mem_map.1 hn
    rw [a3 x hx] at he
    simp at he
  · dsimp only at a4 h1 h2
    subst a4
    exact ⟨⟨e, rfl⟩, h1, h2⟩

/-- C65: `full_analysis(profile, committee)` for a profile with at least one voter and a non-empty committee: it returns, for each of
the nine properties, whether the committee has the property, and restores the verbosity. -/
theorem C65_full_analysis_correct {solve : Program → SolveResult} {solveMax : MaxProgram → SolveResult} (hs : ExactSolver solve)
    (hm : ExactMaxSolver solveMax) (ap : List ℕ) {p : Profile} (hp : p.WF) (hv : p.voters ≠ []) {W : List ℕ} (hW : W.Nodup)
    (hlt : ∀ c ∈ W, c < p.numCand) (hne : W ≠ []) (fill : Name → Name → Name) (msgs : String → List Msg) (line : String → Bool → Name)
    (o : Output) (hq : ∀ name ∈ propertyNames, ∀ m ∈ msgs name, m.level.value < 30) :
    ∃ bs, (fullAnalysis fill solve solveMax ap msgs line p (W.map Int.ofNat) o).2 = .ok bs ∧ bs.map Prod.fst = propertyNames ∧
      (∀ x ∈ bs, x.2 = true ↔ Satisfies x.1 p W.toFinset (total p / W.length)) ∧
      (fullAnalysis fill solve solveMax ap msgs line p (W.map Int.ofNat) o).1.verbosity = o.verbosity := by
  have hck := fun {name : String} (hn : name ∈ propertyNames) =>
    C60_check hs hm ap hp hW hlt (Or.inl rfl) hv hne (algorithm := "fastest") hn
  obtain ⟨bs, h1, h2, h3, h4, -⟩ := C65_full_analysis fill
    (fun name => check solve solveMax ap name p (W.map Int.ofNat) none "fastest") msgs line o hq
    (fun name hn => by obtain ⟨b, hb, -⟩ := hck hn; exact ⟨b, hb⟩)
  refine ⟨bs, h1, h2, ?_, h4⟩
  intro x hx
  have hn : x.1 ∈ propertyNames := by rw [← h2]; exact List.mem_map_of_mem hx
  obtain ⟨b, hb, hb'⟩ := hck hn
  have := h3 x hx
  rw [hb] at this
  rw [← hb', Except.ok.inj this]

/-- C65, finding: e.g. a committee with a duplicate raises ValueError and leaves the verbosity at WARNING. -/
theorem C65_full_analysis_bad_committee (solve : Program → SolveResult) (solveMax : MaxProgram → SolveResult) (ap : List ℕ) (p : Profile)
    (W : List ℤ) (hW : ¬ W.Nodup) (fill : Name → Name → Name) (msgs : String → List Msg) (line : String → Bool → Name) (o : Output)
    (hq : ∀ name ∈ propertyNames, ∀ m ∈ msgs name, m.level.value < 30) :
    (∃ e, (fullAnalysis fill solve solveMax ap msgs line p W o).2 = .error e) ∧
      (fullAnalysis fill solve solveMax ap msgs line p W o).1.verbosity = 30 := by
  obtain ⟨h1, h2, -⟩ := C65_full_analysis_raises fill (fun name => check solve solveMax ap name p W none "fastest") msgs line o hq
    ⟨"pareto", by decide, .valueError, by
      rw [check_pareto]
      unfold checkParetoOptimality candidateSet
      rw [if_pos hW]
      rfl⟩
  exact ⟨h1, h2⟩

/-- The hypotheses on the messages can be met, non-vacuously. -/
example : ∀ name ∈ propertyNames, ∀ m ∈ (fun n : String => [({ level := .info, text := n.toList } : Msg),
    { level := .details, text := [], wrap := false }]) name, m.level.value < 30 := by decide

example : visible 30 [.print ⟨.info, ['a'], true, []⟩, .setVerbosity 20, .print ⟨.info, ['b'], true, []⟩, .print ⟨.debug, ['c'], true, []⟩] =
    [⟨.info, ['b'], true, []⟩] := rfl

end Abc
