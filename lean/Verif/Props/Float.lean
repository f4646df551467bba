import Verif.Props.FloatEph
import Verif.Props.Dispatch

/-!
# C75: `compute` with "float-fractions"
-/

namespace Abc
open Spec

/-- The rule ids with the algorithm "float-fractions" for which validity is proved for arbitrary positive weights … -/
def Spec.floatRulesAnyWeights : List String :=
  ["equal-shares-with-av-completion", "rule-x-without-phragmen-phase", "equal-shares-without-phragmen-phase",
    "equal-shares-without-completion", "phragmen-enestroem", "consensus-rule", "eph"]

/-- … and for integer weights of moderate size. -/
def Spec.floatRulesIntegerWeights : List String :=
  ["seqphragmen", "rule-x", "equal-shares", "equal-shares-with-seqphragmen-completion", "equal-shares-with-increment-completion"]

section
variable {F : Type} {A : Arith F}

/-- C75: whatever rule `compute` is called with, if the arithmetic is that of "float-fractions" then the answer is a list of committees
of the requested size (no exception, no unwanted duplicates, at most the requested number). -/
theorem C75_compute (hA : Sound A) (hF : FractionExact A) (ord : List (Voter × F) → List (Voter × F)) (hord : Rearranges ord)
    (w : World) (hiter : ∀ l, (w.iter l).Perm l) (hfl : w.float = floatFractions A ord w.iter)
    (p : Profile) (hp : p.WF) (hne : p.voters ≠ []) (k : ℕ) (hk1 : 1 ≤ k) (hk : k ≤ p.numCand) (ruleId : String)
    (hid : ruleId ∈ floatRulesAnyWeights ∨ (ruleId ∈ floatRulesIntegerWeights ∧ Moderate p k)) (h2 : ruleId = "eph" → 2 ≤ p.numCand) :
    ∃ S : Finset ℕ → Prop, (∃ X, S X) ∧
      (∀ X, S X → X ⊆ Finset.range p.numCand ∧ X.card ≤ k ∧ (ruleId ∉ withoutCompletion → X.card = k)) ∧
      ∀ a : Args, a.k = k → prologue w.env ruleId p a = .ok "float-fractions" →
        Answers a (compute w ruleId p a.committeesize none a.kw) S := by
  have fin : ∀ {S : Finset ℕ → Prop}, ValidOutcomes p k S → (∃ X, S X) ∧
      ∀ X, S X → X ⊆ Finset.range p.numCand ∧ X.card ≤ k ∧ (ruleId ∉ withoutCompletion → X.card = k) := by
    intro S h
    exact ⟨h.1, fun X hX => ⟨(h.2 X hX).1, (h.2 X hX).2.le, fun _ => (h.2 X hX).2⟩⟩
  simp only [floatRulesAnyWeights, floatRulesIntegerWeights, List.mem_cons, List.not_mem_nil, or_false] at hid
  have hcn : ∀ (rid : String) (S : Finset ℕ → Prop) (comp : Completion),
      (∀ env a, a.k = k → prologue env rid p a = .ok "float-fractions" →
        Answers a (computeEqualShares env (floatEqualShares A ord comp p a) comp p a) S) →
      ruleInfo w.env rid = ruleInfo w.env ruleId →
      (∀ a, w.run ruleId p a = computeEqualShares w.env (floatEqualShares A ord comp p a) comp p a) →
      ∀ a : Args, a.k = k → prologue w.env ruleId p a = .ok "float-fractions" →
        Answers a (compute w ruleId p a.committeesize none a.kw) S := by
    intro rid S comp h he hrun a hak hal
    rw [compute_none hal, hrun]
    exact h w.env a hak (by rw [prologue_alias he]; exact hal)
  have none : ∀ (hid : ruleId = "rule-x-without-phragmen-phase" ∨ ruleId = "equal-shares-without-phragmen-phase" ∨
      ruleId = "equal-shares-without-completion"), ∃ S : Finset ℕ → Prop, (∃ X, S X) ∧
      (∀ X, S X → X ⊆ Finset.range p.numCand ∧ X.card ≤ k ∧ (ruleId ∉ withoutCompletion → X.card = k)) ∧
      ∀ a : Args, a.k = k → prologue w.env ruleId p a = .ok "float-fractions" →
        Answers a (compute w ruleId p a.committeesize none a.kw) S := by
    intro hid
    obtain ⟨S, h1, h3, h4⟩ := C75_equal_shares_without_completion hA hord p hp hne k hk1
    refine ⟨S, h1, ?_, hcn "equal-shares-without-completion" S .none h4 ?_ ?_⟩
    · intro X hX
      refine ⟨(h3 X hX).1, (h3 X hX).2, ?_⟩
      intro h
      rcases hid with rfl | rfl | rfl <;> simp [withoutCompletion] at h
    · rcases hid with rfl | rfl | rfl <;> rfl
    · intro a
      rcases hid with rfl | rfl | rfl
      · change computeEqualShares w.env (w.float "rule-x-without-phragmen-phase" p a) .none p a = _
        rw [hfl]; rfl
      · change computeEqualShares w.env (w.float "equal-shares-without-phragmen-phase" p a) .none p a = _
        rw [hfl]; rfl
      · change computeEqualShares w.env (w.float "equal-shares-without-completion" p a) .none p a = _
        rw [hfl]; rfl
  rcases hid with (rfl | hid | hid | hid | rfl | rfl | rfl) | ⟨hid, hm⟩
  · obtain ⟨S, h1, h3⟩ := C75_equal_shares_with_av_completion hA hord p hp hne k hk1 hk
    refine ⟨S, (fin h1).1, (fin h1).2, hcn _ S .av h3 rfl ?_⟩
    intro a
    change computeEqualShares w.env (w.float "equal-shares-with-av-completion" p a) .av p a = _
    rw [hfl]; rfl
  · exact none (Or.inl hid)
  · exact none (Or.inr (Or.inl hid))
  · exact none (Or.inr (Or.inr hid))
  · obtain ⟨S, h1, h3⟩ := C75_enestroem hA p hp hne k hk1 hk
    refine ⟨S, (fin h1).1, (fin h1).2, ?_⟩
    intro a hak hal
    rw [compute_none hal]
    change Answers a (computeEnestroem w.env (w.float "phragmen-enestroem" p a) p a) S
    rw [hfl]
    exact h3 w.env a hak hal
  · obtain ⟨S, h1, h3⟩ := C75_consensus hA p hp k hk
    refine ⟨S, (fin h1).1, (fin h1).2, ?_⟩
    intro a hak hal
    rw [compute_none hal]
    change Answers a (computeConsensus w.env (w.float "consensus-rule" p a) p a) S
    rw [hfl]
    exact h3 w.env a hak hal
  · obtain ⟨S, h1, h3⟩ := C75_eph hA p (w.iter p.candidates) (hiter _) k hk1 hk (h2 rfl)
    refine ⟨S, (fin h1).1, (fin h1).2, ?_⟩
    intro a hak hal
    rw [compute_none hal]
    change Answers a (computeEph w.env (w.float "eph" p a) (w.iter p.candidates) p a) S
    rw [hfl]
    exact h3 w.env a hak hal
  · have seqp : ∀ (hid : ruleId = "rule-x" ∨ ruleId = "equal-shares" ∨ ruleId = "equal-shares-with-seqphragmen-completion"),
        ∃ S : Finset ℕ → Prop, (∃ X, S X) ∧
        (∀ X, S X → X ⊆ Finset.range p.numCand ∧ X.card ≤ k ∧ (ruleId ∉ withoutCompletion → X.card = k)) ∧
        ∀ a : Args, a.k = k → prologue w.env ruleId p a = .ok "float-fractions" →
          Answers a (compute w ruleId p a.committeesize .none a.kw) S := by
      intro hid
      obtain ⟨S, h1, h3⟩ := C75_equal_shares hA hord p hp hne k hm hk1 hk
      refine ⟨S, (fin h1).1, (fin h1).2, hcn "equal-shares" S .seqphragmen h3 ?_ ?_⟩
      · rcases hid with rfl | rfl | rfl <;> rfl
      · intro a
        rcases hid with rfl | rfl | rfl
        · change computeEqualShares w.env (w.float "rule-x" p a) .seqphragmen p a = _
          rw [hfl]; rfl
        · change computeEqualShares w.env (w.float "equal-shares" p a) .seqphragmen p a = _
          rw [hfl]; rfl
        · change computeEqualShares w.env (w.float "equal-shares-with-seqphragmen-completion" p a) .seqphragmen p a = _
          rw [hfl]; rfl
    rcases hid with rfl | hid | hid | hid | rfl
    · obtain ⟨S, h1, h3⟩ := C75_seqphragmen hA p hp k hm hk
      refine ⟨S, (fin h1).1, (fin h1).2, ?_⟩
      intro a hak hal
      rw [compute_none hal]
      change Answers a (computeSeqphragmen w.env (w.float "seqphragmen" p a) p a) S
      rw [hfl]
      exact h3 w.env a hak hal
    · exact seqp (Or.inl hid)
    · exact seqp (Or.inr (Or.inl hid))
    · exact seqp (Or.inr (Or.inr hid))
    · obtain ⟨X, h1, h3, h4⟩ := C75_equal_shares_with_increment_completion hA hF hord p hp hne k hm hk1 hk
      have hv : ValidOutcomes p k (fun Y => Y = X.toFinset) := ⟨⟨_, rfl⟩, by rintro Y rfl; exact h3⟩
      refine ⟨fun Y => Y = X.toFinset, (fin hv).1, (fin hv).2, ?_⟩
      intro a hak hal
      rw [compute_none hal]
      change Answers a (computeEqualShares w.env (w.float "equal-shares-with-increment-completion" p a) .increment p a) _
      rw [hfl]
      have hr : a.resolute = true := by
        obtain ⟨ri, h, -, -, -, -, -, hres, -⟩ := (C19_prologue_ok_iff _ _ p a _).1 hal
        obtain rfl := Except.ok.inj (show Except.ok _ = Except.ok ri from h)
        simpa using hres
      unfold Answers
      rw [hr]
      exact ⟨X, h4 w.env a hak hal, h1, rfl⟩

end

/-- C75: Python's arithmetic: 53-bit rounding to nearest, ties to even; exact ints and Fractions; `sum` any function that respects
integer bounds (`runningSum_sound`: the plain running total does).  `weight` says how a weight is stored (int, Fraction or float). -/
theorem C75_python (weight : ℚ → PyNum) (hw : ∀ q, (weight q).val = q) (hwi : ∀ z : ℤ, weight z = .int z) (sum : List PyNum → PyNum)
    (hs : SumSound PyNum.val sum) (hsi : ∀ l : List ℤ, sum (l.map PyNum.int) = .int l.sum)
    (ord : List (Voter × PyNum) → List (Voter × PyNum)) (hord : Rearranges ord)
    (w : World) (hiter : ∀ l, (w.iter l).Perm l) (hfl : w.float = floatFractions (pyArith weight sum) ord w.iter)
    (p : Profile) (hp : p.WF) (hne : p.voters ≠ []) (k : ℕ) (hk1 : 1 ≤ k) (hk : k ≤ p.numCand) (ruleId : String)
    (hid : ruleId ∈ floatRulesAnyWeights ∨ (ruleId ∈ floatRulesIntegerWeights ∧ Moderate p k)) (h2 : ruleId = "eph" → 2 ≤ p.numCand) :
    ∃ S : Finset ℕ → Prop, (∃ X, S X) ∧
      (∀ X, S X → X ⊆ Finset.range p.numCand ∧ X.card ≤ k ∧ (ruleId ∉ withoutCompletion → X.card = k)) ∧
      ∀ a : Args, a.k = k → prologue w.env ruleId p a = .ok "float-fractions" →
        Answers a (compute w ruleId p a.committeesize none a.kw) S :=
  C75_compute (pyArith_sound weight hw sum hs) (fractionExact_py weight hwi sum hsi) ord hord w hiter hfl p hp hne k hk1 hk ruleId hid h2

/-! ## The hypotheses of C75 are satisfiable -/

section
open PyNum

/-- Python with integer weights stored as ints and other weights as Fractions, and the plain `sum`. -/
def examplePython : Arith PyNum := pyArith exactWeight runningSum

/-- A system with "float-fractions". -/
def floatEnv : Env := ⟨["float-fractions"], fun _ => none, fun _ => none⟩

/-- A system with "float-fractions"; other parameters do not matter. -/
def floatWorld : World :=
  ⟨floatEnv, fun _ _ => .other, id, fun _ => .ok 0, id, fun W c => W.erase c, id, fun l n => l.take n, floatFractions examplePython id id⟩

theorem moderate_example : Moderate exampleProfile 2 := by
  refine ⟨?_, by rw [← totalWeight_eq]; norm_num [exampleProfile, Profile.totalWeight], by norm_num⟩
  intro v hv
  simp only [exampleProfile, List.mem_cons, List.not_mem_nil, or_false] at hv
  rcases hv with rfl | rfl
  · exact ⟨1, by norm_num⟩
  · exact ⟨2, by norm_num⟩

example (ruleId : String) (hid : ruleId ∈ floatRulesAnyWeights ∨ ruleId ∈ floatRulesIntegerWeights) :
    ∃ S : Finset ℕ → Prop, (∃ X, S X) ∧
      (∀ X, S X → X ⊆ Finset.range 3 ∧ X.card ≤ 2 ∧ (ruleId ∉ withoutCompletion → X.card = 2)) ∧
      ∀ a : Args, a.k = 2 → prologue floatEnv ruleId exampleProfile a = .ok "float-fractions" →
        Answers a (compute floatWorld ruleId exampleProfile a.committeesize none a.kw) S :=
  C75_python exactWeight exactWeight_val exactWeight_int runningSum runningSum_sound runningSum_ints id (fun l => List.Perm.refl l)
    floatWorld (fun l => List.Perm.refl l) rfl exampleProfile
    ⟨by decide, by decide, by decide, by intro v hv; simp [exampleProfile] at hv; rcases hv with rfl | rfl <;> norm_num⟩
    (by decide) 2 (by decide) (by decide) ruleId (hid.imp id (fun h => ⟨h, moderate_example⟩)) (by intro; decide)

example : ∀ ruleId ∈ floatRulesAnyWeights ++ floatRulesIntegerWeights,
    prologue floatEnv ruleId exampleProfile { committeesize := 2, algorithm := "float-fractions", resolute := true }
      = .ok "float-fractions" := by decide +kernel
example : compute floatWorld "seqphragmen" exampleProfile 2 none { resolute := some false } = .ok [[1, 2]] := by decide +kernel
example : compute floatWorld "equal-shares-without-completion" exampleProfile 2 none { resolute := some true } = .ok [[1]] := by
  decide +kernel
example : ∀ ruleId ∈ ["equal-shares", "equal-shares-with-av-completion", "equal-shares-with-increment-completion", "phragmen-enestroem",
    "consensus-rule"], floatWorld.float ruleId exampleProfile { committeesize := 2, algorithm := "float-fractions", resolute := true }
      = .ok [[1, 2]] := by decide +kernel

end

/-! ## Finding: weights stored as floats -/

/-- C75, finding: if the weights are stored as floats, Equal Shares with increment completion never returns (`Fraction(int, float)` is a
`TypeError`), unless fewer candidates are approved than there are seats. -/
theorem C75_float_weights_increment_fails (weight : ℚ → PyNum) (sum : List PyNum → PyNum) (ord : List (Voter × PyNum) → List (Voter × PyNum))
    (p : Profile) (hne : p.voters ≠ []) (hw : ∀ v ∈ p.voters, ∃ x, weight v.weight = .float x)
    (hs : ∀ l, l ≠ [] → (∀ y ∈ l, ∃ x, y = .float x) → ∃ x, sum l = .float x) (env : Env) (a : Args)
    (hal : prologue env "equal-shares-with-increment-completion" p a = .ok "float-fractions") (hap : a.k ≤ p.approvedCandidates.length) :
    ∃ e ∈ [Err.typeError, Err.runtimeError],
      computeEqualShares env (floatEqualShares (pyArith weight sum) ord .increment p a) .increment p a = .error e := by
  have hcomp : computeEqualShares env (floatEqualShares (pyArith weight sum) ord .increment p a) .increment p a
      = fIncrementLoop (pyArith weight sum) ord p a.k (fIncrementRange (pyArith weight sum) p a.k) >>= sortedCommittees := by
    unfold computeEqualShares equalSharesIncrement floatEqualShares
    simp only [Completion.ruleId, bind, Except.bind, hal, if_true, withFractions_float, if_neg (Nat.not_lt.2 hap)]
  obtain ⟨x, hx⟩ : ∃ x, fTotalWeight (pyArith weight sum) p = .float x := by
    refine hs _ (by simpa using hne) fun y hy => ?_
    obtain ⟨v, hv, rfl⟩ := List.mem_map.1 hy
    exact hw v hv
  rw [hcomp]
  cases fIncrementRange (pyArith weight sum) p a.k with
  | nil => exact ⟨_, by simp, rfl⟩
  | cons i is =>
    refine ⟨.typeError, by simp, ?_⟩
    rw [fIncrementLoop, hx]
    rfl

/-- The plain running total of floats is a float. -/
theorem runningSum_float (l : List PyNum) (hl : l ≠ []) (h : ∀ y ∈ l, ∃ x, y = .float x) : ∃ x, PyNum.runningSum l = .float x := by
  have main : ∀ (l : List PyNum) (x : ℚ), (∀ y ∈ l, ∃ x, y = .float x) →
      ∃ y, l.foldl (PyNum.arith (· + ·) (· + ·)) (.float x) = .float y := by
    intro l
    induction l with
    | nil => exact fun x _ => ⟨x, rfl⟩
    | cons a l ih =>
      intro x h
      obtain ⟨y, rfl⟩ := h a (by simp)
      exact ih _ (fun z hz => h z (by simp [hz]))
  cases l with
  | nil => exact absurd rfl hl
  | cons a l =>
    obtain ⟨y, rfl⟩ := h a (by simp)
    exact main l _ (fun z hz => h z (by simp [hz]))

/-- A concrete case: the weights 1 and 2 stored as the floats 1.0 and 2.0. -/
example : computeEqualShares floatEnv (floatEqualShares (pyArith PyNum.float PyNum.runningSum) id .increment exampleProfile
    { committeesize := 2, algorithm := "float-fractions", resolute := true }) .increment exampleProfile
    { committeesize := 2, algorithm := "float-fractions", resolute := true } = .error .typeError := by decide +kernel

end Abc
