import Verif.Model.Dispatch

/-!
# Model of the keyword arguments special to some rules

`Rule.compute` passes all keyword arguments on to the `compute_…` function of the rule id (abcrules.py:362-382, 591); a function called with a
keyword it does not know raises `TypeError`.
-/

namespace Abc

/-- The keyword arguments beyond `algorithm`, `resolute` and `max_num_of_committees` (those are in `Kwargs`); `none` = not given.
`others` are the names of all further keywords given. -/
structure Extra where
  /-- `completion` (only `compute_equal_shares`, abcrules.py:3040); the empty string counts as `None`. -/
  completion : Option Completion := none
  /-- `lexicographic_tiebreaking` (only `compute_leximaxphragmen`, abcrules.py:3595). -/
  lexTie : Option Bool := none
  /-- `skip_phragmen_phase` (only `compute_rule_x`, abcrules.py:2969, which no rule id refers to). -/
  skipPhragmen : Option Bool := none
  others : List String := []

/-- The rule ids whose function is `compute_equal_shares` (abcrules.py:240-267). -/
def equalSharesIds : List String :=
  ["rule-x", "equal-shares", "equal-shares-with-seqphragmen-completion", "equal-shares-with-av-completion",
   "equal-shares-with-increment-completion", "rule-x-without-phragmen-phase", "equal-shares-without-phragmen-phase",
   "equal-shares-without-completion"]

/-- The result with floating-point arithmetic for a completion. -/
def World.floatFor (w : World) (c : Completion) (p : Profile) (a : Args) : Except Err (List (List ℕ)) :=
  match c.ruleId with
  | .ok id => w.float id p a
  | .error e => .error e

/-- `self.compute_fct(profile, committeesize, **kwargs)` (abcrules.py:382) with all keyword arguments: a keyword given by the caller
replaces the one stored in `functools.partial(compute_equal_shares, completion=…)` (249, 255, 265). -/
def World.computeFctWith (w : World) (ruleId : String) (p : Profile) (k : ℤ) (kw : Kwargs) (e : Extra) : Except Err (List (List ℕ)) :=
  if e.others ≠ [] ∨ e.skipPhragmen.isSome then .error .typeError
  else if e.completion.isSome ∧ ruleId ∉ equalSharesIds then .error .typeError
  else if e.lexTie.isSome ∧ ruleId ≠ "leximaxphragmen" then .error .typeError
  else
    match e.completion with
    | some c =>
      let a := kw.args k (signatureDefaults ruleId).1 (signatureDefaults ruleId).2
      computeEqualShares w.env (w.floatFor c p a) c p a
    | none =>
      match e.lexTie with
      | some b =>
        let a := kw.args k (signatureDefaults ruleId).1 (signatureDefaults ruleId).2
        computeLeximaxphragmen w.env w.solve p a b
      | none => w.computeFct ruleId p k kw

/-- `abcrules.compute` (abcrules.py:559-601) with all keyword arguments. -/
def computeWith (w : World) (ruleId : String) (p : Profile) (k : ℤ) (result : Option (List (List ℕ))) (kw : Kwargs) (e : Extra) :
    Except Err (List (List ℕ)) := do
  let ri ← ruleInfo w.env ruleId
  let committees ← w.computeFctWith ruleId p k kw e
  match result with
  | none => .ok committees
  | some expected => do
    let first ← pyGet ri.resoluteValues 0
    verifyExpected committees expected (kw.resolute.getD first)
    .ok committees

end Abc
