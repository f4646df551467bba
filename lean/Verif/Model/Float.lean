import Verif.Model.EqualShares
import Verif.Model.Other

/-!
# Model of the algorithm "float-fractions"

The rules seqphragmen, equal-shares (all completions), phragmen-enestroem, consensus-rule and eph offer the algorithm
"float-fractions" (the first, and hence the default, in their lists of algorithms): the same code with Python's ordinary numbers,
where `division` is `/` and equality of scores is `misc.isclose`.

The numbers of such a run are Python objects (ints, floats, Fractions).  Here they are elements of an arbitrary type `F`; `Arith F`
lists the operations the code uses.  Every object has a rational value `val` (no overflow, no NaN), and comparisons of numbers compare
the values, which is what Python does for ints, floats and Fractions.  `Verif/Model/PyNum.lean` defines Python's arithmetic.
-/

namespace Abc

/-- The numbers and operations used by "float-fractions". -/
structure Arith (F : Type) where
  /-- the value of a number -/
  val : F → ℚ
  /-- a Python `int` -/
  int : ℤ → F
  /-- the object stored as weight of a voter -/
  weight : ℚ → F
  /-- `x + y` -/
  add : F → F → F
  /-- `x - y` -/
  sub : F → F → F
  /-- `x * y` -/
  mul : F → F → F
  /-- `x / y` for `y` different from zero -/
  div : F → F → F
  /-- `-x` -/
  neg : F → F
  /-- the built-in function `sum` -/
  sum : List F → F
  /-- `misc.isclose` (misc.py:426-439) -/
  isclose : F → F → Bool
  /-- `Fraction(n, x)`; raises TypeError if `x` is a float -/
  fraction : ℕ → F → Except Err F

namespace Arith
variable {F : Type} (A : Arith F)

/-- `x / y` (`division` in abcrules.py:2804 etc.). -/
def pyDiv (x y : F) : Except Err F := if A.val y = 0 then .error .zeroDivisionError else .ok (A.div x y)

/-- `min(a, b)`: the first argument unless the second one is smaller. -/
def min2 (a b : F) : F := if A.val b < A.val a then b else a

/-- `max(a, b)`: the first argument unless the second one is larger. -/
def max2 (a b : F) : F := if A.val a < A.val b then b else a

/-- `min(l)`; ValueError for an empty list. -/
def minOf : List F → Except Err F
  | [] => .error .valueError
  | x :: xs => .ok (xs.foldl A.min2 x)

/-- `max(l)`; ValueError for an empty list. -/
def maxOf : List F → Except Err F
  | [] => .error .valueError
  | x :: xs => .ok (xs.foldl A.max2 x)

end Arith

/-! ## seq-Phragmén (abcrules.py:2797-2960) -/

section
variable {F : Type} (A : Arith F)

/-- `approvers_weight[cand]` (abcrules.py:2816-2818, 2894-2896). -/
def fApproversWeight (p : Profile) (cand : ℕ) : F :=
  A.sum ((p.voters.filter (fun v => decide (cand ∈ v.approved))).map (fun v => A.weight v.weight))

/-- `approvers_load[cand]` (abcrules.py:2834-2838, 2912-2916). -/
def fApproversLoad (p : Profile) (load : List F) (cand : ℕ) : F :=
  A.sum (((p.voters.zip load).filter (fun vl => decide (cand ∈ vl.1.approved))).map
    (fun vl => A.mul (A.weight vl.1.weight) vl.2))

/-- `new_maxload` (abcrules.py:2839-2848, 2917-2926); the divisor is positive in the branch that divides. -/
def fNewMaxload (p : Profile) (k : ℕ) (committee : List ℕ) (load : List F) : List F :=
  p.candidates.map (fun cand =>
    if cand ∈ committee then A.int (k + 2)
    else if A.val (fApproversWeight A p cand) > 0 then
      A.div (A.add (fApproversLoad A p load cand) (A.int 1)) (fApproversWeight A p cand)
    else A.int (k + 1))

/-- `tied_cands` (abcrules.py:2849-2854) and the candidates with `select_cand` (2929-2934). -/
def fPhragTied (p : Profile) (new : List F) : Except Err (List ℕ) := do
  let opt ← A.minOf new
  .ok (p.candidates.filter (fun cand => A.isclose (new.getD cand (A.int 0)) opt))

/-- The new loads (abcrules.py:2858-2860, 2936-2941). -/
def fUpdateLoad (p : Profile) (load : List F) (cand : ℕ) (newLoad : F) : List F :=
  List.zipWith (fun v x => if cand ∈ v.approved then newLoad else x) p.voters load

/-- The loop of `_seqphragmen_resolute` (abcrules.py:2833-2866); first argument: remaining iterations. -/
def fSeqphragmenLoop (p : Profile) (k : ℕ) : ℕ → List ℕ → List F → Except Err (List ℕ)
  | 0, committee, _ => .ok committee
  | n + 1, committee, load => do
    let new := fNewMaxload A p k committee load
    let tied ← fPhragTied A p new
    let next ← pyGet tied 0
    fSeqphragmenLoop p k n (sortNat (committee ++ [next])) (fUpdateLoad p load next (new.getD next (A.int 0)))

/-- `_seqphragmen_resolute` (abcrules.py:2797-2869). -/
def fSeqphragmenResolute (p : Profile) (k : ℕ) (startLoad : List F) (partialCommittee : List ℕ) :
    Except Err (List (List ℕ)) := do
  let committee ← fSeqphragmenLoop A p k (k - partialCommittee.length) partialCommittee startLoad
  .ok [committee]

/-- The extensions computed in one iteration of `_seqphragmen_irresolute` (abcrules.py:2912-2942). -/
def fSeqphragmenSuccs (p : Profile) (k : ℕ) (n : List ℕ × List F) : Except Err (List (List ℕ × List F)) := do
  let new := fNewMaxload A p k n.1 n.2
  let tied ← fPhragTied A p new
  .ok (tied.map (fun c => (n.1 ++ [c], fUpdateLoad p n.2 c (new.getD c (A.int 0)))))

/-- `_seqphragmen_irresolute` (abcrules.py:2872-2960). -/
def fSeqphragmenIrresolute (p : Profile) (k : ℕ) (max : Option ℕ) (startLoad : List F) (partialCommittee : List ℕ) :
    Except Err (List (List ℕ)) := do
  let winning ← universes (fun n => decide (n.1.length = k)) (fun n => sortNat n.1) (fSeqphragmenSuccs A p k) max
    (dfsFuel p k) [(partialCommittee, startLoad)] []
  sortedCommittees winning

/-- `[0 for _ in range(len(profile))]` (abcrules.py:2819-2821, 2898-2900, 4169). -/
def fZero (p : Profile) : List F := List.replicate p.voters.length (A.int 0)

/-- The call of the algorithm in `compute_seqphragmen` (abcrules.py:2725-2737) for "float-fractions". -/
def floatSeqphragmen (p : Profile) (a : Args) : Except Err (List (List ℕ)) :=
  if a.resolute then fSeqphragmenResolute A p a.k (fZero A p) []
  else fSeqphragmenIrresolute A p a.k a.maxNum (fZero A p) []

/-! ## Equal Shares (abcrules.py:3244-3482) -/

/-- `budget[v] < _q * profile[v].weight and not misc.isclose(budget[v], _q * profile[v].weight)` (abcrules.py:3263-3270). -/
def fPoor (q : F) (vb : Voter × F) : Bool :=
  decide (A.val vb.2 < A.val (A.mul q (A.weight vb.1.weight))) && ! A.isclose vb.2 (A.mul q (A.weight vb.1.weight))

/-- The `while` loop of `_equal_shares_get_min_q` (abcrules.py:3258-3275); `ord` is the order in which Python iterates over the
sets `rich` and `poor` (here: lists of entries (voter, budget)). -/
def fMinQLoop (ord : List (Voter × F) → List (Voter × F)) :
    ℕ → List (Voter × F) → List (Voter × F) → Except Err (Option F)
  | 0, _, _ => .error .outOfFuel
  | fuel + 1, rich, poor =>
    if rich.length = 0 then .ok none
    else do
      let poorBudget := A.sum ((ord poor).map Prod.snd)
      let q ← A.pyDiv (A.sub (A.int 1) poorBudget) (A.sum ((ord rich).map (fun vb => A.weight vb.1.weight)))
      let newPoor := rich.filter (fPoor A q)
      if newPoor.length = 0 then .ok (some q)
      else fMinQLoop ord fuel (rich.filter (fun vb => ! fPoor A q vb)) (poor ++ newPoor)

/-- `_equal_shares_get_min_q` (abcrules.py:3255-3275). -/
def fGetMinQ (ord : List (Voter × F) → List (Voter × F)) (p : Profile) (budget : List F) (cand : ℕ) : Except Err (Option F) :=
  fMinQLoop A ord (p.voters.length + 1) ((p.voters.zip budget).filter (fun vb => decide (cand ∈ vb.1.approved))) []

/-- The dictionary `min_q` in insertion order (abcrules.py:3381-3386). -/
def fMesPrices (ord : List (Voter × F) → List (Voter × F)) (p : Profile) (budget : List F) :
    List ℕ → Except Err (List (ℕ × F))
  | [] => .ok []
  | cand :: cands => do
    let q ← fGetMinQ A ord p budget cand
    let rest ← fMesPrices ord p budget cands
    match q with
    | none => .ok rest
    | some q => .ok ((cand, q) :: rest)

/-- `new_budget` (abcrules.py:3394-3397). -/
def fMesBudget (p : Profile) (budget : List F) (cand : ℕ) (q : F) : List F :=
  List.zipWith (fun v b => if cand ∈ v.approved then A.sub b (A.min2 b (A.mul q (A.weight v.weight))) else b) p.voters budget

/-- `sorted(tied_cands)` with their prices (abcrules.py:3277-3284, 3390-3393); the keys of `min_q` are in ascending order already,
so sorting leaves them as they are.  Only the first one if `resolute` (3420-3421). -/
def fMesTied (resolute : Bool) (minQ : List (ℕ × F)) : Except Err (List (ℕ × F)) := do
  let m ← A.minOf (minQ.map Prod.snd)
  let tied := minQ.filter (fun cq => A.isclose cq.2 m)
  .ok (if resolute then tied.take 1 else tied)

/-- `none`: no affordable candidate; otherwise the extended nodes (abcrules.py:3379-3399). -/
def fMesSuccs (ord : List (Voter × F) → List (Voter × F)) (p : Profile) (resolute : Bool) (n : List ℕ × List F) :
    Except Err (Option (List (List ℕ × List F))) := do
  let minQ ← fMesPrices A ord p n.2 (available p n.1)
  if minQ.length > 0 then do
    let tied ← fMesTied A resolute minQ
    .ok (some (tied.map (fun cq => (n.1 ++ [cq.1], fMesBudget A p n.2 cq.1 cq.2))))
  else .ok none

/-- `phragmen_phase` (abcrules.py:3286-3313); weights are positive (preferences.py, `Voter.__init__`). -/
def fPhragmenPhase (p : Profile) (k : ℕ) (resolute : Bool) (committee : List ℕ) (budget : List F) :
    Except Err (List (List ℕ)) := do
  let startLoad := List.zipWith (fun (v : Voter) b => A.div (A.neg b) (A.weight v.weight)) p.voters budget
  let committees ←
    if resolute then fSeqphragmenResolute A p k startLoad committee
    else fSeqphragmenIrresolute A p k none startLoad committee
  .ok (committees.map sortNat)

/-- What is done when no affordable candidate remains (abcrules.py:3426-3435). -/
def fMesComplete (p : Profile) (k : ℕ) (resolute : Bool) (completion : Completion) (n : List ℕ × List F) :
    Except Err (List (List ℕ)) :=
  match completion with
  | .none => .ok [sortNat n.1]
  | .seqphragmen => fPhragmenPhase A p k resolute n.1 n.2
  | .av => avPhase p k n.1
  | _ => .error .valueError

end

/-- The main loop of Equal Shares (abcrules.py:3378-3441) for given `succs` (`none`: nothing is affordable) and `complete`; result:
`winning_committees` before the last `sorted_committees`.  The head of the list is the top of the Python stack. -/
def completionLoop {N : Type} (full : N → Bool) (out : N → List ℕ) (succs : N → Except Err (Option (List N)))
    (complete : N → Except Err (List (List ℕ))) (max : Option ℕ) :
    ℕ → List N → List (List ℕ) → Except Err (List (List ℕ))
  | _, [], winning => .ok winning
  | 0, _ :: _, _ => .error .outOfFuel
  | fuel + 1, n :: rest, winning => do
    let ns ← succs n
    let r : Sum (List (List ℕ)) (List N × List (List ℕ)) ←
      match ns with
      | some ns => .ok (expandLoop full out max ns [] winning)
      | none => (do let new ← complete n; .ok (.inr ([], new.foldl setAdd winning)))
    match r with
    | .inl winning' => .ok winning'
    | .inr (newPairs, winning') =>
      if boundReached max winning'.length then (do let s ← sortedCommittees winning'; .ok (truncate max s))
      else completionLoop full out succs complete max fuel (newPairs ++ rest) winning'

section
variable {F : Type} (A : Arith F)

/-- `profile.total_weight()` (preferences.py:137-147). -/
def fTotalWeight (p : Profile) : F := A.sum (p.voters.map (fun v => A.weight v.weight))

/-- `start_budget` (abcrules.py:3360-3366); `if per_voter_budget:` is false for `None` and 0. -/
def fStartBudget (p : Profile) (k : ℕ) (perVoterBudget : Option F) : Except Err (List F) :=
  match perVoterBudget.filter (fun b => decide (A.val b ≠ 0)) with
  | some b => .ok (p.voters.map (fun v => A.mul (A.weight v.weight) b))
  | none => p.voters.mapM (fun v => A.pyDiv (A.mul (A.weight v.weight) (A.int k)) (fTotalWeight A p))

/-- `_equal_shares_algorithm` (abcrules.py:3244-3441). -/
def fEqualSharesAlgorithm (ord : List (Voter × F) → List (Voter × F)) (p : Profile) (k : ℕ) (resolute : Bool) (max : Option ℕ)
    (completion : Completion) (perVoterBudget : Option F) : Except Err (List (List ℕ)) := do
  let max := if resolute then some 1 else max
  let start ← fStartBudget A p k perVoterBudget
  let winning ← completionLoop (fun n => decide (n.1.length = k)) (fun n => sortNat n.1) (fMesSuccs A ord p resolute)
    (fMesComplete A p k resolute completion) max (dfsFuel p k) [([], start)] []
  sortedCommittees winning

/-- The loop of `_equal_shares_algorithm_with_increment_completion` (abcrules.py:3462-3482) over a list of increments. -/
def fIncrementLoop (ord : List (Voter × F) → List (Voter × F)) (p : Profile) (k : ℕ) : List ℕ → Except Err (List (List ℕ))
  | [] => .error .runtimeError
  | inc :: incs => do
    let b ← A.fraction inc (fTotalWeight A p)
    let committees ← fEqualSharesAlgorithm A ord p k true none .none (some b)
    let committees := committees.filter (fun c => decide (c.length = k))
    if committees.any (fun c => decide (c.length > k)) then .error .runtimeError
    else if committees.length ≠ 0 then .ok committees
    else fIncrementLoop ord p k incs

/-- `range(committeesize, math.ceil(committeesize * profile.total_weight() + 1))` (abcrules.py:3462-3464). -/
def fIncrementRange (p : Profile) (k : ℕ) : List ℕ :=
  (List.range ⌈A.val (A.add (A.mul (A.int k) (fTotalWeight A p)) (A.int 1))⌉.toNat).filter (fun i => decide (k ≤ i))

/-- The part of `compute_equal_shares` that depends on the arithmetic (abcrules.py:3123-3137, 3462-3482), for
"float-fractions". -/
def floatEqualShares (ord : List (Voter × F) → List (Voter × F)) (completion : Completion) (p : Profile) (a : Args) :
    Except Err (List (List ℕ)) :=
  if completion = .increment then fIncrementLoop A ord p a.k (fIncrementRange A p a.k)
  else fEqualSharesAlgorithm A ord p a.k a.resolute a.maxNum completion none

/-! ## Phragmén-Eneström (abcrules.py:3987-4062) and the consensus rule (4149-4221) -/

/-- `support[cand]` (abcrules.py:4018-4025, 4179-4187): a running total over the voters that are not skipped. -/
def fSupport (skip : F → Bool) (p : Profile) (budget : List F) (cand : ℕ) : F :=
  (((p.voters.zip budget).filter (fun vb => ! skip vb.2 && decide (cand ∈ vb.1.approved))).map Prod.snd).foldl A.add (A.int 0)

/-- `tied_cands` and `max_support` (abcrules.py:4026-4034, 4188-4196).  The keys of `support` are in ascending order. -/
def fMaxSupport (skip : F → Bool) (p : Profile) (committee : List ℕ) (budget : List F) : Except Err (List ℕ × F) := do
  let avail := available p committee
  let maxSupp ← A.maxOf (avail.map (fSupport A skip p budget))
  let tied := avail.filter (fun c => A.isclose (fSupport A skip p budget c) maxSupp)
  if tied = [] then .error .runtimeError else .ok (tied, maxSupp)

/-- `if voting_power <= 0: continue` (abcrules.py:4021). -/
def fBroke (b : F) : Bool := decide (A.val b ≤ 0)

/-- `(budget[i] <= 0) or misc.isclose(budget[i], 0)` (abcrules.py:4182). -/
def fNearlyBroke (b : F) : Bool := decide (A.val b ≤ 0) || A.isclose b (A.int 0)

/-- The extensions computed in one iteration of `_phragmen_enestroem_algorithm` (abcrules.py:4016-4046). -/
def fEnestroemSuccs (p : Profile) (price : F) (n : List ℕ × List F) : Except Err (List (List ℕ × List F)) := do
  let (tied, maxSupp) ← fMaxSupport A (fBroke A) p n.1 n.2
  let multiplier ←
    if A.val maxSupp > A.val price then A.pyDiv (A.sub maxSupp price) maxSupp else .ok (A.int 0)
  .ok (tied.map (fun cand => (n.1 ++ [cand],
    List.zipWith (fun v b => if cand ∈ v.approved then A.mul b multiplier else b) p.voters n.2)))

/-- `_phragmen_enestroem_algorithm` (abcrules.py:3987-4062) for "float-fractions". -/
def floatEnestroem (p : Profile) (a : Args) : Except Err (List (List ℕ)) := do
  let price ← A.pyDiv (fTotalWeight A p) (A.int a.k)
  let winning ← universes (fun n => decide (n.1.length = a.k)) (fun n => sortNat n.1) (fEnestroemSuccs A p price) a.effMax
    (dfsFuel p a.k) [([], p.voters.map (fun v => A.weight v.weight))] []
  sortedCommittees winning

/-- The new budgets after electing `cand` (abcrules.py:4199-4205); the division is evaluated once per supporter, i.e. not at all if
there is none. -/
def fConsensusPay (p : Profile) (budget : List F) (cand : ℕ) : Except Err (List F) :=
  (p.voters.zip budget).mapM (fun vb =>
    if ! fNearlyBroke A vb.2 && decide (cand ∈ vb.1.approved) then do
      let q ← A.pyDiv (fTotalWeight A p) (A.sum (((p.voters.zip budget).filter
        (fun vb => ! fNearlyBroke A vb.2 && decide (cand ∈ vb.1.approved))).map (fun vb => A.weight vb.1.weight)))
      .ok (A.sub vb.2 (A.mul (A.weight vb.1.weight) q))
    else .ok vb.2)

/-- The extensions computed in one iteration of `_consensus_rule_algorithm` (abcrules.py:4174-4205). -/
def fConsensusSuccs (p : Profile) (n : List ℕ × List F) : Except Err (List (List ℕ × List F)) := do
  let budget := List.zipWith (fun v b => A.add b (A.weight v.weight)) p.voters n.2
  let (tied, _) ← fMaxSupport A (fNearlyBroke A) p n.1 budget
  tied.mapM (fun cand => do
    let new ← fConsensusPay A p budget cand
    .ok (n.1 ++ [cand], new))

/-- `_consensus_rule_algorithm` (abcrules.py:4149-4221) for "float-fractions". -/
def floatConsensus (p : Profile) (a : Args) : Except Err (List (List ℕ)) := do
  let winning ← universes (fun n => decide (n.1.length = a.k)) (fun n => sortNat n.1) (fConsensusSuccs A p) a.effMax
    (dfsFuel p a.k) [([], fZero A p)] []
  sortedCommittees winning

/-! ## E Pluribus Hugo (abcrules.py:4489-4539) -/

/-- `sdv_score[cand]` (abcrules.py:4512-4515); the divisor is at least 1 because `cand` is counted. -/
def fEphSdv (p : Profile) (remaining : List ℕ) (cand : ℕ) : F :=
  ((p.voters.filter (fun v => decide (cand ∈ v.approved))).map (fun v =>
    A.div (A.weight v.weight) (A.int (remaining.filter (fun c => decide (c ∈ v.approved))).length))).foldl A.add (A.int 0)

/-- `av_score[cand]` (abcrules.py:4516). -/
def fEphAv (p : Profile) (cand : ℕ) : F :=
  ((p.voters.filter (fun v => decide (cand ∈ v.approved))).map (fun v => A.weight v.weight)).foldl A.add (A.int 0)

/-- `elimination_cands` (abcrules.py:4518-4526). -/
def fEphElim (p : Profile) (remaining : List ℕ) : Except Err (List ℕ) := do
  let cutoff ← pyGet ((remaining.map (fEphSdv A p remaining)).mergeSort (fun a b => decide (A.val a ≤ A.val b))) 1
  let elim := remaining.filter (fun c =>
    decide (A.val (fEphSdv A p remaining c) ≤ A.val cutoff) || A.isclose (fEphSdv A p remaining c) cutoff)
  let cutoffAv ← A.minOf (elim.map (fEphAv A p))
  .ok (elim.filter (fun c => decide (A.val (fEphAv A p c) ≤ A.val cutoffAv)))

/-- The `while` loop (abcrules.py:4509-4539). -/
def fEphLoop (p : Profile) (k : ℕ) (max : Option ℕ) : ℕ → List ℕ → Except Err (List (List ℕ))
  | 0, _ => .error .outOfFuel
  | fuel + 1, remaining => do
    let elim ← fEphElim A p remaining
    if remaining.length - elim.length ≤ k then do
      let cs ← sortedCommittees ((combinations elim (remaining.length - k)).map
        (fun sel => remaining.filter (fun c => decide (c ∉ sel))))
      .ok (truncate max cs)
    else fEphLoop p k max fuel (remaining.filter (fun c => decide (c ∉ elim)))

/-- `_eph_algorithm` (abcrules.py:4489-4539) for "float-fractions"; `iter` is the iteration order of `set(profile.candidates)`. -/
def floatEph (iter : List ℕ) (p : Profile) (a : Args) : Except Err (List (List ℕ)) :=
  fEphLoop A p a.k a.effMax (p.numCand + 1) iter

/-- All rules with "float-fractions", by rule id (the ids of Equal Shares as in `Rule.__init__`, abcrules.py:240-270). -/
def floatFractions (ord : List (Voter × F) → List (Voter × F)) (iter : List ℕ → List ℕ) (ruleId : String) (p : Profile) (a : Args) :
    Except Err (List (List ℕ)) :=
  if ruleId = "seqphragmen" then floatSeqphragmen A p a
  else if ruleId = "rule-x" ∨ ruleId = "equal-shares" ∨ ruleId = "equal-shares-with-seqphragmen-completion" then
    floatEqualShares A ord .seqphragmen p a
  else if ruleId = "equal-shares-with-av-completion" then floatEqualShares A ord .av p a
  else if ruleId = "equal-shares-with-increment-completion" then floatEqualShares A ord .increment p a
  else if ruleId = "rule-x-without-phragmen-phase" ∨ ruleId = "equal-shares-without-phragmen-phase" ∨
      ruleId = "equal-shares-without-completion" then floatEqualShares A ord .none p a
  else if ruleId = "phragmen-enestroem" then floatEnestroem A p a
  else if ruleId = "consensus-rule" then floatConsensus A p a
  else if ruleId = "eph" then floatEph A (iter p.candidates) p a
  else .error .unknownRuleID

end

end Abc
