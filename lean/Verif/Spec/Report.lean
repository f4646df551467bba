import Verif.Model.Report
import Verif.Spec.Text
import Verif.Spec.Sequential

/-!
# Specification of the protocols printed at level DETAILS
-/

namespace Abc.Spec

/-- The name of a candidate. -/
def nameOf (p : Profile) (c : ℕ) : Name := p.candNames.getD c []

/-- One round of a sequential rule: its number, the candidate chosen, the change of the score, the score afterwards, and the candidates
reported as tied. -/
structure Round where
  number : ℕ
  cand : ℕ
  change : ℚ
  total : ℚ
  tied : List ℕ

/-- The candidates that can be added to `W` with maximal gain. -/
def bestAdditions (f : ℕ → ℚ) (p : Profile) (W : List ℕ) : List ℕ :=
  (List.range p.numCand).filter (fun c => decide (c ∉ W ∧ ∀ d < p.numCand, d ∉ W → gain f p W.toFinset d ≤ gain f p W.toFinset c))

/-- The protocol of adding the candidates `U`, one after the other, to `W`. -/
def addProtocol (f : ℕ → ℚ) (p : Profile) : List ℕ → List ℕ → List Round
  | _, [] => []
  | W, c :: U =>
    { number := W.length + 1, cand := c, change := gain f p W.toFinset c, total := score f p (insert c W.toFinset),
      tied := bestAdditions f p W } :: addProtocol f p (W ++ [c]) U

/-- The lines printed for a round in which a candidate is added. -/
def Round.added (num : ℚ → Name) (p : Profile) (r : Round) : List Msg :=
  [detailsMsg ("adding candidate number ".toList ++ strNat r.number ++ ": ".toList ++ nameOf p r.cand),
   detailsMsg ("score increases by ".toList ++ num r.change ++ " to a total of ".toList ++ num r.total) " ".toList] ++
  (if r.tied.length > 1 then
    [detailsMsg ("tie broken in favor of ".toList ++ strNat r.cand ++ ",\n".toList) " ".toList,
     detailsMsg ("candidates ".toList ++ setText p.candNames r.tied ++ " are tied".toList),
     detailsMsg ("(all would increase the score by the same amount ".toList ++ num r.change ++ ")".toList) " ".toList]
   else []) ++ [detailsMsg []]

/-- The members of `W` that can be removed with minimal loss. -/
def bestRemovals (f : ℕ → ℚ) (p : Profile) (W : Finset ℕ) : List ℕ :=
  (List.range p.numCand).filter (fun c => decide (c ∈ W ∧ ∀ d ∈ W, loss f p W c ≤ loss f p W d))

/-- Removing the candidates `U`, one after the other, from `W`: each of minimal loss and, among these, of largest index. -/
inductive RemovalOrder (f : ℕ → ℚ) (p : Profile) : Finset ℕ → List ℕ → Prop
  | nil {W : Finset ℕ} : RemovalOrder f p W []
  | cons {W : Finset ℕ} {c : ℕ} {U : List ℕ} : c ∈ W → (∀ d ∈ W, loss f p W c ≤ loss f p W d) →
      (∀ d ∈ W, c < d → loss f p W c < loss f p W d) → RemovalOrder f p (W.erase c) U → RemovalOrder f p W (c :: U)

/-- The protocol of removing `U` from `W`.  The removed candidate itself is not listed among the tied ones. -/
def removeProtocol (f : ℕ → ℚ) (p : Profile) : Finset ℕ → List ℕ → List Round
  | _, [] => []
  | W, c :: U =>
    { number := p.numCand - (W.erase c).card, cand := c, change := loss f p W c, total := score f p (W.erase c),
      tied := (bestRemovals f p W).filter (fun d => decide (d ≠ c)) } :: removeProtocol f p (W.erase c) U

/-- The lines printed for a round in which a candidate is removed. -/
def Round.removed (num : ℚ → Name) (p : Profile) (r : Round) : List Msg :=
  [detailsMsg ("removing candidate number ".toList ++ strNat r.number ++ ": ".toList ++ nameOf p r.cand),
   detailsMsg ("score decreases by ".toList ++ num r.change ++ " to a total of ".toList ++ num r.total) " ".toList] ++
  (if r.tied.length > 1 then
    [detailsMsg ("tie broken to the disadvantage of ".toList ++ strNat r.cand ++ ",".toList) " ".toList,
     detailsMsg ("candidates ".toList ++ setText p.candNames r.tied ++ " are tied".toList) " ".toList,
     detailsMsg ("(all would decrease the score by the same amount ".toList ++ num r.change ++ ")".toList) " ".toList]
   else []) ++ [detailsMsg []]

/-- The heading printed first: the name of the rule in a box. -/
def heading (ruleId : String) : Msg :=
  { level := .info, wrap := false,
    text := List.replicate (longname ruleId).length '-' ++ "\n".toList ++ longname ruleId ++ "\n".toList ++
      List.replicate (longname ruleId).length '-' ++ "\n".toList }

/-- The message with the winning committees: one line per committee. -/
def winners (p : Profile) (cs : List (List ℕ)) : Msg :=
  infoMsg (['\n'].intercalate ((strNat cs.length ++ " winning committee".toList ++ (if cs.length = 1 then ":".toList else "s:".toList)) ::
    cs.map (fun W => ' ' :: setText p.candNames W) ++ [[]]))

/-- "Algorithm: Standard algorithm". -/
def standardAlgorithm : Msg := detailsMsg "Algorithm: Standard algorithm\n".toList

/-- "Computing only one winning committee" (only in resolute calls). -/
def oneRemark (resolute : Bool) : List Msg :=
  if resolute then [infoMsg "Computing only one winning committee (resolute=True)\n".toList] else []

/-- "Computing all possible winning committees" (only in irresolute calls). -/
def allRemark (resolute : Bool) : List Msg :=
  if resolute then [] else
    [infoMsg "Computing all possible winning committees for any tiebreaking order".toList,
     infoMsg " (aka parallel universes tiebreaking) (resolute=False)\n".toList]

/-- The messages at least as important as the verbosity, i.e. those that are printed. -/
def visibleAt (v : ℤ) (ms : List Msg) : List Msg := ms.filter (fun m => decide (v ≤ m.level.value))

end Abc.Spec
