import Verif.Model.ReportShares
import Verif.Spec.ReportPhragmen
import Verif.Spec.EqualShares

/-!
# Specification of the protocol of the Method of Equal Shares
-/

namespace Abc.Spec
open Classical

/-- One purchase: its number, the candidate, its price, the remaining budgets, and the candidates of minimal price. -/
structure Purchase where
  number : ℕ
  cand : ℕ
  price : ℚ
  budgets : List ℚ
  tied : List ℕ

/-- The candidates Equal Shares can buy next. -/
noncomputable def mesTied (p : Profile) (W : List ℕ) (b : VoterMap p) : List ℕ :=
  (List.range p.numCand).filter (fun c => decide (MESBest p W b c))

/-- The protocol of buying `U`, one after the other, if `W` has been bought and the budgets are `b`. -/
noncomputable def mesProtocol (p : Profile) : List ℕ → VoterMap p → List ℕ → List Purchase
  | _, _, [] => []
  | W, b, c :: U =>
    { number := W.length + 1, cand := c, price := price p b c, budgets := List.ofFn (mesUpd p W b c), tied := mesTied p W b } ::
      mesProtocol p (W ++ [c]) (mesUpd p W b c) U

/-- The lines printed for a purchase. -/
def Purchase.lines (num : ℚ → Name) (p : Profile) (r : Purchase) : List Msg :=
  [detailsMsg ("adding candidate number ".toList ++ strNat r.number ++ ": ".toList ++ nameOf p r.cand),
   detailsMsg ("with maxmimum cost per voter q = ".toList ++ num r.price) " ".toList,
   detailsMsg " remaining budget:".toList,
   detailsMsg (listText num r.budgets) "  ".toList] ++
  (if r.tied.length > 1 then
    [detailsMsg ("tie broken in favor of ".toList ++ nameOf p r.cand ++ ",".toList) " ".toList,
     detailsMsg ("candidates ".toList ++ setText p.candNames r.tied ++ " are tied".toList) " ".toList,
     detailsMsg ("(all would impose a maximum cost of ".toList ++ num r.price ++ ").".toList) " ".toList]
   else []) ++ [detailsMsg []]

/-- The loads with which the completion by seq-Phragmén starts: minus the remaining budget per unit of weight. -/
def startLoads (p : Profile) (b : VoterMap p) : VoterMap p := fun i => - b i / (p.voters.get i).weight

/-- What is printed about the first phase. -/
noncomputable def phase1 (num : ℚ → Name) (p : Profile) (r : ℚ) (W : List ℕ) : List Msg :=
  [detailsMsg "Phase 1:\n".toList, detailsMsg "starting budget:".toList,
    detailsMsg ("  ".toList ++ listText num (List.ofFn (budgetOf p r)) ++ "\n".toList)] ++
  (mesProtocol p [] (budgetOf p r) W).flatMap (Purchase.lines num p)

/-- What is printed about the second phase, in which `U` is elected. -/
noncomputable def phase2 (num : ℚ → Name) (p : Profile) (k : ℕ) (W : List ℕ) (b : VoterMap p) (U : List ℕ) : List Msg :=
  [detailsMsg "Phase 2 (seq-Phragmén):\n".toList, detailsMsg "starting loads (= budget spent):".toList,
    detailsMsg (listText num (List.ofFn (startLoads p b)) ++ "\n".toList) "  ".toList] ++
  (phragProtocol p k W (startLoads p b) U).flatMap (LoadRound.lines num p "(for any of those, the new maximum load would be ".toList)

end Abc.Spec
