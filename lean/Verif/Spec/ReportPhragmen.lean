import Verif.Model.ReportPhragmen
import Verif.Spec.Report
import Verif.Spec.Run

/-!
# Specification of the protocols of seq-Phragmén and of the Method of Equal Shares
-/

namespace Abc.Spec
open Classical

/-- A number for every voter, as it is printed: "(x0, x1, …)". -/
def listText (num : ℚ → Name) (l : List ℚ) : Name := "(".toList ++ ", ".toList.intercalate (l.map num) ++ ")".toList

/-- One round of seq-Phragmén: its number, the elected candidate, the number reported as maximum load, the loads afterwards, and the
candidates that could be elected. -/
structure LoadRound where
  number : ℕ
  cand : ℕ
  maxLoad : ℚ
  loads : List ℚ
  tied : List ℕ

/-- The candidates seq-Phragmén can elect next. -/
noncomputable def phragTied (p : Profile) (W : List ℕ) (x : VoterMap p) : List ℕ :=
  (List.range p.numCand).filter (fun c => decide (PhragBest p W x c))

/-- The protocol of electing `U`, one after the other, if `W` has been elected and the loads are `x`. -/
noncomputable def phragProtocol (p : Profile) (k : ℕ) : List ℕ → VoterMap p → List ℕ → List LoadRound
  | _, _, [] => []
  | W, x, c :: U =>
    { number := W.length + 1, cand := c, maxLoad := if (backers p c).Nonempty then newLoad p x c else (k : ℚ) + 1,
      loads := List.ofFn (phragUpd p W x c), tied := phragTied p W x } :: phragProtocol p k (W ++ [c]) (phragUpd p W x c) U

/-- The lines printed for a round. -/
def LoadRound.lines (num : ℚ → Name) (p : Profile) (tieText : Name) (r : LoadRound) : List Msg :=
  [detailsMsg ("adding candidate number ".toList ++ strNat r.number ++ ": ".toList ++ nameOf p r.cand),
   detailsMsg ("maximum load increased to ".toList ++ num r.maxLoad) " ".toList,
   detailsMsg " load distribution:".toList,
   detailsMsg (listText num r.loads) "  ".toList] ++
  (if r.tied.length > 1 then
    [detailsMsg ("tie broken in favor of ".toList ++ nameOf p r.cand ++ ",".toList) " ".toList,
     detailsMsg ("candidates ".toList ++ setText p.candNames r.tied ++ " are tied".toList) " ".toList,
     detailsMsg (tieText ++ num r.maxLoad ++ ").".toList) " ".toList]
   else []) ++ [detailsMsg []]

/-- The line with the loads that belong to a committee. -/
def loadLine (num : ℚ → Name) (p : Profile) (W : List ℕ) (loads : List ℚ) : Msg :=
  detailsMsg (setText p.candNames W ++ ": ".toList ++ listText num loads ++ "\n".toList)

/-- The line that names the arithmetic. -/
def fractionsAlgorithm (algorithm : String) : Msg :=
  detailsMsg (if algorithm = "standard-fractions" then "Algorithm: Standard algorithm (using standard Python fractions)\n".toList
    else "Algorithm: Standard algorithm (using gmpy2 fractions)\n".toList)

end Abc.Spec
