import Verif.Model.ReportMaximin
import Verif.Spec.ReportOptimal
import Verif.Spec.Loads

/-!
# Specification of the protocol of maximin support
-/

namespace Abc.Spec

/-- One round: its number, the elected candidate, the number reported as maximin support, and the candidates reported as tied. -/
structure SupportRound where
  number : ℕ
  cand : ℕ
  value : ℚ
  tied : List ℕ

/-- What a correct round says if the members of `W` have been elected: the elected candidate is a best one, exactly the best candidates
are reported as tied, and the reported value is the largest support that every member of `W` and one further candidate can have. -/
structure SupportRound.Correct (ε : ℚ) (p : Profile) (W : List ℕ) (r : SupportRound) : Prop where
  number : r.number = W.length + 1
  best : MaximinBest ε p W r.cand
  nodup : r.tied.Nodup
  tied : ∀ c, c ∈ r.tied ↔ MaximinBest ε p W c
  attained : ∃ c < p.numCand, c ∉ W ∧ SupportAtLeast p (insert c W.toFinset) r.value
  largest : ∀ c < p.numCand, c ∉ W → ∀ t, SupportAtLeast p (insert c W.toFinset) t → t ≤ r.value

/-- `SupportProtocol ε p W rs V`: beginning with `W`, the rounds `rs` are correct and lead to `V`. -/
inductive SupportProtocol (ε : ℚ) (p : Profile) : List ℕ → List SupportRound → List ℕ → Prop
  | nil {W : List ℕ} : SupportProtocol ε p W [] W
  | cons {W V : List ℕ} {r : SupportRound} {rs : List SupportRound} : r.Correct ε p W → SupportProtocol ε p (W ++ [r.cand]) rs V →
      SupportProtocol ε p W (r :: rs) V

/-- The lines printed for a round.  In the line on the tie, the candidate is named by its number. -/
def SupportRound.lines (num : ℚ → Name) (p : Profile) (r : SupportRound) : List Msg :=
  [detailsMsg ("adding candidate number ".toList ++ strNat r.number ++ ": ".toList ++ nameOf p r.cand),
   detailsMsg ("giving a committee with maximin support value ".toList ++ num r.value) " ".toList] ++
  (if r.tied.length > 1 then
    [detailsMsg ("tie broken in favor of ".toList ++ strNat r.cand ++ ",".toList) " ".toList,
     detailsMsg ("candidates ".toList ++ setText p.candNames r.tied ++ " are tied".toList) " ".toList,
     detailsMsg ("(all would give the same maximin support value ".toList ++ num r.value ++ ")".toList) " ".toList]
   else []) ++ [detailsMsg []]

end Abc.Spec
