import Verif.Model.Text
import Verif.Spec.Basic

/-!
# Specification vocabulary for printed text
-/

namespace Abc.Spec

/-- Every candidate has a name (guaranteed by the constructor of `Profile`). -/
def Named (p : Profile) : Prop := p.candNames.length = p.numCand

/-- The names can be told apart in printed sets: different, not empty, without commas and line breaks. -/
structure Readable (names : List Name) : Prop where
  nodup : names.Nodup
  nonempty : ∀ n ∈ names, n ≠ []
  comma : ∀ n ∈ names, ',' ∉ n
  newline : ∀ n ∈ names, '\n' ∉ n

/-- `t` shows the set `W`: the names of its members in alphabetical order, separated by commas, in braces. -/
def ShowsSet (names : List Name) (W : List ℕ) (t : Name) : Prop :=
  ∃ l : List Name, l.Perm (W.map (fun c => names.getD c [])) ∧ l.Pairwise (· ≤ ·) ∧
    t = '{' :: ([',', ' '].intercalate l ++ ['}'])

/-- The text of a set of candidates (it satisfies `ShowsSet`). -/
def setText (names : List Name) (W : List ℕ) : Name :=
  '{' :: ([',', ' '].intercalate ((W.map (fun c => names.getD c [])).insertionSort strLe) ++ ['}'])

/-- The lines of a text. -/
def lines (t : Name) : List Name := t.splitOn '\n'

/-- Total weight listed in a table for the approval set `A`. -/
def listedWeight (table : List (List ℕ × ℚ)) (A : Finset ℕ) : ℚ :=
  ((table.filter (fun e => decide (e.1.toFinset = A))).map Prod.snd).sum

end Abc.Spec
