import Verif.Model.ReportCheck
import Verif.Spec.Prices
import Verif.Spec.ReportOptimal

/-!
# Specification of what the checks print
-/

namespace Abc.Spec

/-- A set of numbers in braces, as decimal numbers in alphabetical order. -/
def numbersText (S : Finset ℕ) : Name :=
  '{' :: ([',', ' '].intercalate (((S.sort (· ≤ ·)).map strNat).insertionSort strLe) ++ ['}'])

/-- A group of voters, as the set of their numbers. -/
def groupText {p : Profile} (G : Group p) : Name := numbersText (G.map Fin.valEmbedding)

/-- The share of a group in the total weight. -/
def groupShare (fmt : Format) (p : Profile) (G : Group p) : Name :=
  "(".toList ++ fmt.percent (wt p G / total p) ++ "% of all voters".toList ++
    (if ∀ v ∈ p.voters, v.weight = 1 then [] else " (by weight)".toList) ++ ")".toList

/-- The line with the verdict. -/
def verdictLine (W : Finset ℕ) (verdict : String) (rest : Name) : Msg :=
  infoMsg ("Committee ".toList ++ numbersText W ++ " ".toList ++ verdict.toList ++ rest)

/-- How a verdict ends: the quota is mentioned if it was given. -/
def quotaRemark (fmt : Format) : Option ℚ → Name
  | none => ".".toList
  | some q => " (for quota = ".toList ++ fmt.num q ++ ").".toList

/-- The verdict in words. -/
def verdictText (name : String) (holds : Bool) : String :=
  match name, holds with
  | "pareto", true => "is Pareto optimal"
  | "pareto", false => "is not Pareto optimal"
  | "jr", true => "satisfies JR"
  | "jr", false => "does not satisfy JR"
  | "pjr", true => "satisfies PJR"
  | "pjr", false => "does not satisfy PJR"
  | "ejr", true => "satisfies EJR"
  | "ejr", false => "does not satisfy EJR"
  | "ejr+", true => "satisfies EJR+"
  | "ejr+", false => "does not satisfy EJR+"
  | "fjr", true => "satisfies FJR"
  | "fjr", false => "does not satisfy FJR"
  | "priceability", true => "is priceable"
  | "priceability", false => "is not priceable"
  | "stable-priceability", true => "is stable priceable"
  | "stable-priceability", false => "is not stable priceable"
  | "core", true => "is in the core"
  | "core", false => "is not in the core"
  | _, _ => ""

/-- The text for EJR and PJR about an `ℓ`-cohesive group `G` with joint candidates `T`. -/
def cohesiveText (fmt : Format) {p : Profile} (ℓ : ℕ) (G : Group p) (T : Finset ℕ) : Name :=
  "(The ".toList ++ strNat ℓ ++ "-cohesive group of voters ".toList ++ groupText G ++ " ".toList ++ groupShare fmt p G ++
    " jointly approve the candidates ".toList ++ numbersText T

/-- `Explains … name m`: the line `m` explains truthfully why `W` violates the property called `name`. -/
inductive Explains (fmt : Format) (beta : ℕ → Name) (p : Profile) (W : Finset ℕ) (q : ℚ) : String → Msg → Prop
  | pareto (X : Finset ℕ) (size : IsCommittee p W.card X) (dom : Dominates p X W) :
      Explains fmt beta p W q "pareto" (detailsMsg ("(It is dominated by the committee ".toList ++ numbersText X ++ ".)".toList))
  | jr (G : Group p) (c : ℕ) (large : q ≤ wt p G) (joint : ∀ i ∈ G, c ∈ appr p i) (none : ∀ i ∈ G, appr p i ∩ W = ∅) :
      Explains fmt beta p W q "jr" (detailsMsg ("(The 1-cohesive group of voters ".toList ++ groupText G ++ " ".toList ++
        groupShare fmt p G ++ " jointly approve candidate ".toList ++ nameOf p c ++
        ", but none of them approve a candidate in the committee.)".toList))
  | pjr (ℓ : ℕ) (G : Group p) (T : Finset ℕ) (coh : Cohesive p q ℓ G T) (few : (G.biUnion (appr p) ∩ W).card < ℓ) :
      Explains fmt beta p W q "pjr" (detailsMsg (cohesiveText fmt ℓ G T ++ ", but they approve fewer than ".toList ++ strNat ℓ ++
        " candidates in the committee.)".toList))
  | ejr (ℓ : ℕ) (G : Group p) (T : Finset ℕ) (coh : Cohesive p q ℓ G T) (few : ∀ i ∈ G, sat p W i < ℓ) :
      Explains fmt beta p W q "ejr" (detailsMsg (cohesiveText fmt ℓ G T ++ ", but none of them approves ".toList ++ strNat ℓ ++
        " candidates in the committee.)".toList) " ".toList)
  | ejrPlus (ℓ : ℕ) (G : Group p) (c : ℕ) (pos : 1 ≤ ℓ) (large : (ℓ : ℚ) * q ≤ wt p G) (out : c ∉ W) (joint : ∀ i ∈ G, c ∈ appr p i)
      (few : ∀ i ∈ G, sat p W i < ℓ) :
      Explains fmt beta p W q "ejr+" (detailsMsg ("(The group of voters ".toList ++ groupText G ++ " ".toList ++ groupShare fmt p G ++
        " deserves ".toList ++ strNat ℓ ++ " candidates, and jointly approve candidate ".toList ++ nameOf p c ++
        " which is not part of the committee, but no member approves at least ".toList ++ strNat ℓ ++
        " members of the committee.)".toList))
  | fjr (β : ℕ) (G : Group p) (T : Finset ℕ) (ne : G.Nonempty) (pos : 1 ≤ β) (large : (T.card : ℚ) * q ≤ wt p G)
      (each : ∀ i ∈ G, β ≤ (appr p i ∩ T).card) (few : ∀ i ∈ G, sat p W i ≤ β - 1) :
      Explains fmt beta p W q "fjr" (detailsMsg ("(The weakly cohesive group of voters ".toList ++ groupText G ++ groupShare fmt p G ++
        "each approve at least ".toList ++ beta β ++ " of the ".toList ++ strNat T.card ++ " candidates ".toList ++ numbersText T ++
        ",but all approve at most ".toList ++ beta (β - 1) ++ " candidates in the committee.)".toList) " ".toList)
  | core (G : Group p) (T : Finset ℕ) (ne : G.Nonempty) (large : (T.card : ℚ) * q ≤ wt p G)
      (more : ∀ i ∈ G, sat p W i < (appr p i ∩ T).card) :
      Explains fmt beta p W q "core" (detailsMsg ("(The group of voters ".toList ++ groupText G ++ " ".toList ++ groupShare fmt p G ++
        " can block the outcome by proposing ".toList ++ numbersText T ++
        ", in which each group member approves strictly more candidates.)".toList))

/-- What a check prints: the right verdict and, for a violation, a truthful explanation. -/
def Reports (fmt : Format) (beta : ℕ → Name) (p : Profile) (W : Finset ℕ) (quota : Option ℚ) (name : String) (msgs : List Msg) : Prop :=
  (Satisfies name p W (quotaValue p W.card quota) → msgs = [verdictLine W (verdictText name true) (quotaRemark fmt quota)]) ∧
  (¬ Satisfies name p W (quotaValue p W.card quota) → ∃ m, Explains fmt beta p W (quotaValue p W.card quota) name m ∧
    msgs = [verdictLine W (verdictText name false) (quotaRemark fmt quota), m])

/-- Text aligned to the right. -/
def alignRight (width : ℕ) (s : Name) : Name := List.replicate (width - s.length) ' ' ++ s

/-- The width of the column of candidate `c` in the table of payments. -/
def payWidth (fmt : Format) {p : Profile} (pay : Fin p.voters.length → ℕ → ℚ) (c : ℕ) : ℕ :=
  max (strNat c).length (Finset.univ.sup fun i => (fmt.float (pay i c)).length)

/-- A row of the table of payments: a label and one cell per candidate. -/
def payRow (fmt : Format) {p : Profile} (pay : Fin p.voters.length → ℕ → ℚ) (label : Name) (cell : ℕ → Name) : Msg :=
  detailsMsg (alignRight (strNat p.voters.length).length label ++ [' ', '|', ' '] ++
    [' ', '|', ' '].intercalate ((List.range p.numCand).map (fun c => alignRight (payWidth fmt pay c) (cell c))))

/-- The budget and the table of payments: one row per voter. -/
def payTable (fmt : Format) {p : Profile} (b : ℚ) (pay : Fin p.voters.length → ℕ → ℚ) : List Msg :=
  detailsMsg ("Budget: ".toList ++ fmt.float b) :: payRow fmt pay [] strNat ::
    (List.finRange p.voters.length).map (fun i : Fin p.voters.length => payRow fmt pay (strNat i) (fun c => fmt.float (pay i c)))

/-- The lines a check of (stable) priceability prints before the verdict. -/
def PricesShown (fmt : Format) (stable : Bool) (p : Profile) (W : Finset ℕ) (msgs : List Msg) : Prop :=
  ((approvedSet p).card < W.card → msgs = []) ∧
  (¬ (approvedSet p).card < W.card →
    ((∃ b pay, SupportedBy stable p W b pay) → (∀ v ∈ p.voters, v.weight = 1) →
      ∃ b pay, SupportedBy stable p W b pay ∧ (∀ b' pay', SupportedBy stable p W b' pay' → b ≤ b') ∧ msgs = payTable fmt b pay) ∧
    ((∃ b pay, SupportedBy stable p W b pay) → ¬ (∀ v ∈ p.voters, v.weight = 1) → msgs = []) ∧
    ((¬ ∃ b pay, SupportedBy stable p W b pay) → msgs = [detailsMsg "No feasible budget and payment function".toList]))

/-- The properties of `full_analysis` and what they are called. -/
def analysisTable : List (String × String) :=
  [("pareto", "Pareto optimality"), ("jr", "Justified representation (JR)"), ("pjr", "Proportional justified representation (PJR)"),
   ("ejr", "Extended justified representation (EJR)"), ("ejr+", "EJR+"), ("fjr", "Full justified representation (FJR)"),
   ("priceability", "Priceability"), ("stable-priceability", "Stable Priceability"), ("core", "The core")]

/-- Text aligned to the left. -/
def alignLeft (width : ℕ) (s : Name) : Name := s ++ List.replicate (width - s.length) ' '

end Abc.Spec
