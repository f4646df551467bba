import Verif.Model.Text
import Verif.Model.Output
import Verif.Model.Dispatch

/-!
# Model of the "optional output" blocks of `abcrules.py` and of the `detailed_info` they use

Numbers are formatted by a parameter `num` (Python's `str`).  Python evaluates the texts even if they are not printed, so that an
exception raised here would be an exception of the `compute_…` function.
-/

namespace Abc

/-- `output.info(text)` (output.py:169-187). -/
def infoMsg (text : Name) : Msg := { level := .info, text := text }

/-- `output.details(text, indent=indent)` (output.py:149-167). -/
def detailsMsg (text : Name) (indent : Name := []) : Msg := { level := .details, text := text, indent := indent }

/-- `ALGORITHM_NAMES[algorithm]` (abcrules.py:57-73). -/
def algorithmName (algorithm : String) : Except Err Name :=
  if algorithm = "gurobi" then .ok "Gurobi ILP solver".toList
  else if algorithm = "branch-and-bound" then .ok "branch-and-bound".toList
  else if algorithm = "brute-force" then .ok "brute-force".toList
  else if algorithm = "mip-cbc" then .ok "CBC ILP solver via Python MIP library".toList
  else if algorithm = "mip-gurobi" then .ok "Gurobi ILP solver via Python MIP library".toList
  else if algorithm = "standard" then .ok "Standard algorithm".toList
  else if algorithm = "standard-fractions" then .ok "Standard algorithm (using standard Python fractions)".toList
  else if algorithm = "gmpy2-fractions" then .ok "Standard algorithm (using gmpy2 fractions)".toList
  else if algorithm = "float-fractions" then .ok "Standard algorithm (using floats instead of fractions)".toList
  else if algorithm = "ortools-cp" then .ok "OR-Tools CP-SAT solver".toList
  else .error .keyError

/-- `self.longname` for the rule ids listed explicitly and for `geom…` (abcrules.py:110-310); `none`: no branch of the `if` applies. -/
def longnameBase (ruleId : String) : Option Name :=
  if ruleId = "av" then some "Approval Voting (AV)".toList
  else if ruleId = "sav" then some "Satisfaction Approval Voting (SAV)".toList
  else if ruleId = "pav" then some "Proportional Approval Voting (PAV)".toList
  else if ruleId = "slav" then some "Sainte-Laguë Approval Voting (SLAV)".toList
  else if ruleId = "cc" then some "Approval Chamberlin-Courant (CC)".toList
  else if ruleId = "lexcc" then some "Lexicographic Chamberlin-Courant (lex-CC)".toList
  else if ruleId = "seqpav" then some "Sequential Proportional Approval Voting (seq-PAV)".toList
  else if ruleId = "revseqpav" then some "Reverse Sequential Proportional Approval Voting (revseq-PAV)".toList
  else if ruleId = "seqslav" then some "Sequential Sainte-Laguë Approval Voting (seq-SLAV)".toList
  else if ruleId = "seqcc" then some "Sequential Approval Chamberlin-Courant (seq-CC)".toList
  else if ruleId = "seqphragmen" then some "Phragmén's Sequential Rule (seq-Phragmén)".toList
  else if ruleId = "minimaxphragmen" then some "Phragmén's Minimax Rule (minimax-Phragmén)".toList
  else if ruleId = "leximaxphragmen" then some "Phragmén's Leximax Rule (leximax-Phragmén)".toList
  else if ruleId = "maximin-support" then some "Maximin Support Method (MMS)".toList
  else if ruleId = "monroe" then some "Monroe's Approval Rule (Monroe)".toList
  else if ruleId = "greedy-monroe" then some "Greedy Monroe".toList
  else if ruleId = "minimaxav" then some "Minimax Approval Voting (MAV)".toList
  else if ruleId = "lexminimaxav" then some "Lexicographic Minimax Approval Voting (lex-MAV)".toList
  else if ruleId = "rule-x" ∨ ruleId = "equal-shares" ∨ ruleId = "equal-shares-with-seqphragmen-completion" then
    some "Method of Equal Shares (aka Rule X) with Phragmén phase".toList
  else if ruleId = "equal-shares-with-av-completion" then some "Method of Equal Shares (aka Rule X) with AV completion".toList
  else if ruleId = "equal-shares-with-increment-completion" then
    some "Method of Equal Shares (aka Rule X) with increment completion".toList
  else if ruleId = "rule-x-without-phragmen-phase" ∨ ruleId = "equal-shares-without-phragmen-phase" ∨
      ruleId = "equal-shares-without-completion" then
    some "Method of Equal Shares (aka Rule X) without completion (second phase)".toList
  else if ruleId = "phragmen-enestroem" then some "Method of Phragmén-Eneström".toList
  else if ruleId = "consensus-rule" then some "Consensus Rule".toList
  else if ruleId = "trivial" then some "Trivial Rule".toList
  else if ruleId = "rsd" then some "Random Serial Dictator".toList
  else if ruleId = "eph" then some "E Pluribus Hugo (EPH)".toList
  else if ruleId.toList.take 4 = "geom".toList then some (ruleId.toList.drop 4 ++ "-Geometric Rule".toList)
  else none

/-- `rule.longname` of an existing rule (abcrules.py:108-345); for the generic sequential rules the name of the optimisation rule is
prefixed (abcrules.py:322-345). -/
def longname (ruleId : String) : Name :=
  match longnameBase ruleId with
  | some n => n
  | none =>
    if ruleId.toList.take 3 = "seq".toList then
      "Sequential ".toList ++ (longnameBase (String.ofList (ruleId.toList.drop 3))).getD []
    else "Reverse Sequential ".toList ++ (longnameBase (String.ofList (ruleId.toList.drop 6))).getD []

/-- Which remark on `resolute` is printed. -/
inductive Remark
  | one     -- "Computing only one winning committee" if resolute
  | all     -- "Computing all possible winning committees for any tiebreaking order" if not resolute
  | nothing
deriving DecidableEq

/-- The remark (e.g. abcrules.py:717-718, 1222-1224). -/
def Remark.msgs (r : Remark) (resolute : Bool) : List Msg :=
  match r with
  | .one => if resolute then [infoMsg "Computing only one winning committee (resolute=True)\n".toList] else []
  | .all =>
    if ¬ resolute then
      [infoMsg "Computing all possible winning committees for any tiebreaking order".toList,
       infoMsg " (aka parallel universes tiebreaking) (resolute=False)\n".toList]
    else []
  | .nothing => []

/-- `output.info(header(rule.longname), wrap=False)` and the remark (e.g. abcrules.py:716-718). -/
def headMsgs (ruleId : String) (r : Remark) (resolute : Bool) : Except Err (List Msg) := do
  let h ← header (longname ruleId)
  .ok ({ level := .info, text := h, wrap := false } :: r.msgs resolute)

/-- `output.details(f"Algorithm: {ALGORITHM_NAMES[algorithm]}\n")` (e.g. abcrules.py:719). -/
def algorithmMsg (algorithm : String) : Except Err Msg := do
  let n ← algorithmName algorithm
  .ok (detailsMsg ("Algorithm: ".toList ++ n ++ "\n".toList))

/-- `output.info(str_committees_with_header(committees, cand_names=profile.cand_names, winning=True))` (e.g. abcrules.py:725-727). -/
def committeesMsg (p : Profile) (committees : List (List ℕ)) : Except Err Msg := do
  let t ← strCommitteesWithHeader committees (some p.candNames) true
  .ok (infoMsg t)

/-- The whole block of the rules without further details (minimax-Phragmén, leximax-Phragmén, Eneström, consensus, trivial, RSD, EPH;
abcrules.py:3576-3584, 3696-3704, 3973-3982, 4135-4144, 4295-4303, 4395-4401, 4476-4484). -/
def plainReport (ruleId : String) (r : Remark) (algorithm : String) (p : Profile) (resolute : Bool) (committees : List (List ℕ)) :
    Except Err (List Msg) := do
  let h ← headMsgs ruleId r resolute
  let m ← algorithmMsg algorithm
  let c ← committeesMsg p committees
  .ok (h ++ [m, c])

/-! ## Thiele methods -/

/-- `s.upper()` (ASCII). -/
def upper (s : String) : Name := s.toList.map Char.toUpper

/-- The block of `compute_thiele_method` (abcrules.py:715-728). -/
def thieleReport (num : ℚ → Name) (f : ℕ → ℚ) (sid : String) (algorithm : String) (p : Profile) (resolute : Bool)
    (committees : List (List ℕ)) : Except Err (List Msg) := do
  let h ← headMsgs sid .one resolute
  let m ← algorithmMsg algorithm
  let W ← pyGet committees 0
  let c ← committeesMsg p committees
  .ok (h ++ [m, detailsMsg ("Optimal ".toList ++ upper sid ++ "-score: ".toList ++ num (thieleScore f p W) ++ "\n".toList), c])

/-- The lines printed for one round of a sequential Thiele method (abcrules.py:1237-1254). -/
def seqRoundMsgs (num : ℚ → Name) (p : Profile) (i : ℕ) (r : SeqInfo) (total : ℚ) : Except Err (List Msg) := do
  let n ← pyGet p.candNames r.nextCand
  let head :=
    [detailsMsg ("adding candidate number ".toList ++ strNat (i + 1) ++ ": ".toList ++ n),
     detailsMsg ("score increases by ".toList ++ num r.deltaScore ++ " to a total of ".toList ++ num total) " ".toList]
  let tie ←
    if r.tiedCands.length > 1 then do
      let s ← strSetOfCandidates r.tiedCands (some p.candNames)
      .ok [detailsMsg ("tie broken in favor of ".toList ++ strNat r.nextCand ++ ",\n".toList) " ".toList,
        detailsMsg ("candidates ".toList ++ s ++ " are tied".toList),
        detailsMsg ("(all would increase the score by the same amount ".toList ++ num r.deltaScore ++ ")".toList) " ".toList]
    else .ok []
  .ok (head ++ tie ++ [detailsMsg []])

/-- The loop abcrules.py:1232-1254, beginning with round `i` and the list `committee`. -/
def seqRoundsMsgs (num : ℚ → Name) (f : ℕ → ℚ) (p : Profile) : ℕ → List ℕ → List SeqInfo → Except Err (List Msg)
  | _, _, [] => .ok []
  | i, committee, r :: rs => do
    let m ← seqRoundMsgs num p i r (thieleScore f p (committee ++ [r.nextCand]))
    let rest ← seqRoundsMsgs num f p (i + 1) (committee ++ [r.nextCand]) rs
    .ok (m ++ rest)

/-- The line with the score of a winning committee (abcrules.py:1262-1266). -/
def scoreLine (num : ℚ → Name) (f : ℕ → ℚ) (p : Profile) (W : List ℕ) : Except Err Msg := do
  let s ← strSetOfCandidates W (some p.candNames)
  .ok (detailsMsg (s ++ ": ".toList ++ num (thieleScore f p W)) " ".toList)

/-- The block of `compute_seq_thiele_method` (abcrules.py:1220-1268); parts of it are only evaluated if
`output.verbosity <= DETAILS`. -/
def seqThieleReport (num : ℚ → Name) (verbosity : ℤ) (f : ℕ → ℚ) (sid : String) (algorithm : String) (p : Profile) (resolute : Bool)
    (committees : List (List ℕ)) (infos : List SeqInfo) : Except Err (List Msg) := do
  let h ← headMsgs ("seq" ++ sid) .all resolute
  let d ←
    if verbosity ≤ Level.details.value then do
      let m ← algorithmMsg algorithm
      if resolute then do
        let rounds ← seqRoundsMsgs num f p 0 [] infos
        .ok ([m, detailsMsg ("starting with the empty committee (score = ".toList ++ num (thieleScore f p []) ++ ")\n".toList)] ++ rounds)
      else .ok [m]
    else .ok []
  let c ← committeesMsg p committees
  let s ←
    if verbosity ≤ Level.details.value then do
      let ls ← committees.mapM (scoreLine num f p)
      .ok (detailsMsg (upper sid ++ "-score of winning committee(s):".toList) :: ls ++ [detailsMsg "\n".toList])
    else .ok []
  .ok (h ++ d ++ [c] ++ s)

/-- `compute_seq_thiele_method` (abcrules.py:1149-1270) with everything it prints. -/
def computeSeqThieleVerbose (env : Env) (num : ℚ → Name) (verbosity : ℤ) (scorefctId : String) (p : Profile) (a : Args) :
    Except Err (List Msg × List (List ℕ)) := do
  let sid ← env.scoreId scorefctId
  let algorithm ← prologue env ("seq" ++ scorefctId) p a
  if algorithm = "standard" then
    let r ←
      if a.resolute then seqThieleResolute (marginalFct sid) p a.k
      else (do let cs ← seqThieleIrresolute (marginalFct sid) p a.k a.maxNum; .ok (cs, []))
    let msgs ← seqThieleReport num verbosity (marginalFct sid) scorefctId algorithm p a.resolute r.1 r.2
    let cs ← sortedCommittees r.1
    .ok (msgs, cs)
  else .error .unknownAlgorithm

/-- The loop of `_revseq_thiele_resolute` with the recorded information (abcrules.py:1671-1687): `tied_cands` does not contain the
removed candidate. -/
def revseqInfoLoop (f : ℕ → ℚ) (p : Profile) : ℕ → List ℕ → List SeqInfo → Except Err (List ℕ × List SeqInfo)
  | 0, committee, infos => .ok (committee, infos)
  | n + 1, committee, infos => do
    let marg := marginalRemove f p committee
    match (tiedMin marg).getLast? with
    | none => .error .indexError
    | some next =>
      if next ∉ committee then .error .keyError
      else revseqInfoLoop f p n (committee.erase next) (infos ++ [⟨next, (tiedMin marg).dropLast, listMin marg⟩])

/-- The lines for one removal (abcrules.py:1625-1645); `left` is the number of remaining candidates. -/
def revRoundMsgs (num : ℚ → Name) (p : Profile) (left : ℕ) (r : SeqInfo) (total : ℚ) : Except Err (List Msg) := do
  let n ← pyGet p.candNames r.nextCand
  let head :=
    [detailsMsg ("removing candidate number ".toList ++ strNat (p.numCand - left) ++ ": ".toList ++ n),
     detailsMsg ("score decreases by ".toList ++ num r.deltaScore ++ " to a total of ".toList ++ num total) " ".toList]
  let tie ←
    if r.tiedCands.length > 1 then do
      let s ← strSetOfCandidates r.tiedCands (some p.candNames)
      .ok [detailsMsg ("tie broken to the disadvantage of ".toList ++ strNat r.nextCand ++ ",".toList) " ".toList,
        detailsMsg ("candidates ".toList ++ s ++ " are tied".toList) " ".toList,
        detailsMsg ("(all would decrease the score by the same amount ".toList ++ num r.deltaScore ++ ")".toList) " ".toList]
    else .ok []
  .ok (head ++ tie ++ [detailsMsg []])

/-- The loop abcrules.py:1621-1645; `committee.remove(next_cand)` raises KeyError if it is not a member. -/
def revRoundsMsgs (num : ℚ → Name) (f : ℕ → ℚ) (p : Profile) : List ℕ → List SeqInfo → Except Err (List Msg)
  | _, [] => .ok []
  | committee, r :: rs => do
    if r.nextCand ∉ committee then .error .keyError
    else
      let left := committee.erase r.nextCand
      let m ← revRoundMsgs num p left.length r (thieleScore f p left)
      let rest ← revRoundsMsgs num f p left rs
      .ok (m ++ rest)

/-- The block of `compute_revseq_thiele_method` (abcrules.py:1608-1657).  The text says "PAV-score" for every score function. -/
def revseqReport (num : ℚ → Name) (f : ℕ → ℚ) (sid : String) (algorithm : String) (p : Profile) (resolute : Bool)
    (committees : List (List ℕ)) (infos : List SeqInfo) : Except Err (List Msg) := do
  let h ← headMsgs ("revseq" ++ sid) .all resolute
  let m ← algorithmMsg algorithm
  let d ←
    if resolute then do
      let rounds ← revRoundsMsgs num f p p.candidates infos
      .ok (detailsMsg ("full committee (".toList ++ strNat p.candidates.length ++ " candidates) has a total score of ".toList ++
        num (thieleScore f p p.candidates) ++ "\n".toList) :: rounds)
    else .ok []
  let c ← committeesMsg p committees
  let msg := "PAV-score of winning committee:".toList ++ (if ¬ resolute ∧ committees.length ≠ 1 then "\n".toList else []) ++
    (committees.map (fun W => " ".toList ++ num (thieleScore f p W))).flatten ++ "\n".toList
  .ok (h ++ [m] ++ d ++ [c, detailsMsg msg])

/-- `compute_revseq_thiele_method` (abcrules.py:1530-1659) with everything it prints. -/
def computeRevseqThieleVerbose (env : Env) (num : ℚ → Name) (scorefctId : String) (ord : List ℕ → ℕ → List ℕ) (p : Profile) (a : Args) :
    Except Err (List Msg × List (List ℕ)) := do
  let sid ← env.scoreId scorefctId
  let algorithm ← prologue env ("revseq" ++ scorefctId) p a
  if algorithm = "standard" then
    let r ←
      if a.resolute then (do
        let r ← revseqInfoLoop (marginalFct sid) p (p.numCand - a.k) p.candidates []
        let cs ← sortedCommittees [r.1]
        .ok (cs, r.2))
      else (do let cs ← revseqThieleIrresolute (marginalFct sid) p ord a.k a.maxNum; .ok (cs, []))
    let msgs ← revseqReport num (marginalFct sid) scorefctId algorithm p a.resolute r.1 r.2
    .ok (msgs, r.1)
  else .error .unknownAlgorithm

/-! ## AV and SAV -/

/-- `detailed_info` of `_separable_rule_algorithm` (abcrules.py:1957-1963). -/
structure SepInfo where
  certain : List ℕ
  possible : List ℕ
  missing : ℕ
  cutoff : ℚ
  score : List ℚ

/-- `_separable_rule_algorithm` up to line 1940. -/
def separableInfo (r : SepRule) (p : Profile) (k : ℕ) : Except Err SepInfo := do
  let score := separableScores r p
  let cutoff ← pyGetFromEnd (sortRat score) k
  let certain := p.candidates.filter (fun c => decide (score.getD c 0 > cutoff))
  let possible := p.candidates.filter (fun c => decide (score.getD c 0 = cutoff))
  let missing := k - certain.length
  if possible.length = missing then .ok ⟨sortNat (certain ++ possible), [], 0, cutoff, score⟩
  else .ok ⟨certain, possible, missing, cutoff, score⟩

/-- The committees computed from `detailed_info` (abcrules.py:1942-1956). -/
def separableFrom (i : SepInfo) (resolute : Bool) (max : Option ℕ) : Except Err (List (List ℕ)) :=
  if resolute then sortedCommittees [i.certain ++ i.possible.take i.missing]
  else match max with
    | none => sortedCommittees ((combinations i.possible i.missing).map (fun sel => i.certain ++ sel))
    | some n => sortedCommittees (collectUpTo n ((combinations i.possible i.missing).map (fun sel => i.certain ++ sel)) [])

/-- One line of the list of scores (abcrules.py:1875-1876). -/
def sepScoreLine (num : ℚ → Name) (p : Profile) (score : List ℚ) (c : ℕ) : Except Err Name := do
  let n ← pyGet p.candNames c
  let s ← pyGet score c
  .ok (n ++ ": ".toList ++ num s ++ "\n".toList)

/-- The block of `compute_separable_rule` (abcrules.py:1867-1903). -/
def separableReport (num : ℚ → Name) (r : SepRule) (algorithm : String) (p : Profile) (resolute : Bool) (committees : List (List ℕ))
    (i : SepInfo) : Except Err (List Msg) := do
  let h ← headMsgs r.id .one resolute
  let m ← algorithmMsg algorithm
  let ls ← p.candidates.mapM (sepScoreLine num p i.score)
  let scores := detailsMsg ("Scores of candidates:\n".toList ++ ls.flatten ++ "\nCandidates are contained in winning committees\n".toList ++
    "if their score is >= ".toList ++ num i.cutoff ++ ".".toList)
  let certain ←
    if i.certain.length > 0 then do
      let ns ← i.certain.mapM (fun c => pyGet p.candNames c)
      .ok [detailsMsg ("\nThe following candidates are contained in\nevery winning committee:\n ".toList ++ joinText ", ".toList ns ++
        "\n".toList)]
    else .ok []
  let possible ←
    if i.possible.length > 0 then do
      let ns ← i.possible.mapM (fun c => pyGet p.candNames c)
      .ok [detailsMsg ("The following candidates are contained in\nsome of the winning committees:\n ".toList ++ joinText ", ".toList ns ++
        "\n".toList ++ "(".toList ++ strNat i.missing ++ " of those candidates are contained\n in every winning committee.)\n".toList)]
    else .ok []
  let c ← committeesMsg p committees
  .ok (h ++ [m, scores] ++ certain ++ possible ++ [c])

/-- `compute_separable_rule` (abcrules.py:1789-1905) with everything it prints. -/
def computeSeparableVerbose (env : Env) (num : ℚ → Name) (r : SepRule) (p : Profile) (a : Args) :
    Except Err (List Msg × List (List ℕ)) := do
  let algorithm ← prologue env r.id p a
  if algorithm = "standard" then
    let i ← separableInfo r p a.k
    let cs ← separableFrom i a.resolute a.maxNum
    let msgs ← separableReport num r algorithm p a.resolute cs i
    .ok (msgs, cs)
  else .error .unknownAlgorithm

end Abc
