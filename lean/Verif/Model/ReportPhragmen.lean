import Verif.Model.Report

/-!
# Model of the "optional output" of seq-Phragmén and of the Method of Equal Shares
-/

namespace Abc

/-- The text `msg[:-2] + ")"`, where `msg` is `pre` followed by `str(load[v]) + ", "` for every voter `v` (abcrules.py:2755-2758,
2785-2788, 3154-3157, 3168-3171, 3190-3193, 3210-3213). -/
def loadsText (num : ℚ → Name) (p : Profile) (pre : Name) (load : List ℚ) : Except Err Name := do
  let ls ← (List.range p.voters.length).mapM (fun v => pyGet load v)
  .ok ((pre ++ ls.flatMap (fun x => num x ++ ", ".toList)).dropLast.dropLast ++ ")".toList)

/-- The lines for one round of seq-Phragmén (abcrules.py:2743-2777 and, with a different last line in the case of ties, 3198-3231);
`i` is the number of candidates elected before. -/
def phragRoundMsgs (num : ℚ → Name) (p : Profile) (tieText : Name) (i : ℕ) (r : PhragInfo) : Except Err (List Msg) := do
  let n ← pyGet p.candNames r.nextCand
  let l ← loadsText num p "(".toList r.load
  let head :=
    [detailsMsg ("adding candidate number ".toList ++ strNat (i + 1) ++ ": ".toList ++ n),
     detailsMsg ("maximum load increased to ".toList ++ num r.maxLoad) " ".toList,
     detailsMsg " load distribution:".toList,
     detailsMsg l "  ".toList]
  let tie ←
    if r.tiedCands.length > 1 then do
      let s ← strSetOfCandidates r.tiedCands (some p.candNames)
      .ok [detailsMsg ("tie broken in favor of ".toList ++ n ++ ",".toList) " ".toList,
        detailsMsg ("candidates ".toList ++ s ++ " are tied".toList) " ".toList,
        detailsMsg (tieText ++ num r.maxLoad ++ ").".toList) " ".toList]
    else .ok []
  .ok (head ++ tie ++ [detailsMsg []])

/-- The loops abcrules.py:2743-2777 and 3198-3231. -/
def phragRoundsMsgs (num : ℚ → Name) (p : Profile) (tieText : Name) : ℕ → List PhragInfo → Except Err (List Msg)
  | _, [] => .ok []
  | i, r :: rs => do
    let m ← phragRoundMsgs num p tieText i r
    let rest ← phragRoundsMsgs num p tieText (i + 1) rs
    .ok (m ++ rest)

/-- The end of the last line in the case of ties in seq-Phragmén (abcrules.py:2773). -/
def phragTieText : Name := "(for all those new maximum load = ".toList

/-- `d[key] = value` for a dictionary (a list of pairs in insertion order). -/
def dictSet {β : Type} (d : List (List ℕ × β)) (key : List ℕ) (value : β) : List (List ℕ × β) :=
  if key ∈ d.map Prod.fst then d.map (fun e => if e.1 = key then (key, value) else e) else d ++ [(key, value)]

/-- `expandLoop` (the inner `for` loop) with the dictionary `committee_load_pairs` (abcrules.py:2928-2955); the set `committees` always
consists of the keys of this dictionary. -/
def expandLoopD {N β : Type} (full : N → Bool) (out : N → List ℕ) (val : N → β) (max : Option ℕ) :
    List N → List N → List (List ℕ × β) → Sum (List (List ℕ × β)) (List N × List (List ℕ × β))
  | [], newPartial, d => .inr (newPartial, d)
  | n :: ns, newPartial, d =>
    if full n then
      if max = some (dictSet d (out n) (val n)).length then .inl (dictSet d (out n) (val n))
      else expandLoopD full out val max ns newPartial (dictSet d (out n) (val n))
    else expandLoopD full out val max ns (newPartial ++ [n]) d

/-- `universes` (the `while` loop) with the dictionary `committee_load_pairs` (abcrules.py:2910-2958). -/
def universesD {N β : Type} (full : N → Bool) (out : N → List ℕ) (val : N → β) (succs : N → Except Err (List N)) (max : Option ℕ) :
    ℕ → List N → List (List ℕ × β) → Except Err (List (List ℕ × β))
  | _, [], d => .ok d
  | 0, _ :: _, _ => .error .outOfFuel
  | fuel + 1, n :: rest, d => do
    let ns ← succs n
    match expandLoopD full out val max ns [] d with
    | .inl d' => .ok d'
    | .inr (newPartial, d') => universesD full out val succs max fuel (newPartial ++ rest) d'

/-- `_seqphragmen_irresolute` with `detailed_info["committee_load_pairs"]` (abcrules.py:2872-2960). -/
def seqphragmenIrresoluteInfo (p : Profile) (k : ℕ) (max : Option ℕ) : Except Err (List (List ℕ) × List (List ℕ × List ℚ)) := do
  let d ← universesD (fun n : List ℕ × List ℚ => decide (n.1.length = k)) (fun n => sortNat n.1) Prod.snd
    (fun n => .ok (seqphragmenSuccs p k n)) max (dfsFuel p k) [([], zeroLoad p)] []
  let cs ← sortedCommittees (d.map Prod.fst)
  .ok (cs, d)

/-- The committees and the `detailed_info` of `_seqphragmen_resolute` and `_seqphragmen_irresolute`: rounds and
`committee_load_pairs`. -/
abbrev PhragDetails := List (List ℕ) × List PhragInfo × List (List ℕ × List ℚ)

/-- `_seqphragmen_resolute` with `detailed_info` (abcrules.py:2797-2869). -/
def seqphragmenResoluteInfo (p : Profile) (k : ℕ) : Except Err PhragDetails := do
  let r ← seqphragmenLoop p k k [] (zeroLoad p) []
  .ok ([r.1], r.2.2, [(r.1, r.2.1)])

/-- One of the lines with the load distributions (abcrules.py:2784-2788). -/
def phragLoadLine (num : ℚ → Name) (p : Profile) (e : List ℕ × List ℚ) : Except Err Msg := do
  let s ← strSetOfCandidates e.1 (some p.candNames)
  let l ← loadsText num p (s ++ ": (".toList) e.2
  .ok (detailsMsg (l ++ "\n".toList))

/-- The block of `compute_seqphragmen` (abcrules.py:2731-2789). -/
def seqphragmenReport (num : ℚ → Name) (algorithm : String) (p : Profile) (resolute : Bool) (r : PhragDetails) :
    Except Err (List Msg) := do
  let h ← headMsgs "seqphragmen" .all resolute
  let m ← algorithmMsg algorithm
  let rounds ← phragRoundsMsgs num p phragTieText 0 (if resolute then r.2.1 else [])
  let c ← committeesMsg p r.1
  let ls ← r.2.2.mapM (phragLoadLine num p)
  .ok (h ++ [m] ++ rounds ++ [c, detailsMsg (if resolute ∨ r.1.length = 1 then "corresponding load distribution:".toList
    else "corresponding load distributions:".toList)] ++ ls)

/-- `compute_seqphragmen` (abcrules.py:2662-2794) with everything it prints; `float` is the result of the two functions with
floating-point arithmetic. -/
def computeSeqphragmenVerbose (env : Env) (num : ℚ → Name) (float : Except Err PhragDetails) (p : Profile) (a : Args) :
    Except Err (List Msg × List (List ℕ)) := do
  let algorithm ← prologue env "seqphragmen" p a
  let r ← withFractions env algorithm float
    (if a.resolute then seqphragmenResoluteInfo p a.k
      else (do let r ← seqphragmenIrresoluteInfo p a.k a.maxNum; .ok (r.1, [], r.2)))
  let msgs ← seqphragmenReport num algorithm p a.resolute r
  let cs ← sortedCommittees r.1
  .ok (msgs, cs)

end Abc
