import Verif.Model.Preferences

/-!
# Model of `abcvoting/fileio.py`

The code reads and writes files through two libraries, ruamel.yaml and preflibtools.  The libraries are not modelled: a file
is an abstract value, and `dump`/`load` (YAML), `write`/`parse` (PrefLib) are parameters.  Modelled is everything abcvoting
does before and after.

Dictionaries with a fixed set of keys are records with optional fields (`none` = the key is absent).  Values are assumed to
have the type the format prescribes (e.g. `num_cand` is an integer), so that the exceptions for values of other types do not
occur in the model.
-/

namespace Abc

/-! ## .abc.yaml files -/

/-- A compute instance, a dictionary (fileio.py:306-320, 363-397).  `V` is the type of the values of other keys, which the
code only copies.  `committeesize = some none` means that the key is present with value `None`. -/
structure Instance (V : Type) where
  ruleId : Option Name := none
  result : Option (Option (List (List ℤ))) := none
  profile : Option Profile := none
  committeesize : Option (Option ℤ) := none
  others : List (Name × V) := []

/-- The dictionary stored in an .abc.yaml file (`data` in fileio.py:279-326 and 354-397).  `otherKeys` are the keys not in
`ABC_YAML_VALID_KEYS` (fileio.py:17-24). -/
structure YamlDoc (V : Type) where
  profile : Option (List (List ℤ)) := none
  numCand : Option ℤ := none
  committeesize : Option ℤ := none
  voterWeights : Option (List ℚ) := none
  compute : Option (List (Instance V)) := none
  description : Option Name := none
  otherKeys : List Name := []

/-- Python `max(l)` on a list of integers; `max([])` raises ValueError. -/
def pyMaxInt : List ℤ → Except Err ℤ
  | [] => .error .valueError
  | x :: xs => .ok (xs.foldl max x)

/-- `num_cand` (fileio.py:284-287). -/
def yamlNumCand (numCand : Option ℤ) (sets : List (List ℤ)) : Except Err ℤ :=
  match numCand with
  | some n => .ok n
  | none => do
    let m ← pyMaxInt sets.flatten
    .ok (m + 1)

/-- `profile.add_voter(v)`, raising (preferences.py:101-116). -/
def addVoterE (p : Profile) (v : RawVoter) : Except Err Profile :=
  match p.addVoter v with
  | (q, none) => .ok q
  | (_, some e) => .error e

/-- `profile.add_voters(vs)`, raising (preferences.py:118-135). -/
def addVotersE (p : Profile) (vs : List RawVoter) : Except Err Profile :=
  match p.addVoters vs with
  | (q, none) => .ok q
  | (_, some e) => .error e

/-- `profile.add_voter(Voter(appr_set, weight=weight))` (fileio.py:297, 156): the voter is built without a number of candidates
first and checked again by `add_voter`. -/
def addWeighted (p : Profile) (appr : List ℤ) (weight : ℚ) : Except Err Profile := do
  let v ← mkVoter appr weight none
  addVoterE p v.toRaw

/-- The loop fileio.py:296-297. -/
def addZip : Profile → List (List ℤ × ℚ) → Except Err Profile
  | p, [] => .ok p
  | p, (appr, weight) :: rest => do
    let q ← addWeighted p appr weight
    addZip q rest

/-- The voters (fileio.py:288-299). -/
def yamlVoters (p : Profile) (sets : List (List ℤ)) (weights : Option (List ℚ)) : Except Err Profile :=
  match weights with
  | some ws => if ws.length ≠ sets.length then .error .malformattedFile else addZip p (sets.zip ws)
  | none => addVotersE p (sets.map (fun s => ⟨s, 1⟩))

/-- `[misc.CandidateSet(committee) for committee in result]` (fileio.py:318-320). -/
def yamlResult (result : Option (Option (List (List ℤ)))) : Except Err (Option (Option (List (List ℤ)))) :=
  match result with
  | none => .ok none
  | some none => .ok (some none)
  | some (some cs) => do
    let sets ← cs.mapM (fun c => candidateSet c none)
    .ok (some (some (sets.map (fun s => s.map Int.ofNat))))

/-- One iteration of the loop over the compute instances (fileio.py:310-320). -/
def readInstance {V : Type} (p : Profile) (k : Option ℤ) (i : Instance V) : Except Err (Instance V) := do
  if i.ruleId.isNone then .error .malformattedFile
  else
    let r ← yamlResult i.result
    .ok { i with profile := some p, committeesize := some k, result := r }

/-- `read_abcvoting_yaml_file` (fileio.py:254-326), from the loaded dictionary on.  (The fourth component of the returned tuple,
the dictionary itself, is omitted.) -/
def readDoc {V : Type} (d : YamlDoc V) : Except Err (Profile × Option ℤ × List (Instance V)) :=
  match d.profile with
  | none => .error .malformattedFile
  | some sets => do
    let n ← yamlNumCand d.numCand sets
    let p ← mkProfile n none
    let q ← yamlVoters p sets d.voterWeights
    let insts ← (d.compute.getD []).mapM (readInstance q d.committeesize)
    if d.otherKeys ≠ [] then .error .malformattedFile else .ok (q, d.committeesize, insts)

/-- `read_abcvoting_yaml_file` (fileio.py:254-326); `load` is ruamel.yaml's. -/
def readYaml {V F : Type} (load : F → Except Err (YamlDoc V)) (f : F) :
    Except Err (Profile × Option ℤ × List (Instance V)) := do
  let d ← load f
  readDoc d

/-- The check of a compute instance's committee size (fileio.py:383-389): `int(None)` raises TypeError. -/
def writeCheckSize (k : Option ℤ) (c : Option (Option ℤ)) : Except Err Unit :=
  match c with
  | none => .ok ()
  | some none => .error .typeError
  | some (some m) => if some m ≠ k then .error .valueError else .ok ()

/-- The check of a compute instance's profile (fileio.py:376-382); `str` is `Profile.__str__` (preferences.py:246-259). -/
def writeCheckProfile (str : Profile → Name) (p : Profile) (c : Option Profile) : Except Err Unit :=
  match c with
  | none => .ok ()
  | some q => if str q ≠ str p then .error .valueError else .ok ()

/-- One iteration of the loop over the compute instances (fileio.py:365-395). -/
def writeInstance {V : Type} (str : Profile → Name) (p : Profile) (k : Option ℤ) (i : Instance V) : Except Err (Instance V) := do
  if i.ruleId.isNone then .error .valueError
  else
    writeCheckProfile str p i.profile
    writeCheckSize k i.committeesize
    .ok { ruleId := i.ruleId, result := i.result, others := i.others }

/-- The compute instances (fileio.py:363-397). -/
def writeInstances {V : Type} (str : Profile → Name) (p : Profile) (k : Option ℤ) :
    Option (List (Instance V)) → Except Err (Option (List (Instance V)))
  | none => .ok none
  | some insts => do
    let l ← insts.mapM (writeInstance str p k)
    .ok (some l)

/-- The dictionary written by `write_abcvoting_instance_to_yaml_file` (fileio.py:329-397). -/
def writeDoc {V : Type} (str : Profile → Name) (p : Profile) (k : Option ℤ) (insts : Option (List (Instance V)))
    (description : Option Name) : Except Err (YamlDoc V) := do
  let compute ← writeInstances str p k insts
  .ok
    { profile := some (p.voters.map (fun v => v.approved.map Int.ofNat))
      numCand := some p.numCand
      committeesize := k
      voterWeights := if p.hasUnitWeights then none else some (p.voters.map Voter.weight)
      compute := compute
      description := description }

/-- `write_abcvoting_instance_to_yaml_file` (fileio.py:329-402); `dump` is ruamel.yaml's. -/
def writeYaml {V F : Type} (dump : YamlDoc V → Except Err F) (str : Profile → Name) (p : Profile) (k : Option ℤ)
    (insts : Option (List (Instance V))) (description : Option Name) : Except Err F := do
  let d ← writeDoc str p k insts description
  dump d

/-! ## PrefLib files -/

/-- The part of a preflibtools instance abcvoting uses (fileio.py:130-158, 221-245).  `alternativesName` and `multiplicity` are
dictionaries: their items in insertion order, the keys being distinct.  A preference is a tuple of categories (for ordinal
instances: of indifference classes). -/
structure PrefInst where
  numAlternatives : ℕ
  alternativesName : List (ℕ × Name)
  multiplicity : List (List (List ℕ) × ℤ)

/-- What `preflib.get_parsed_instance` returns (fileio.py:111-128). -/
inductive Parsed
  | ordinal (i : PrefInst)
  | categorical (i : PrefInst)
  | other

/-- preflibtools (fileio.py:111-126, 245): parsing, `CategoricalInstance.from_ordinal` with `size_truncators=[setsize]` and with
`num_indif_classes=[1] * num_alternatives`, and writing. -/
structure PrefLib (F : Type) where
  parse : F → Except Err Parsed
  fromOrdinalSize : ℕ → PrefInst → PrefInst
  fromOrdinalClasses : PrefInst → PrefInst
  write : PrefInst → F

/-- `normalize_map[cand]` (fileio.py:130-135): the position of `cand` among the alternatives; KeyError when absent. -/
def normalizeCand (i : PrefInst) (cand : ℕ) : Except Err ℤ :=
  match i.alternativesName.findIdx? (fun x => decide (x.1 = cand)) with
  | some j => .ok j
  | none => .error .keyError

/-- The loop fileio.py:142-145. -/
def setsizeLoop (i : PrefInst) (setsize : ℕ) : List (List ℕ) → List ℤ → Except Err (List ℤ)
  | [], acc => .ok acc
  | category :: rest, acc =>
    if acc.length < setsize then do
      let new ← category.mapM (normalizeCand i)
      setsizeLoop i setsize rest (acc ++ new)
    else .ok acc

/-- `approval_set` (fileio.py:140-153). `0` stands for "not given" (a Python 0 is treated like `None` here). -/
def approvalSet (i : PrefInst) (topRanks setsize : ℕ) (preferences : List (List ℕ)) : Except Err (List ℤ) :=
  if setsize ≠ 0 then do
    let a ← setsizeLoop i setsize preferences []
    if 0 < a.length ∧ a.length < setsize then
      .ok ((List.range i.alternativesName.length).map Int.ofNat)
    else .ok a
  else if topRanks ≠ 0 then do
    let cats ← (preferences.take topRanks).mapM (fun cat => cat.mapM (normalizeCand i))
    .ok cats.flatten
  else .ok []

/-- The loop over the ballots (fileio.py:139-158). -/
def addBallots (i : PrefInst) (topRanks setsize : ℕ) (useWeights : Bool) :
    Profile → List (List (List ℕ) × ℤ) → Except Err Profile
  | p, [] => .ok p
  | p, (preferences, count) :: rest => do
    let a ← approvalSet i topRanks setsize preferences
    let q ← if useWeights then addWeighted p a count
      else addVotersE p (List.replicate count.toNat ⟨a, 1⟩)
    addBallots i topRanks setsize useWeights q rest

/-- `read_preflib_file` (fileio.py:65-160) from the (categorical) instance on.  The dictionary `normalize_map` has one entry for
each alternative. -/
def readInst (i : PrefInst) (topRanks setsize : ℕ) (useWeights : Bool) : Except Err Profile := do
  let p ← mkProfile i.numAlternatives (some (i.alternativesName.map Prod.snd))
  addBallots i topRanks setsize useWeights p i.multiplicity

/-- The conversion to a categorical instance (fileio.py:118-128).  (With `top_ranks` and `setsize` both 0 an ordinal instance is not
converted.) -/
def toCategorical {F : Type} (lib : PrefLib F) (topRanks setsize : ℕ) : Parsed → Except Err PrefInst
  | .ordinal i =>
    if setsize ≠ 0 then .ok (lib.fromOrdinalSize setsize i)
    else if topRanks ≠ 0 then .ok (lib.fromOrdinalClasses i)
    else .ok i
  | .categorical i => .ok i
  | .other => .error .valueError

/-- `read_preflib_file` (fileio.py:65-160). -/
def readPreflib {F : Type} (lib : PrefLib F) (f : F) (topRanks setsize : Option ℤ := none) (useWeights : Bool := false) :
    Except Err Profile := do
  -- fileio.py:102-103
  let topRanks := if topRanks.isNone && setsize.isNone then some 1 else topRanks
  -- a missing parameter and the value 0 are both falsy (fileio.py:104-109, 119-123, 141-148)
  let t := topRanks.getD 0
  let s := setsize.getD 0
  if t ≠ 0 ∧ s ≠ 0 then .error .valueError
  else if t ≠ 0 ∧ t ≤ 0 then .error .valueError
  else if s ≠ 0 ∧ s ≤ 0 then .error .valueError
  else
    -- any exception of the parser is replaced by MalformattedFileException (fileio.py:111-116)
    match lib.parse f with
    | .error _ => .error .malformattedFile
    | .ok parsed => do
      let i ← toCategorical lib t.toNat s.toNat parsed
      readInst i t.toNat s.toNat useWeights

/-- `multiplicity` (fileio.py:235-238). -/
def voterMultiplicity (v : Voter) : ℤ := if v.weight.den = 1 then v.weight.num else 1

/-- `pref` (fileio.py:231-234). -/
def voterPref (p : Profile) (v : Voter) : List (List ℕ) :=
  [v.approved.map (· + 1), (p.candidates.filter (fun c => ¬ decide (c ∈ v.approved))).map (· + 1)]

/-- The dictionary update fileio.py:239-243. -/
def addMultiplicity (m : List (List (List ℕ) × ℤ)) (pref : List (List ℕ)) (n : ℤ) : List (List (List ℕ) × ℤ) :=
  if pref ∈ m.map Prod.fst then m.map (fun x => if x.1 = pref then (x.1, x.2 + n) else x)
  else m ++ [(pref, n)]

/-- The instance built by `write_profile_to_preflib_cat_file` (fileio.py:221-244). -/
def writeInst (p : Profile) : Except Err PrefInst := do
  let names ← p.candidates.mapM (fun c => do let name ← pyGet p.candNames c; pure (c + 1, name))
  .ok
    { numAlternatives := p.numCand
      alternativesName := names
      multiplicity := p.voters.foldl (fun m v => addMultiplicity m (voterPref p v) (voterMultiplicity v)) [] }

/-- `write_profile_to_preflib_cat_file` (fileio.py:205-245). -/
def writePreflib {F : Type} (lib : PrefLib F) (p : Profile) : Except Err F := do
  let i ← writeInst p
  .ok (lib.write i)

/-! ## Directories -/

/-- `get_file_names` (fileio.py:31-62).  `files` are the names of the files in the directory (`os.walk`); `extensions = []` like
`None` (both falsy). -/
def getFileNames (files : List Name) (extensions : List Name) : Except Err (List Name) :=
  if files.length = 0 then .error .fileNotFound
  else
    let files := if extensions = [] then files
      else files.filter (fun f => extensions.any (fun e => decide (e <:+ f)))
    .ok (files.insertionSort strLe)

/-- `read_preflib_files_from_dir` (fileio.py:163-202): file names and profiles.  `read` is `read_preflib_file` on the file of that name
with the given `top_ranks`, `setsize`. -/
def readPreflibDir (files : List Name) (read : Name → Except Err Profile) : Except Err (List (Name × Profile)) := do
  let names ← getFileNames files [".soi".toList, ".toi".toList, ".soc".toList, ".toc".toList, ".cat".toList]
  names.mapM (fun f => do let p ← read f; pure (f, p))

end Abc
