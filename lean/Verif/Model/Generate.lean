import Verif.Model.Preferences
import Verif.Model.FileIO

/-!
# Model of `abcvoting/generate.py`

The random samplers of the package `prefsampling` (and the random number generator) are parameters: a `Samplers` value says
what each call returns.  Everything `generate.py` itself does is modelled: the dispatch on the distribution id, the binding of
keyword arguments, the translation of the arguments into a sampler call, and the construction of the profile.
-/

namespace Abc.Generate

open Abc

/-- A point in Euclidean space: a sequence of coordinates. -/
abbrev Point := List ℚ

/-- `PointProbabilityDistribution` objects (generate.py:791-899). -/
structure PointDist where
  name : Name
  dimension : ℤ
  centerPoint : Point
  sigma : ℚ
  width : ℚ
deriving DecidableEq, Repr

/-- `center_point` as given by the user: a number or a sequence (generate.py:881, 893-899). -/
inductive Center
  | scalar (x : ℚ)
  | point (p : Point)
deriving DecidableEq, Repr

/-- Values of keyword arguments. -/
inductive Arg
  | none
  | num (q : ℚ)
  | str (s : String)
  | bool (b : Bool)
  | nums (l : List ℚ)
  | dist (d : PointDist)
  | points (l : List Point)
deriving DecidableEq, Repr

/-- A point sampler of `prefsampling.point` with its arguments (generate.py:901-974). -/
inductive PointSampler
  | cube (dims : ℕ) (center : Point) (width : ℚ)
  | gaussian (dims : ℕ) (center : Point) (sigma : ℚ) (width : Option ℚ)
  | ballUniform (dims : ℕ) (center : Point) (width : ℚ)
  | ballResampling (dims : ℕ) (center : Point) (sigma width : ℚ)
deriving DecidableEq, Repr

/-- The `voters_positions` / `candidates_positions` arguments of `sample_election_positions` (generate.py:544-563). -/
inductive Positions
  | none
  | sampler (s : PointSampler)
  | given (l : List Point)
deriving DecidableEq, Repr

/-- The four set distances (generate.py:464-471). -/
inductive SetDistance
  | hamming | jaccard | zelinka | bunkeShearer
deriving DecidableEq, Repr

/-- Which ordinal sampler `truncated_ordinal` uses (generate.py:184-194, 299-309). -/
inductive OrdinalSampler
  | mallows (phi : Arg)
  | urn (alpha : Arg)
deriving DecidableEq, Repr

/-- The arguments of a sampler besides `num_voters` and `num_candidates`; one constructor per sampler of
`prefsampling.approval` that generate.py uses.  `rel` stands for `rel_num_approvals`, `relCentral` for
`rel_size_central_vote`. -/
inductive SamplerArgs
  | urnConstantSize (rel : ℚ) (alpha : Arg)
  | impartialConstantSize (rel : ℚ)
  | truncatedOrdinal (rel : ℚ) (ordinal : OrdinalSampler)
  | impartial (p : Arg)
  | urn (p alpha : Arg)
  | resampling (phi relCentral : Arg)
  | disjointResampling (phi relCentral numCentral : Arg)
  | noise (phi relCentral : Arg) (distance : SetDistance)
  | euclideanConstantSize (rel : ℚ) (dims : ℤ) (voters cands : List Point)
  | euclideanThreshold (threshold : Arg) (dims : ℤ) (voters cands : List Point)
  | euclideanVcr (votersRadius candsRadius : Arg) (dims : ℤ) (voters cands : List Point)
deriving DecidableEq, Repr

/-- The parts of the outside world that generate.py uses. -/
structure Samplers where
  /-- `sampler(**sampler_params)` (generate.py:34): the samples, or an exception. -/
  sample : (numVoters numCandidates : ℤ) → SamplerArgs → Except Err (List (List ℤ))
  /-- `prefsampling_sample_election_positions` (generate.py:560). -/
  positions : (numVoters numCand dims : ℤ) → Positions → Positions → Except Err (List Point × List Point)
  /-- `point_samplers.…(num_points, …)` (generate.py:901-974). -/
  points : PointSampler → ℕ → Except Err (List Point)
  /-- `rng.random()` (generate.py:404). -/
  random : ℚ
  /-- Python's `int(s)` on strings; `none` when it raises ValueError. -/
  intOf : Name → Option ℤ

/-- What the generators return: the profile, and with `return_points` also the positions (generate.py:568-571). -/
structure Generated where
  profile : Profile
  points : Option (List Point × List Point) := none
deriving DecidableEq, Repr

/-- The loop of `prefsampling_wrapper` (generate.py:37-38). -/
def addSamples (n : ℤ) (p : Profile) : List (List ℤ) → Except Err Profile
  | [] => .ok p
  | s :: rest => do
    let v ← mkVoter s 1 (some n)
    let p' ← addVoterE p v.toRaw
    addSamples n p' rest

/-- `prefsampling_wrapper` (generate.py:19-39). -/
def wrapper (w : Samplers) (numVoters numCandidates : ℤ) (args : SamplerArgs) : Except Err Profile := do
  let samples ← w.sample numVoters numCandidates args
  let p ← mkProfile numCandidates none
  addSamples numCandidates p samples

/-- Keyword arguments: a dictionary, as the list of its items. -/
abbrev Kw := List (String × Arg)

/-- Value of a keyword argument; the default if there is one; otherwise Python raises TypeError
("missing required argument"). -/
def Kw.get (kw : Kw) (key : String) (default : Option Arg := none) : Except Err Arg :=
  match kw.lookup key with
  | some v => .ok v
  | none => match default with
    | some d => .ok d
    | none => .error .typeError

/-- Python raises TypeError for a keyword that is not a parameter of the called function (also for `num_voters`, `num_cand`,
which are already passed by position). -/
def Kw.only (kw : Kw) (names : List String) : Except Err Unit :=
  if kw.all (fun x => decide (x.1 ∈ names)) then .ok () else .error .typeError

/-- `setsize / num_cand` (generate.py:127, 157, 190, 305, 635): TypeError for non-numbers, ZeroDivisionError for `num_cand = 0`. -/
def relSize (setsize : Arg) (numCand : ℤ) : Except Err ℚ :=
  match setsize with
  | .num s => if numCand = 0 then .error .zeroDivisionError else .ok (s / numCand)
  | _ => .error .typeError

/-- `random_urn_fixed_size_profile` (generate.py:93-130). -/
def urnFixedSize (w : Samplers) (nv nc : ℤ) (kw : Kw) : Except Err Generated := do
  kw.only ["setsize", "replace"]
  let setsize ← kw.get "setsize"
  let replace ← kw.get "replace"
  let rel ← relSize setsize nc
  let p ← wrapper w nv nc (.urnConstantSize rel replace)
  .ok ⟨p, none⟩

/-- `random_ic_fixed_size_profile` (generate.py:133-159). -/
def icFixedSize (w : Samplers) (nv nc : ℤ) (kw : Kw) : Except Err Generated := do
  kw.only ["setsize"]
  let setsize ← kw.get "setsize"
  let rel ← relSize setsize nc
  let p ← wrapper w nv nc (.impartialConstantSize rel)
  .ok ⟨p, none⟩

/-- `random_mallows_profile` (generate.py:162-195). -/
def mallows (w : Samplers) (nv nc : ℤ) (kw : Kw) : Except Err Generated := do
  kw.only ["setsize", "dispersion"]
  let setsize ← kw.get "setsize"
  let dispersion ← kw.get "dispersion"
  let rel ← relSize setsize nc
  let p ← wrapper w nv nc (.truncatedOrdinal rel (.mallows dispersion))
  .ok ⟨p, none⟩

/-- `random_ic_profile` (generate.py:198-228). -/
def ic (w : Samplers) (nv nc : ℤ) (kw : Kw) : Except Err Generated := do
  kw.only ["p"]
  let prob ← kw.get "p" (some (.num (1 / 2)))
  let p ← wrapper w nv nc (.impartial prob)
  .ok ⟨p, none⟩

/-- `random_urn_profile` (generate.py:231-260). -/
def urn (w : Samplers) (nv nc : ℤ) (kw : Kw) : Except Err Generated := do
  kw.only ["p", "replace"]
  let prob ← kw.get "p"
  let replace ← kw.get "replace"
  let p ← wrapper w nv nc (.urn prob replace)
  .ok ⟨p, none⟩

/-- `random_truncated_urn_profile` (generate.py:264-309). -/
def truncatedUrn (w : Samplers) (nv nc : ℤ) (kw : Kw) : Except Err Generated := do
  kw.only ["setsize", "replace"]
  let setsize ← kw.get "setsize"
  let replace ← kw.get "replace"
  let rel ← relSize setsize nc
  let p ← wrapper w nv nc (.truncatedOrdinal rel (.urn replace))
  .ok ⟨p, none⟩

/-- `random_resampling_profile` (generate.py:313-358). -/
def resampling (w : Samplers) (nv nc : ℤ) (kw : Kw) : Except Err Generated := do
  kw.only ["p", "phi"]
  let prob ← kw.get "p"
  let phi ← kw.get "phi"
  let p ← wrapper w nv nc (.resampling phi prob)
  .ok ⟨p, none⟩

/-- `random_disjoint_resampling_profile` (generate.py:361-417). -/
def disjointResampling (w : Samplers) (nv nc : ℤ) (kw : Kw) : Except Err Generated := do
  kw.only ["p", "phi", "num_groups"]
  let prob ← kw.get "p"
  let phi ← kw.get "phi" (some .none)
  let groups ← kw.get "num_groups" (some (.num 2))
  let phi' := if phi = .none then .num w.random else phi
  let p ← wrapper w nv nc (.disjointResampling phi' prob groups)
  .ok ⟨p, none⟩

/-- The name-to-distance `if` chain (generate.py:464-473). -/
def distanceOf (a : Arg) : Except Err SetDistance :=
  if a = .str "hamming" then .ok .hamming
  else if a = .str "jaccard" then .ok .jaccard
  else if a = .str "zelinka" then .ok .zelinka
  else if a = .str "bunke-shearer" then .ok .bunkeShearer
  else .error .valueError

/-- `random_noise_model_profile` (generate.py:420-483). -/
def noise (w : Samplers) (nv nc : ℤ) (kw : Kw) : Except Err Generated := do
  kw.only ["p", "phi", "distance"]
  let prob ← kw.get "p"
  let phi ← kw.get "phi"
  let distance ← kw.get "distance" (some (.str "hamming"))
  let d ← distanceOf distance
  let p ← wrapper w nv nc (.noise phi prob d)
  .ok ⟨p, none⟩

/-! ## Points -/

/-- `name.split("d_")[0]`: everything before the first occurrence of `"d_"` (generate.py:887). -/
def beforeD : Name → Name
  | [] => []
  | [c] => [c]
  | c :: c' :: rest => if c = 'd' ∧ c' = '_' then [] else c :: beforeD (c' :: rest)

/-- `PointProbabilityDistribution.__init__` (generate.py:881-899).  `[center_point] * dimension` is empty for a negative
dimension. -/
def mkPointDist (w : Samplers) (name : Name) (center : Center := .scalar (1 / 2)) (sigma : ℚ := 15 / 100) (width : ℚ := 1) :
    Except Err PointDist :=
  match w.intOf (beforeD name) with
  | none => .error .valueError
  | some d =>
    match center with
    | .point p => if (p.length : ℤ) ≠ d then .error .valueError else .ok ⟨name, d, p, sigma, width⟩
    | .scalar x => .ok ⟨name, d, List.replicate d.toNat x, sigma, width⟩

/-- `PointProbabilityDistribution.prefsampling_function` (generate.py:901-974). -/
def prefsamplingFunction (d : PointDist) : Except Err PointSampler :=
  if d.name = "1d_interval".toList then .ok (.cube 1 d.centerPoint d.width)
  else if d.name = "1d_gaussian".toList then .ok (.gaussian 1 d.centerPoint d.sigma none)
  else if d.name = "1d_gaussian_interval".toList then .ok (.gaussian 1 d.centerPoint d.sigma (some d.width))
  else if d.name = "2d_disc".toList then .ok (.ballUniform 2 d.centerPoint d.width)
  else if d.name = "2d_square".toList then .ok (.cube 2 d.centerPoint d.width)
  else if d.name = "2d_gaussian".toList then .ok (.gaussian 2 d.centerPoint d.sigma none)
  else if d.name = "2d_gaussian_disc".toList then .ok (.ballResampling 2 d.centerPoint d.sigma d.width)
  else if d.name = "3d_cube".toList then .ok (.cube 3 d.centerPoint d.width)
  else .error .valueError

/-- `random_point` (generate.py:977-990). -/
def randomPoint (w : Samplers) (d : PointDist) : Except Err Point := do
  let s ← prefsamplingFunction d
  let ps ← w.points s 1
  pyGet ps 0

/-- `int(voter_prob_distribution.name[0])` (generate.py:550): IndexError for the empty name, ValueError for a non-digit. -/
def nameDimension (w : Samplers) (name : Name) : Except Err ℤ :=
  match name with
  | [] => .error .indexError
  | c :: _ => match w.intOf [c] with
    | some d => .ok d
    | none => .error .valueError

/-- An argument expected to be a point distribution or `None`; other values have no `prefsampling_function`
(AttributeError, reported as TypeError here). -/
def Arg.asDist : Arg → Except Err (Option PointDist)
  | .none => .ok Option.none
  | .dist d => .ok (some d)
  | _ => .error .typeError

/-- An argument expected to be a list of points or `None`; other values are not sequences of sequences (TypeError). -/
def Arg.asPoints : Arg → Except Err (Option (List Point))
  | .none => .ok Option.none
  | .points l => .ok (some l)
  | _ => .error .typeError

/-- Truth value of `return_points` (generate.py:569). -/
def Arg.truthy : Arg → Bool
  | .none => false
  | .num q => decide (q ≠ 0)
  | .str s => decide (s ≠ "")
  | .bool b => b
  | .nums l => !l.isEmpty
  | .points l => !l.isEmpty
  | .dist _ => true

/-- `voters_positions` and `num_dimensions` (generate.py:544-553). -/
def voterSide (w : Samplers) (dist pts : Arg) : Except Err (Positions × ℤ) := do
  match ← pts.asPoints with
  | none =>
    match ← dist.asDist with
    | none => .ok (.none, -1)
    | some d =>
      let s ← prefsamplingFunction d
      let n ← nameDimension w d.name
      .ok (.sampler s, n)
  | some l =>
    let p ← pyGet l 0
    .ok (.given l, p.length)

/-- `candidates_positions` (generate.py:554-559). -/
def candSide (dist pts : Arg) : Except Err Positions := do
  match ← pts.asPoints with
  | none =>
    match ← dist.asDist with
    | none => .ok .none
    | some d =>
      let s ← prefsamplingFunction d
      .ok (.sampler s)
  | some l => .ok (.given l)

/-- `prefsampling_euclidean_wrapper` (generate.py:486-571); `args` receives `num_dimensions` and the two lists of positions. -/
def euclideanWrapper (w : Samplers) (nv nc : ℤ) (voterDist candDist voterPts candPts returnPoints : Arg)
    (args : ℤ → List Point → List Point → SamplerArgs) : Except Err Generated := do
  let (vpos, dims) ← voterSide w voterDist voterPts
  let cpos ← candSide candDist candPts
  let (vs, cs) ← w.positions nv nc dims vpos cpos
  let p ← wrapper w nv nc (args dims vs cs)
  .ok ⟨p, if returnPoints.truthy then some (vs, cs) else none⟩

/-- The keyword parameters which the three Euclidean generators share (generate.py:574-583, 639-648, 709-719). -/
def euclideanNames : List String :=
  ["voter_prob_distribution", "candidate_prob_distribution", "voter_points", "candidate_points", "return_points"]

/-- Their values. -/
structure EuclideanArgs where
  voterDist : Arg
  candDist : Arg
  voterPts : Arg
  candPts : Arg
  returnPoints : Arg
deriving DecidableEq, Repr

/-- Binding of these parameters (generate.py:574-583, 639-648, 709-719). -/
def euclideanArgs (kw : Kw) : Except Err EuclideanArgs := do
  let vd ← kw.get "voter_prob_distribution"
  let cd ← kw.get "candidate_prob_distribution"
  let vp ← kw.get "voter_points" (some .none)
  let cp ← kw.get "candidate_points" (some .none)
  let rp ← kw.get "return_points" (some (.bool false))
  .ok ⟨vd, cd, vp, cp, rp⟩

/-- `random_euclidean_fixed_size_profile` (generate.py:574-636). -/
def euclideanFixedSize (w : Samplers) (nv nc : ℤ) (kw : Kw) : Except Err Generated := do
  kw.only ("setsize" :: euclideanNames)
  let setsize ← kw.get "setsize"
  let e ← euclideanArgs kw
  let rel ← relSize setsize nc
  euclideanWrapper w nv nc e.voterDist e.candDist e.voterPts e.candPts e.returnPoints (.euclideanConstantSize rel)

/-- `random_euclidean_threshold_profile` (generate.py:639-706). -/
def euclideanThreshold (w : Samplers) (nv nc : ℤ) (kw : Kw) : Except Err Generated := do
  kw.only ("threshold" :: euclideanNames)
  let threshold ← kw.get "threshold"
  let e ← euclideanArgs kw
  euclideanWrapper w nv nc e.voterDist e.candDist e.voterPts e.candPts e.returnPoints (.euclideanThreshold threshold)

/-- `random_euclidean_vcr_profile` (generate.py:709-788). -/
def euclideanVcr (w : Samplers) (nv nc : ℤ) (kw : Kw) : Except Err Generated := do
  kw.only ("voter_radius" :: "candidate_radius" :: euclideanNames)
  let voterRadius ← kw.get "voter_radius"
  let candRadius ← kw.get "candidate_radius"
  let e ← euclideanArgs kw
  euclideanWrapper w nv nc e.voterDist e.candDist e.voterPts e.candPts e.returnPoints (.euclideanVcr voterRadius candRadius)

/-- `PROBABILITY_DISTRIBUTIONS` (generate.py:993-1007). -/
def probabilityDistributions : List (String × (Samplers → ℤ → ℤ → Kw → Except Err Generated)) :=
  [("IC fixed-size", icFixedSize), ("IC", ic), ("Truncated Mallows", mallows), ("Urn fixed-size", urnFixedSize), ("Urn", urn),
   ("Truncated Urn", truncatedUrn), ("Euclidean VCR", euclideanVcr), ("Euclidean fixed-size", euclideanFixedSize),
   ("Euclidean Threshold", euclideanThreshold), ("Resampling", resampling), ("Disjoint Resampling", disjointResampling),
   ("Noise", noise)]

/-- `random_profile` (generate.py:42-90).  A dictionary with a non-string id is treated like one with an unknown id. -/
def randomProfile (w : Samplers) (nv nc : ℤ) (dist : Kw) : Except Err Generated :=
  match dist.lookup "id" with
  | none => .error .keyError
  | some (.str id) =>
    match probabilityDistributions.lookup id with
    | none => .error .valueError
    | some f => f w nv nc (dist.filter (fun x => decide (x.1 ≠ "id")))
  | some _ => .error .valueError

end Abc.Generate
