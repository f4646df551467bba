import Verif.Model.Generate
import Verif.Spec.Basic

/-!
# Specification of profile generation

What a call `random_profile(num_voters, num_cand, prob_distribution)` asks of the sampling library, and what it returns.
-/

namespace Abc.Generate

open Abc Spec

/-- The dictionary gives the parameter `key` the value `v`, or omits it and `v` is its default. -/
def Value (dist : Kw) (key : String) (default : Option Arg) (v : Arg) : Prop :=
  dist.lookup key = some v ∨ (dist.lookup key = none ∧ default = some v)

/-- The dictionary has no keys besides `"id"` and the listed ones. -/
def OnlyKeys (dist : Kw) (names : List String) : Prop := ∀ x ∈ dist, x.1 = "id" ∨ x.1 ∈ names

/-- The dictionary after the value of `key` has been changed. -/
def Kw.change (dist : Kw) (key : String) (v : Arg) : Kw := dist.map (fun x => if x.1 = key then (key, v) else x)

/-- The sampler of a named point distribution: uniform in an interval, a square, a cube or a disc of the given width, normal with
the given sigma, or normal restricted to an interval or disc; around the center point of the distribution. -/
inductive SamplerOf (d : PointDist) : PointSampler → Prop
  | interval : d.name = "1d_interval".toList → SamplerOf d (.cube 1 d.centerPoint d.width)
  | gaussian1 : d.name = "1d_gaussian".toList → SamplerOf d (.gaussian 1 d.centerPoint d.sigma none)
  | gaussianInterval : d.name = "1d_gaussian_interval".toList → SamplerOf d (.gaussian 1 d.centerPoint d.sigma (some d.width))
  | disc : d.name = "2d_disc".toList → SamplerOf d (.ballUniform 2 d.centerPoint d.width)
  | square : d.name = "2d_square".toList → SamplerOf d (.cube 2 d.centerPoint d.width)
  | gaussian2 : d.name = "2d_gaussian".toList → SamplerOf d (.gaussian 2 d.centerPoint d.sigma none)
  | gaussianDisc : d.name = "2d_gaussian_disc".toList → SamplerOf d (.ballResampling 2 d.centerPoint d.sigma d.width)
  | cube : d.name = "3d_cube".toList → SamplerOf d (.cube 3 d.centerPoint d.width)

/-- Where points come from: a list of points given by the user has precedence over a distribution; `None` and `None` means
that the library's default is used. -/
inductive Source (dist pts : Arg) : Positions → Prop
  | given (l : List Point) : pts = .points l → Source dist pts (.given l)
  | distribution (d : PointDist) (s : PointSampler) : pts = .none → dist = .dist d → SamplerOf d s →
      Source dist pts (.sampler s)
  | default : pts = .none → dist = .none → Source dist pts .none

/-- The dimension handed to the library: that of the first given voter point, or the number at the beginning of the name of
the voter distribution, or `-1`. -/
inductive Dimension (w : Samplers) (dist pts : Arg) : ℤ → Prop
  | given (x : Point) (l : List Point) : pts = .points (x :: l) → Dimension w dist pts x.length
  | distribution (d : PointDist) (c : Char) (n : Name) (k : ℤ) : pts = .none → dist = .dist d → d.name = c :: n →
      w.intOf [c] = some k → Dimension w dist pts k
  | default : pts = .none → dist = .none → Dimension w dist pts (-1)

/-- What Python regards as false: `None`, `0`, `""`, `False` and empty lists. -/
def IsFalse (x : Arg) : Prop := x ∈ [.none, .num 0, .str "", .bool false, .nums [], .points []]

/-- The Euclidean part of a request: the library's positions `vs`, `cs` in dimension `dims`; they are returned to the user
exactly if `return_points` is true. -/
structure Euclid (w : Samplers) (nv nc : ℤ) (dist : Kw) (dims : ℤ) (vs cs : List Point)
    (returned : Option (List Point × List Point)) : Prop where
  exists_args : ∃ vd cd vp cp rp vpos cpos,
    Value dist "voter_prob_distribution" none vd ∧ Value dist "candidate_prob_distribution" none cd ∧
    Value dist "voter_points" (some .none) vp ∧ Value dist "candidate_points" (some .none) cp ∧
    Value dist "return_points" (some (.bool false)) rp ∧
    Source vd vp vpos ∧ Source cd cp cpos ∧ Dimension w vd vp dims ∧
    w.positions nv nc dims vpos cpos = .ok (vs, cs) ∧
    (IsFalse rp → returned = none) ∧ (¬ IsFalse rp → returned = some (vs, cs))

/-- The keywords of Euclidean generators. -/
def euclidKeys : List String :=
  ["voter_prob_distribution", "candidate_prob_distribution", "voter_points", "candidate_points", "return_points"]

/-- `Requests w nv nc dist id args pts`: the dictionary `dist` is a correct specification of a distribution with identifier
`id`; the sampler call it stands for is `args`; `pts` are the points returned in addition to the profile. -/
inductive Requests (w : Samplers) (nv nc : ℤ) (dist : Kw) : String → SamplerArgs → Option (List Point × List Point) → Prop
  | icFixedSize (s : ℚ) : OnlyKeys dist ["setsize"] → Value dist "setsize" none (.num s) → nc ≠ 0 →
      Requests w nv nc dist "IC fixed-size" (.impartialConstantSize (s / nc)) none
  | ic (p : Arg) : OnlyKeys dist ["p"] → Value dist "p" (some (.num (1 / 2))) p →
      Requests w nv nc dist "IC" (.impartial p) none
  | mallows (s : ℚ) (phi : Arg) : OnlyKeys dist ["setsize", "dispersion"] → Value dist "setsize" none (.num s) →
      Value dist "dispersion" none phi → nc ≠ 0 →
      Requests w nv nc dist "Truncated Mallows" (.truncatedOrdinal (s / nc) (.mallows phi)) none
  | urnFixedSize (s : ℚ) (alpha : Arg) : OnlyKeys dist ["setsize", "replace"] → Value dist "setsize" none (.num s) →
      Value dist "replace" none alpha → nc ≠ 0 →
      Requests w nv nc dist "Urn fixed-size" (.urnConstantSize (s / nc) alpha) none
  | urn (p alpha : Arg) : OnlyKeys dist ["p", "replace"] → Value dist "p" none p → Value dist "replace" none alpha →
      Requests w nv nc dist "Urn" (.urn p alpha) none
  | truncatedUrn (s : ℚ) (alpha : Arg) : OnlyKeys dist ["setsize", "replace"] → Value dist "setsize" none (.num s) →
      Value dist "replace" none alpha → nc ≠ 0 →
      Requests w nv nc dist "Truncated Urn" (.truncatedOrdinal (s / nc) (.urn alpha)) none
  | resampling (p phi : Arg) : OnlyKeys dist ["p", "phi"] → Value dist "p" none p → Value dist "phi" none phi →
      Requests w nv nc dist "Resampling" (.resampling phi p) none
  | disjointResampling (p phi g : Arg) : OnlyKeys dist ["p", "phi", "num_groups"] → Value dist "p" none p →
      Value dist "phi" (some .none) phi → phi ≠ .none → Value dist "num_groups" (some (.num 2)) g →
      Requests w nv nc dist "Disjoint Resampling" (.disjointResampling phi p g) none
  | disjointResamplingRandom (p g : Arg) : OnlyKeys dist ["p", "phi", "num_groups"] → Value dist "p" none p →
      Value dist "phi" (some .none) .none → Value dist "num_groups" (some (.num 2)) g →
      Requests w nv nc dist "Disjoint Resampling" (.disjointResampling (.num w.random) p g) none
  | noise (p phi : Arg) (name : String) (d : SetDistance) : OnlyKeys dist ["p", "phi", "distance"] → Value dist "p" none p →
      Value dist "phi" none phi → Value dist "distance" (some (.str "hamming")) (.str name) →
      (name, d) ∈ [("hamming", SetDistance.hamming), ("jaccard", .jaccard), ("zelinka", .zelinka), ("bunke-shearer", .bunkeShearer)] →
      Requests w nv nc dist "Noise" (.noise phi p d) none
  | euclideanFixedSize (s : ℚ) (dims : ℤ) (vs cs : List Point) (pts : Option (List Point × List Point)) :
      OnlyKeys dist ("setsize" :: euclidKeys) → Value dist "setsize" none (.num s) → nc ≠ 0 →
      Euclid w nv nc dist dims vs cs pts →
      Requests w nv nc dist "Euclidean fixed-size" (.euclideanConstantSize (s / nc) dims vs cs) pts
  | euclideanThreshold (t : Arg) (dims : ℤ) (vs cs : List Point) (pts : Option (List Point × List Point)) :
      OnlyKeys dist ("threshold" :: euclidKeys) → Value dist "threshold" none t →
      Euclid w nv nc dist dims vs cs pts →
      Requests w nv nc dist "Euclidean Threshold" (.euclideanThreshold t dims vs cs) pts
  | euclideanVcr (rv rc : Arg) (dims : ℤ) (vs cs : List Point) (pts : Option (List Point × List Point)) :
      OnlyKeys dist ("voter_radius" :: "candidate_radius" :: euclidKeys) → Value dist "voter_radius" none rv →
      Value dist "candidate_radius" none rc → Euclid w nv nc dist dims vs cs pts →
      Requests w nv nc dist "Euclidean VCR" (.euclideanVcr rv rc dims vs cs) pts

/-- The samples are approval sets over the candidates `0, …, nc - 1`. -/
def LegalSamples (nc : ℤ) (samples : List (List ℤ)) : Prop :=
  ∀ s ∈ samples, s.Nodup ∧ ∀ c ∈ s, 0 ≤ c ∧ c < nc

/-- The profile made of the samples: `nc` candidates named by their numbers, one voter of weight 1 per sample, in order. -/
structure MadeOf (nc : ℤ) (samples : List (List ℤ)) (p : Profile) : Prop where
  cands : (p.numCand : ℤ) = nc
  names : p.candNames = (List.range p.numCand).map strNat
  voters : List.Forall₂ (fun s v => Stores ⟨s, 1⟩ v) samples p.voters

/-- The twelve identifiers (`PROBABILITY_DISTRIBUTION_IDS`). -/
def distributionIds : List String :=
  ["IC fixed-size", "IC", "Truncated Mallows", "Urn fixed-size", "Urn", "Truncated Urn", "Euclidean VCR",
   "Euclidean fixed-size", "Euclidean Threshold", "Resampling", "Disjoint Resampling", "Noise"]

/-- For each identifier the required and the optional parameters (docstrings of the generators). -/
def parameters : List (String × List String × List String) :=
  [("IC fixed-size", ["setsize"], []),
   ("IC", [], ["p"]),
   ("Truncated Mallows", ["setsize", "dispersion"], []),
   ("Urn fixed-size", ["setsize", "replace"], []),
   ("Urn", ["p", "replace"], []),
   ("Truncated Urn", ["setsize", "replace"], []),
   ("Euclidean VCR", ["voter_radius", "candidate_radius", "voter_prob_distribution", "candidate_prob_distribution"],
      ["voter_points", "candidate_points", "return_points"]),
   ("Euclidean fixed-size", ["setsize", "voter_prob_distribution", "candidate_prob_distribution"],
      ["voter_points", "candidate_points", "return_points"]),
   ("Euclidean Threshold", ["threshold", "voter_prob_distribution", "candidate_prob_distribution"],
      ["voter_points", "candidate_points", "return_points"]),
   ("Resampling", ["p", "phi"], []),
   ("Disjoint Resampling", ["p"], ["phi", "num_groups"]),
   ("Noise", ["p", "phi"], ["distance"])]

/-- `pre` is the part of `name` before the first occurrence of `"d_"`, or the whole name if `"d_"` does not occur in it. -/
def NameStart (name pre : Name) : Prop :=
  pre <+: name ∧ (∀ j < pre.length, ¬ ['d', '_'] <+: name.drop j) ∧ (pre = name ∨ ['d', '_'] <+: name.drop pre.length)

end Abc.Generate
