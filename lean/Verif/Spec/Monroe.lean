import Verif.Spec.Run
import Verif.Model.Optimal

/-!
# Specification of Monroe's rule, of maximum matchings and of minimum-cost flows
-/

namespace Abc.Spec

/-- A balanced assignment of the voters to the members of `W`: every member represents `⌊n/k⌋` or `⌈n/k⌉` voters
(`k = |W|`; `⌈n/k⌉ = (n + k - 1) / k`). -/
def Balanced (p : Profile) (W : Finset ℕ) (φ : Fin p.voters.length → ℕ) : Prop :=
  (∀ i, φ i ∈ W) ∧ ∀ c ∈ W,
    p.voters.length / W.card ≤ (Finset.univ.filter (fun i => φ i = c)).card ∧
    (Finset.univ.filter (fun i => φ i = c)).card ≤ (p.voters.length + W.card - 1) / W.card

/-- The number of voters assigned to a candidate they approve. -/
def represented (p : Profile) (φ : Fin p.voters.length → ℕ) : ℕ := (Finset.univ.filter (fun i => φ i ∈ appr p i)).card

/-- `m` is the Monroe score of `W`: the maximal number of represented voters in a balanced assignment. -/
def IsMonroeScore (p : Profile) (W : Finset ℕ) (m : ℕ) : Prop :=
  (∃ φ, Balanced p W φ ∧ represented p φ = m) ∧ ∀ φ, Balanced p W φ → represented p φ ≤ m

/-- Monroe winners: committees of size `k` that allow a balanced assignment with at least as many represented voters as any
balanced assignment for any other committee of size `k`. -/
def MonroeOpt (p : Profile) (k : ℕ) (A : Finset ℕ) : Prop :=
  IsCommittee p k A ∧ ∃ φ, Balanced p A φ ∧ ∀ B ψ, IsCommittee p k B → Balanced p B ψ → represented p ψ ≤ represented p φ

/-- `M` is a matching in the bipartite graph with edges `E`. -/
structure IsMatching (E M : List MEdge) : Prop where
  sub : ∀ e ∈ M, e ∈ E
  left : (M.map Prod.fst).Nodup
  right : (M.map Prod.snd).Nodup

/-- `matching` computes maximum matchings (what `nx.bipartite.maximum_matching` promises). -/
def ExactMatching (matching : List MEdge → List MEdge) : Prop :=
  ∀ E, IsMatching E (matching E) ∧ ∀ M, IsMatching E M → M.length ≤ (matching E).length

/-- Flow into node `v`. -/
def inflow (net : FlowNet) (f : FNode × FNode → ℕ) (v : FNode) : ℕ :=
  (net.edges.map (fun e => if e.1.2 = v then f e.1 else 0)).sum

/-- Flow out of node `v`. -/
def outflow (net : FlowNet) (f : FNode × FNode → ℕ) (v : FNode) : ℕ :=
  (net.edges.map (fun e => if e.1.1 = v then f e.1 else 0)).sum

/-- `f` is an (integral) flow that meets all demands and capacities (all capacities are 1). -/
def IsFlow (net : FlowNet) (f : FNode × FNode → ℕ) : Prop :=
  (∀ e ∈ net.edges, f e.1 ≤ 1) ∧ ∀ nd ∈ net.nodes, (inflow net f nd.1 : ℤ) - outflow net f nd.1 = nd.2

/-- The cost of a flow. -/
def flowCost (net : FlowNet) (f : FNode × FNode → ℕ) : ℕ := (net.edges.map (fun e => e.2 * f e.1)).sum

/-- `minCost` computes the cost of a minimum-cost flow whenever there is a flow (what `nx.capacity_scaling` promises). -/
def ExactMinCost (minCost : FlowNet → Except Err ℕ) : Prop :=
  ∀ net, (∃ f, IsFlow net f) → ∃ m, minCost net = .ok m ∧ (∃ f, IsFlow net f ∧ flowCost net f = m) ∧
    ∀ f, IsFlow net f → m ≤ flowCost net f

/-! ## Greedy Monroe -/

/-- The size of the `t`-th district (`t = 0, 1, …`) when `n` voters are divided into `k` districts: the first `n % k` districts
get `⌊n/k⌋ + 1` voters, the others `⌊n/k⌋`. -/
def districtSize (n k t : ℕ) : ℕ := if t < n % k then n / k + 1 else n / k

/-- The `m` members of `S` with the smallest positions (all of `S` if there are fewer). -/
def firstVoters {p : Profile} (S : Group p) (m : ℕ) : Group p := S.filter (fun i => (S.filter (fun j => j < i)).card < m)

/-- The voters that are in none of the districts `Ds`. -/
def unassigned (p : Profile) (Ds : List (Group p)) : Group p := Finset.univ.filter (fun i => ∀ D ∈ Ds, i ∉ D)

/-- Greedy Monroe elects a candidate with the largest number of unassigned supporters. -/
def GMBest (p : Profile) (W : List ℕ) (Ds : List (Group p)) (c : ℕ) : Prop :=
  c < p.numCand ∧ c ∉ W ∧ ∀ d < p.numCand, d ∉ W →
    (unassigned p Ds ∩ backers p d).card ≤ (unassigned p Ds ∩ backers p c).card

/-- … and forms a district of unassigned supporters, at most as many as the size of the district. -/
def gmUpd (p : Profile) (k : ℕ) (W : List ℕ) (Ds : List (Group p)) (c : ℕ) : List (Group p) :=
  Ds ++ [firstVoters (unassigned p Ds ∩ backers p c) (districtSize p.voters.length k W.length)]

end Abc.Spec
