import Verif.Model.Rules

/-!
# Specification vocabulary

Everything here is stated with finite sets and does not use the model's helpers (except the data types `Voter`, `Profile`).
-/

namespace Abc

/-- The approval set of a voter. -/
def Voter.A (v : Voter) : Finset ℕ := v.approved.toFinset

/-- A profile as the API can produce it: at least one candidate, duplicate-free approval sets of existing candidates,
positive weights. -/
structure Profile.WF (p : Profile) : Prop where
  pos : 0 < p.numCand
  nodup : ∀ v ∈ p.voters, v.approved.Nodup
  lt : ∀ v ∈ p.voters, ∀ c ∈ v.approved, c < p.numCand
  weight : ∀ v ∈ p.voters, 0 < v.weight

namespace Spec

/-- A committee of size `k`: `k` distinct existing candidates. -/
def IsCommittee (p : Profile) (k : ℕ) (W : Finset ℕ) : Prop := W ⊆ Finset.range p.numCand ∧ W.card = k

/-- Number of candidates of `W` approved by `v`. -/
def util (v : Voter) (W : Finset ℕ) : ℕ := (v.A ∩ W).card

/-- Total weight of the voters whose approval set is exactly `A`. -/
def electorate (voters : List Voter) (A : Finset ℕ) : ℚ :=
  ((voters.filter (fun v => decide (v.A = A))).map Voter.weight).sum

/-- `W` dominates `X`: nobody worse off, somebody better off. -/
def Dominates (p : Profile) (W X : Finset ℕ) : Prop :=
  (∀ v ∈ p.voters, util v X ≤ util v W) ∧ ∃ v ∈ p.voters, util v X < util v W

/-- What the user passes is a legal voter for a profile with `n` candidates. -/
def LegalVoter (n : ℕ) (v : RawVoter) : Prop :=
  v.approved.Nodup ∧ (∀ c ∈ v.approved, 0 ≤ c ∧ c < n) ∧ 0 < v.weight

/-- `w` is the voter stored for the input `v`: same candidates, same weight. -/
def Stores (v : RawVoter) (w : Voter) : Prop :=
  w.weight = v.weight ∧ w.approved.Pairwise (· < ·) ∧ ∀ c : ℤ, c ∈ v.approved ↔ ∃ x ∈ w.approved, (x : ℤ) = c

/-- A list of committees in the canonical order of `sorted_committees`: each committee is listed ascendingly, no committee
occurs twice, and the committees are ordered by their printed form (Python string order). -/
structure Canonical (cs : List (List ℕ)) : Prop where
  asc : ∀ W ∈ cs, W.Pairwise (· < ·)
  nodup : cs.Nodup
  sorted : cs.Pairwise (fun a b => strKey a ≤ strKey b)

/-- The call `r` returns normally, in canonical order, exactly the committees satisfying `S`, each once. -/
def Returns (r : Except Err (List (List ℕ))) (S : Finset ℕ → Prop) : Prop :=
  ∃ cs, r = .ok cs ∧ Canonical cs ∧ ∀ A : Finset ℕ, (∃ W ∈ cs, W.toFinset = A) ↔ S A

/-- The call `r` returns normally, in canonical order, exactly `min n (number of sets satisfying S)` different
committees, all satisfying `S`. -/
def ReturnsSome (r : Except Err (List (List ℕ))) (n : ℕ) (S : Finset ℕ → Prop) : Prop :=
  ∃ cs, r = .ok cs ∧ Canonical cs ∧ (∀ W ∈ cs, S W.toFinset) ∧
    ∃ F : Finset (Finset ℕ), (∀ A, A ∈ F ↔ S A) ∧ cs.length = min n F.card

/-- The call `r` returns normally exactly one committee (listed ascendingly), and it satisfies `S`. -/
def ReturnsOne (r : Except Err (List (List ℕ))) (S : Finset ℕ → Prop) : Prop :=
  ∃ W, r = .ok [W] ∧ W.Pairwise (· < ·) ∧ S W.toFinset

/-- The call `r`, made with arguments `a`, answers as a rule whose winning committees are those satisfying `S` should:
one winning committee if `resolute`, all winning committees if not, and `min n (number of winning committees)` different
ones if `max_num_of_committees = n`. -/
def Answers (a : Args) (r : Except Err (List (List ℕ))) (S : Finset ℕ → Prop) : Prop :=
  match a.resolute, a.max with
  | true, _ => ReturnsOne r S
  | false, none => Returns r S
  | false, some n => ReturnsSome r n.toNat S

end Spec

end Abc
