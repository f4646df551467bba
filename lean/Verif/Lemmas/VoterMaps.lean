import Verif.Lemmas.Run
import Verif.Lemmas.Groups
import Verif.Lemmas.Extrema
import Verif.Model.Phragmen

/-!
# Lists with one entry per voter
-/

namespace Abc
open Spec

theorem zip_ofFn {α β : Type} (vs : List α) (x : Fin vs.length → β) :
    vs.zip (List.ofFn x) = List.ofFn (fun i => (vs.get i, x i)) := by
  apply List.ext_getElem <;> simp

theorem zipWith_ofFn {α β γ : Type} (g : α → β → γ) (vs : List α) (x : Fin vs.length → β) :
    List.zipWith g vs (List.ofFn x) = List.ofFn (fun i => g (vs.get i) (x i)) := by
  apply List.ext_getElem <;> simp

theorem sum_filter_map {α : Type} (l : List α) (P : α → Bool) (g : α → ℚ) :
    ((l.filter P).map g).sum = (l.map (fun a => if P a = true then g a else 0)).sum := by
  induction l with
  | nil => rfl
  | cons a l ih =>
    by_cases h : P a = true
    · simp [h, ih]
    · simp [h, ih]

theorem mem_backers {p : Profile} {c : ℕ} {i : Fin p.voters.length} : i ∈ backers p c ↔ c ∈ (p.voters.get i).approved := by
  simp only [backers, Finset.mem_filter, Finset.mem_univ, true_and, mem_appr]

theorem voters_map_sum (p : Profile) (g : Voter → ℚ) :
    (p.voters.map g).sum = ∑ i : Fin p.voters.length, g (p.voters.get i) := by
  have := Fin.sum_univ_fun_getElem p.voters g
  simpa using this.symm

theorem approversWeight_eq (p : Profile) (c : ℕ) : approversWeight p c = wt p (backers p c) := by
  unfold approversWeight wt backers
  rw [sum_filter_map, voters_map_sum, Finset.sum_filter]
  refine Finset.sum_congr rfl (fun i _ => ?_)
  simp only [decide_eq_true_eq, mem_appr]

theorem approversLoad_eq (p : Profile) (x : VoterMap p) (c : ℕ) :
    approversLoad p (List.ofFn x) c = ∑ i ∈ backers p c, (p.voters.get i).weight * x i := by
  unfold approversLoad backers
  rw [sum_filter_map, zip_ofFn, List.map_ofFn, List.sum_ofFn, Finset.sum_filter]
  refine Finset.sum_congr rfl (fun i _ => ?_)
  simp only [decide_eq_true_eq, mem_appr, Function.comp]

theorem updateLoad_eq (p : Profile) (x : VoterMap p) (c : ℕ) (q : ℚ) :
    updateLoad p (List.ofFn x) c q = List.ofFn (fun i => if i ∈ backers p c then q else x i) := by
  unfold updateLoad
  rw [zipWith_ofFn]
  congr 1
  funext i
  simp only [mem_backers]

theorem wt_backers_pos {p : Profile} (hp : p.WF) (c : ℕ) : 0 < wt p (backers p c) ↔ (backers p c).Nonempty := by
  constructor
  · intro h
    by_contra hne
    rw [Finset.not_nonempty_iff_eq_empty] at hne
    rw [hne, wt_empty] at h
    exact lt_irrefl _ h
  · intro h
    exact Finset.sum_pos (fun i _ => weight_pos hp i) h

theorem candidates_getD (p : Profile) (g : ℕ → ℚ) (c : ℕ) (hc : c < p.numCand) : (p.candidates.map g).getD c 0 = g c := by
  simp [Profile.candidates, List.getD_eq_getElem?_getD, hc]

theorem candidates_map_length (p : Profile) (g : ℕ → ℚ) : (p.candidates.map g).length = p.numCand := by
  simp [Profile.candidates]

/-- The exact arithmetic is used. -/
def ExactAlg (env : Env) (alg : String) : Prop :=
  alg = "standard-fractions" ∨ (alg = "gmpy2-fractions" ∧ "gmpy2-fractions" ∈ env.available)

theorem withFractions_exact {α : Type} {env : Env} {alg : String} (h : ExactAlg env alg) (float exact : Except Err α) :
    withFractions env alg float exact = exact := by
  unfold withFractions
  rcases h with rfl | ⟨rfl, h⟩
  · simp
  · simp [h]

/-- Sorting canonical results again does not change them. -/
theorem resort_answers {a : Args} {r : Except Err (List (List ℕ))} {S : Finset ℕ → Prop} (h : Answers a r S) :
    Answers a (r >>= sortedCommittees) S := by
  have hcan : ∀ cs, r = .ok cs → Canonical cs := by
    intro cs hcs
    unfold Answers at h
    rw [hcs] at h
    cases hr : a.resolute with
    | true =>
      rw [hr] at h
      obtain ⟨W, e, h1, -⟩ := h
      rw [Except.ok.inj e]
      exact ⟨by simpa using h1, by simp, by simp⟩
    | false =>
      cases hm : a.max with
      | none =>
        rw [hr, hm] at h
        obtain ⟨ds, e, h, -⟩ := h
        rw [Except.ok.inj e]; exact h
      | some n =>
        rw [hr, hm] at h
        obtain ⟨ds, e, h, -⟩ := h
        rw [Except.ok.inj e]; exact h
  have : r >>= sortedCommittees = r := by
    cases hi : r with
    | error e => rfl
    | ok cs =>
      have hc := hcan cs hi
      obtain ⟨ds, e1, e2, e3⟩ := sortedCommittees_of_lt hc.asc hc.nodup
      simp only [bind, Except.bind]
      rw [e1]
      rw [canonical_ext e2 hc (fun A => ⟨fun ⟨W, h, e⟩ => ⟨W, e3.mem_iff.1 h, e⟩, fun ⟨W, h, e⟩ => ⟨W, e3.mem_iff.2 h, e⟩⟩)]
  rw [this]
  exact h

end Abc
