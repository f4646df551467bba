import Mathlib.Data.Set.Finite.Lemmas
import Mathlib.Data.Nat.Lattice
import Verif.Spec.Changes
import Verif.Props.Dispatch
import Verif.Props.Consistency
import Verif.Props.ILPLexminimaxav

/-!
# C99: additional approvals do not harm a candidate
-/

namespace Abc
open Spec

/-- The same for the winning committees. -/
def KeepsCandidate (c : ℕ) (S S' : Finset ℕ → Prop) : Prop :=
  ((∃ A, S A ∧ c ∈ A) → ∃ A, S' A ∧ c ∈ A) ∧ ((∀ A, S A → c ∈ A) → ∀ A, S' A → c ∈ A)

/-- What the supporters of a losing candidate `c` can achieve, for the winning committees: a committee without `c` that wins with the
additional approvals also wins without them, and if no committee with `c` wins with them they change nothing. -/
def KeepsOthers (c : ℕ) (S S' : Finset ℕ → Prop) : Prop :=
  (∀ A, S' A → c ∉ A → S A) ∧ ((∀ A, S' A → c ∉ A) → ∀ A, S A → S' A)

/-- What the supporters of a losing candidate `c` can achieve if a value is maximised: as soon as one committee without `c` wins with the
additional approvals, it also won before, and all committees that won before still win. -/
def KeepsOne (c : ℕ) (S S' : Finset ℕ → Prop) : Prop := ∀ A, S' A → c ∉ A → S A ∧ ∀ B, S B → S' B

/-- A committee with `c` that won before and a committee without `c` that wins now win both times. -/
def KeepsStill (c : ℕ) (S S' : Finset ℕ → Prop) : Prop := ∀ A B, S A → c ∈ A → S' B → c ∉ B → S' A ∧ S B

theorem KeepsOthers.keeps {c : ℕ} {S S' : Finset ℕ → Prop} (h : KeepsOthers c S S') : KeepsCandidate c S S' := by
  constructor
  · rintro ⟨A, hA, hc⟩
    by_contra hno
    push Not at hno
    exact hno A (h.2 hno A hA) hc
  · intro hall A hA
    by_contra hc
    exact hc (hall A (h.1 A hA hc))

theorem stillElected_of_answers {c : ℕ} {a a' : Args} (h : AllCommittees a) (h' : AllCommittees a')
    {r r' : Except Err (List (List ℕ))} {S S' : Finset ℕ → Prop} (g : Answers a r S) (g' : Answers a' r' S')
    (hS : KeepsCandidate c S S') : StillElected c r r' := by
  unfold Answers at g g'
  rw [h.1, h.2] at g
  rw [h'.1, h'.2] at g'
  obtain ⟨cs, e, -, m⟩ := g
  obtain ⟨cs', e', -, m'⟩ := g'
  refine ⟨cs, cs', e, e', ?_, ?_⟩
  · rintro ⟨W, hW, hc⟩
    obtain ⟨A, hA, hcA⟩ := hS.1 ⟨W.toFinset, (m _).1 ⟨W, hW, rfl⟩, List.mem_toFinset.2 hc⟩
    obtain ⟨V, hV, rfl⟩ := (m' A).2 hA
    exact ⟨V, hV, List.mem_toFinset.1 hcA⟩
  · intro hall W hW
    refine List.mem_toFinset.1 (hS.2 (fun A hA => ?_) W.toFinset ((m' _).1 ⟨W, hW, rfl⟩))
    obtain ⟨V, hV, rfl⟩ := (m A).2 hA
    exact List.mem_toFinset.2 (hall V hV)

/-- Rules that maximise a value: it suffices that the value of committees with `c` does not decrease and the value of the others does
not increase. -/
theorem keeps_of_values {α : Type} [LinearOrder α] {C : Finset ℕ → Prop} (hfin : {A | C A}.Finite) {v v' : Finset ℕ → α} {c : ℕ}
    (hup : ∀ A, C A → c ∈ A → v A ≤ v' A) (hdown : ∀ B, C B → c ∉ B → v' B ≤ v B) :
    KeepsCandidate c (fun A => C A ∧ ∀ B, C B → v B ≤ v A) (fun A => C A ∧ ∀ B, C B → v' B ≤ v' A) ∧
    KeepsStill c (fun A => C A ∧ ∀ B, C B → v B ≤ v A) (fun A => C A ∧ ∀ B, C B → v' B ≤ v' A) := by
  refine ⟨⟨?_, ?_⟩, ?_⟩
  · rintro ⟨A, ⟨hA, hmax⟩, hc⟩
    obtain ⟨A', hA', hmax'⟩ := Set.exists_max_image {A | C A ∧ c ∈ A} v' (hfin.subset (fun A h => h.1)) ⟨A, hA, hc⟩
    refine ⟨A', ⟨hA'.1, fun B hB => ?_⟩, hA'.2⟩
    by_cases hcB : c ∈ B
    · exact hmax' B ⟨hB, hcB⟩
    · calc v' B ≤ v B := hdown B hB hcB
        _ ≤ v A := hmax B hB
        _ ≤ v' A := hup A hA hc
        _ ≤ v' A' := hmax' A ⟨hA, hc⟩
  · rintro hall A' ⟨hA', hmax'⟩
    by_contra hc'
    obtain ⟨A, hA, hmax⟩ := Set.exists_max_image {A | C A} v hfin ⟨A', hA'⟩
    have hcA : c ∈ A := hall A ⟨hA, hmax⟩
    refine hc' (hall A' ⟨hA', fun B hB => ?_⟩)
    calc v B ≤ v A := hmax B hB
      _ ≤ v' A := hup A hA hcA
      _ ≤ v' A' := hmax' A hA
      _ ≤ v A' := hdown A' hA' hc'
  · rintro A B ⟨hA, hmax⟩ hcA ⟨hB, hmax'⟩ hcB
    have h1 := hup A hA hcA
    have h2 := hmax' A hA
    have h3 := hdown B hB hcB
    exact ⟨⟨hA, fun D hD => (hmax' D hD).trans (h3.trans ((hmax B hB).trans h1))⟩,
      ⟨hB, fun D hD => (hmax D hD).trans (h1.trans (h2.trans h3))⟩⟩

/-- It is even better if the value of the committees without `c` does not change. -/
theorem others_of_values {α : Type} [LinearOrder α] {C : Finset ℕ → Prop} (hfin : {A | C A}.Finite) {v v' : Finset ℕ → α} {c : ℕ}
    (hup : ∀ A, C A → c ∈ A → v A ≤ v' A) (hsame : ∀ B, C B → c ∉ B → v' B = v B) :
    KeepsOthers c (fun A => C A ∧ ∀ B, C B → v B ≤ v A) (fun A => C A ∧ ∀ B, C B → v' B ≤ v' A) ∧
    KeepsOne c (fun A => C A ∧ ∀ B, C B → v B ≤ v A) (fun A => C A ∧ ∀ B, C B → v' B ≤ v' A) := by
  have hle : ∀ A, C A → v A ≤ v' A := fun A hA => by
    by_cases hc : c ∈ A
    · exact hup A hA hc
    · exact (hsame A hA hc).ge
  have hback : ∀ A, (C A ∧ ∀ B, C B → v' B ≤ v' A) → c ∉ A → C A ∧ ∀ B, C B → v B ≤ v A := by
    rintro A ⟨hA, hmax⟩ hc
    refine ⟨hA, fun B hB => ?_⟩
    rw [← hsame A hA hc]
    exact (hle B hB).trans (hmax B hB)
  have hone : KeepsOne c (fun A => C A ∧ ∀ B, C B → v B ≤ v A) (fun A => C A ∧ ∀ B, C B → v' B ≤ v' A) := by
    refine fun A hA hc => ⟨hback A hA hc, fun B hB => ⟨hB.1, fun D hD => ?_⟩⟩
    calc v' D ≤ v' A := hA.2 D hD
      _ = v A := hsame A hA.1 hc
      _ ≤ v B := hB.2 A hA.1
      _ ≤ v' B := hle B hB.1
  refine ⟨⟨hback, fun hno A hA => ?_⟩, hone⟩
  obtain ⟨A', hA', hmax'⟩ := Set.exists_max_image {A | C A} v' hfin ⟨A, hA.1⟩
  exact (hone A' ⟨hA', hmax'⟩ (hno A' ⟨hA', hmax'⟩)).2 A hA

theorem committees_finite (p : Profile) (k : ℕ) : {A | IsCommittee p k A}.Finite :=
  (Finset.range p.numCand).powerset.finite_toSet.subset (fun A hA => Finset.mem_coe.2 (Finset.mem_powerset.2 hA.1))

/-! ### Voters -/

/-- The new ballot of a voter. -/
def NewBallot (c : ℕ) (v v' : Voter) : Prop := v'.weight = v.weight ∧ (v'.A = v.A ∨ v'.A = insert c v.A)

theorem forall₂_sum_le {R : Voter → Voter → Prop} {F F' : Voter → ℚ} {l l' : List Voter} (h : List.Forall₂ R l l')
    (hF : ∀ v v', v ∈ l → R v v' → F v ≤ F' v') : (l.map F).sum ≤ (l'.map F').sum := by
  induction h with
  | nil => simp
  | @cons v v' l l' h _ ih =>
    rw [List.map_cons, List.map_cons, List.sum_cons, List.sum_cons]
    exact add_le_add (hF v v' (by simp) h) (ih (fun u u' hu => hF u u' (by simp [hu])))

theorem forall₂_sum_ge {R : Voter → Voter → Prop} {F F' : Voter → ℚ} {l l' : List Voter} (h : List.Forall₂ R l l')
    (hF : ∀ v v', v ∈ l → R v v' → F' v' ≤ F v) : (l'.map F').sum ≤ (l.map F).sum := by
  induction h with
  | nil => simp
  | @cons v v' l l' h _ ih =>
    rw [List.map_cons, List.map_cons, List.sum_cons, List.sum_cons]
    exact add_le_add (hF v v' (by simp) h) (ih (fun u u' hu => hF u u' (by simp [hu])))

section
variable {c : ℕ} {v v' : Voter}

theorem util_new_mem (h : NewBallot c v v') {A : Finset ℕ} : util v A ≤ util v' A := by
  unfold util
  refine Finset.card_le_card (Finset.inter_subset_inter_right ?_)
  rcases h.2 with e | e
  · rw [e]
  · rw [e]; exact Finset.subset_insert _ _

theorem util_new_notMem (h : NewBallot c v v') {A : Finset ℕ} (hc : c ∉ A) : util v' A = util v A := by
  unfold util
  rcases h.2 with e | e
  · rw [e]
  · rw [e, Finset.insert_inter_of_notMem hc]

theorem dist_new_mem (h : NewBallot c v v') {A : Finset ℕ} (hc : c ∈ A) : dist v' A ≤ dist v A := by
  unfold dist
  refine Finset.card_le_card ?_
  intro x hx
  rw [Finset.mem_symmDiff] at hx ⊢
  rcases h.2 with e | e
  · rwa [e] at hx
  · rw [e, Finset.mem_insert] at hx
    rcases hx with ⟨rfl | h1, h2⟩ | ⟨h1, h2⟩
    · exact absurd hc h2
    · exact Or.inl ⟨h1, h2⟩
    · exact Or.inr ⟨h1, fun g => h2 (Or.inr g)⟩

theorem dist_new_notMem (h : NewBallot c v v') {A : Finset ℕ} (hc : c ∉ A) : dist v A ≤ dist v' A := by
  unfold dist
  refine Finset.card_le_card ?_
  intro x hx
  rw [Finset.mem_symmDiff] at hx ⊢
  rcases h.2 with e | e
  · rwa [e]
  · rw [e, Finset.mem_insert]
    rcases hx with ⟨h1, h2⟩ | ⟨h1, h2⟩
    · exact Or.inl ⟨Or.inr h1, h2⟩
    · exact Or.inr ⟨h1, by rintro (rfl | g); exact hc h1; exact h2 g⟩

end

/-! ### The rules -/

section
variable {c : ℕ} {p p' : Profile} (hp : p.WF) (M : MoreApprovals c p p')
include M

theorem more_committee (k : ℕ) (A : Finset ℕ) : IsCommittee p' k A ↔ IsCommittee p k A := by
  unfold IsCommittee
  rw [M.cand]

include hp

theorem both_thiele {f : ℕ → ℚ} (hf : ∀ i, 0 ≤ f i) (k : ℕ) : KeepsOthers c (ThieleOpt f p k) (ThieleOpt f p' k) ∧
    KeepsOne c (ThieleOpt f p k) (ThieleOpt f p' k) := by
  have := others_of_values (C := IsCommittee p k) (v := score f p) (v' := score f p') (c := c) (committees_finite p k)
    (fun A _ hc => forall₂_sum_le M.voters (fun v v' hv h => by
      rw [h.1]
      refine mul_le_mul_of_nonneg_left ?_ (hp.weight v hv).le
      exact Finset.sum_le_sum_of_subset_of_nonneg (Finset.range_mono (util_new_mem h)) (fun i _ _ => hf _)))
    (fun B _ hc => le_antisymm (forall₂_sum_ge M.voters (fun v v' hv h => by rw [h.1, util_new_notMem h hc]))
      (forall₂_sum_le M.voters (fun v v' hv h => by rw [h.1, util_new_notMem h hc])))
  unfold ThieleOpt
  simp only [more_committee M]
  exact this

theorem others_thiele {f : ℕ → ℚ} (hf : ∀ i, 0 ≤ f i) (k : ℕ) : KeepsOthers c (ThieleOpt f p k) (ThieleOpt f p' k) :=
  (both_thiele hp M hf k).1

theorem keeps_thiele {f : ℕ → ℚ} (hf : ∀ i, 0 ≤ f i) (k : ℕ) : KeepsCandidate c (ThieleOpt f p k) (ThieleOpt f p' k) :=
  (others_thiele hp M hf k).keeps

theorem both_lexcc (k : ℕ) : KeepsOthers c (LexccOpt p k) (LexccOpt p' k) ∧
    KeepsOne c (LexccOpt p k) (LexccOpt p' k) := by
  have lex : ∀ {f g : ℕ → ℚ}, (∀ l, f l ≤ g l) → (List.range k).map f ≤ (List.range k).map g := by
    intro f g h
    rw [← not_lt, map_range_lt_iff]
    rintro ⟨i, -, -, h2⟩
    exact absurd (h i) (not_le.2 h2)
  have := others_of_values (C := IsCommittee p k) (v := coverageVector p k) (v' := coverageVector p' k) (c := c) (committees_finite p k)
    (fun A _ hc => lex fun l => forall₂_sum_le M.voters (fun v v' hv h => by
      rw [h.1]
      have := util_new_mem h (A := A)
      have := (hp.weight v hv).le
      split_ifs <;> first | omega | simpa using this | exact le_rfl))
    (fun B _ hc => le_antisymm (lex fun l => forall₂_sum_ge M.voters (fun v v' hv h => by rw [h.1, util_new_notMem h hc]))
      (lex fun l => forall₂_sum_le M.voters (fun v v' hv h => by rw [h.1, util_new_notMem h hc])))
  unfold LexccOpt
  simp only [more_committee M, not_lt]
  exact this

theorem others_lexcc (k : ℕ) : KeepsOthers c (LexccOpt p k) (LexccOpt p' k) := (both_lexcc hp M k).1

theorem keeps_lexcc (k : ℕ) : KeepsCandidate c (LexccOpt p k) (LexccOpt p' k) := (others_lexcc hp M k).keeps

omit hp in
theorem still_minimaxav (k : ℕ) : KeepsCandidate c (MinimaxavOpt p k) (MinimaxavOpt p' k) ∧
    KeepsStill c (MinimaxavOpt p k) (MinimaxavOpt p' k) := by
  let val : Profile → Finset ℕ → ℕᵒᵈ := fun p A => OrderDual.toDual ((p.voters.map (fun v => dist v A)).foldr max 0)
  have hval : ∀ (l : List Voter) (A : Finset ℕ) (d : ℕ), (l.map (fun v => dist v A)).foldr max 0 ≤ d ↔ ∀ v ∈ l, dist v A ≤ d := by
    intro l A d
    induction l with
    | nil => simp
    | cons v l ih => simp [ih]
  have hiff : ∀ (q : Profile) (A : Finset ℕ), MinimaxavOpt q k A ↔ IsCommittee q k A ∧ ∀ B, IsCommittee q k B → val q B ≤ val q A := by
    intro q A
    unfold MinimaxavOpt
    refine and_congr_right fun _ => forall₂_congr fun B _ => ?_
    rw [show val q B ≤ val q A ↔ (q.voters.map (fun v => dist v A)).foldr max 0 ≤ (q.voters.map (fun v => dist v B)).foldr max 0
      from OrderDual.toDual_le_toDual]
    constructor
    · intro h
      exact (hval _ _ _).2 (h _ ((hval _ _ _).1 le_rfl))
    · intro h d hd
      exact (hval _ _ _).1 (h.trans ((hval _ _ _).2 hd))
  have hmono : ∀ {l l' : List Voter} {A : Finset ℕ}, List.Forall₂ (NewBallot c) l l' → c ∈ A →
      (l'.map (fun v => dist v A)).foldr max 0 ≤ (l.map (fun v => dist v A)).foldr max 0 := by
    intro l l' A h hc
    induction h with
    | nil => simp
    | cons h _ ih => exact max_le_max (dist_new_mem h hc) ih
  have hmono' : ∀ {l l' : List Voter} {A : Finset ℕ}, List.Forall₂ (NewBallot c) l l' → c ∉ A →
      (l.map (fun v => dist v A)).foldr max 0 ≤ (l'.map (fun v => dist v A)).foldr max 0 := by
    intro l l' A h hc
    induction h with
    | nil => simp
    | cons h _ ih => exact max_le_max (dist_new_notMem h hc) ih
  have := keeps_of_values (C := IsCommittee p k) (v := val p) (v' := val p') (c := c) (committees_finite p k)
    (fun A _ hc => OrderDual.toDual_le_toDual.2 (hmono M.voters hc)) (fun A _ hc => OrderDual.toDual_le_toDual.2 (hmono' M.voters hc))
  rw [show MinimaxavOpt p k = _ from funext fun A => propext (hiff p A),
    show MinimaxavOpt p' k = _ from funext fun A => propext (hiff p' A)]
  simp only [more_committee M]
  exact this

omit hp in
theorem keeps_minimaxav (k : ℕ) : KeepsCandidate c (MinimaxavOpt p k) (MinimaxavOpt p' k) := (still_minimaxav M k).1

omit hp in
theorem still_lexminimaxav (k : ℕ) : KeepsCandidate c (LexminimaxavOpt p k) (LexminimaxavOpt p' k) ∧
    KeepsStill c (LexminimaxavOpt p k) (LexminimaxavOpt p' k) := by
  have hcnt : ∀ {l l' : List Voter} {A : Finset ℕ} (d : ℕ), List.Forall₂ (NewBallot c) l l' → c ∈ A →
      (l.map (fun v => dist v A)).countP (fun x => decide (x ≤ d)) ≤ (l'.map (fun v => dist v A)).countP (fun x => decide (x ≤ d)) := by
    intro l l' A d h hc
    induction h with
    | nil => simp
    | cons h _ ih =>
      have := dist_new_mem h hc
      simp only [List.map_cons, List.countP_cons, decide_eq_true_eq]
      split_ifs <;> omega
  have hcnt' : ∀ {l l' : List Voter} {A : Finset ℕ} (d : ℕ), List.Forall₂ (NewBallot c) l l' → c ∉ A →
      (l'.map (fun v => dist v A)).countP (fun x => decide (x ≤ d)) ≤ (l.map (fun v => dist v A)).countP (fun x => decide (x ≤ d)) := by
    intro l l' A d h hc
    induction h with
    | nil => simp
    | cons h _ ih =>
      have := dist_new_notMem h hc
      simp only [List.map_cons, List.countP_cons, decide_eq_true_eq]
      split_ifs <;> omega
  have hcv : ∀ (q : Profile) (A : Finset ℕ) (d : ℕ), cntLe d (distVector q A) = (q.voters.map (fun v => dist v A)).countP (fun x => decide (x ≤ d)) := by
    intro q A d
    unfold cntLe
    have : (distVector q A).Perm (q.voters.map (fun v => dist v A)) := by
      rw [← Multiset.coe_eq_coe]
      exact Multiset.sort_eq _ _
    exact this.countP_eq _
  have hle : ∀ {q q' : Profile} {A : Finset ℕ}, q.voters.length = q'.voters.length →
      (∀ d, cntLe d (distVector q' A) ≤ cntLe d (distVector q A)) → distVector q A ≤ distVector q' A := by
    intro q q' A hl h
    rw [← not_lt]
    intro hlt
    obtain ⟨d, -, h2, -⟩ := lt_cnt (l := distVector q' A) (l' := distVector q A)
      (by rw [length_distVector, length_distVector, hl]) (Multiset.pairwise_sort _ _) (Multiset.pairwise_sort _ _) hlt
    exact absurd (h d) (not_le.2 h2)
  have hlen := M.voters.length_eq
  have := keeps_of_values (C := IsCommittee p k) (v := fun A => OrderDual.toDual (distVector p A))
    (v' := fun A => OrderDual.toDual (distVector p' A)) (c := c) (committees_finite p k)
    (fun A _ hc => OrderDual.toDual_le_toDual.2 (hle hlen.symm fun d => by rw [hcv, hcv]; exact hcnt d M.voters hc))
    (fun A _ hc => OrderDual.toDual_le_toDual.2 (hle hlen fun d => by rw [hcv, hcv]; exact hcnt' d M.voters hc))
  unfold LexminimaxavOpt
  simp only [more_committee M, not_lt]
  exact this

omit hp in
theorem keeps_lexminimaxav (k : ℕ) : KeepsCandidate c (LexminimaxavOpt p k) (LexminimaxavOpt p' k) := (still_lexminimaxav M k).1

theorem still_sep (s : SepRule) (k : ℕ) : KeepsCandidate c (SepOpt s p k) (SepOpt s p' k) ∧
    KeepsStill c (SepOpt s p k) (SepOpt s p' k) := by
  have hval : ∀ (l : List Voter) (A : Finset ℕ), ∑ d ∈ A, (l.map (fun v => if d ∈ v.A then sepValue s (ballot v) else 0)).sum
      = (l.map (fun v => (util v A : ℚ) * sepValue s (ballot v))).sum := by
    intro l A
    induction l with
    | nil => simp
    | cons v l ih =>
      simp only [List.map_cons, List.sum_cons]
      rw [Finset.sum_add_distrib, ih, ← Finset.sum_filter, Finset.sum_const, nsmul_eq_mul]
      congr 3
      unfold util
      rw [Finset.inter_comm, Finset.filter_mem_eq_inter]
  have hcs : ∀ (q : Profile) (A : Finset ℕ), ∑ d ∈ A, candScore s q d = (q.voters.map (fun v => (util v A : ℚ) * sepValue s (ballot v))).sum := by
    intro q A
    rw [← hval]
    refine Finset.sum_congr rfl (fun d _ => ?_)
    unfold candScore
    cases s <;> rfl
  have := keeps_of_values (C := IsCommittee p k) (v := fun A => ∑ d ∈ A, candScore s p d) (v' := fun A => ∑ d ∈ A, candScore s p' d)
    (c := c) (committees_finite p k)
    (fun A _ hc => by
      rw [hcs, hcs]
      refine forall₂_sum_le M.voters (fun v v' hv h => ?_)
      have hw := (hp.weight v hv).le
      have hu := util_new_mem h (A := A)
      cases s with
      | av =>
        change (util v A : ℚ) * v.weight ≤ (util v' A : ℚ) * v'.weight
        rw [h.1]
        exact mul_le_mul_of_nonneg_right (by exact_mod_cast hu) hw
      | sav =>
        change (util v A : ℚ) * (v.weight / v.A.card) ≤ (util v' A : ℚ) * (v'.weight / v'.A.card)
        rw [h.1]
        by_cases hcv : c ∈ v.A
        · have e : v'.A = v.A := by
            rcases h.2 with e | e
            · exact e
            · rw [e, Finset.insert_eq_of_mem hcv]
          rw [e, show util v' A = util v A by unfold util; rw [e]]
        · rcases h.2 with e | e
          · rw [e, show util v' A = util v A by unfold util; rw [e]]
          · have e1 : util v' A = util v A + 1 := by
              unfold util
              rw [e, Finset.insert_inter_of_mem hc, Finset.card_insert_of_notMem (fun g => hcv (Finset.mem_inter.1 g).1)]
            have e2 : v'.A.card = v.A.card + 1 := by rw [e, Finset.card_insert_of_notMem hcv]
            have hle : util v A ≤ v.A.card := Finset.card_le_card Finset.inter_subset_left
            rw [e1, e2]
            rcases Nat.eq_zero_or_pos v.A.card with h0 | h0
            · have : util v A = 0 := by omega
              rw [this, h0]
              push_cast
              simp [hw]
            · have h1 : (0 : ℚ) < v.A.card := by exact_mod_cast h0
              have h2 : (util v A : ℚ) ≤ v.A.card := by exact_mod_cast hle
              push_cast
              rw [← mul_div_assoc, ← mul_div_assoc, div_le_div_iff₀ h1 (by linarith)]
              nlinarith [mul_le_mul_of_nonneg_right h2 hw])
    (fun B _ hc => by
      rw [hcs, hcs]
      refine forall₂_sum_ge M.voters (fun v v' hv h => ?_)
      have hw := (hp.weight v hv).le
      rw [util_new_notMem h hc]
      cases s with
      | av => exact mul_le_mul_of_nonneg_left h.1.le (Nat.cast_nonneg _)
      | sav =>
        change (util v B : ℚ) * (v'.weight / v'.A.card) ≤ (util v B : ℚ) * (v.weight / v.A.card)
        rw [h.1]
        rcases Nat.eq_zero_or_pos v.A.card with h0 | h0
        · have : util v B = 0 := by
            have : util v B ≤ v.A.card := Finset.card_le_card Finset.inter_subset_left
            omega
          rw [this]
          simp
        · have h1 : (0 : ℚ) < v.A.card := by exact_mod_cast h0
          have h2 : v.A.card ≤ v'.A.card := by
            rcases h.2 with e | e
            · rw [e]
            · rw [e]; exact Finset.card_le_card (Finset.subset_insert _ _)
          exact mul_le_mul_of_nonneg_left (div_le_div_of_nonneg_left hw h1 (by exact_mod_cast h2)) (Nat.cast_nonneg _))
  unfold SepOpt
  simp only [more_committee M]
  exact this

theorem keeps_sep (s : SepRule) (k : ℕ) : KeepsCandidate c (SepOpt s p k) (SepOpt s p' k) := (still_sep hp M s k).1

/-! ### Sequential Thiele methods -/

omit hp in
theorem score_new_notMem {f : ℕ → ℚ} {W : Finset ℕ} (hc : c ∉ W) : score f p' W = score f p W :=
  le_antisymm (forall₂_sum_ge M.voters (fun v v' _ h => by rw [h.1, util_new_notMem h hc]))
    (forall₂_sum_le M.voters (fun v v' _ h => by rw [h.1, util_new_notMem h hc]))

theorem score_new_mem {f : ℕ → ℚ} (hf : ∀ i, 0 ≤ f i) (W : Finset ℕ) : score f p W ≤ score f p' W :=
  forall₂_sum_le M.voters (fun v v' hv h => by
    rw [h.1]
    refine mul_le_mul_of_nonneg_left ?_ (hp.weight v hv).le
    exact Finset.sum_le_sum_of_subset_of_nonneg (Finset.range_mono (util_new_mem h)) (fun i _ _ => hf _))

omit hp in
theorem gain_new_other {f : ℕ → ℚ} {W : Finset ℕ} (hc : c ∉ W) {d : ℕ} (hd : d ≠ c) : gain f p' W d = gain f p W d := by
  unfold gain
  rw [score_new_notMem M hc, score_new_notMem M (by rw [Finset.mem_insert, not_or]; exact ⟨hd.symm, hc⟩)]

theorem gain_new_self {f : ℕ → ℚ} (hf : ∀ i, 0 ≤ f i) {W : Finset ℕ} (hc : c ∉ W) : gain f p W c ≤ gain f p' W c := by
  unfold gain
  rw [score_new_notMem M hc]
  exact sub_le_sub_right (score_new_mem hp M hf _) _

omit hp M in
theorem exists_unelected_mono {q : Profile} {W : List ℕ} (h : W.length < q.numCand) : ((Finset.range q.numCand).filter (fun c => c ∉ W)).Nonempty := by
  by_contra hno
  rw [Finset.not_nonempty_iff_eq_empty, Finset.filter_eq_empty_iff] at hno
  have h1 : Finset.range q.numCand ⊆ W.toFinset := fun x hx => List.mem_toFinset.2 (not_not.1 (hno hx))
  have h2 := Finset.card_le_card h1
  have h3 := W.toFinset_card_le
  rw [Finset.card_range] at h2
  omega

omit hp M in
theorem seqRun_extend {q : Profile} (f : ℕ → ℚ) {k : ℕ} (hk : k ≤ q.numCand) (n : ℕ) :
    ∀ V : List ℕ, SeqRun f q V → V.length + n = k → ∃ U, SeqRun f q U ∧ U.length = k ∧ V ⊆ U := by
  induction n with
  | zero => exact fun V h hl => ⟨V, h, by omega, fun _ h => h⟩
  | succ n ih =>
    intro V h hl
    obtain ⟨d, hd, hmax⟩ := Finset.exists_max_image _ (gain f q V.toFinset) (exists_unelected_mono (q := q) (W := V) (by omega))
    obtain ⟨d1, d2⟩ := Finset.mem_filter.1 hd
    obtain ⟨U, u1, u2, u3⟩ := ih (V ++ [d]) (.snoc h (Finset.mem_range.1 d1) d2 (fun e he heV =>
      hmax e (Finset.mem_filter.2 ⟨Finset.mem_range.2 he, heV⟩))) (by rw [List.length_append, List.length_singleton]; omega)
    exact ⟨U, u1, u2, fun x hx => u3 (List.mem_append_left _ hx)⟩

omit hp M in
theorem seqRun_len {q : Profile} {f : ℕ → ℚ} {W : List ℕ} (h : SeqRun f q W) : W.Nodup ∧ ∀ x ∈ W, x < q.numCand := by
  induction h with
  | nil => simp
  | @snoc W d h1 h2 h3 h4 ih =>
    refine ⟨?_, ?_⟩
    · rw [List.nodup_append]
      exact ⟨ih.1, by simp, by rintro x hx y hy rfl; simp at hy; exact h3 (hy ▸ hx)⟩
    · intro x hx
      rcases List.mem_append.1 hx with h | h
      · exact ih.2 x h
      · rw [List.mem_singleton.1 h]; exact h2

theorem keeps_seqThiele {f : ℕ → ℚ} (hf : ∀ i, 0 ≤ f i) (k : ℕ) : KeepsCandidate c (SeqThieleWinner f p k) (SeqThieleWinner f p' k) := by
  constructor
  · rintro ⟨A, ⟨W, hrun, hlen, rfl⟩, hc⟩
    rw [List.mem_toFinset] at hc
    have hk : k ≤ p'.numCand := by
      obtain ⟨h1, h2⟩ := seqRun_len hrun
      rw [M.cand, ← hlen, ← List.toFinset_card_of_nodup h1, ← Finset.card_range p.numCand]
      exact Finset.card_le_card (fun x hx => Finset.mem_range.2 (h2 x (List.mem_toFinset.1 hx)))
    have key : ∀ {V : List ℕ}, SeqRun f p V → (∃ U, SeqRun f p' U ∧ U.length ≤ V.length ∧ c ∈ U) ∨ (SeqRun f p' V ∧ c ∉ V) := by
      intro V h
      induction h with
      | nil => exact Or.inr ⟨.nil, by simp⟩
      | @snoc V d h1 h2 h3 h4 ih =>
        rcases ih with ⟨U, u1, u2, u3⟩ | ⟨hV, hcV⟩
        · exact Or.inl ⟨U, u1, by rw [List.length_append]; omega, u3⟩
        · have hcF : c ∉ V.toFinset := by simpa using hcV
          by_cases hdc : d = c
          · subst hdc
            refine Or.inl ⟨V ++ [d], .snoc hV (by rw [M.cand]; exact h2) h3 (fun e he heV => ?_), le_rfl, by simp⟩
            by_cases hed : e = d
            · rw [hed]
            · rw [gain_new_other M hcF hed]
              exact (h4 e (by rw [← M.cand]; exact he) heV).trans (gain_new_self hp M hf hcF)
          · by_cases hcn : c < p.numCand ∧ gain f p V.toFinset d < gain f p' V.toFinset c
            · refine Or.inl ⟨V ++ [c], .snoc hV (by rw [M.cand]; exact hcn.1) hcV (fun e he heV => ?_), by simp, by simp⟩
              by_cases hec : e = c
              · rw [hec]
              · rw [gain_new_other M hcF hec]
                exact (h4 e (by rw [← M.cand]; exact he) heV).trans hcn.2.le
            · refine Or.inr ⟨.snoc hV (by rw [M.cand]; exact h2) h3 (fun e he heV => ?_), ?_⟩
              · rw [gain_new_other M hcF hdc]
                by_cases hec : e = c
                · rw [hec]
                  rw [not_and, not_lt] at hcn
                  exact hcn (by rw [← M.cand, ← hec]; exact he)
                · rw [gain_new_other M hcF hec]
                  exact h4 e (by rw [← M.cand]; exact he) heV
              · rw [List.mem_append, not_or, List.mem_singleton]
                exact ⟨hcV, fun g => hdc g.symm⟩
    rcases key hrun with ⟨U, u1, u2, u3⟩ | ⟨-, hcW⟩
    · obtain ⟨T, t1, t2, t3⟩ := seqRun_extend f hk (k - U.length) U u1 (by omega)
      exact ⟨T.toFinset, ⟨T, t1, t2, rfl⟩, List.mem_toFinset.2 (t3 u3)⟩
    · exact absurd hc hcW
  · rintro hall A ⟨W, hrun, hlen, rfl⟩
    by_contra hc
    have key : ∀ {V : List ℕ}, SeqRun f p' V → c ∉ V → SeqRun f p V := by
      intro V h
      induction h with
      | nil => exact fun _ => .nil
      | @snoc V d h1 h2 h3 h4 ih =>
        intro hcV
        rw [List.mem_append, not_or, List.mem_singleton] at hcV
        have hcF : c ∉ V.toFinset := by simpa using hcV.1
        have hdc : d ≠ c := fun g => hcV.2 g.symm
        refine .snoc (ih hcV.1) (by rw [← M.cand]; exact h2) h3 (fun e he heV => ?_)
        have h5 := h4 e (by rw [M.cand]; exact he) heV
        rw [gain_new_other M hcF hdc] at h5
        refine le_trans ?_ h5
        by_cases hec : e = c
        · rw [hec]
          exact gain_new_self hp M hf hcF
        · rw [gain_new_other M hcF hec]
    exact hc (hall _ ⟨W, key hrun (by simpa using hc), hlen, rfl⟩)

/-! ### seq-Phragmén -/

omit hp in
theorem newBallot_get (i : Fin p.voters.length) :
    NewBallot c (p.voters.get i) (p'.voters.get (Fin.cast M.voters.length_eq i)) :=
  (List.forall₂_iff_get.1 M.voters).2 i.1 i.2 _

omit hp in
theorem appr_new_other (i : Fin p.voters.length) {d : ℕ} (hd : d ≠ c) :
    d ∈ appr p' (Fin.cast M.voters.length_eq i) ↔ d ∈ appr p i := by
  have h := (newBallot_get M i).2
  unfold appr
  rcases h with e | e
  · rw [e]
  · rw [e, Finset.mem_insert]
    exact ⟨fun g => g.resolve_left hd, Or.inr⟩

omit hp in
theorem appr_new_sub (i : Fin p.voters.length) {d : ℕ} (h : d ∈ appr p i) : d ∈ appr p' (Fin.cast M.voters.length_eq i) := by
  have h' := (newBallot_get M i).2
  unfold appr at h ⊢
  rcases h' with e | e
  · rwa [e]
  · rw [e]; exact Finset.mem_insert_of_mem h

/-- The same numbers for the voters of the new profile. -/
def moved (h : p.voters.length = p'.voters.length) (x : VoterMap p) : VoterMap p' := fun j => x (Fin.cast h.symm j)

omit hp in
theorem sum_new (d : ℕ) (F : Fin p'.voters.length → ℚ) :
    ∑ j ∈ backers p' d, F j = ∑ i with d ∈ appr p' (Fin.cast M.voters.length_eq i), F (Fin.cast M.voters.length_eq i) := by
  unfold backers
  rw [Finset.sum_filter, Finset.sum_filter]
  exact (Fintype.sum_equiv (finCongr M.voters.length_eq) _ _ (fun i => rfl)).symm

omit hp in
theorem backers_new_other {d : ℕ} (hd : d ≠ c) : (backers p' d).Nonempty ↔ (backers p d).Nonempty := by
  constructor
  · rintro ⟨j, hj⟩
    refine ⟨Fin.cast M.voters.length_eq.symm j, Finset.mem_filter.2 ⟨Finset.mem_univ _, ?_⟩⟩
    rw [← appr_new_other M _ hd]
    exact (Finset.mem_filter.1 hj).2
  · rintro ⟨i, hi⟩
    exact ⟨Fin.cast M.voters.length_eq i, Finset.mem_filter.2 ⟨Finset.mem_univ _, (appr_new_other M i hd).2 (Finset.mem_filter.1 hi).2⟩⟩

omit hp in
theorem backers_new_sub {d : ℕ} (h : (backers p d).Nonempty) : (backers p' d).Nonempty := by
  obtain ⟨i, hi⟩ := h
  exact ⟨Fin.cast M.voters.length_eq i, Finset.mem_filter.2 ⟨Finset.mem_univ _, appr_new_sub M i (Finset.mem_filter.1 hi).2⟩⟩

omit hp in
theorem newLoad_new_other (x : VoterMap p) {d : ℕ} (hd : d ≠ c) :
    newLoad p' (moved M.voters.length_eq x) d = newLoad p x d := by
  unfold newLoad wt
  rw [sum_new M, sum_new M]
  have e : Finset.univ.filter (fun i => d ∈ appr p' (Fin.cast M.voters.length_eq i)) = backers p d :=
    Finset.filter_congr (fun i _ => appr_new_other M i hd)
  rw [e]
  have e1 : ∀ i, (p'.voters.get (Fin.cast M.voters.length_eq i)).weight = (p.voters.get i).weight := fun i => (newBallot_get M i).1
  have e2 : ∀ i, moved M.voters.length_eq x (Fin.cast M.voters.length_eq i) = x i := fun i => rfl
  simp only [e1, e2]

omit hp in
theorem phragUpd_new_other (W : List ℕ) (x : VoterMap p) {d : ℕ} (hd : d ≠ c) :
    phragUpd p' W (moved M.voters.length_eq x) d = moved M.voters.length_eq (phragUpd p W x d) := by
  funext j
  unfold phragUpd
  rw [newLoad_new_other M x hd]
  unfold moved
  have : j ∈ backers p' d ↔ Fin.cast M.voters.length_eq.symm j ∈ backers p d := by
    unfold backers
    rw [Finset.mem_filter, Finset.mem_filter, ← appr_new_other M _ hd]
    exact ⟨fun h => ⟨Finset.mem_univ _, h.2⟩, fun h => ⟨Finset.mem_univ _, h.2⟩⟩
  simp only [this]

/-- The new load of `c` is an average of the old one and of the loads of the new supporters. -/
theorem newLoad_new_self (x : VoterMap p) (hb : (backers p c).Nonempty) {s : ℚ} (hx : ∀ i, x i ≤ s) :
    (newLoad p x c ≤ s → newLoad p' (moved M.voters.length_eq x) c ≤ s) ∧
    (s ≤ newLoad p' (moved M.voters.length_eq x) c → s ≤ newLoad p x c) := by
  have hV : 0 < wt p (backers p c) := Finset.sum_pos (fun i _ => weight_pos hp i) hb
  have e1 : ∀ i, (p'.voters.get (Fin.cast M.voters.length_eq i)).weight = (p.voters.get i).weight := fun i => (newBallot_get M i).1
  have e2 : ∀ i, moved M.voters.length_eq x (Fin.cast M.voters.length_eq i) = x i := fun i => rfl
  have hsub : backers p c ⊆ Finset.univ.filter (fun i => c ∈ appr p' (Fin.cast M.voters.length_eq i)) := fun i hi =>
    Finset.mem_filter.2 ⟨Finset.mem_univ _, appr_new_sub M i (Finset.mem_filter.1 hi).2⟩
  unfold newLoad
  unfold wt at hV ⊢
  rw [sum_new M, sum_new M]
  simp only [e1, e2]
  rw [← Finset.sum_sdiff hsub, ← Finset.sum_sdiff hsub]
  set N := Finset.univ.filter (fun i => c ∈ appr p' (Fin.cast M.voters.length_eq i)) \ backers p c
  have hN : ∑ i ∈ N, (p.voters.get i).weight * x i ≤ s * ∑ i ∈ N, (p.voters.get i).weight := by
    rw [Finset.mul_sum]
    refine Finset.sum_le_sum (fun i _ => ?_)
    rw [mul_comm s]
    exact mul_le_mul_of_nonneg_left (hx i) (weight_pos hp i).le
  have hN0 : 0 ≤ ∑ i ∈ N, (p.voters.get i).weight := Finset.sum_nonneg (fun i _ => (weight_pos hp i).le)
  rw [div_le_iff₀ hV, div_le_iff₀ (by linarith), le_div_iff₀ hV, le_div_iff₀ (by linarith)]
  constructor <;> intro h <;> linarith

omit M in
/-- No voter has a larger load than the next candidate would cause. -/
theorem phragLoad_le {W : List ℕ} {x : VoterMap p} (h : Run (PhragBest p) (phragUpd p) [] (fun _ => 0) W x) :
    ∀ d < p.numCand, d ∉ W → (backers p d).Nonempty → ∀ i, x i ≤ newLoad p x d := by
  induction h with
  | start =>
    intro d _ _ hb i
    unfold newLoad
    exact div_nonneg (by simp) (Finset.sum_nonneg (fun i _ => (weight_pos hp i).le))
  | @step W x e hr hb ih =>
    intro d hd hdW hne i
    rw [List.mem_append, not_or] at hdW
    have hmono : ∀ j, x j ≤ phragUpd p W x e j := by
      intro j
      unfold phragUpd
      split_ifs with hj
      · exact ih e hb.1 hb.2.1 ⟨j, hj⟩ j
      · exact le_rfl
    have h1 : newLoad p x d ≤ newLoad p (phragUpd p W x e) d := by
      unfold newLoad
      refine div_le_div_of_nonneg_right ?_ (Finset.sum_nonneg (fun i _ => (weight_pos hp i).le))
      have : ∑ i ∈ backers p d, (p.voters.get i).weight * x i ≤ ∑ i ∈ backers p d, (p.voters.get i).weight * phragUpd p W x e i :=
        Finset.sum_le_sum (fun i _ => mul_le_mul_of_nonneg_left (hmono i) (weight_pos hp i).le)
      linarith
    refine le_trans ?_ h1
    unfold phragUpd
    split_ifs with hi
    · rcases hb.2.2 with ⟨-, h⟩ | h
      · exact h d hd hdW.1 hne
      · exact absurd (h d hd hdW.1) (Finset.nonempty_iff_ne_empty.1 hne)
    · exact ih d hd hdW.1 hne i

omit hp M in
theorem phragBest_exists {q : Profile} {W : List ℕ} (x : VoterMap q) (h : W.length < q.numCand) : ∃ d, PhragBest q W x d := by
  by_cases hex : ∃ d < q.numCand, d ∉ W ∧ (backers q d).Nonempty
  · obtain ⟨d, d1, d2, d3⟩ := hex
    obtain ⟨e, he, hmin⟩ := Finset.exists_min_image ((Finset.range q.numCand).filter (fun d => d ∉ W ∧ (backers q d).Nonempty)) (newLoad q x)
      ⟨d, Finset.mem_filter.2 ⟨Finset.mem_range.2 d1, d2, d3⟩⟩
    obtain ⟨e1, e2, e3⟩ := Finset.mem_filter.1 he
    exact ⟨e, Finset.mem_range.1 e1, e2, Or.inl ⟨e3, fun d hd hdW hdb => hmin d (Finset.mem_filter.2 ⟨Finset.mem_range.2 hd, hdW, hdb⟩)⟩⟩
  · obtain ⟨e, he⟩ := exists_unelected_mono (q := q) h
    obtain ⟨e1, e2⟩ := Finset.mem_filter.1 he
    refine ⟨e, Finset.mem_range.1 e1, e2, Or.inr (fun d hd hdW => ?_)⟩
    by_contra hne
    exact hex ⟨d, hd, hdW, Finset.nonempty_iff_ne_empty.2 hne⟩

omit hp M in
theorem phragRun_extend {q : Profile} {k : ℕ} (hk : k ≤ q.numCand) (n : ℕ) : ∀ (V : List ℕ) (x : VoterMap q),
    Run (PhragBest q) (phragUpd q) [] (fun _ => 0) V x → V.length + n = k →
      ∃ U y, Run (PhragBest q) (phragUpd q) [] (fun _ => 0) U y ∧ U.length = k ∧ V ⊆ U := by
  induction n with
  | zero => exact fun V x h hl => ⟨V, x, h, by omega, fun _ h => h⟩
  | succ n ih =>
    intro V x h hl
    obtain ⟨d, hd⟩ := phragBest_exists (W := V) x (by omega)
    obtain ⟨U, y, u1, u2, u3⟩ := ih (V ++ [d]) _ (.step h hd) (by rw [List.length_append, List.length_singleton]; omega)
    exact ⟨U, y, u1, u2, fun z hz => u3 (List.mem_append_left _ hz)⟩

omit hp M in
theorem phragRun_len {q : Profile} {W : List ℕ} {x : VoterMap q} (h : Run (PhragBest q) (phragUpd q) [] (fun _ => 0) W x) :
    W.Nodup ∧ ∀ d ∈ W, d < q.numCand := by
  induction h with
  | start => simp
  | @step W x d h1 h2 ih =>
    refine ⟨?_, ?_⟩
    · rw [List.nodup_append]
      exact ⟨ih.1, by simp, by rintro x hx y hy rfl; simp at hy; exact h2.2.1 (hy ▸ hx)⟩
    · intro x hx
      rcases List.mem_append.1 hx with h | h
      · exact ih.2 x h
      · rw [List.mem_singleton.1 h]; exact h2.1

theorem keeps_seqphragmen (k : ℕ) : KeepsCandidate c (RunWinner (PhragBest p) (phragUpd p) (fun _ => 0) k)
    (RunWinner (PhragBest p') (phragUpd p') (fun _ => 0) k) := by
  have hzero : (fun _ => 0 : VoterMap p') = moved M.voters.length_eq (fun _ => 0) := rfl
  constructor
  · rintro ⟨A, ⟨W, x, hrun, hlen, rfl⟩, hc⟩
    rw [List.mem_toFinset] at hc
    have hk : k ≤ p'.numCand := by
      obtain ⟨h1, h2⟩ := phragRun_len hrun
      rw [M.cand, ← hlen, ← List.toFinset_card_of_nodup h1, ← Finset.card_range p.numCand]
      exact Finset.card_le_card (fun x hx => Finset.mem_range.2 (h2 x (List.mem_toFinset.1 hx)))
    have key : ∀ {V : List ℕ} {x : VoterMap p}, Run (PhragBest p) (phragUpd p) [] (fun _ => 0) V x →
        (∃ U y, Run (PhragBest p') (phragUpd p') [] (fun _ => 0) U y ∧ U.length ≤ V.length ∧ c ∈ U) ∨
          (Run (PhragBest p') (phragUpd p') [] (fun _ => 0) V (moved M.voters.length_eq x) ∧ c ∉ V) := by
      intro V x h
      induction h with
      | start => exact Or.inr ⟨hzero ▸ .start, by simp⟩
      | @step V x d hr hb ih =>
        rcases ih with ⟨U, y, u1, u2, u3⟩ | ⟨hV, hcV⟩
        · exact Or.inl ⟨U, y, u1, by rw [List.length_append]; omega, u3⟩
        · obtain ⟨b1, b2, b3⟩ := hb
          have elect : PhragBest p' V (moved M.voters.length_eq x) c → ∃ U y, Run (PhragBest p') (phragUpd p') [] (fun _ => 0) U y ∧
              U.length ≤ (V ++ [d]).length ∧ c ∈ U := fun g => ⟨V ++ [c], _, .step hV g, by simp, by simp⟩
          by_cases hdc : d = c
          · subst hdc
            refine Or.inl (elect ⟨by rw [M.cand]; exact b1, b2, ?_⟩)
            by_cases hne' : (backers p' d).Nonempty
            · refine Or.inl ⟨hne', fun e he heV hen => ?_⟩
              by_cases hed : e = d
              · rw [hed]
              · rw [backers_new_other M hed] at hen
                rw [newLoad_new_other M x hed]
                rcases b3 with ⟨hne, h4⟩ | h4
                · have h5 := h4 e (by rw [← M.cand]; exact he) heV hen
                  have h6 := (newLoad_new_self hp M x hne (s := newLoad p x d) (phragLoad_le hp hr d b1 b2 hne)).1 le_rfl
                  exact h6.trans h5
                · exact absurd (h4 e (by rw [← M.cand]; exact he) heV) (Finset.nonempty_iff_ne_empty.1 hen)
            · refine Or.inr (fun e he heV => ?_)
              by_cases hed : e = d
              · rw [hed]; exact Finset.not_nonempty_iff_eq_empty.1 hne'
              · rcases b3 with ⟨hne, -⟩ | h4
                · exact absurd (backers_new_sub M hne) hne'
                · rw [← Finset.not_nonempty_iff_eq_empty, backers_new_other M hed, Finset.not_nonempty_iff_eq_empty]
                  exact h4 e (by rw [← M.cand]; exact he) heV
          · have hcV' : c ∉ V ++ [d] := by
              rw [List.mem_append, not_or, List.mem_singleton]
              exact ⟨hcV, fun g => hdc g.symm⟩
            have goOn : PhragBest p' V (moved M.voters.length_eq x) d →
                Run (PhragBest p') (phragUpd p') [] (fun _ => 0) (V ++ [d]) (moved M.voters.length_eq (phragUpd p V x d)) := by
              intro g
              rw [← phragUpd_new_other M V x hdc]
              exact .step hV g
            by_cases hcb : c < p.numCand ∧ (backers p' c).Nonempty ∧
                ((backers p d).Nonempty → newLoad p' (moved M.voters.length_eq x) c < newLoad p x d)
            · refine Or.inl (elect ⟨by rw [M.cand]; exact hcb.1, hcV, Or.inl ⟨hcb.2.1, fun e he heV hen => ?_⟩⟩)
              by_cases hec : e = c
              · rw [hec]
              · rw [backers_new_other M hec] at hen
                rw [newLoad_new_other M x hec]
                rcases b3 with ⟨hne, h4⟩ | h4
                · exact (hcb.2.2 hne).le.trans (h4 e (by rw [← M.cand]; exact he) heV hen)
                · exact absurd (h4 e (by rw [← M.cand]; exact he) heV) (Finset.nonempty_iff_ne_empty.1 hen)
            · refine Or.inr ⟨goOn ⟨by rw [M.cand]; exact b1, b2, ?_⟩, hcV'⟩
              rcases b3 with ⟨hne, h4⟩ | h4
              · refine Or.inl ⟨(backers_new_other M hdc).2 hne, fun e he heV hen => ?_⟩
                rw [newLoad_new_other M x hdc]
                by_cases hec : e = c
                · subst hec
                  by_contra hlt
                  exact hcb ⟨by rw [← M.cand]; exact he, hen, fun _ => not_le.1 hlt⟩
                · rw [newLoad_new_other M x hec]
                  exact h4 e (by rw [← M.cand]; exact he) heV ((backers_new_other M hec).1 hen)
              · refine Or.inr (fun e he heV => ?_)
                have he' : e < p.numCand := by rw [← M.cand]; exact he
                by_cases hec : e = c
                · subst hec
                  by_contra hne
                  refine hcb ⟨he', Finset.nonempty_iff_ne_empty.2 hne, fun g => absurd (h4 d b1 b2) (Finset.nonempty_iff_ne_empty.1 g)⟩
                · rw [← Finset.not_nonempty_iff_eq_empty, backers_new_other M hec, Finset.not_nonempty_iff_eq_empty]
                  exact h4 e he' heV
    rcases key hrun with ⟨U, y, u1, u2, u3⟩ | ⟨-, hcW⟩
    · obtain ⟨T, z, t1, t2, t3⟩ := phragRun_extend hk (k - U.length) U y u1 (by omega)
      exact ⟨T.toFinset, ⟨T, z, t1, t2, rfl⟩, List.mem_toFinset.2 (t3 u3)⟩
    · exact absurd hc hcW
  · rintro hall A ⟨W, y, hrun, hlen, rfl⟩
    by_contra hc
    have key : ∀ {V : List ℕ} {y : VoterMap p'}, Run (PhragBest p') (phragUpd p') [] (fun _ => 0) V y → c ∉ V →
        ∃ x, y = moved M.voters.length_eq x ∧ Run (PhragBest p) (phragUpd p) [] (fun _ => 0) V x := by
      intro V y h
      induction h with
      | start => exact fun _ => ⟨_, hzero, .start⟩
      | @step V y d hr hb ih =>
        intro hcV
        rw [List.mem_append, not_or, List.mem_singleton] at hcV
        have hdc : d ≠ c := fun g => hcV.2 g.symm
        obtain ⟨x, rfl, hx⟩ := ih hcV.1
        refine ⟨_, phragUpd_new_other M V x hdc, .step hx ?_⟩
        obtain ⟨b1, b2, b3⟩ := hb
        have b1' : d < p.numCand := by rw [← M.cand]; exact b1
        refine ⟨b1', b2, ?_⟩
        rcases b3 with ⟨hne, h4⟩ | h4
        · rw [backers_new_other M hdc] at hne
          refine Or.inl ⟨hne, fun e he heV hen => ?_⟩
          have h5 := h4 e (by rw [M.cand]; exact he) heV (backers_new_sub M hen)
          rw [newLoad_new_other M x hdc] at h5
          by_cases hec : e = c
          · subst hec
            exact (newLoad_new_self hp M x hen (s := newLoad p x d) (phragLoad_le hp hx d b1' b2 hne)).2 h5
          · rwa [newLoad_new_other M x hec] at h5
        · refine Or.inr (fun e he heV => ?_)
          by_contra hne
          exact absurd (h4 e (by rw [M.cand]; exact he) heV)
            (Finset.nonempty_iff_ne_empty.1 (backers_new_sub M (Finset.nonempty_iff_ne_empty.2 hne)))
    obtain ⟨x, -, hx⟩ := key hrun (by simpa using hc)
    exact hc (hall _ ⟨W, x, hx, hlen, rfl⟩)

/-! ### Monroe -/

omit hp in
theorem both_monroe (k : ℕ) : KeepsOthers c (MonroeOpt p k) (MonroeOpt p' k) ∧
    KeepsOne c (MonroeOpt p k) (MonroeOpt p' k) := by
  have hlen := M.voters.length_eq
  let val : (q : Profile) → Finset ℕ → ℕ := fun q A => sSup {m | ∃ φ, Balanced q A φ ∧ represented q φ = m}
  let C : Profile → Finset ℕ → Prop := fun q A => IsCommittee q k A ∧ ∃ φ, Balanced q A φ
  have hbdd : ∀ (q : Profile) (A : Finset ℕ), BddAbove {m | ∃ φ, Balanced q A φ ∧ represented q φ = m} := by
    rintro q A
    refine ⟨q.voters.length, ?_⟩
    rintro m ⟨φ, -, rfl⟩
    refine (Finset.card_le_univ _).trans (by simp)
  have hval : ∀ {q : Profile} {A : Finset ℕ} {φ}, Balanced q A φ → represented q φ ≤ val q A := fun {q A φ} h =>
    le_csSup (hbdd q A) ⟨φ, h, rfl⟩
  have hatt : ∀ {q : Profile} {A : Finset ℕ}, (∃ φ, Balanced q A φ) → ∃ φ, Balanced q A φ ∧ represented q φ = val q A := by
    rintro q A ⟨φ, h⟩
    exact Nat.sSup_mem (s := {m | ∃ φ, Balanced q A φ ∧ represented q φ = m}) ⟨_, φ, h, rfl⟩ (hbdd q A)
  have hiff : ∀ (q : Profile) (A : Finset ℕ), MonroeOpt q k A ↔ C q A ∧ ∀ B, C q B → val q B ≤ val q A := by
    intro q A
    constructor
    · rintro ⟨h1, φ, h2, h3⟩
      refine ⟨⟨h1, φ, h2⟩, fun B hB => ?_⟩
      obtain ⟨ψ, g1, g2⟩ := hatt hB.2
      rw [← g2]
      exact (h3 B ψ hB.1 g1).trans (hval h2)
    · rintro ⟨⟨h1, h2⟩, h3⟩
      obtain ⟨φ, g1, g2⟩ := hatt h2
      refine ⟨h1, φ, g1, fun B ψ hB hψ => ?_⟩
      rw [g2]
      exact (hval hψ).trans (h3 B ⟨hB, ψ, hψ⟩)
  have hcard : ∀ (φ : Fin p.voters.length → ℕ) (d : ℕ), (Finset.univ.filter (fun j : Fin p'.voters.length => φ (Fin.cast hlen.symm j) = d)).card
      = (Finset.univ.filter (fun i => φ i = d)).card := by
    intro φ d
    refine Finset.card_bij (fun j _ => Fin.cast hlen.symm j) (fun j hj => ?_) (fun _ _ _ _ h => by simpa using h) (fun i hi => ?_)
    · exact Finset.mem_filter.2 ⟨Finset.mem_univ _, (Finset.mem_filter.1 hj).2⟩
    · exact ⟨Fin.cast hlen i, Finset.mem_filter.2 ⟨Finset.mem_univ _, (Finset.mem_filter.1 hi).2⟩, rfl⟩
  have hbal : ∀ (A : Finset ℕ) (φ : Fin p.voters.length → ℕ), Balanced p' A (fun j => φ (Fin.cast hlen.symm j)) ↔ Balanced p A φ := by
    intro A φ
    unfold Balanced
    simp only [hcard, ← hlen]
    refine and_congr_left fun _ => ⟨fun h i => h (Fin.cast hlen i), fun h j => h _⟩
  have hbal' : ∀ (A : Finset ℕ) (ψ : Fin p'.voters.length → ℕ), Balanced p' A ψ ↔ Balanced p A (fun i => ψ (Fin.cast hlen i)) := fun A ψ => by
    rw [← hbal]; rfl
  have hup : ∀ (φ : Fin p.voters.length → ℕ), represented p φ ≤ represented p' (fun j => φ (Fin.cast hlen.symm j)) := by
    intro φ
    unfold represented
    refine Finset.card_le_card_of_injOn (Fin.cast hlen) (fun i hi => ?_) (fun _ _ _ _ h => by simpa using h)
    rw [Finset.mem_coe, Finset.mem_filter] at hi ⊢
    exact ⟨Finset.mem_univ _, appr_new_sub M i hi.2⟩
  have hdown : ∀ {A : Finset ℕ} (ψ : Fin p'.voters.length → ℕ), c ∉ A → (∀ j, ψ j ∈ A) → represented p' ψ ≤ represented p (fun i => ψ (Fin.cast hlen i)) := by
    intro A ψ hcA hψ
    unfold represented
    refine Finset.card_le_card_of_injOn (Fin.cast hlen.symm) (fun j hj => ?_) (fun _ _ _ _ h => by simpa using h)
    rw [Finset.mem_coe, Finset.mem_filter] at hj ⊢
    exact ⟨Finset.mem_univ _, (appr_new_other M (Fin.cast hlen.symm j) (fun e => hcA (e ▸ hψ j))).1 hj.2⟩
  have hC : ∀ A, C p' A ↔ C p A := by
    intro A
    refine and_congr (more_committee M k A) ⟨?_, ?_⟩
    · rintro ⟨ψ, h⟩; exact ⟨_, (hbal' A ψ).1 h⟩
    · rintro ⟨φ, h⟩; exact ⟨_, (hbal A φ).2 h⟩
  have := others_of_values (C := C p) (v := val p) (v' := val p') (c := c) ((committees_finite p k).subset (fun A h => h.1))
    (fun A hA _ => by
      obtain ⟨φ, g1, g2⟩ := hatt hA.2
      rw [← g2]
      exact (hup φ).trans (hval ((hbal A φ).2 g1)))
    (fun B hB hc => by
      refine le_antisymm ?_ ?_
      · obtain ⟨ψ, g1, g2⟩ := hatt ((hC B).2 hB).2
        rw [← g2]
        exact (hdown ψ hc g1.1).trans (hval ((hbal' B ψ).1 g1))
      · obtain ⟨φ, g1, g2⟩ := hatt hB.2
        rw [← g2]
        exact (hup φ).trans (hval ((hbal B φ).2 g1)))
  rw [show MonroeOpt p k = _ from funext fun A => propext (hiff p A),
    show MonroeOpt p' k = _ from funext fun A => propext (hiff p' A)]
  simp only [hC]
  exact this

omit hp in
theorem others_monroe (k : ℕ) : KeepsOthers c (MonroeOpt p k) (MonroeOpt p' k) := (both_monroe M k).1

omit hp in
theorem keeps_monroe (k : ℕ) : KeepsCandidate c (MonroeOpt p k) (MonroeOpt p' k) := (others_monroe M k).keeps

end

/-! ## The theorems

The two calls may use different algorithms and different solvers. -/

section
variable {w w' : World} (hw : w.Exact) (hw' : w'.Exact) {c : ℕ} {p p' : Profile} (hp : p.WF) (hp' : p'.WF)
  (M : MoreApprovals c p p') {a a' : Args} (h : AllCommittees a) (h' : AllCommittees a') (hk : a'.k = a.k)
  {ruleId alg alg' : String} (hal : prologue w.env ruleId p a = .ok alg) (hal' : prologue w'.env ruleId p' a' = .ok alg')
include hw hw' hp hp' M h h' hk hal hal'

/-- **C99** AV and SAV. -/
theorem C99_separable (hrule : ruleId = "av" ∨ ruleId = "sav") :
    StillElected c (compute w ruleId p a.committeesize none a.kw) (compute w' ruleId p' a'.committeesize none a'.kw) := by
  rcases hrule with rfl | rfl
  · refine stillElected_of_answers h h' (C31_compute w hw p hp a _ _ hal .av) (C31_compute w' hw' p' hp' a' _ _ hal' .av) ?_
    rw [hk]
    exact keeps_sep hp M _ _
  · refine stillElected_of_answers h h' (C31_compute w hw p hp a _ _ hal .sav) (C31_compute w' hw' p' hp' a' _ _ hal' .sav) ?_
    rw [hk]
    exact keeps_sep hp M _ _

/-- **C99** The Thiele methods `pav`, `slav`, `cc` and `geom<base>`. -/
theorem C99_thiele {s : ScoreId} (hs : w.env.scoreId ruleId = .ok s) (hs' : w'.env.scoreId ruleId = .ok s)
    (hok : s = .pav ∨ s = .slav ∨ s = .cc ∨ ∃ b, s = .geom b ∧ 1 < b)
    (hcp : alg = "ortools-cp" → IntegerWeights p) (hcp' : alg' = "ortools-cp" → IntegerWeights p') :
    StillElected c (compute w ruleId p a.committeesize none a.kw) (compute w' ruleId p' a'.committeesize none a'.kw) := by
  have hok' : ∀ alg : String, s = .pav ∨ s = .slav ∨ s = .cc ∨
      ∃ b, s = .geom b ∧ (1 < b ∨ (alg = "branch-and-bound" ∧ 1 ≤ b) ∨ (alg = "brute-force" ∧ 0 < b)) := by
    intro alg
    rcases hok with h | h | h | ⟨b, h, hb⟩
    · exact Or.inl h
    · exact Or.inr (Or.inl h)
    · exact Or.inr (Or.inr (Or.inl h))
    · exact Or.inr (Or.inr (Or.inr ⟨b, h, Or.inl hb⟩))
  have hf : ∀ i, 0 ≤ marginalFct s i := marginalFct_nonneg s (fun b hb => by
    rcases hok with h | h | h | ⟨b', h, hb'⟩
    · rw [h] at hb; cases hb
    · rw [h] at hb; cases hb
    · rw [h] at hb; cases hb
    · rw [h] at hb; cases hb; linarith)
  refine stillElected_of_answers h h' (C31_compute w hw p hp a _ _ hal (.thiele hs (hok' _) hcp))
    (C31_compute w' hw' p' hp' a' _ _ hal' (.thiele hs' (hok' _) hcp')) ?_
  rw [hk]
  exact keeps_thiele hp M hf _

/-- **C99** Lex-CC. -/
theorem C99_lexcc (hrule : ruleId = "lexcc") (hg : alg = "gurobi" → Granular p) (hg' : alg' = "gurobi" → Granular p') :
    StillElected c (compute w ruleId p a.committeesize none a.kw) (compute w' ruleId p' a'.committeesize none a'.kw) := by
  subst hrule
  refine stillElected_of_answers h h' (C31_compute w hw p hp a _ _ hal (.lexcc hg)) (C31_compute w' hw' p' hp' a' _ _ hal' (.lexcc hg')) ?_
  rw [hk]
  exact keeps_lexcc hp M _

/-- **C99** Minimax-AV. -/
theorem C99_minimaxav (hrule : ruleId = "minimaxav") :
    StillElected c (compute w ruleId p a.committeesize none a.kw) (compute w' ruleId p' a'.committeesize none a'.kw) := by
  subst hrule
  refine stillElected_of_answers h h' (C31_compute w hw p hp a _ _ hal .minimaxav) (C31_compute w' hw' p' hp' a' _ _ hal' .minimaxav) ?_
  rw [hk]
  exact keeps_minimaxav M _

omit hw hw' hp hp' h h' hk hal hal' in
theorem unit_new (hu : ∀ v ∈ p.voters, v.weight = 1) : ∀ v ∈ p'.voters, v.weight = 1 := by
  have : ∀ {l l' : List Voter}, List.Forall₂ (fun v v' : Voter => v'.weight = v.weight ∧ (v'.A = v.A ∨ v'.A = insert c v.A)) l l' →
      (∀ v ∈ l, v.weight = 1) → ∀ v ∈ l', v.weight = 1 := by
    intro l l' h
    induction h with
    | nil => intro _ v hv; cases hv
    | cons h _ ih =>
      intro hu v hv
      rcases List.mem_cons.1 hv with rfl | hv
      · exact h.1.trans (hu _ (List.mem_cons_self ..))
      · exact ih (fun v hv => hu v (List.mem_cons_of_mem _ hv)) v hv
  exact this M.voters hu

/-- **C99** Lexicographic Minimax-AV. -/
theorem C99_lexminimaxav (hrule : ruleId = "lexminimaxav") (hu : ∀ v ∈ p.voters, v.weight = 1) :
    StillElected c (compute w ruleId p a.committeesize none a.kw) (compute w' ruleId p' a'.committeesize none a'.kw) := by
  subst hrule
  refine stillElected_of_answers h h' (C31_compute w hw p hp a _ _ hal (.lexminimaxav hu))
    (C31_compute w' hw' p' hp' a' _ _ hal' (.lexminimaxav (unit_new M hu))) ?_
  rw [hk]
  exact keeps_lexminimaxav M _

/-- **C99** Monroe. -/
theorem C99_monroe (hrule : ruleId = "monroe") (hu : ∀ v ∈ p.voters, v.weight = 1) :
    StillElected c (compute w ruleId p a.committeesize none a.kw) (compute w' ruleId p' a'.committeesize none a'.kw) := by
  subst hrule
  refine stillElected_of_answers h h' (C31_compute w hw p hp a _ _ hal (.monroe hu))
    (C31_compute w' hw' p' hp' a' _ _ hal' (.monroe (unit_new M hu))) ?_
  rw [hk]
  exact keeps_monroe M _

/-- **C99** The sequential Thiele methods `seqpav`, `seqslav`, `seqcc`, `seqav`, `seqgeom<base>`. -/
theorem C99_seqThiele {sid : String} (hrule : ruleId = "seq" ++ sid) {s : ScoreId} (hs : w.env.scoreId sid = .ok s)
    (hs' : w'.env.scoreId sid = .ok s) (hf : ∀ i, 0 ≤ marginalFct s i) :
    StillElected c (compute w ruleId p a.committeesize none a.kw) (compute w' ruleId p' a'.committeesize none a'.kw) := by
  subst hrule
  refine stillElected_of_answers h h' (C31_compute w hw p hp a _ _ hal (.seqThiele hs hf))
    (C31_compute w' hw' p' hp' a' _ _ hal' (.seqThiele hs' hf)) ?_
  rw [hk]
  exact keeps_seqThiele hp M hf _

/-- **C99** Sequential Phragmén. -/
theorem C99_seqphragmen (hrule : ruleId = "seqphragmen") (ha : ApproversAtLeastOne p) (ha' : ApproversAtLeastOne p')
    (he : ExactAlg w.env alg) (he' : ExactAlg w'.env alg') :
    StillElected c (compute w ruleId p a.committeesize none a.kw) (compute w' ruleId p' a'.committeesize none a'.kw) := by
  subst hrule
  refine stillElected_of_answers h h' (C31_compute w hw p hp a _ _ hal (.seqphragmen ha he))
    (C31_compute w' hw' p' hp' a' _ _ hal' (.seqphragmen ha' he')) ?_
  rw [hk]
  exact keeps_seqphragmen hp M _

end

/-! ### The hypotheses can be met -/

/-- A voter with ballot {0, 1} additionally approves candidate 2, the other voter already did. -/
example : MoreApprovals 2 exampleProfile ⟨3, [⟨[0, 1, 2], 1⟩, ⟨[1, 2], 2⟩], []⟩ :=
  ⟨rfl, .cons ⟨rfl, Or.inr (by decide)⟩ (.cons ⟨rfl, Or.inl rfl⟩ .nil)⟩

example (w : World) (hw : w.env = exampleEnv) :
    prologue w.env "pav" exampleProfile { committeesize := 2, resolute := false } = .ok "branch-and-bound" ∧
    prologue w.env "pav" ⟨3, [⟨[0, 1, 2], 1⟩, ⟨[1, 2], 2⟩], []⟩ { committeesize := 2, algorithm := "brute-force", resolute := false }
      = .ok "brute-force" ∧
    prologue w.env "seqphragmen" exampleProfile { committeesize := 2, resolute := false } = .ok "standard-fractions" :=
  ⟨by rw [hw]; decide +kernel, by rw [hw]; decide +kernel, by rw [hw]; decide +kernel⟩

end Abc
