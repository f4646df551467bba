import Verif.Lemmas.Answers

/-!
# The depth-first search shared by the irresolute sequential rules
-/

namespace Abc
open Spec

/-- What the search collects from a sequence of results: a duplicate-free list, stopping at `max`. -/
def collect (max : Option ℕ) : List (List ℕ) → List (List ℕ) → List (List ℕ)
  | [], win => win
  | o :: os, win => if max = some (setAdd win o).length then setAdd win o else collect max os (setAdd win o)

/-- The nodes at depth `r` below `n`. -/
def leaves {N : Type} (succ : N → List N) : ℕ → N → List N
  | 0, n => [n]
  | r + 1, n => (succ n).flatMap (leaves succ r)

theorem foldl_setAdd_prefix {α : Type} [DecidableEq α] (l s : List α) : s <+: l.foldl setAdd s := by
  induction l generalizing s with
  | nil => exact List.prefix_rfl
  | cons x xs ih =>
    simp only [List.foldl_cons]
    refine List.IsPrefix.trans ?_ (ih _)
    unfold setAdd
    split
    · exact List.prefix_rfl
    · exact List.prefix_append _ _

theorem collect_none (l win : List (List ℕ)) : collect none l win = l.foldl setAdd win := by
  induction l generalizing win with
  | nil => rfl
  | cons o os ih => simp [collect, ih]

theorem setAdd_length_le {α : Type} [DecidableEq α] (s : List α) (x : α) : (setAdd s x).length ≤ s.length + 1 := by
  unfold setAdd
  split <;> simp

theorem collect_some (n : ℕ) (l win : List (List ℕ)) (h : win.length < n) :
    collect (some n) l win = (l.foldl setAdd win).take n := by
  induction l generalizing win with
  | nil => simp [collect, List.take_of_length_le h.le]
  | cons o os ih =>
    unfold collect
    have h1 := setAdd_length_le win o
    by_cases he : n = (setAdd win o).length
    · rw [if_pos (by rw [he])]
      simp only [List.foldl_cons]
      obtain ⟨t, ht⟩ := foldl_setAdd_prefix os (setAdd win o)
      rw [← ht, he]
      simp
    · rw [if_neg (by simpa using he)]
      rw [ih _ (by omega)]
      rfl

theorem collect_eq_truncate (a : Args) {p : Profile} (hv : ValidCall p a) (l : List (List ℕ)) :
    collect a.maxNum l [] = truncate a.maxNum (l.foldl setAdd []) := by
  cases hm : a.maxNum with
  | none => exact collect_none l []
  | some n =>
    obtain ⟨z, hz, rfl⟩ := maxNum_some hm
    have := hv.max z hz
    exact collect_some _ l [] (by simp; omega)

section
variable {N : Type} (full : N → Bool) (out : N → List ℕ)

theorem expandLoop_none_full (max : Option ℕ) (ns np : List N) (win : List (List ℕ)) (h : ∀ n ∈ ns, full n = false) :
    expandLoop full out max ns np win = .inr (np ++ ns, win) := by
  induction ns generalizing np with
  | nil => simp [expandLoop]
  | cons n ns ih =>
    unfold expandLoop
    rw [if_neg (by simp [h n (by simp)]), ih _ (fun m hm => h m (by simp [hm]))]
    simp

/-- either an early exit, in which case everything that follows is irrelevant, or all nodes are collected -/
theorem expandLoop_all_full (max : Option ℕ) (ns : List N) (win : List (List ℕ)) (h : ∀ n ∈ ns, full n = true) :
    (∃ w, expandLoop full out max ns [] win = .inl w ∧ ∀ rest, collect max (ns.map out ++ rest) win = w) ∨
    (∃ w, expandLoop full out max ns [] win = .inr ([], w) ∧ ∀ rest, collect max (ns.map out ++ rest) win = collect max rest w) := by
  induction ns generalizing win with
  | nil => exact Or.inr ⟨win, rfl, fun _ => rfl⟩
  | cons n ns ih =>
    unfold expandLoop
    rw [if_pos (h n (by simp))]
    simp only
    by_cases he : max = some (setAdd win (out n)).length
    · left
      refine ⟨setAdd win (out n), by rw [if_pos he], ?_⟩
      intro rest
      simp only [List.map_cons, List.cons_append, collect]
      rw [if_pos he]
    · rw [if_neg he]
      rcases ih (setAdd win (out n)) (fun m hm => h m (by simp [hm])) with ⟨w, h1, h2⟩ | ⟨w, h1, h2⟩
      · left
        refine ⟨w, h1, fun rest => ?_⟩
        simp only [List.map_cons, List.cons_append, collect]
        rw [if_neg he]
        exact h2 rest
      · right
        refine ⟨w, h1, fun rest => ?_⟩
        simp only [List.map_cons, List.cons_append, collect]
        rw [if_neg he]
        exact h2 rest

/-- The search returns exactly what `collect` makes of all leaves in depth-first order; the fuel suffices. -/
theorem universes_eq (succs : N → Except Err (List N)) (succ : N → List N) (I : N → Prop) (rank : N → ℕ) (B : ℕ)
    (hfull : ∀ n, I n → (full n = true ↔ rank n = 0))
    (hsucc : ∀ n, I n → rank n ≠ 0 → succs n = .ok (succ n) ∧ (succ n).length ≤ B ∧
      ∀ m ∈ succ n, I m ∧ rank m + 1 = rank n)
    (max : Option ℕ) (fuel : ℕ) (stack : List N) (win : List (List ℕ))
    (hst : ∀ n ∈ stack, I n ∧ rank n ≠ 0) (hfuel : (stack.map (fun n => (B + 1) ^ rank n)).sum ≤ fuel) :
    universes full out succs max fuel stack win
      = .ok (collect max ((stack.flatMap (fun n => leaves succ (rank n) n)).map out) win) := by
  induction fuel generalizing stack win with
  | zero =>
    cases stack with
    | nil => simp [universes, collect]
    | cons n rest =>
      have : 0 < (B + 1) ^ rank n := by positivity
      simp at hfuel
  | succ fuel ih =>
    cases stack with
    | nil => simp [universes, collect]
    | cons n rest =>
      obtain ⟨hI, hr⟩ := hst n (by simp)
      obtain ⟨h1, h2, h3⟩ := hsucc n hI hr
      unfold universes
      rw [h1]
      simp only [bind, Except.bind]
      obtain ⟨r, hr'⟩ : ∃ r, rank n = r + 1 := ⟨rank n - 1, by omega⟩
      have hrm : ∀ m ∈ succ n, rank m = r := fun m hm => by have := (h3 m hm).2; omega
      have hleaf : leaves succ (rank n) n = (succ n).flatMap (fun m => leaves succ (rank m) m) := by
        rw [hr']
        simp only [leaves]
        rw [List.flatMap_def, List.flatMap_def]
        congr 1
        exact List.map_congr_left (fun m hm => by rw [hrm m hm])
      have hsum : ((succ n).map (fun m => (B + 1) ^ rank m)).sum ≤ B * (B + 1) ^ r := by
        have : (succ n).map (fun m => (B + 1) ^ rank m) = (succ n).map (fun _ => (B + 1) ^ r) :=
          List.map_congr_left (fun m hm => by rw [hrm m hm])
        rw [this]
        simp only [List.map_const', List.sum_replicate, nsmul_eq_mul, Nat.cast_id]
        exact Nat.mul_le_mul_right _ h2
      have hpot : (rest.map (fun n => (B + 1) ^ rank n)).sum + B * (B + 1) ^ r ≤ fuel := by
        simp only [List.map_cons, List.sum_cons, hr', pow_succ] at hfuel
        have : 1 ≤ (B + 1) ^ r := Nat.one_le_pow _ _ (by omega)
        nlinarith
      by_cases h0 : r = 0
      · -- all children are full committees
        have hall : ∀ m ∈ succ n, full m = true := fun m hm => (hfull m (h3 m hm).1).2 (by rw [hrm m hm, h0])
        have hl2 : leaves succ (rank n) n = succ n := by
          rw [hr', h0]
          simp [leaves]
        rcases expandLoop_all_full full out max (succ n) win hall with ⟨w, e1, e2⟩ | ⟨w, e1, e2⟩
        · rw [e1]
          simp only [List.flatMap_cons, List.map_append, hl2]
          rw [e2]
        · rw [e1]
          simp only [List.nil_append]
          rw [ih rest w (fun m hm => hst m (by simp [hm])) (by omega)]
          simp only [List.flatMap_cons, List.map_append, hl2]
          rw [e2]
      · have hall : ∀ m ∈ succ n, full m = false := by
          intro m hm
          have := hfull m (h3 m hm).1
          rw [hrm m hm] at this
          by_contra hc
          exact h0 (this.1 (by simpa using hc))
        rw [expandLoop_none_full full out max (succ n) [] win hall]
        simp only [List.nil_append]
        rw [ih (succ n ++ rest) win]
        · simp only [List.flatMap_append, List.flatMap_cons, hleaf]
        · intro m hm
          rcases List.mem_append.1 hm with hm | hm
          · exact ⟨(h3 m hm).1, by rw [hrm m hm]; exact h0⟩
          · exact hst m (by simp [hm])
        · rw [List.map_append, List.sum_append]
          omega

end

/-- Reachability by `r` steps of the successor function. -/
theorem mem_leaves_snoc {N : Type} (succ : N → List N) (r : ℕ) (n m : N) :
    m ∈ leaves succ (r + 1) n ↔ ∃ l ∈ leaves succ r n, m ∈ succ l := by
  induction r generalizing n with
  | zero => simp [leaves]
  | succ r ih =>
    have e : ∀ r n m, m ∈ leaves succ (r + 1) n ↔ ∃ a ∈ succ n, m ∈ leaves succ r a := by
      intro r n m
      simp only [leaves, List.mem_flatMap]
    rw [e]
    constructor
    · rintro ⟨a, ha, h⟩
      obtain ⟨l, hl, hm⟩ := (ih a).1 h
      exact ⟨l, (e r n l).2 ⟨a, ha, hl⟩, hm⟩
    · rintro ⟨l, hl, hm⟩
      obtain ⟨a, ha, hl⟩ := (e r n l).1 hl
      exact ⟨a, ha, (ih a).2 ⟨l, hl, hm⟩⟩

/-- The complete irresolute rule: search from one root, then sort. -/
theorem universes_answers {N : Type} {full : N → Bool} {out : N → List ℕ} {succs : N → Except Err (List N)}
    (succ : N → List N) (I : N → Prop) (rank : N → ℕ) (B : ℕ)
    (hfull : ∀ n, I n → (full n = true ↔ rank n = 0))
    (hsucc : ∀ n, I n → rank n ≠ 0 → succs n = .ok (succ n) ∧ (succ n).length ≤ B ∧
      ∀ m ∈ succ n, I m ∧ rank m + 1 = rank n)
    {p : Profile} {a : Args} (hv : ValidCall p a) (root : N) (hroot : I root) (hk : rank root = a.k)
    (hB : B = p.numCand) {S : Finset ℕ → Prop}
    (hout : ∀ m ∈ leaves succ a.k root, (out m).Pairwise (· < ·))
    (hS : ∀ A, (∃ m ∈ leaves succ a.k root, (out m).toFinset = A) ↔ S A)
    {r : Except Err (List (List ℕ))}
    (hres : a.resolute = true → ∃ W : List ℕ, W.Nodup ∧ S W.toFinset ∧ r = sortedCommittees [W])
    (hirr : a.resolute = false → r = do
      let winning ← universes full out succs a.maxNum (dfsFuel p a.k) [root] []
      sortedCommittees winning) : Answers a r S := by
  have hu := universes_eq full out succs succ I rank B hfull hsucc a.maxNum (dfsFuel p a.k) [root] []
    (by
      intro n hn
      rw [List.mem_singleton] at hn
      subst hn
      have := hv.pos
      exact ⟨hroot, by omega⟩)
    (by simp [dfsFuel, hk, hB])
  simp only [List.flatMap_cons, List.flatMap_nil, List.append_nil, hk] at hu
  rw [collect_eq_truncate a hv] at hu
  set cs := ((leaves succ a.k root).map out).foldl setAdd [] with hcs
  have hmem : ∀ W, W ∈ cs ↔ ∃ m ∈ leaves succ a.k root, out m = W := by
    intro W
    rw [hcs, mem_foldl_setAdd]
    simp
  have hlt : ∀ W ∈ cs, W.Pairwise (· < ·) := by
    intro W hW
    obtain ⟨m, hm, rfl⟩ := (hmem W).1 hW
    exact hout m hm
  have hnd : cs.Nodup := foldl_setAdd_nodup List.nodup_nil
  refine answers_sorted (cs := cs) (fun W hW => nodup_of_lt (hlt W hW)) (map_toFinset_nodup_of_lt hlt hnd) ?_ hres ?_
  · intro A
    rw [← hS A]
    constructor
    · rintro ⟨W, hW, rfl⟩
      obtain ⟨m, hm, rfl⟩ := (hmem W).1 hW
      exact ⟨m, hm, rfl⟩
    · rintro ⟨m, hm, rfl⟩
      exact ⟨out m, (hmem _).2 ⟨m, hm, rfl⟩, rfl⟩
  · intro hr
    rw [hirr hr, hu]
    rfl

end Abc
