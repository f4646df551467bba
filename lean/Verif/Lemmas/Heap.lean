import Verif.Spec.Heap
import Verif.Props.Preferences

/-!
# Lemmas about the heap of voters and profiles
-/

namespace Abc
open Spec

/-- Different voters have different set objects. -/
structure SetsSep (h : Heap) : Prop where
  inj : ∀ (r r' : ℕ) (v v' : VoterObj), h.voters[r]? = some v → h.voters[r']? = some v' → v.approved = v'.approved → r = r'
  bound : ∀ (r : ℕ) (v : VoterObj), h.voters[r]? = some v → v.approved < h.sets.length

/-- The invariant of all histories. -/
structure HeapInv (h : Heap) : Prop where
  sets : SetsSep h
  nodup : ∀ (P : ℕ) (o : ProfileObj), h.profiles[P]? = some o → o.refs.Nodup
  apart : ∀ (P Q : ℕ) (o o' : ProfileObj) (r : ℕ), h.profiles[P]? = some o → h.profiles[Q]? = some o' → r ∈ o.refs → r ∈ o'.refs → P = Q
  bound : ∀ (P : ℕ) (o : ProfileObj), h.profiles[P]? = some o → ∀ r ∈ o.refs, r < h.voters.length
  distinct : ∀ l ∈ h.sets, l.Pairwise (· < ·)

/-- `h'` has additional voters and sets. -/
structure Grows (h h' : Heap) : Prop where
  setsPre : ∃ ns, h'.sets = h.sets ++ ns
  votersPre : ∃ vs, h'.voters = h.voters ++ vs
  profiles : h'.profiles = h.profiles
  sep : SetsSep h → SetsSep h'
  distinct : (∀ l ∈ h.sets, l.Pairwise (· < ·)) → ∀ l ∈ h'.sets, l.Pairwise (· < ·)

theorem Grows.refl (h : Heap) : Grows h h := ⟨⟨[], by simp⟩, ⟨[], by simp⟩, rfl, id, id⟩

theorem Grows.trans {h h' h'' : Heap} (a : Grows h h') (b : Grows h' h'') : Grows h h'' := by
  obtain ⟨ns, h1⟩ := a.setsPre
  obtain ⟨ns', h1'⟩ := b.setsPre
  obtain ⟨vs, h2⟩ := a.votersPre
  obtain ⟨vs', h2'⟩ := b.votersPre
  exact ⟨⟨ns ++ ns', by rw [h1', h1, List.append_assoc]⟩, ⟨vs ++ vs', by rw [h2', h2, List.append_assoc]⟩,
    b.profiles.trans a.profiles, fun h => b.sep (a.sep h), fun h => b.distinct (a.distinct h)⟩

theorem Grows.voters_le {h h' : Heap} (a : Grows h h') : h.voters.length ≤ h'.voters.length := by
  obtain ⟨vs, h2⟩ := a.votersPre
  rw [h2]; simp

theorem Grows.sets_le {h h' : Heap} (a : Grows h h') : h.sets.length ≤ h'.sets.length := by
  obtain ⟨vs, h2⟩ := a.setsPre
  rw [h2]; simp

theorem getD_append_left {α : Type} (l l' : List α) (d : α) {i : ℕ} (h : i < l.length) : (l ++ l').getD i d = l.getD i d := by
  simp [List.getD, List.getElem?_append_left h]

theorem Grows.setAt {h h' : Heap} (a : Grows h h') {s : ℕ} (hs : s < h.sets.length) : h'.setAt s = h.setAt s := by
  obtain ⟨ns, h1⟩ := a.setsPre
  unfold Heap.setAt
  rw [h1, getD_append_left _ _ _ hs]

theorem Grows.voterAt {h h' : Heap} (a : Grows h h') (hs : SetsSep h) {r : ℕ} (hr : r < h.voters.length) :
    h'.voterAt r = h.voterAt r := by
  obtain ⟨vs, h2⟩ := a.votersPre
  have h3 : h.voters.getD r ⟨0, 0⟩ = h.voters[r] := by simp [List.getD, List.getElem?_eq_getElem hr]
  have h4 := hs.bound r _ (List.getElem?_eq_getElem hr)
  unfold Heap.voterAt
  rw [h2, getD_append_left _ _ _ hr, h3, a.setAt h4]

/-- References to new voters. -/
def NewRefs (h h' : Heap) (rs : List ℕ) : Prop := rs.Nodup ∧ ∀ r ∈ rs, h.voters.length ≤ r ∧ r < h'.voters.length

theorem mkVoter_sorted {l : List ℤ} {w : ℚ} {n : Option ℤ} {v : Voter} (h : mkVoter l w n = .ok v) : v.approved.Pairwise (· < ·) := by
  unfold mkVoter at h
  cases hc : candidateSet l n with
  | error e => rw [hc] at h; simp [bind, Except.bind] at h
  | ok s =>
    rw [hc] at h
    simp only [bind, Except.bind] at h
    split at h
    · exact absurd h (by simp)
    · obtain rfl := Except.ok.inj h
      exact (C01_candidateSet_elements hc).1

theorem newVoter_grows (h : Heap) (l : List ℤ) (w : ℚ) (n : Option ℤ) : Grows h (h.newVoter l w n).1 := by
  unfold Heap.newVoter
  cases hv : mkVoter l w n with
  | error e => exact Grows.refl h
  | ok v =>
    refine ⟨⟨[v.approved], rfl⟩, ⟨_, rfl⟩, rfl, fun hs => ⟨?_, ?_⟩, ?_⟩
    · intro r r' x x' hr hr' he
      dsimp only at hr hr'
      rw [List.getElem?_append] at hr hr'
      split_ifs at hr hr' with h1 h2 h2
      · exact hs.inj r r' x x' hr hr' he
      · have := hs.bound r x hr
        rw [List.getElem?_singleton] at hr'
        split_ifs at hr'
        obtain rfl := Option.some.inj hr'
        dsimp only at he
        omega
      · have := hs.bound r' x' hr'
        rw [List.getElem?_singleton] at hr
        split_ifs at hr
        obtain rfl := Option.some.inj hr
        dsimp only at he
        omega
      · rw [List.getElem?_singleton] at hr hr'
        split_ifs at hr hr'
        omega
    · intro r x hr
      dsimp only at hr ⊢
      rw [List.length_append, List.length_singleton]
      rw [List.getElem?_append] at hr
      split_ifs at hr with h1
      · have := hs.bound r x hr
        omega
      · rw [List.getElem?_singleton] at hr
        split_ifs at hr
        obtain rfl := Option.some.inj hr
        dsimp only
        omega
    · intro hd l hl
      rcases List.mem_append.1 hl with hl | hl
      · exact hd l hl
      · rw [List.mem_singleton.1 hl]; exact mkVoter_sorted hv

theorem newVoter_ok {h h' : Heap} {l : List ℤ} {w : ℚ} {n : Option ℤ} {r : ℕ} (he : h.newVoter l w n = (h', .ok r)) :
    r = h.voters.length ∧ h'.voters.length = h.voters.length + 1 ∧ mkVoter l w n = .ok (h'.voterAt r) := by
  unfold Heap.newVoter at he
  cases hv : mkVoter l w n with
  | error e => rw [hv] at he; simp at he
  | ok v =>
    rw [hv] at he
    simp only [Prod.mk.injEq, Except.ok.injEq] at he
    obtain ⟨rfl, rfl⟩ := he
    refine ⟨rfl, by simp, ?_⟩
    simp [Heap.voterAt, Heap.setAt, List.getD]

theorem newVoter_error {h h' : Heap} {l : List ℤ} {w : ℚ} {n : Option ℤ} {e : Err} (he : h.newVoter l w n = (h', .error e)) :
    h' = h ∧ mkVoter l w n = .error e := by
  unfold Heap.newVoter at he
  cases hv : mkVoter l w n with
  | error e' => rw [hv] at he; simp only [Prod.mk.injEq, Except.error.injEq] at he; exact ⟨he.1.symm, by rw [he.2]⟩
  | ok v => rw [hv] at he; simp at he

theorem newRefs_newVoter {h h' : Heap} {l : List ℤ} {w : ℚ} {n : Option ℤ} {r : ℕ} (he : h.newVoter l w n = (h', .ok r)) :
    NewRefs h h' [r] := by
  obtain ⟨h1, h2, -⟩ := newVoter_ok he
  exact ⟨by simp, fun x hx => by rw [List.mem_singleton.1 hx]; omega⟩

theorem newRefs_append {h h' h'' : Heap} {rs rs' : List ℕ} (a : NewRefs h h' rs) (b : NewRefs h' h'' rs')
    (g : Grows h h') (g' : Grows h' h'') : NewRefs h h'' (rs ++ rs') := by
  have l1 := g.voters_le
  have l2 := g'.voters_le
  refine ⟨List.nodup_append.2 ⟨a.1, b.1, fun x hx y hy => ?_⟩, fun x hx => ?_⟩
  · have := a.2 x hx
    have := b.2 y hy
    omega
  · rcases List.mem_append.1 hx with hx | hx
    · have := a.2 x hx; omega
    · have := b.2 x hx; omega

theorem newVoters_grows (vs : List (List ℕ × ℚ)) (h : Heap) : Grows h (h.newVoters vs).1 := by
  induction vs generalizing h with
  | nil => exact Grows.refl h
  | cons v vs ih =>
    unfold Heap.newVoters
    have g := newVoter_grows h (v.1.map Int.ofNat) v.2 none
    rcases hn : h.newVoter (v.1.map Int.ofNat) v.2 none with ⟨h', e | r⟩
    · rw [hn] at g; exact g
    · rw [hn] at g
      have g' := ih h'
      rcases hm : h'.newVoters vs with ⟨h'', e | rs⟩ <;> (simp only; rw [hm] at g'; simp only [hm]; exact g.trans g')

theorem newVoters_ok {vs : List (List ℕ × ℚ)} {h h' : Heap} {rs : List ℕ} (he : h.newVoters vs = (h', .ok rs)) :
    NewRefs h h' rs := by
  induction vs generalizing h rs with
  | nil =>
    simp only [Heap.newVoters, Prod.mk.injEq, Except.ok.injEq] at he
    rw [← he.2]
    exact ⟨List.nodup_nil, by simp⟩
  | cons v vs ih =>
    unfold Heap.newVoters at he
    rcases hn : h.newVoter (v.1.map Int.ofNat) v.2 none with ⟨h1, e | r⟩
    · rw [hn] at he; simp at he
    · rw [hn] at he
      simp only at he
      rcases hm : h1.newVoters vs with ⟨h2, e | rs'⟩
      · rw [hm] at he; simp at he
      · rw [hm] at he
        simp only [Prod.mk.injEq, Except.ok.injEq] at he
        obtain ⟨rfl, rfl⟩ := he
        have g := newVoter_grows h (v.1.map Int.ofNat) v.2 none
        rw [hn] at g
        have g' := newVoters_grows vs h1
        rw [hm] at g'
        exact newRefs_append (newRefs_newVoter hn) (ih hm) g g'

theorem unitRefs_grows (rs : List ℕ) (h : Heap) : Grows h (h.unitRefs rs).1 := by
  induction rs generalizing h with
  | nil => exact Grows.refl h
  | cons r rs ih =>
    unfold Heap.unitRefs
    dsimp only
    split_ifs
    · exact Grows.refl h
    · have g := newVoters_grows (List.replicate (h.voterAt r).weight.num.toNat ((h.voterAt r).approved, 1)) h
      rcases hn : h.newVoters (List.replicate (h.voterAt r).weight.num.toNat ((h.voterAt r).approved, 1)) with ⟨h', e | new⟩
      · rw [hn] at g; exact g
      · rw [hn] at g
        have g' := ih h'
        rcases hm : h'.unitRefs rs with ⟨h'', e | rest⟩ <;> (simp only; rw [hm] at g'; simp only [hm]; exact g.trans g')

theorem unitRefs_ok {l : List ℕ} {h h' : Heap} {rs : List ℕ} (he : h.unitRefs l = (h', .ok rs)) : NewRefs h h' rs := by
  induction l generalizing h rs with
  | nil =>
    simp only [Heap.unitRefs, Prod.mk.injEq, Except.ok.injEq] at he
    rw [← he.2]
    exact ⟨List.nodup_nil, by simp⟩
  | cons r l ih =>
    unfold Heap.unitRefs at he
    dsimp only at he
    split_ifs at he
    · simp at he
    · have g := newVoters_grows (List.replicate (h.voterAt r).weight.num.toNat ((h.voterAt r).approved, 1)) h
      rcases hn : h.newVoters (List.replicate (h.voterAt r).weight.num.toNat ((h.voterAt r).approved, 1)) with ⟨h1, e | new⟩
      · rw [hn] at he; simp at he
      · rw [hn] at he g
        simp only at he
        have g' := unitRefs_grows l h1
        rcases hm : h1.unitRefs l with ⟨h2, e | rest⟩
        · rw [hm] at he; simp at he
        · rw [hm] at he g'
          simp only [Prod.mk.injEq, Except.ok.injEq] at he
          obtain ⟨rfl, rfl⟩ := he
          exact newRefs_append (newVoters_ok hn) (ih hm) g g'

/-! ## The profiles -/

theorem setRefs_get (h : Heap) (P : ℕ) (rs : List ℕ) (Q : ℕ) :
    (h.setRefs P rs).profiles[Q]? = if P = Q then h.profiles[Q]?.map (fun o => { o with refs := rs }) else h.profiles[Q]? := by
  unfold Heap.setRefs
  dsimp only
  rw [List.getElem?_modify]
  split_ifs <;> simp

/-- The invariant survives growing. -/
theorem HeapInv.grows {h h' : Heap} (hi : HeapInv h) (g : Grows h h') : HeapInv h' := by
  refine ⟨g.sep hi.sets, ?_, ?_, ?_, g.distinct hi.distinct⟩
  · rw [g.profiles]; exact hi.nodup
  · rw [g.profiles]; exact hi.apart
  · rw [g.profiles]
    exact fun P o ho r hr => lt_of_lt_of_le (hi.bound P o ho r hr) g.voters_le

/-- New voters may be stored in one profile. -/
theorem HeapInv.setRefs {h h' : Heap} (hi : HeapInv h) (g : Grows h h') {P : ℕ} {o : ProfileObj} (ho : h.profiles[P]? = some o)
    {rs : List ℕ} (hn : rs.Nodup) (hm : ∀ r ∈ rs, r ∈ o.refs ∨ h.voters.length ≤ r ∧ r < h'.voters.length) :
    HeapInv (h'.setRefs P rs) := by
  have hi' := hi.grows g
  have ho' : h'.profiles[P]? = some o := by rw [g.profiles]; exact ho
  have old : ∀ (Q : ℕ) (q : ProfileObj), h'.profiles[Q]? = some q → ∀ r ∈ q.refs, r < h.voters.length := by
    rw [g.profiles]; exact hi.bound
  refine ⟨⟨hi'.sets.inj, hi'.sets.bound⟩, ?_, ?_, ?_, hi'.distinct⟩
  · intro Q q hq
    rw [setRefs_get] at hq
    split_ifs at hq with hPQ
    · subst hPQ
      rw [ho'] at hq
      obtain rfl := Option.some.inj hq
      exact hn
    · exact hi'.nodup Q q hq
  · intro Q Q' q q' r hq hq' hr hr'
    rw [setRefs_get] at hq hq'
    split_ifs at hq hq' with h1 h2 h2
    · exact h1.symm.trans h2
    · subst h1
      rw [ho'] at hq
      obtain rfl := Option.some.inj hq
      rcases hm r hr with h | h
      · exact hi'.apart _ _ _ _ _ ho' hq' h hr'
      · have := old _ _ hq' r hr'
        omega
    · subst h2
      rw [ho'] at hq'
      obtain rfl := Option.some.inj hq'
      rcases hm r hr' with h | h
      · exact hi'.apart _ _ _ _ _ hq ho' hr h
      · have := old _ _ hq r hr
        omega
    · exact hi'.apart _ _ _ _ _ hq hq' hr hr'
  · intro Q q hq r hr
    change r < h'.voters.length
    rw [setRefs_get] at hq
    split_ifs at hq with hPQ
    · subst hPQ
      rw [ho'] at hq
      obtain rfl := Option.some.inj hq
      rcases hm r hr with h | h
      · exact lt_of_lt_of_le (hi.bound _ _ ho _ h) g.voters_le
      · exact h.2
    · exact hi'.bound Q q hq r hr

/-- What a method called on profile `P` may change: the list of voters of `P`; there may be new objects. -/
structure Local (P : ℕ) (h h' : Heap) : Prop where
  others : ∀ Q, Q ≠ P → Q < h.profiles.length → h'.profiles[Q]? = h.profiles[Q]?
  voterAt : ∀ r < h.voters.length, h'.voterAt r = h.voterAt r
  setAt : ∀ s < h.sets.length, h'.setAt s = h.setAt s
  votersLe : h.voters.length ≤ h'.voters.length
  setsLe : h.sets.length ≤ h'.sets.length
  profilesLe : h.profiles.length ≤ h'.profiles.length
  inv : HeapInv h'

theorem Local.refl {h : Heap} (hi : HeapInv h) (P : ℕ) : Local P h h :=
  ⟨fun _ _ _ => rfl, fun _ _ => rfl, fun _ _ => rfl, le_rfl, le_rfl, le_rfl, hi⟩

theorem Local.trans {h h' h'' : Heap} {P : ℕ} (a : Local P h h') (b : Local P h' h'') : Local P h h'' :=
  ⟨fun Q hQ hl => (b.others Q hQ (lt_of_lt_of_le hl a.profilesLe)).trans (a.others Q hQ hl),
    fun r hr => (b.voterAt r (lt_of_lt_of_le hr a.votersLe)).trans (a.voterAt r hr),
    fun r hr => (b.setAt r (lt_of_lt_of_le hr a.setsLe)).trans (a.setAt r hr),
    a.votersLe.trans b.votersLe, a.setsLe.trans b.setsLe, a.profilesLe.trans b.profilesLe, b.inv⟩

theorem Grows.local {h h' : Heap} (hi : HeapInv h) (g : Grows h h') (P : ℕ) : Local P h h' :=
  ⟨fun Q _ _ => by rw [g.profiles], fun _ hr => g.voterAt hi.sets hr, fun _ hs => g.setAt hs, g.voters_le, g.sets_le,
    le_of_eq (by rw [g.profiles]), hi.grows g⟩

theorem local_setRefs {h h' : Heap} (hi : HeapInv h) (g : Grows h h') {P : ℕ} {o : ProfileObj} (ho : h.profiles[P]? = some o)
    {rs : List ℕ} (hn : rs.Nodup) (hm : ∀ r ∈ rs, r ∈ o.refs ∨ h.voters.length ≤ r ∧ r < h'.voters.length) :
    Local P h (h'.setRefs P rs) := by
  have l := g.local hi P
  refine ⟨?_, l.voterAt, l.setAt, l.votersLe, l.setsLe, ?_, hi.setRefs g ho hn hm⟩
  · intro Q hQ hlt
    rw [setRefs_get, if_neg (Ne.symm hQ)]
    exact l.others Q hQ hlt
  · change h.profiles.length ≤ (h'.profiles.modify P _).length
    rw [List.length_modify]
    exact l.profilesLe

theorem nodup_set {l : List ℕ} (hl : l.Nodup) {r : ℕ} (hr : r ∉ l) (j : ℕ) : (l.set j r).Nodup := by
  induction l generalizing j with
  | nil => simp
  | cons a l ih =>
    rw [List.nodup_cons] at hl
    rw [List.mem_cons, not_or] at hr
    cases j with
    | zero => rw [List.set_cons_zero, List.nodup_cons]; exact ⟨hr.2, hl.2⟩
    | succ j =>
      rw [List.set_cons_succ, List.nodup_cons]
      refine ⟨fun h => ?_, ih hl.2 hr.2 j⟩
      rcases List.mem_or_eq_of_mem_set h with h | h
      · exact hl.1 h
      · exact hr.1 h.symm

theorem addVoter_local {h : Heap} (hi : HeapInv h) (P : ℕ) (a : VoterArg) : Local P h (h.addVoter P a).1 := by
  unfold Heap.addVoter
  cases ho : h.profiles[P]? with
  | none => exact Local.refl hi P
  | some o =>
    simp only
    unfold Heap.uniqueVoter
    have g := newVoter_grows h (h.rawOf a).approved (h.rawOf a).weight (some o.numCand)
    rcases hn : h.newVoter (h.rawOf a).approved (h.rawOf a).weight (some o.numCand) with ⟨h', e | r⟩
    · rw [hn] at g; exact g.local hi P
    · rw [hn] at g
      have nr := newRefs_newVoter hn
      have hr := nr.2 r (by simp)
      refine local_setRefs hi g ho ?_ ?_
      · rw [List.nodup_append]
        refine ⟨hi.nodup P o ho, by simp, fun x hx y hy => ?_⟩
        have := hi.bound P o ho x hx
        rw [List.mem_singleton] at hy
        omega
      · intro x hx
        rcases List.mem_append.1 hx with hx | hx
        · exact Or.inl hx
        · rw [List.mem_singleton.1 hx]; exact Or.inr hr

theorem addVoters_local {h : Heap} (hi : HeapInv h) (P : ℕ) (as : List VoterArg) : Local P h (h.addVoters P as).1 := by
  induction as generalizing h with
  | nil => exact Local.refl hi P
  | cons a as ih =>
    unfold Heap.addVoters
    have l := addVoter_local hi P a
    rcases hn : h.addVoter P a with ⟨h', _ | e⟩
    · rw [hn] at l; exact l.trans (ih l.inv)
    · rw [hn] at l; exact l

theorem addFrom_local {h : Heap} (hi : HeapInv h) (P Q fuel i : ℕ) : Local P h (Heap.addFrom P Q fuel i h).1 := by
  induction fuel generalizing h i with
  | zero => exact Local.refl hi P
  | succ fuel ih =>
    unfold Heap.addFrom
    cases hd : ((h.profiles[Q]?.map ProfileObj.refs).getD []).drop i with
    | nil => exact Local.refl hi P
    | cons r rs =>
      simp only
      have l := addVoter_local hi P (.voter r)
      rcases hn : h.addVoter P (.voter r) with ⟨h', _ | e⟩
      · rw [hn] at l; exact l.trans (ih l.inv (i + 1))
      · rw [hn] at l; exact l

theorem setItem_local {h : Heap} (hi : HeapInv h) (P : ℕ) (i : ℤ) (a : VoterArg) : Local P h (h.setItem P i a).1 := by
  unfold Heap.setItem
  cases ho : h.profiles[P]? with
  | none => exact Local.refl hi P
  | some o =>
    simp only
    unfold Heap.uniqueVoter
    have g := newVoter_grows h (h.rawOf a).approved (h.rawOf a).weight (some o.numCand)
    rcases hn : h.newVoter (h.rawOf a).approved (h.rawOf a).weight (some o.numCand) with ⟨h', e | r⟩
    · rw [hn] at g; exact g.local hi P
    · rw [hn] at g
      have nr := newRefs_newVoter hn
      have hr := nr.2 r (by simp)
      simp only
      generalize (if i < 0 then i + (o.refs.length : ℤ) else i) = j
      split_ifs
      · exact g.local hi P
      · refine local_setRefs hi g ho (nodup_set (hi.nodup P o ho) (fun hx => ?_) _) ?_
        · have := hi.bound P o ho r hx
          omega
        · intro x hx
          rcases List.mem_or_eq_of_mem_set hx with hx | hx
          · exact Or.inl hx
          · rw [hx]; exact Or.inr hr

theorem unit_local {h : Heap} (hi : HeapInv h) (P : ℕ) : Local P h (h.convertToUnitWeights P).1 := by
  unfold Heap.convertToUnitWeights
  cases ho : h.profiles[P]? with
  | none => exact Local.refl hi P
  | some o =>
    simp only
    have g := unitRefs_grows o.refs h
    rcases hn : h.unitRefs o.refs with ⟨h', e | rs⟩
    · rw [hn] at g; exact g.local hi P
    · rw [hn] at g
      have nr := unitRefs_ok hn
      exact local_setRefs hi g ho nr.1 (fun r hr => Or.inr (nr.2 r hr))

theorem weighted_local {h : Heap} (hi : HeapInv h) (P : ℕ) (iter : List (List ℕ) → List (List ℕ)) :
    Local P h (h.convertToWeighted P iter).1 := by
  unfold Heap.convertToWeighted
  cases ho : h.profiles[P]? with
  | none => exact Local.refl hi P
  | some o =>
    simp only
    generalize hvs : (iter _).map _ = vs
    have g := newVoters_grows vs h
    rcases hn : h.newVoters vs with ⟨h', e | rs⟩
    · rw [hn] at g; exact g.local hi P
    · rw [hn] at g
      have nr := newVoters_ok hn
      exact local_setRefs hi g ho nr.1 (fun r hr => Or.inr (nr.2 r hr))

theorem newProfile_local {h : Heap} (hi : HeapInv h) (n : ℤ) (names : Option (List Name)) :
    Local h.profiles.length h (h.newProfile n names).1 := by
  unfold Heap.newProfile
  cases hp : mkProfile n names with
  | error e => exact Local.refl hi _
  | ok p =>
    have get : ∀ (Q : ℕ) (q : ProfileObj), (h.profiles ++ [(⟨p.numCand, p.candNames, []⟩ : ProfileObj)])[Q]? = some q →
        h.profiles[Q]? = some q ∨ q.refs = [] := by
      intro Q q hq
      rw [List.getElem?_append] at hq
      split_ifs at hq
      · exact Or.inl hq
      · rw [List.getElem?_singleton] at hq
        split_ifs at hq
        obtain rfl := Option.some.inj hq
        exact Or.inr rfl
    refine ⟨?_, fun _ _ => rfl, fun _ _ => rfl, le_rfl, le_rfl, by simp, ⟨⟨hi.sets.inj, hi.sets.bound⟩, ?_, ?_, ?_, hi.distinct⟩⟩
    · intro Q hQ hlt
      exact List.getElem?_append_left hlt
    · intro Q q hq
      rcases get Q q hq with h1 | h1
      · exact hi.nodup Q q h1
      · rw [h1]; exact List.nodup_nil
    · intro Q Q' q q' r hq hq' hr hr'
      rcases get Q q hq with h1 | h1
      · rcases get Q' q' hq' with h2 | h2
        · exact hi.apart _ _ _ _ _ h1 h2 hr hr'
        · rw [h2] at hr'; simp at hr'
      · rw [h1] at hr; simp at hr
    · intro Q q hq r hr
      rcases get Q q hq with h1 | h1
      · exact hi.bound Q q h1 r hr
      · rw [h1] at hr; simp at hr

theorem copy_local {h : Heap} (hi : HeapInv h) (P : ℕ) : Local h.profiles.length h (h.copy P).1 := by
  unfold Heap.copy
  cases ho : h.profiles[P]? with
  | none => exact Local.refl hi _
  | some o =>
    simp only
    have l := newProfile_local hi o.numCand none
    rcases hn : h.newProfile o.numCand none with ⟨h', _ | e⟩
    · rw [hn] at l; exact l.trans (addVoters_local l.inv _ _)
    · rw [hn] at l; exact l

/-! ## Changes in place -/

theorem modify_voters_inv {h : Heap} (hi : HeapInv h) (r : ℕ) (f : VoterObj → VoterObj) (ns : List (List ℕ))
    (hns : ∀ l ∈ ns, l.Pairwise (· < ·))
    (hf : ∀ o, (f o).approved = o.approved ∨ (f o).approved = h.sets.length ∧ ns ≠ []) :
    HeapInv { h with sets := h.sets ++ ns, voters := h.voters.modify r f } := by
  have get : ∀ (x : ℕ) (v : VoterObj), (h.voters.modify r f)[x]? = some v →
      ∃ u, h.voters[x]? = some u ∧ (v.approved = u.approved ∨ x = r ∧ v.approved = h.sets.length ∧ ns ≠ []) := by
    intro x v hv
    rw [List.getElem?_modify] at hv
    cases hu : h.voters[x]? with
    | none => rw [hu] at hv; simp at hv
    | some u =>
      rw [hu] at hv
      simp only [Option.map_eq_map, Option.map_some, Option.some.injEq] at hv
      refine ⟨u, rfl, ?_⟩
      split_ifs at hv with hx
      · subst hv
        rcases hf u with h1 | h1
        · exact Or.inl h1
        · exact Or.inr ⟨hx.symm, h1⟩
      · subst hv; exact Or.inl rfl
  refine ⟨⟨?_, ?_⟩, hi.nodup, hi.apart, ?_, ?_⟩
  · intro x x' v v' hv hv' he
    obtain ⟨u, hu, h1⟩ := get x v hv
    obtain ⟨u', hu', h1'⟩ := get x' v' hv'
    have b := hi.sets.bound x u hu
    have b' := hi.sets.bound x' u' hu'
    rcases h1 with h1 | h1 <;> rcases h1' with h1' | h1'
    · exact hi.sets.inj x x' u u' hu hu' (by rw [← h1, ← h1', he])
    · omega
    · omega
    · omega
  · intro x v hv
    obtain ⟨u, hu, h1⟩ := get x v hv
    have b := hi.sets.bound x u hu
    dsimp only
    rw [List.length_append]
    rcases h1 with h1 | ⟨-, h1, h2⟩
    · omega
    · have := List.length_pos_of_ne_nil h2
      omega
  · intro P o ho x hx
    dsimp only
    rw [List.length_modify]
    exact hi.bound P o ho x hx
  · intro l hl
    rcases List.mem_append.1 hl with hl | hl
    · exact hi.distinct l hl
    · exact hns l hl

theorem mem_modify {α : Type} {l : List α} {s : ℕ} {f : α → α} {x : α} (h : x ∈ l.modify s f) : x ∈ l ∨ ∃ y ∈ l, x = f y := by
  obtain ⟨i, hi⟩ := List.mem_iff_getElem?.1 h
  rw [List.getElem?_modify] at hi
  cases hu : l[i]? with
  | none => rw [hu] at hi; simp at hi
  | some u =>
    rw [hu] at hi
    simp only [Option.map_eq_map, Option.map_some, Option.some.injEq] at hi
    split_ifs at hi
    · exact Or.inr ⟨u, List.mem_of_getElem? hu, hi.symm⟩
    · exact Or.inl (hi ▸ List.mem_of_getElem? hu)

theorem modify_sets_inv {h : Heap} (hi : HeapInv h) (s : ℕ) (f : List ℕ → List ℕ) (hf : ∀ l, l.Pairwise (· < ·) → (f l).Pairwise (· < ·)) :
    HeapInv { h with sets := h.sets.modify s f } := by
  refine ⟨⟨hi.sets.inj, fun r v hv => ?_⟩, hi.nodup, hi.apart, hi.bound, ?_⟩
  · dsimp only
    rw [List.length_modify]
    exact hi.sets.bound r v hv
  · intro l hl
    rcases mem_modify hl with hl | ⟨y, hy, rfl⟩
    · exact hi.distinct l hl
    · exact hf y (hi.distinct y hy)

/-- The invariant holds in all histories. -/
theorem step_heapInv {h : Heap} (hi : HeapInv h) (op : HeapOp) : HeapInv (h.step op).1 := by
  cases op with
  | newVoter l w n =>
    have g := newVoter_grows h l w n
    unfold Heap.step
    rcases hn : h.newVoter l w n with ⟨h', e | r⟩ <;> (rw [hn] at g; simp only [hn]; exact hi.grows g)
  | newProfile n names => exact (newProfile_local hi n names).inv
  | addVoter P a => exact (addVoter_local hi P a).inv
  | addVoters P as => exact (addVoters_local hi P as).inv
  | addFrom P Q fuel => exact (addFrom_local hi P Q fuel 0).inv
  | setItem P i a => exact (setItem_local hi P i a).inv
  | convertToUnitWeights P => exact (unit_local hi P).inv
  | convertToWeighted P iter => exact (weighted_local hi P iter).inv
  | copy P => exact (copy_local hi P).inv
  | setWeight r q =>
    have := modify_voters_inv hi r (fun o => { o with weight := q }) [] (by simp) (fun o => Or.inl rfl)
    simpa [Heap.step] using this
  | setApproved r l =>
    unfold Heap.step
    cases hc : candidateSet l none with
    | error e => simpa [hc] using hi
    | ok s =>
      simp only [hc]
      refine modify_voters_inv hi r (fun o => { o with approved := h.sets.length }) [s] ?_ (fun o => Or.inr ⟨rfl, by simp⟩)
      intro x hx
      rw [List.mem_singleton.1 hx]
      exact (C01_candidateSet_elements hc).1
  | add s c => exact modify_sets_inv hi s _ (fun l hl => sortNat_lt (setAdd_nodup (hl.imp Nat.ne_of_lt)))
  | discard s c => exact modify_sets_inv hi s _ (fun l hl => hl.filter _)

theorem run_heapInv {h : Heap} (hi : HeapInv h) (ops : List HeapOp) : HeapInv (h.run ops) := by
  induction ops generalizing h with
  | nil => exact hi
  | cons op ops ih => exact ih (step_heapInv hi op)

theorem heapInv_empty : HeapInv {} := by
  refine ⟨⟨?_, ?_⟩, ?_, ?_, ?_, ?_⟩ <;> simp

theorem Spec.ReachableHeap.inv {h : Heap} (hr : ReachableHeap h) : HeapInv h := by
  obtain ⟨ops, rfl⟩ := hr
  exact run_heapInv heapInv_empty ops

end Abc
