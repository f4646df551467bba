import Verif.Props.Misc

/-!
# Properties of `preferences.py`: C02–C06
-/

namespace Abc
open Spec

/-! ## C02 -/

theorem mkVoter_ok {a : List ℤ} {w : ℚ} {n : ℕ} {v : Voter} (h : mkVoter a w (some n) = .ok v) :
    v.approved.Pairwise (· < ·) ∧ (∀ c ∈ v.approved, c < n) ∧ 0 < v.weight := by
  unfold mkVoter at h
  cases hc : candidateSet a (some (n : ℤ)) with
  | error e => simp [hc, bind, Except.bind] at h
  | ok s =>
    simp only [hc, bind, Except.bind] at h
    split at h
    · simp at h
    · rename_i hw
      obtain rfl := (Except.ok.inj h).symm
      obtain ⟨h1, -, h3⟩ := C01_candidateSet_elements hc
      obtain ⟨-, -, h4⟩ := (C01_candidateSet_ok_iff a (some (n : ℤ))).1 ⟨s, hc⟩
      refine ⟨h1, ?_, lt_of_not_ge hw⟩
      intro c hc'
      have := h4 n rfl (c : ℤ) ((h3 c).2 ⟨c, hc', rfl⟩)
      omega

theorem addVoter_inv {p : Profile} (hp : p.WF) (v : RawVoter) :
    (p.addVoter v).1.WF ∧ (p.addVoter v).1.numCand = p.numCand := by
  unfold Profile.addVoter
  split
  · rename_i voter h
    obtain ⟨h1, h2, h3⟩ := mkVoter_ok h
    refine ⟨⟨hp.pos, ?_, ?_, ?_⟩, rfl⟩ <;> intro w hw <;>
      simp only [List.mem_append, List.mem_singleton] at hw <;> rcases hw with hw | rfl
    · exact hp.nodup w hw
    · exact nodup_of_lt h1
    · exact hp.lt w hw
    · exact h2
    · exact hp.weight w hw
    · exact h3
  · exact ⟨hp, rfl⟩

theorem addVoters_inv {p : Profile} (hp : p.WF) (vs : List RawVoter) :
    (p.addVoters vs).1.WF ∧ (p.addVoters vs).1.numCand = p.numCand := by
  induction vs generalizing p with
  | nil => exact ⟨hp, rfl⟩
  | cons v vs ih =>
    have h := addVoter_inv hp v
    unfold Profile.addVoters
    split
    · rename_i p' he
      rw [he] at h
      have := ih h.1
      exact ⟨this.1, this.2.trans h.2⟩
    · rename_i p' e he
      rw [he] at h
      exact h

theorem setItem_inv {p : Profile} (hp : p.WF) (i : ℤ) (v : RawVoter) :
    (p.setItem i v).1.WF ∧ (p.setItem i v).1.numCand = p.numCand := by
  unfold Profile.setItem
  split
  · exact ⟨hp, rfl⟩
  · rename_i voter h
    obtain ⟨h1, h2, h3⟩ := mkVoter_ok h
    generalize (if i < 0 then i + (p.voters.length : ℤ) else i) = j
    dsimp only
    split
    · exact ⟨hp, rfl⟩
    · refine ⟨⟨hp.pos, ?_, ?_, ?_⟩, rfl⟩ <;> intro w hw <;>
        rcases List.mem_or_eq_of_mem_set hw with hw | rfl
      · exact hp.nodup w hw
      · exact nodup_of_lt h1
      · exact hp.lt w hw
      · exact h2
      · exact hp.weight w hw
      · exact h3

theorem unitVoters_mem {vs out : List Voter} (h : unitVoters vs = .ok out) :
    ∀ v ∈ out, v.weight = 1 ∧ ∃ w ∈ vs, v.approved = w.approved := by
  induction vs generalizing out with
  | nil =>
    obtain rfl := (Except.ok.inj h).symm
    simp
  | cons w vs ih =>
    unfold unitVoters at h
    split at h
    · simp at h
    · cases hr : unitVoters vs with
      | error e => simp [hr, bind, Except.bind] at h
      | ok rest =>
        simp only [hr, bind, Except.bind, Except.ok.injEq] at h
        subst h
        intro v hv
        simp only [List.mem_append, List.mem_replicate] at hv
        rcases hv with ⟨_, rfl⟩ | hv
        · exact ⟨rfl, w, by simp, rfl⟩
        · obtain ⟨h1, w', hw', h2⟩ := ih hr v hv
          exact ⟨h1, w', by simp [hw'], h2⟩

theorem weightOfApprovalSet_eq (vs : List Voter) (a : List ℕ) :
    weightOfApprovalSet vs a = ((vs.filter (fun v => decide (sortNat v.approved = a))).map Voter.weight).sum := by
  unfold weightOfApprovalSet
  have : ∀ acc : ℚ, vs.foldl (fun acc v => if sortNat v.approved = a then acc + v.weight else acc) acc
      = acc + ((vs.filter (fun v => decide (sortNat v.approved = a))).map Voter.weight).sum := by
    induction vs with
    | nil => simp
    | cons v vs ih =>
      intro acc
      simp only [List.foldl_cons]
      rw [ih]
      by_cases h : sortNat v.approved = a
      · simp [h, add_assoc]
      · simp [h]
  rw [this, zero_add]

theorem convertToWeighted_inv {p : Profile} (hp : p.WF) (iter : List (List ℕ) → List (List ℕ))
    (hiter : ∀ l, (iter l).Perm l) :
    (p.convertToWeighted iter).WF ∧ (p.convertToWeighted iter).numCand = p.numCand := by
  unfold Profile.convertToWeighted
  have key : ∀ w ∈ (iter ((p.voters.map (fun v => sortNat v.approved)).foldl setAdd [])).map
      (fun a => (⟨a, weightOfApprovalSet p.voters a⟩ : Voter)), ∃ v ∈ p.voters, w.approved = sortNat v.approved ∧
        w.weight = weightOfApprovalSet p.voters (sortNat v.approved) := by
    intro w hw
    simp only [List.mem_map] at hw
    obtain ⟨a, ha, rfl⟩ := hw
    rw [(hiter _).mem_iff, mem_foldl_setAdd] at ha
    simp only [List.not_mem_nil, List.mem_map, false_or] at ha
    obtain ⟨v, hv, rfl⟩ := ha
    exact ⟨v, hv, rfl, rfl⟩
  refine ⟨⟨hp.pos, ?_, ?_, ?_⟩, rfl⟩ <;> intro w hw <;> obtain ⟨v, hv, h1, h2⟩ := key w hw
  · rw [h1]; exact sortNat_nodup.2 (hp.nodup v hv)
  · rw [h1]
    intro c hc
    exact hp.lt v hv c (mem_sortNat.1 hc)
  · rw [h2, weightOfApprovalSet_eq]
    refine List.sum_pos _ ?_ ?_
    · intro x hx
      simp only [List.mem_map, List.mem_filter] at hx
      obtain ⟨u, ⟨hu, _⟩, rfl⟩ := hx
      exact hp.weight u hu
    · intro he
      rw [List.map_eq_nil_iff, List.filter_eq_nil_iff] at he
      exact he v hv (by simp)

theorem mkProfile_ok {n : ℤ} {names : Option (List Name)} {p : Profile} (h : mkProfile n names = .ok p) :
    p.WF ∧ (p.numCand : ℤ) = n ∧ p.voters = [] := by
  unfold mkProfile at h
  split at h
  · simp at h
  · rename_i hn
    dsimp only at h
    split at h
    · obtain rfl := (Except.ok.inj h).symm
      exact ⟨⟨by dsimp only; omega, by simp, by simp, by simp⟩, by dsimp only; omega, rfl⟩
    · split at h
      · simp at h
      · obtain rfl := (Except.ok.inj h).symm
        exact ⟨⟨by dsimp only; omega, by simp, by simp, by simp⟩, by dsimp only; omega, rfl⟩

theorem copy_inv {p q : Profile} (h : p.copy = .ok q) : q.WF ∧ q.numCand = p.numCand := by
  unfold Profile.copy at h
  cases hm : mkProfile p.numCand none with
  | error e => simp [hm, bind, Except.bind] at h
  | ok r =>
    simp only [hm, bind, Except.bind] at h
    obtain ⟨h1, h2, -⟩ := mkProfile_ok hm
    have h3 := addVoters_inv h1 (p.voters.map Voter.toRaw)
    split at h
    · rename_i q' he
      rw [he] at h3
      obtain rfl := Except.ok.inj h
      exact ⟨h3.1, by have := h3.2; simp only at this; omega⟩
    · simp at h

/-- Histories in which each set-iteration order used by `convert_to_weighted` really is an order of the set. -/
def ProfileOp.Legal : ProfileOp → Prop
  | .convertToWeighted iter => ∀ l, (iter l).Perm l
  | _ => True

theorem step_inv {p : Profile} (hp : p.WF) (op : ProfileOp) (hop : op.Legal) :
    (p.step op).1.WF ∧ (p.step op).1.numCand = p.numCand := by
  cases op with
  | addVoter v => exact addVoter_inv hp v
  | addVoters vs => exact addVoters_inv hp vs
  | setItem i v => exact setItem_inv hp i v
  | convertToUnitWeights =>
    simp only [Profile.step, Profile.convertToUnitWeights]
    split
    · rename_i vs h
      have := unitVoters_mem h
      refine ⟨⟨hp.pos, ?_, ?_, ?_⟩, rfl⟩ <;> intro w hw <;> obtain ⟨h1, v, hv, h2⟩ := this w hw
      · rw [h2]; exact hp.nodup v hv
      · rw [h2]; exact hp.lt v hv
      · rw [h1]; exact zero_lt_one
    · exact ⟨hp, rfl⟩
  | convertToWeighted iter => exact convertToWeighted_inv hp iter hop
  | copy =>
    simp only [Profile.step]
    split
    · rename_i q h
      exact copy_inv h
    · exact ⟨hp, rfl⟩

/-- C02: however a profile was constructed and whatever (failing or succeeding) operations were applied to it, it is
well-formed and has the number of candidates it was created with. -/
theorem C02_profile_wf_invariant (n : ℤ) (names : Option (List Name)) (p : Profile) (hp : mkProfile n names = .ok p)
    (ops : List ProfileOp) (hops : ∀ op ∈ ops, op.Legal) :
    (p.run ops).WF ∧ ((p.run ops).numCand : ℤ) = n := by
  obtain ⟨h1, h2, -⟩ := mkProfile_ok hp
  suffices h : ∀ q : Profile, q.WF → (q.run ops).WF ∧ (q.run ops).numCand = q.numCand by
    obtain ⟨h3, h4⟩ := h p h1
    exact ⟨h3, by omega⟩
  unfold Profile.run
  clear h1 h2 hp p
  induction ops with
  | nil => intro q hq; exact ⟨hq, rfl⟩
  | cons op ops ih =>
    intro q hq
    have hs := step_inv hq op (hops op (by simp))
    have := ih (fun op hop => hops op (by simp [hop])) _ hs.1
    exact ⟨this.1, this.2.trans hs.2⟩

/-- C02: the constructor raises ValueError exactly for a non-positive number of candidates or too few names. -/
theorem C02_mkProfile_ok_iff (n : ℤ) (names : Option (List Name)) :
    (∃ p, mkProfile n names = .ok p) ↔ 0 < n ∧ (names.getD [] ≠ [] → n ≤ ((names.getD []).length : ℤ)) := by
  unfold mkProfile
  split
  · rename_i h
    simp only [reduceCtorEq, exists_false, false_iff, not_and]
    omega
  · rename_i h
    dsimp only
    split
    · rename_i he
      simp [he]; omega
    · rename_i l hne
      split
      · simp only [reduceCtorEq, exists_false, false_iff, not_and]
        intro _ h3
        have := h3 (by assumption)
        omega
      · refine ⟨fun _ => ⟨by omega, fun _ => by omega⟩, fun _ => ⟨_, rfl⟩⟩

/-- A non-trivial history meeting the hypotheses (with failing operations inside). -/
example : ∃ p, mkProfile 3 none = .ok p ∧
    (p.run [.addVoters [⟨[0, 1], 2⟩, ⟨[5], 1⟩, ⟨[2], 1⟩], .addVoter ⟨[1, 1], 1⟩, .setItem (-1) ⟨[2], 3⟩,
      .addVoter ⟨[1, 0], 1/2⟩, .convertToUnitWeights, .convertToWeighted id, .copy]).voters
      = [⟨[2], 3⟩, ⟨[0, 1], 1/2⟩] := ⟨_, rfl, by decide +kernel⟩

/-! ## C03 -/

theorem electorate_append (vs ws : List Voter) (A : Finset ℕ) :
    electorate (vs ++ ws) A = electorate vs A + electorate ws A := by
  simp [electorate]

theorem electorate_cons (v : Voter) (ws : List Voter) (A : Finset ℕ) :
    electorate (v :: ws) A = (if v.A = A then v.weight else 0) + electorate ws A := by
  by_cases h : v.A = A <;> simp [electorate, h]

theorem electorate_replicate (n : ℕ) (v : Voter) (A : Finset ℕ) :
    electorate (List.replicate n v) A = if v.A = A then n * v.weight else 0 := by
  induction n with
  | zero => simp [electorate]
  | succ n ih =>
    rw [List.replicate_succ, electorate_cons, ih]
    split
    · push_cast; ring
    · simp

theorem unitVoters_ok_iff (vs : List Voter) : (∃ out, unitVoters vs = .ok out) ↔ ∀ v ∈ vs, v.weight.den = 1 := by
  induction vs with
  | nil => simp [unitVoters]
  | cons v vs ih =>
    unfold unitVoters
    split
    · rename_i h
      simp [h]
    · rename_i h
      cases hr : unitVoters vs with
      | error e =>
        rw [hr] at ih
        simp only [reduceCtorEq, exists_false, false_iff] at ih
        simp only [bind, Except.bind, reduceCtorEq, exists_false, List.mem_cons, forall_eq_or_imp, false_iff, not_and]
        exact fun _ => ih
      | ok rest =>
        rw [hr] at ih
        have : ∀ v ∈ vs, v.weight.den = 1 := ih.1 ⟨rest, rfl⟩
        simp only [bind, Except.bind, Except.ok.injEq, exists_eq', List.mem_cons, forall_eq_or_imp, true_iff]
        exact ⟨by simpa using h, this⟩

theorem unitVoters_electorate {vs out : List Voter} (hpos : ∀ v ∈ vs, 0 < v.weight) (h : unitVoters vs = .ok out)
    (A : Finset ℕ) : electorate out A = electorate vs A := by
  induction vs generalizing out with
  | nil =>
    obtain rfl := (Except.ok.inj h).symm
    rfl
  | cons w vs ih =>
    unfold unitVoters at h
    split at h
    · simp at h
    · rename_i hden
      cases hr : unitVoters vs with
      | error e => simp [hr, bind, Except.bind] at h
      | ok rest =>
        simp only [hr, bind, Except.bind, Except.ok.injEq] at h
        subst h
        rw [electorate_append, electorate_replicate, electorate_cons, ih (fun v hv => hpos v (by simp [hv])) hr]
        congr 1
        have hAw : ({ approved := w.approved, weight := 1 } : Voter).A = w.A := rfl
        rw [hAw]
        simp only [mul_one]
        have hw : ((w.weight.num.toNat : ℕ) : ℚ) = w.weight := by
          have h0 : 0 < w.weight := hpos w (by simp)
          have h1 : 0 < w.weight.num := Rat.num_pos.2 h0
          have h2 : ((w.weight.num.toNat : ℕ) : ℤ) = w.weight.num := by omega
          have h3 : w.weight = (w.weight.num : ℚ) := by
            have hd : w.weight.den = 1 := by simpa using hden
            conv_lhs => rw [← Rat.num_div_den w.weight, hd]
            simp
          rw [h3]
          exact_mod_cast h2
        rw [hw]

/-- C03: with integer weights, `convert_to_unit_weights` succeeds, all weights become 1 and the weight of every approval set
is preserved. -/
theorem C03_convert_to_unit_weights (p : Profile) (hp : p.WF) (hint : ∀ v ∈ p.voters, v.weight.den = 1) :
    (p.convertToUnitWeights).2 = none ∧
    (∀ v ∈ (p.convertToUnitWeights).1.voters, v.weight = 1) ∧
    (∀ A, electorate (p.convertToUnitWeights).1.voters A = electorate p.voters A) ∧
    (p.convertToUnitWeights).1.numCand = p.numCand ∧ (p.convertToUnitWeights).1.candNames = p.candNames := by
  obtain ⟨out, h⟩ := (unitVoters_ok_iff p.voters).2 hint
  unfold Profile.convertToUnitWeights
  rw [h]
  exact ⟨rfl, fun v hv => (unitVoters_mem h v hv).1, fun A => unitVoters_electorate hp.weight h A, rfl, rfl⟩

/-- C03: with a non-integer weight it raises TypeError and changes nothing. -/
theorem C03_convert_to_unit_weights_error (p : Profile) (v : Voter) (hv : v ∈ p.voters) (hnint : v.weight.den ≠ 1) :
    p.convertToUnitWeights = (p, some .typeError) := by
  have herr : ∀ vs : List Voter, v ∈ vs → unitVoters vs = .error .typeError := by
    intro vs
    induction vs with
    | nil => simp
    | cons w vs ih =>
      intro hmem
      unfold unitVoters
      by_cases hw : w.weight.den = 1
      · have hmem' : v ∈ vs := by
          simp only [List.mem_cons] at hmem
          rcases hmem with rfl | hmem
          · exact absurd hw hnint
          · exact hmem
        simp only [ne_eq, hw, not_true_eq_false, if_false]
        rw [ih hmem']
        rfl
      · simp [hw]
  unfold Profile.convertToUnitWeights
  rw [herr p.voters hv]

example : ((⟨3, [⟨[0, 1], 2⟩, ⟨[2], 1⟩], []⟩ : Profile).convertToUnitWeights).1.voters
    = [⟨[0, 1], 1⟩, ⟨[0, 1], 1⟩, ⟨[2], 1⟩] := by decide +kernel

/-! ## C04 -/

theorem sortNat_eq_iff_A {v w : List ℕ} (hv : v.Nodup) (hw : w.Nodup) :
    sortNat v = sortNat w ↔ v.toFinset = w.toFinset := by
  constructor
  · intro h
    rw [← sortNat_toFinset v, h, sortNat_toFinset]
  · intro h
    refine eq_of_lt_toFinset (sortNat_lt hv) (sortNat_lt hw) ?_
    rw [sortNat_toFinset, sortNat_toFinset, h]

/-- C04: for every hash order, `convert_to_weighted` gives pairwise different approval sets and preserves the weight of every
approval set. -/
theorem C04_convert_to_weighted (p : Profile) (hp : p.WF) (iter : List (List ℕ) → List (List ℕ))
    (hiter : ∀ l, (iter l).Perm l) :
    ((p.convertToWeighted iter).voters.map Voter.A).Nodup ∧
    (∀ A, electorate (p.convertToWeighted iter).voters A = electorate p.voters A) ∧
    (p.convertToWeighted iter).numCand = p.numCand ∧ (p.convertToWeighted iter).candNames = p.candNames := by
  set sets := iter ((p.voters.map (fun v => sortNat v.approved)).foldl setAdd []) with hsets
  have hmem : ∀ a, a ∈ sets ↔ ∃ v ∈ p.voters, sortNat v.approved = a := by
    intro a
    rw [hsets, (hiter _).mem_iff, mem_foldl_setAdd]
    simp
  have hnd : sets.Nodup := by
    rw [hsets, (hiter _).nodup_iff]
    exact foldl_setAdd_nodup List.nodup_nil
  have hasc : ∀ a ∈ sets, a.Pairwise (· < ·) := by
    intro a ha
    obtain ⟨v, hv, rfl⟩ := (hmem a).1 ha
    exact sortNat_lt (hp.nodup v hv)
  have hvot : (p.convertToWeighted iter).voters = sets.map (fun a => ⟨a, weightOfApprovalSet p.voters a⟩) := rfl
  refine ⟨?_, ?_, rfl, rfl⟩
  · rw [hvot, List.map_map]
    refine List.Nodup.map_on ?_ hnd
    intro a ha b hb hab
    exact eq_of_lt_toFinset (hasc a ha) (hasc b hb) hab
  · intro A
    rw [hvot]
    -- at most one set of `sets` is `A`
    have hsum : ∀ l : List (List ℕ), l.Nodup → (∀ a ∈ l, a.Pairwise (· < ·)) →
        electorate (l.map (fun a => (⟨a, weightOfApprovalSet p.voters a⟩ : Voter))) A
          = if sortNat A.toList ∈ l then weightOfApprovalSet p.voters (sortNat A.toList) else 0 := by
      intro l
      induction l with
      | nil => intro _ _; simp [electorate]
      | cons a l ih =>
        intro hn ha
        rw [List.nodup_cons] at hn
        rw [List.map_cons, electorate_cons, ih hn.2 (fun b hb => ha b (by simp [hb]))]
        have hA : (sortNat A.toList).Pairwise (· < ·) := sortNat_lt A.nodup_toList
        have hAf : (sortNat A.toList).toFinset = A := by simp [sortNat_toFinset]
        by_cases h : (⟨a, weightOfApprovalSet p.voters a⟩ : Voter).A = A
        · have : a = sortNat A.toList := eq_of_lt_toFinset (ha a (by simp)) hA (by rw [hAf]; exact h)
          rw [if_pos h, ← this, if_neg hn.1, if_pos (by simp), add_zero]
        · have hne : sortNat A.toList ≠ a := fun he => h (by rw [← he]; exact hAf)
          simp [h, hne]
    rw [hsum sets hnd hasc, weightOfApprovalSet_eq]
    have hf : ∀ v ∈ p.voters, (sortNat v.approved = sortNat A.toList ↔ v.A = A) := by
      intro v hv
      rw [sortNat_eq_iff_A (hp.nodup v hv) A.nodup_toList]
      simp [Voter.A]
    have hfilter : p.voters.filter (fun v => decide (sortNat v.approved = sortNat A.toList))
        = p.voters.filter (fun v => decide (v.A = A)) := by
      refine List.filter_congr ?_
      intro v hv
      simp only [hf v hv]
    rw [hfilter]
    split
    · rfl
    · rename_i hno
      have : p.voters.filter (fun v => decide (v.A = A)) = [] := by
        rw [List.filter_eq_nil_iff]
        intro v hv hv'
        simp only [decide_eq_true_eq] at hv'
        exact hno ((hmem _).2 ⟨v, hv, (hf v hv).2 hv'⟩)
      simp [electorate, this]

example : ((⟨3, [⟨[0, 1], 2⟩, ⟨[2], 1⟩, ⟨[1, 0], 1/2⟩], []⟩ : Profile).convertToWeighted List.reverse).voters
    = [⟨[2], 1⟩, ⟨[0, 1], 5/2⟩] := by decide +kernel

/-! ## C05 -/

theorem mkVoter_toRaw {v : Voter} {n : ℕ} (h1 : v.approved.Nodup) (h2 : ∀ c ∈ v.approved, c < n) (h3 : 0 < v.weight) :
    mkVoter v.toRaw.approved v.toRaw.weight (some n) = .ok ⟨sortNat v.approved, v.weight⟩ := by
  obtain ⟨s, hs⟩ := (C01_candidateSet_ok_iff (v.approved.map Int.ofNat) (some (n : ℤ))).2 (by
    refine ⟨h1.map Int.ofNat_injective, ?_, ?_⟩
    · intro c hc
      simp only [List.mem_map] at hc
      obtain ⟨x, _, rfl⟩ := hc
      exact Int.natCast_nonneg x
    · intro m hm c hc
      obtain rfl := Option.some.inj hm
      simp only [List.mem_map] at hc
      obtain ⟨x, hx, rfl⟩ := hc
      have := h2 x hx
      show (x : ℤ) < n
      omega)
  have he := candidateSet_result hs
  rw [List.map_map] at he
  have hid : v.approved.map (Int.toNat ∘ Int.ofNat) = v.approved := by
    conv_rhs => rw [← List.map_id v.approved]
    rfl
  rw [hid] at he
  unfold mkVoter Voter.toRaw
  simp only
  rw [hs]
  simp only [bind, Except.bind]
  rw [if_neg (by linarith), he]

theorem addVoters_toRaw (q : Profile) (vs : List Voter) (h : ∀ v ∈ vs, v.approved.Nodup ∧ (∀ c ∈ v.approved, c < q.numCand) ∧ 0 < v.weight) :
    q.addVoters (vs.map Voter.toRaw) =
      ({ q with voters := q.voters ++ vs.map (fun v => ⟨sortNat v.approved, v.weight⟩) }, none) := by
  induction vs generalizing q with
  | nil => simp [Profile.addVoters]
  | cons v vs ih =>
    have hv := h v (by simp)
    have : q.addVoter v.toRaw = ({ q with voters := q.voters ++ [⟨sortNat v.approved, v.weight⟩] }, none) := by
      unfold Profile.addVoter Profile.uniqueVoter
      rw [mkVoter_toRaw hv.1 hv.2.1 hv.2.2]
    rw [List.map_cons, Profile.addVoters, this]
    simp only
    rw [ih]
    · simp
    · intro w hw
      exact h w (by simp [hw])

/-- C05: `copy()` never fails and has the same number of candidates and the same voters, in the same
order, with the same approval sets and weights.  (Candidate names are not copied: `C05_copy_names`, `C05_copy_drops_names`.) -/
theorem C05_copy_voters (p : Profile) (hp : p.WF) :
    ∃ q, p.copy = .ok q ∧ q.numCand = p.numCand ∧ q.voters.map Voter.A = p.voters.map Voter.A ∧
      q.voters.map Voter.weight = p.voters.map Voter.weight ∧ q.WF := by
  have hm : mkProfile (p.numCand : ℤ) none = .ok ⟨p.numCand, [], (List.range p.numCand).map strNat⟩ := by
    unfold mkProfile
    have := hp.pos
    rw [if_neg (by omega)]
    simp
  have hc : p.copy = .ok ⟨p.numCand, p.voters.map (fun v => ⟨sortNat v.approved, v.weight⟩),
      (List.range p.numCand).map strNat⟩ := by
    unfold Profile.copy
    rw [hm]
    simp only [bind, Except.bind]
    rw [addVoters_toRaw ⟨p.numCand, [], _⟩ _ (fun v hv => ⟨hp.nodup v hv, hp.lt v hv, hp.weight v hv⟩)]
    rfl
  refine ⟨_, hc, rfl, ?_, ?_, (copy_inv hc).1⟩
  · simp only [List.map_map]
    refine List.map_congr_left ?_
    intro v _
    simp [Voter.A, sortNat_toFinset]
  · simp only [List.map_map]
    rfl

/-- C05: candidate names are *not* copied (finding: `Profile.copy` loses `cand_names`). -/
theorem C05_copy_drops_names :
    ∃ p q, mkProfile 2 (some ["a".toList, "b".toList]) = .ok p ∧ p.copy = .ok q ∧ q.candNames ≠ p.candNames :=
  ⟨_, _, rfl, rfl, by decide +kernel⟩

/-- C05: the names of a copy are always the default names `"0", "1", …`. -/
theorem C05_copy_names (p q : Profile) (h : p.copy = .ok q) : q.candNames = (List.range p.numCand).map strNat := by
  unfold Profile.copy at h
  cases hm : mkProfile p.numCand none with
  | error e => simp [hm, bind, Except.bind] at h
  | ok r =>
    have hr : r.candNames = (List.range p.numCand).map strNat := by
      unfold mkProfile at hm
      split at hm
      · simp at hm
      · simp only [Option.getD_none, Except.ok.injEq] at hm
        rw [← hm]; simp
    simp only [hm, bind, Except.bind] at h
    have hadd : ∀ (vs : List RawVoter) (r : Profile), (r.addVoters vs).1.candNames = r.candNames := by
      intro vs
      induction vs with
      | nil => intro r; rfl
      | cons v vs ih =>
        intro r
        have h1 : (r.addVoter v).1.candNames = r.candNames := by
          unfold Profile.addVoter; split <;> rfl
        unfold Profile.addVoters
        split
        · rename_i p' he
          rw [he] at h1
          rw [ih, h1]
        · rename_i p' e he
          rw [he] at h1
          exact h1
    have := hadd (p.voters.map Voter.toRaw) r
    split at h
    · rename_i q' he
      rw [he] at this
      obtain rfl := Except.ok.inj h
      exact this.trans hr
    · simp at h

/-! ## C06 -/

/-- C06: `is_party_list()` is True iff any two voters have disjoint or equal approval sets. -/
theorem C06_isPartyList_iff (p : Profile) (hp : p.WF) :
    p.isPartyList = true ↔ ∀ v ∈ p.voters, ∀ w ∈ p.voters, Disjoint v.A w.A ∨ v.A = w.A := by
  have hkey : ∀ v ∈ p.voters, ∀ w ∈ p.voters,
      ((inter v.approved w.approved).length = 0 ∨ (inter v.approved w.approved).length = v.approved.length) ↔
        (Disjoint v.A w.A ∨ v.A ⊆ w.A) := by
    intro v hv w hw
    rw [inter_length (hp.nodup v hv), ← List.toFinset_card_of_nodup (hp.nodup v hv)]
    change (v.A ∩ w.A).card = 0 ∨ (v.A ∩ w.A).card = v.A.card ↔ _
    rw [Finset.card_eq_zero, ← Finset.disjoint_iff_inter_eq_empty]
    refine or_congr Iff.rfl ?_
    constructor
    · intro h
      have := Finset.eq_of_subset_of_card_le (Finset.inter_subset_left (s₁ := v.A) (s₂ := w.A)) (le_of_eq h.symm)
      exact Finset.inter_eq_left.1 this
    · intro h
      rw [Finset.inter_eq_left.2 h]
  unfold Profile.isPartyList
  simp only [List.all_eq_true, decide_eq_true_eq]
  constructor
  · intro h v hv w hw
    have h1 := (hkey v hv w hw).1 (h v hv w hw)
    have h2 := (hkey w hw v hv).1 (h w hw v hv)
    rcases h1 with h1 | h1
    · exact Or.inl h1
    · rcases h2 with h2 | h2
      · exact Or.inl h2.symm
      · exact Or.inr (Finset.Subset.antisymm h1 h2)
  · intro h v hv w hw
    refine (hkey v hv w hw).2 ?_
    rcases h v hv w hw with h | h
    · exact Or.inl h
    · exact Or.inr (h ▸ Finset.Subset.refl _)

example : (⟨4, [⟨[0, 1], 1⟩, ⟨[2], 1⟩, ⟨[1, 0], 1⟩], []⟩ : Profile).isPartyList = true := by decide +kernel
example : (⟨4, [⟨[0, 1], 1⟩, ⟨[1, 2], 1⟩], []⟩ : Profile).isPartyList = false := by decide +kernel

/-! ## C66: the effect of the editing operations -/

theorem uniqueVoter_cases (p : Profile) (v : RawVoter) :
    (Spec.LegalVoter p.numCand v ∧ ∃ w, p.uniqueVoter v = .ok w ∧ Spec.Stores v w) ∨
    (¬ Spec.LegalVoter p.numCand v ∧ p.uniqueVoter v = .error .valueError) := by
  unfold Profile.uniqueVoter mkVoter Spec.LegalVoter
  cases hc : candidateSet v.approved (some (p.numCand : ℤ)) with
  | error e =>
    refine Or.inr ⟨?_, ?_⟩
    · rintro ⟨h1, h2, -⟩
      obtain ⟨s, hs⟩ := (C01_candidateSet_ok_iff v.approved (some (p.numCand : ℤ))).2
        ⟨h1, fun c hc => (h2 c hc).1, fun n hn c hc => by obtain rfl := Option.some.inj hn; exact (h2 c hc).2⟩
      rw [hc] at hs
      exact absurd hs (by simp)
    · simp [bind, Except.bind, C01_candidateSet_error hc]
  | ok s =>
    obtain ⟨h1, h2, h3⟩ := (C01_candidateSet_ok_iff v.approved (some (p.numCand : ℤ))).1 ⟨s, hc⟩
    obtain ⟨g1, -, g3⟩ := C01_candidateSet_elements hc
    by_cases hw : v.weight ≤ 0
    · refine Or.inr ⟨fun h => absurd h.2.2 (not_lt.2 hw), ?_⟩
      simp [bind, Except.bind, hw]
    · refine Or.inl ⟨⟨h1, fun c hc => ⟨h2 c hc, h3 _ rfl c hc⟩, lt_of_not_ge hw⟩, ⟨s, v.weight⟩, ?_, rfl, g1, g3⟩
      simp [bind, Except.bind, hw]

/-- C66, `add_voter`: a legal voter is appended, anything else raises ValueError and leaves the profile as it was. -/
theorem C66_addVoter (p : Profile) (v : RawVoter) :
    (Spec.LegalVoter p.numCand v → ∃ w, Spec.Stores v w ∧ p.addVoter v = ({ p with voters := p.voters ++ [w] }, none)) ∧
    (¬ Spec.LegalVoter p.numCand v → p.addVoter v = (p, some .valueError)) := by
  unfold Profile.addVoter
  rcases uniqueVoter_cases p v with ⟨h, w, hw, hs⟩ | ⟨h, he⟩
  · rw [hw]
    exact ⟨fun _ => ⟨w, hs, rfl⟩, fun h' => absurd h h'⟩
  · rw [he]
    exact ⟨fun h' => absurd h' h, fun _ => rfl⟩

/-- C66, `add_voters`: the voters before the first illegal one are appended in order; ValueError iff some voter is illegal. -/
theorem C66_addVoters (p : Profile) (vs : List RawVoter) :
    ∃ good bad ws, vs = good ++ bad ∧ (∀ v ∈ good, Spec.LegalVoter p.numCand v) ∧
      List.Forall₂ Spec.Stores good ws ∧ (p.addVoters vs).1 = { p with voters := p.voters ++ ws } ∧
      ((bad = [] ∧ (p.addVoters vs).2 = none) ∨
        ∃ v rest, bad = v :: rest ∧ ¬ Spec.LegalVoter p.numCand v ∧ (p.addVoters vs).2 = some .valueError) := by
  induction vs generalizing p with
  | nil => exact ⟨[], [], [], rfl, by simp, .nil, by simp [Profile.addVoters], Or.inl ⟨rfl, rfl⟩⟩
  | cons v vs ih =>
    by_cases h : Spec.LegalVoter p.numCand v
    · obtain ⟨w, hs, he⟩ := (C66_addVoter p v).1 h
      obtain ⟨good, bad, ws, h1, h2, h3, h4, h5⟩ := ih { p with voters := p.voters ++ [w] }
      refine ⟨v :: good, bad, w :: ws, by simp [h1], ?_, .cons hs h3, ?_, ?_⟩
      · intro x hx
        rcases List.mem_cons.1 hx with rfl | hx
        · exact h
        · exact h2 x hx
      · unfold Profile.addVoters
        rw [he]
        simp only [h4, List.append_assoc, List.singleton_append]
      · unfold Profile.addVoters
        rw [he]
        exact h5
    · have he := (C66_addVoter p v).2 h
      refine ⟨[], v :: vs, [], rfl, by simp, .nil, ?_, Or.inr ⟨v, vs, rfl, h, ?_⟩⟩ <;>
      · unfold Profile.addVoters
        simp [he]

/-- C66, `profile[i] = voter`: a legal voter replaces the one at position `i` (counted from the end if negative); an index out
of range raises IndexError, an illegal voter ValueError, and both leave the profile as it was. -/
theorem C66_setItem (p : Profile) (i : ℤ) (v : RawVoter) :
    (Spec.LegalVoter p.numCand v → ∀ j : Fin p.voters.length, (i = j ∨ i = (j : ℤ) - p.voters.length) →
      ∃ w, Spec.Stores v w ∧ p.setItem i v = ({ p with voters := p.voters.set j w }, none)) ∧
    (Spec.LegalVoter p.numCand v → (i < -p.voters.length ∨ (p.voters.length : ℤ) ≤ i) →
      p.setItem i v = (p, some .indexError)) ∧
    (¬ Spec.LegalVoter p.numCand v → p.setItem i v = (p, some .valueError)) := by
  unfold Profile.setItem
  rcases uniqueVoter_cases p v with ⟨h, w, hw, hs⟩ | ⟨h, he⟩
  · rw [hw]
    refine ⟨?_, ?_, fun h' => absurd h h'⟩
    · intro _ j hj
      have hlt := j.2
      refine ⟨w, hs, ?_⟩
      have hidx : (if i < 0 then i + p.voters.length else i) = (j : ℤ) := by
        split <;> rcases hj with rfl | rfl <;> omega
      simp only [hidx]
      rw [if_neg (by omega)]
      simp
    · intro _ hi
      have : (if i < 0 then i + p.voters.length else i) < 0 ∨
          (if i < 0 then i + p.voters.length else i) ≥ p.voters.length := by
        split <;> rcases hi with h | h <;> omega
      simp only
      rw [if_pos this]
  · rw [he]
    exact ⟨fun h' => absurd h' h, fun h' => absurd h' h, fun _ => rfl⟩

/-- non-vacuity -/
example : Spec.LegalVoter 3 ⟨[2, 0], 3 / 2⟩ ∧ ¬ Spec.LegalVoter 3 ⟨[2, 2], 1⟩ ∧ ¬ Spec.LegalVoter 3 ⟨[3], 1⟩ ∧
    ¬ Spec.LegalVoter 3 ⟨[1], 0⟩ := by
  unfold Spec.LegalVoter
  decide +kernel

end Abc
