import Verif.Lemmas.Heap
import Verif.Lemmas.Groups

/-!
# C95: profiles are independent objects
-/

namespace Abc
open Spec

/-! ## Separation -/

/-- C95: no `Voter` object is stored twice, in the same or in different profiles, and no two `Voter` objects share their approval set
object, in any history of any program. -/
theorem C95_separated (h : Heap) (hr : ReachableHeap h) :
    (∀ (P Q i j r : ℕ) (o o' : ProfileObj), h.profiles[P]? = some o → h.profiles[Q]? = some o' → o.refs[i]? = some r → o'.refs[j]? = some r →
      P = Q ∧ i = j) ∧
    ∀ (r r' : ℕ) (v v' : VoterObj), h.voters[r]? = some v → h.voters[r']? = some v' → v.approved = v'.approved → r = r' := by
  have hi := hr.inv
  refine ⟨?_, hi.sets.inj⟩
  intro P Q i j r o o' ho ho' hri hrj
  obtain rfl := hi.apart P Q o o' r ho ho' (List.mem_of_getElem? hri) (List.mem_of_getElem? hrj)
  rw [ho] at ho'
  obtain rfl := Option.some.inj ho'
  refine ⟨rfl, ?_⟩
  obtain ⟨h1, h2⟩ := List.getElem?_eq_some_iff.1 hri
  obtain ⟨h3, h4⟩ := List.getElem?_eq_some_iff.1 hrj
  exact (hi.nodup P o ho).getElem_inj_iff.1 (h2.trans h4.symm)

/-- C95: an operation touches at most one profile. -/
theorem C95_exclusive (h : Heap) (hr : ReachableHeap h) (op : HeapOp) (P Q : ℕ) (hP : Touches h P op) (hQ : Touches h Q op) : P = Q := by
  have hi := hr.inv
  have hv : ∀ {r}, VoterOf h P r → VoterOf h Q r → P = Q := by
    rintro r ⟨o, ho, h1⟩ ⟨o', ho', h2⟩
    exact hi.apart P Q o o' r ho ho' h1 h2
  have hs : ∀ {s}, SetOf h P s → SetOf h Q s → P = Q := by
    rintro s ⟨r, v, h1, h2, h3⟩ ⟨r', v', h1', h2', h3'⟩
    obtain rfl := hi.sets.inj r r' v v' h2 h2' (h3.trans h3'.symm)
    exact hv h1 h1'
  cases op <;> simp only [Touches] at hP hQ
  all_goals first
    | exact hP.symm ▸ hQ
    | exact hP ▸ hQ
    | exact hv hP hQ
    | exact hs hP hQ

theorem view_of_local {h h' : Heap} (hi : HeapInv h) {P Q : ℕ} (l : Local P h h') (hQ : Q ≠ P) (hlt : Q < h.profiles.length) :
    h'.view Q = h.view Q := by
  unfold Heap.view
  rw [l.others Q hQ hlt]
  cases ho : h.profiles[Q]? with
  | none => rfl
  | some o =>
    simp only [Option.map_some]
    rw [List.map_congr_left (fun r hr => l.voterAt r (hi.bound Q o ho r hr))]

theorem voterAt_eq {h : Heap} {r : ℕ} {v : VoterObj} (hv : h.voters[r]? = some v) : h.voterAt r = ⟨h.setAt v.approved, v.weight⟩ := by
  simp [Heap.voterAt, List.getD, hv]

theorem view_congr {h h' : Heap} (hi : HeapInv h) (hp : h'.profiles = h.profiles) (Q : ℕ)
    (hv : ∀ r v, VoterOf h Q r → h.voters[r]? = some v → h'.voterAt r = ⟨h.setAt v.approved, v.weight⟩) : h'.view Q = h.view Q := by
  unfold Heap.view
  rw [hp]
  cases ho : h.profiles[Q]? with
  | none => rfl
  | some o =>
    simp only [Option.map_some]
    rw [List.map_congr_left (fun r hr => ?_)]
    have hlt := hi.bound Q o ho r hr
    have hg := List.getElem?_eq_getElem hlt
    rw [hv r _ ⟨o, ho, hr⟩ hg, voterAt_eq hg]

theorem frame_of_inv {h : Heap} (hi : HeapInv h) (op : HeapOp) (P : ℕ) (hlt : P < h.profiles.length) (ht : ¬ Touches h P op) :
    (h.step op).1.view P = h.view P := by
  cases op with
  | newVoter l w n =>
    have g := newVoter_grows h l w n
    unfold Heap.step
    rcases hn : h.newVoter l w n with ⟨h', e | r⟩ <;>
    · rw [hn] at g
      simp only [hn]
      exact view_of_local hi (g.local hi (P + 1)) (by omega) hlt
  | newProfile n names => exact view_of_local hi (newProfile_local hi n names) (by omega) hlt
  | addVoter Q a => exact view_of_local hi (addVoter_local hi Q a) (fun h => ht h.symm) hlt
  | addVoters Q as => exact view_of_local hi (addVoters_local hi Q as) (fun h => ht h.symm) hlt
  | addFrom Q Q' fuel => exact view_of_local hi (addFrom_local hi Q Q' fuel 0) (fun h => ht h.symm) hlt
  | setItem Q i a => exact view_of_local hi (setItem_local hi Q i a) (fun h => ht h.symm) hlt
  | convertToUnitWeights Q => exact view_of_local hi (unit_local hi Q) (fun h => ht h.symm) hlt
  | convertToWeighted Q iter => exact view_of_local hi (weighted_local hi Q iter) (fun h => ht h.symm) hlt
  | copy Q => exact view_of_local hi (copy_local hi Q) (by omega) hlt
  | setWeight r q =>
    refine view_congr (h' := ((h.step (.setWeight r q)).1)) hi (by rfl) P (fun x v hx hv => ?_)
    have hne : r ≠ x := fun h => ht (h ▸ hx)
    rw [voterAt_eq (v := v)]
    · rfl
    · simp [Heap.step, hne, hv]
  | setApproved r l =>
    cases hc : candidateSet l none with
    | error e =>
      have : h.step (.setApproved r l) = (h, some e) := by simp only [Heap.step, hc]
      rw [this]
    | ok s =>
      have : h.step (.setApproved r l) =
          ({ h with sets := h.sets ++ [s], voters := h.voters.modify r (fun o => { o with approved := h.sets.length }) }, none) := by
        simp only [Heap.step, hc]
      rw [this]
      refine view_congr (h' := ⟨h.sets ++ [s], h.voters.modify r (fun o => { o with approved := h.sets.length }), h.profiles⟩) hi rfl P
        (fun x v hx hv => ?_)
      have hne : r ≠ x := fun h => ht (h ▸ hx)
      have hb := hi.sets.bound x v hv
      rw [voterAt_eq (v := v)]
      · simp only [Heap.setAt]
        rw [getD_append_left _ _ _ hb]
      · simp [hne, hv]
  | add s c =>
    refine view_congr (h' := ((h.step (.add s c)).1)) hi (by rfl) P (fun x v hx hv => ?_)
    have hne : s ≠ v.approved := fun h => ht ⟨x, v, hx, hv, h.symm⟩
    rw [voterAt_eq (v := v)]
    · simp [Heap.step, Heap.setAt, List.getD, hne]
    · exact hv
  | discard s c =>
    refine view_congr (h' := ((h.step (.discard s c)).1)) hi (by rfl) P (fun x v hx hv => ?_)
    have hne : s ≠ v.approved := fun h => ht ⟨x, v, hx, hv, h.symm⟩
    rw [voterAt_eq (v := v)]
    · simp [Heap.step, Heap.setAt, List.getD, hne]
    · exact hv

/-- C95: an operation that does not touch a profile leaves it as it was. -/
theorem C95_frame (h : Heap) (hr : ReachableHeap h) (op : HeapOp) (P : ℕ) (hP : P < h.profiles.length) (ht : ¬ Touches h P op) :
    (h.step op).1.view P = h.view P := frame_of_inv hr.inv op P hP ht

theorem profiles_le_step {h : Heap} (hi : HeapInv h) (op : HeapOp) : h.profiles.length ≤ (h.step op).1.profiles.length := by
  cases op with
  | newVoter l w n =>
    have g := newVoter_grows h l w n
    unfold Heap.step
    rcases hn : h.newVoter l w n with ⟨h', e | r⟩ <;>
    · rw [hn] at g
      simp only [hn]
      rw [g.profiles]
  | newProfile n names => exact (newProfile_local hi n names).profilesLe
  | addVoter Q a => exact (addVoter_local hi Q a).profilesLe
  | addVoters Q as => exact (addVoters_local hi Q as).profilesLe
  | addFrom Q Q' fuel => exact (addFrom_local hi Q Q' fuel 0).profilesLe
  | setItem Q i a => exact (setItem_local hi Q i a).profilesLe
  | convertToUnitWeights Q => exact (unit_local hi Q).profilesLe
  | convertToWeighted Q iter => exact (weighted_local hi Q iter).profilesLe
  | copy Q => exact (copy_local hi Q).profilesLe
  | setWeight r q => exact le_rfl
  | setApproved r l =>
    cases hc : candidateSet l none <;> simp [Heap.step, hc]
  | add s c => exact le_rfl
  | discard s c => exact le_rfl

/-- C95: whatever a program does, as long as it does not touch profile `P`, `P` stays as it is. -/
theorem C95_history (h : Heap) (hr : ReachableHeap h) (P : ℕ) (hP : P < h.profiles.length) (ops : List HeapOp) (hu : Untouched P h ops) :
    (h.run ops).view P = h.view P := by
  have hi := hr.inv
  clear hr
  induction ops generalizing h with
  | nil => rfl
  | cons op ops ih =>
    have h1 := ih (h.step op).1 (lt_of_lt_of_le hP (profiles_le_step hi op)) hu.2 (step_heapInv hi op)
    exact h1.trans (frame_of_inv hi op P hP hu.1)

/-- C95: creating objects and calling methods of profiles modifies no existing `Voter` object: the voters passed as arguments, the
voters of other profiles and those that were replaced stay as they were. -/
theorem C95_arguments (h : Heap) (hr : ReachableHeap h) (op : HeapOp) (hop : NotInPlace op) (r : ℕ) (hlt : r < h.voters.length) :
    (h.step op).1.voterAt r = h.voterAt r := by
  have hi := hr.inv
  cases op with
  | newVoter l w n =>
    have g := newVoter_grows h l w n
    unfold Heap.step
    rcases hn : h.newVoter l w n with ⟨h', e | r⟩ <;>
    · rw [hn] at g
      simp only [hn]
      exact g.voterAt hi.sets hlt
  | newProfile n names => exact (newProfile_local hi n names).voterAt r hlt
  | addVoter Q a => exact (addVoter_local hi Q a).voterAt r hlt
  | addVoters Q as => exact (addVoters_local hi Q as).voterAt r hlt
  | addFrom Q Q' fuel => exact (addFrom_local hi Q Q' fuel 0).voterAt r hlt
  | setItem Q i a => exact (setItem_local hi Q i a).voterAt r hlt
  | convertToUnitWeights Q => exact (unit_local hi Q).voterAt r hlt
  | convertToWeighted Q iter => exact (weighted_local hi Q iter).voterAt r hlt
  | copy Q => exact (copy_local hi Q).voterAt r hlt
  | setWeight r q => exact hop.elim
  | setApproved r l => exact hop.elim
  | add s c => exact hop.elim
  | discard s c => exact hop.elim

/-! ## Refinement: what one sees of a profile changes as in the model without object identity -/

theorem view_some {h : Heap} {P : ℕ} {p : Profile} :
    h.view P = some p ↔ ∃ o, h.profiles[P]? = some o ∧ p = ⟨o.numCand, o.refs.map h.voterAt, o.candNames⟩ := by
  unfold Heap.view
  rw [Option.map_eq_some_iff]
  exact exists_congr (fun o => and_congr_right (fun _ => eq_comm))

theorem setRefs_view {h h' : Heap} (g : Grows h h') {P : ℕ} {o : ProfileObj} (ho : h.profiles[P]? = some o) (rs : List ℕ) :
    (h'.setRefs P rs).view P = some ⟨o.numCand, rs.map h'.voterAt, o.candNames⟩ := by
  rw [view_some]
  refine ⟨{ o with refs := rs }, ?_, rfl⟩
  rw [setRefs_get, if_pos rfl, g.profiles, ho]
  rfl

theorem grows_view {h h' : Heap} (hi : HeapInv h) (g : Grows h h') {P : ℕ} {p : Profile} (hv : h.view P = some p) : h'.view P = some p := by
  obtain ⟨o, ho, -⟩ := view_some.1 hv
  have hlt : P < h.profiles.length := (List.getElem?_eq_some_iff.1 ho).1
  rw [← hv]
  exact view_of_local hi (g.local hi (P + 1)) (by omega) hlt

theorem addVoter_refines {h : Heap} (hi : HeapInv h) {P : ℕ} {p : Profile} (hv : h.view P = some p) (a : VoterArg) :
    (h.addVoter P a).1.view P = some (p.addVoter (h.rawOf a)).1 ∧ (h.addVoter P a).2 = (p.addVoter (h.rawOf a)).2 := by
  obtain ⟨o, ho, rfl⟩ := view_some.1 hv
  unfold Heap.addVoter Profile.addVoter Profile.uniqueVoter
  rw [ho]
  simp only
  unfold Heap.uniqueVoter
  have g := newVoter_grows h (h.rawOf a).approved (h.rawOf a).weight (some o.numCand)
  rcases hn : h.newVoter (h.rawOf a).approved (h.rawOf a).weight (some o.numCand) with ⟨h', e | r⟩
  · obtain ⟨rfl, h2⟩ := newVoter_error hn
    rw [h2]
    exact ⟨hv, rfl⟩
  · rw [hn] at g
    obtain ⟨-, -, h2⟩ := newVoter_ok hn
    rw [h2]
    refine ⟨?_, rfl⟩
    rw [setRefs_view g ho, List.map_append, List.map_congr_left (fun r hr => g.voterAt hi.sets (hi.bound P o ho r hr))]
    rfl

theorem rawOf_local {h h' : Heap} {P : ℕ} (l : Local P h h') {a : VoterArg} (ha : Exists h a) : h'.rawOf a = h.rawOf a := by
  cases a with
  | voter r => simp only [Heap.rawOf, l.voterAt r ha]
  | list l => rfl
  | set s => simp only [Heap.rawOf, l.setAt s ha]

theorem exists_local {h h' : Heap} {P : ℕ} (l : Local P h h') {a : VoterArg} (ha : Exists h a) : Exists h' a := by
  cases a with
  | voter r => exact lt_of_lt_of_le ha l.votersLe
  | list l => trivial
  | set s => exact lt_of_lt_of_le ha l.setsLe

theorem addVoters_refines {h : Heap} (hi : HeapInv h) {P : ℕ} {p : Profile} (hv : h.view P = some p) (as : List VoterArg)
    (ha : ∀ a ∈ as, Exists h a) :
    (h.addVoters P as).1.view P = some (p.addVoters (as.map h.rawOf)).1 ∧
      (h.addVoters P as).2 = (p.addVoters (as.map h.rawOf)).2 := by
  induction as generalizing h p with
  | nil => exact ⟨hv, rfl⟩
  | cons a as ih =>
    have hl := addVoter_local hi P a
    obtain ⟨h1, h2⟩ := addVoter_refines hi hv a
    unfold Heap.addVoters
    rw [List.map_cons]
    unfold Profile.addVoters
    rcases hn : h.addVoter P a with ⟨h', _ | e⟩
    · rw [hn] at h1 h2 hl
      rcases hm : p.addVoter (h.rawOf a) with ⟨p', _ | e'⟩
      · rw [hm] at h1
        have h3 := ih hl.inv h1 (fun x hx => exists_local hl (ha x (List.mem_cons_of_mem _ hx)))
        rw [List.map_congr_left (fun x hx => rawOf_local hl (ha x (List.mem_cons_of_mem _ hx)))] at h3
        exact h3
      · rw [hm] at h2; simp at h2
    · rw [hn] at h1 h2
      rcases hm : p.addVoter (h.rawOf a) with ⟨p', _ | e'⟩
      · rw [hm] at h2; simp at h2
      · rw [hm] at h1 h2
        exact ⟨h1, h2⟩

theorem refs_of_view {h : Heap} {P : ℕ} {o : ProfileObj} (ho : h.profiles[P]? = some o) :
    (h.profiles[P]?.map ProfileObj.refs).getD [] = o.refs := by
  rw [ho]; rfl

/-- Adding the voters of another profile is adding a list of voters. -/
theorem addFrom_eq {h : Heap} (hi : HeapInv h) {P Q : ℕ} (hPQ : P ≠ Q) {o : ProfileObj} (ho : h.profiles[Q]? = some o) (fuel i : ℕ)
    (hf : o.refs.length - i < fuel) :
    Heap.addFrom P Q fuel i h = h.addVoters P ((o.refs.drop i).map VoterArg.voter) := by
  induction fuel generalizing h i with
  | zero => omega
  | succ fuel ih =>
    unfold Heap.addFrom
    rw [refs_of_view ho]
    cases hd : o.refs.drop i with
    | nil => rfl
    | cons r rs =>
      simp only [List.map_cons]
      unfold Heap.addVoters
      have hl := addVoter_local hi P (.voter r)
      rcases hn : h.addVoter P (.voter r) with ⟨h', _ | e⟩
      · rw [hn] at hl
        simp only
        have hlt : i < o.refs.length := by
          by_contra hc
          rw [List.drop_of_length_le (by omega)] at hd
          simp at hd
        have hq := hl.others Q (Ne.symm hPQ) (List.getElem?_eq_some_iff.1 ho).1
        rw [ih hl.inv (hq.trans ho) (i + 1) (by omega)]
        have : o.refs.drop (i + 1) = rs := by
          rw [← List.tail_drop, hd]; rfl
        rw [this]
      · rfl

theorem setItem_refines {h : Heap} (hi : HeapInv h) {P : ℕ} {p : Profile} (hv : h.view P = some p) (i : ℤ) (a : VoterArg) :
    (h.setItem P i a).1.view P = some (p.setItem i (h.rawOf a)).1 ∧ (h.setItem P i a).2 = (p.setItem i (h.rawOf a)).2 := by
  obtain ⟨o, ho, rfl⟩ := view_some.1 hv
  unfold Heap.setItem Profile.setItem Profile.uniqueVoter
  rw [ho]
  simp only
  unfold Heap.uniqueVoter
  have g := newVoter_grows h (h.rawOf a).approved (h.rawOf a).weight (some o.numCand)
  rcases hn : h.newVoter (h.rawOf a).approved (h.rawOf a).weight (some o.numCand) with ⟨h', e | r⟩
  · obtain ⟨rfl, h2⟩ := newVoter_error hn
    rw [h2]
    exact ⟨hv, rfl⟩
  · rw [hn] at g
    obtain ⟨-, -, h2⟩ := newVoter_ok hn
    rw [h2]
    simp only [List.length_map]
    generalize (if i < 0 then i + (o.refs.length : ℤ) else i) = j
    split_ifs
    · exact ⟨grows_view hi g hv, rfl⟩
    · refine ⟨?_, rfl⟩
      simp only
      rw [setRefs_view g ho, List.map_set, List.map_congr_left (fun r hr => g.voterAt hi.sets (hi.bound P o ho r hr))]

theorem mkVoter_none {a : List ℕ} {w : ℚ} (ha : a.Pairwise (· < ·)) (hw : 0 < w) : mkVoter (a.map Int.ofNat) w none = .ok ⟨a, w⟩ := by
  have h1 : candidateSet (a.map Int.ofNat) none = .ok a := by
    obtain ⟨s, hs⟩ := (C01_candidateSet_ok_iff (a.map Int.ofNat) none).2
      ⟨List.Nodup.map (fun x y h => by simpa using h) (ha.imp Nat.ne_of_lt), by simp, by simp⟩
    obtain ⟨g1, g2, g3⟩ := C01_candidateSet_elements hs
    have : s = a := by
      refine List.Perm.eq_of_pairwise' (r := (· ≤ ·)) (g1.imp Nat.le_of_lt) (ha.imp Nat.le_of_lt) ?_
      refine (List.perm_ext_iff_of_nodup (g1.imp Nat.ne_of_lt) (ha.imp Nat.ne_of_lt)).2 (fun x => ?_)
      have := g3 (x : ℤ)
      simp only [List.mem_map] at this
      constructor
      · intro hx
        obtain ⟨y, hy, hxy⟩ := this.2 ⟨x, hx, rfl⟩
        have : y = x := by simpa using hxy
        rwa [← this]
      · intro hx
        obtain ⟨y, hy, hxy⟩ := this.1 ⟨x, hx, rfl⟩
        have : y = x := by simpa using hxy
        rwa [← this]
    rw [hs, this]
  unfold mkVoter
  rw [h1]
  simp [bind, Except.bind, hw]

theorem newVoters_refines (vs : List (List ℕ × ℚ)) {h : Heap} (hi : HeapInv h) (hvs : ∀ v ∈ vs, v.1.Pairwise (· < ·) ∧ 0 < v.2) :
    ∃ rs, (h.newVoters vs).2 = .ok rs ∧ rs.map (h.newVoters vs).1.voterAt = vs.map (fun v => ⟨v.1, v.2⟩) := by
  induction vs generalizing h with
  | nil => exact ⟨[], rfl, rfl⟩
  | cons v vs ih =>
    unfold Heap.newVoters
    have g := newVoter_grows h (v.1.map Int.ofNat) v.2 none
    have hmk := mkVoter_none (hvs v (by simp)).1 (hvs v (by simp)).2
    rcases hn : h.newVoter (v.1.map Int.ofNat) v.2 none with ⟨h', e | r⟩
    · rw [(newVoter_error hn).2] at hmk
      simp at hmk
    · rw [hn] at g
      obtain ⟨h1, h2, h3⟩ := newVoter_ok hn
      rw [hmk] at h3
      have hi' := hi.grows g
      obtain ⟨rs, h4, h5⟩ := ih hi' (fun x hx => hvs x (List.mem_cons_of_mem _ hx))
      have g' := newVoters_grows vs h'
      rcases hm : h'.newVoters vs with ⟨h'', e | rs'⟩
      · rw [hm] at h4; simp at h4
      · rw [hm] at h4 h5 g'
        obtain rfl := Except.ok.inj h4
        simp only [hm]
        refine ⟨r :: rs', rfl, ?_⟩
        simp only [List.map_cons]
        rw [h5, g'.voterAt hi'.sets (by omega)]
        rw [← Except.ok.inj h3]

theorem voterAt_sorted {h : Heap} (hi : HeapInv h) (r : ℕ) : (h.voterAt r).approved.Pairwise (· < ·) := by
  unfold Heap.voterAt Heap.setAt
  simp only [List.getD]
  cases hs : h.sets[(h.voters[r]?.getD ⟨0, 0⟩).approved]? with
  | none => simp
  | some l => simpa using hi.distinct l (List.mem_of_getElem? hs)

theorem unitRefs_refines (rs : List ℕ) {h : Heap} (hi : HeapInv h) (hrs : ∀ r ∈ rs, r < h.voters.length) :
    match unitVoters (rs.map h.voterAt) with
    | .ok vs => ∃ new, (h.unitRefs rs).2 = .ok new ∧ new.map (h.unitRefs rs).1.voterAt = vs
    | .error e => (h.unitRefs rs).2 = .error e := by
  induction rs generalizing h with
  | nil => exact ⟨[], rfl, rfl⟩
  | cons r rs ih =>
    rw [List.map_cons]
    unfold unitVoters Heap.unitRefs
    dsimp only
    by_cases hw : (h.voterAt r).weight.den ≠ 1
    · rw [if_pos hw, if_pos hw]
    · rw [if_neg hw, if_neg hw]
      have g := newVoters_grows (List.replicate (h.voterAt r).weight.num.toNat ((h.voterAt r).approved, 1)) h
      obtain ⟨new, h1, h2⟩ := newVoters_refines (List.replicate (h.voterAt r).weight.num.toNat ((h.voterAt r).approved, 1)) hi (by
        intro v hv
        rw [List.eq_of_mem_replicate hv]
        exact ⟨voterAt_sorted hi r, by norm_num⟩)
      rcases hn : h.newVoters (List.replicate (h.voterAt r).weight.num.toNat ((h.voterAt r).approved, 1)) with ⟨h', e | new'⟩
      · rw [hn] at h1; simp at h1
      · rw [hn] at h1 h2 g
        obtain rfl := Except.ok.inj h1
        have hi' := hi.grows g
        have ih' := ih hi' (fun x hx => lt_of_lt_of_le (hrs x (List.mem_cons_of_mem _ hx)) g.voters_le)
        rw [List.map_congr_left (fun x hx => g.voterAt hi.sets (hrs x (List.mem_cons_of_mem _ hx)))] at ih'
        have g' := unitRefs_grows rs h'
        have nr := newVoters_ok hn
        cases hu : unitVoters (rs.map h.voterAt) with
        | error e =>
          rw [hu] at ih'
          simp only [bind, Except.bind]
          rcases hm : h'.unitRefs rs with ⟨h'', e' | rest⟩
          · rw [hm] at ih'; exact ih'
          · rw [hm] at ih'; simp at ih'
        | ok vs =>
          rw [hu] at ih'
          obtain ⟨rest, h3, h4⟩ := ih'
          simp only [bind, Except.bind]
          rcases hm : h'.unitRefs rs with ⟨h'', e' | rest'⟩
          · rw [hm] at h3; simp at h3
          · rw [hm] at h3 h4 g'
            obtain rfl := Except.ok.inj h3
            refine ⟨new' ++ rest', rfl, ?_⟩
            simp only [List.map_append]
            rw [h4, List.map_congr_left (fun x hx => g'.voterAt hi'.sets (nr.2 x hx).2), h2]
            simp

theorem unit_refines {h : Heap} (hi : HeapInv h) {P : ℕ} {p : Profile} (hv : h.view P = some p) :
    (h.convertToUnitWeights P).1.view P = some p.convertToUnitWeights.1 ∧ (h.convertToUnitWeights P).2 = p.convertToUnitWeights.2 := by
  obtain ⟨o, ho, rfl⟩ := view_some.1 hv
  have hr := unitRefs_refines o.refs hi (hi.bound P o ho)
  have g := unitRefs_grows o.refs h
  unfold Heap.convertToUnitWeights Profile.convertToUnitWeights
  rw [ho]
  simp only
  cases hu : unitVoters (o.refs.map h.voterAt) with
  | error e =>
    rw [hu] at hr
    rcases hn : h.unitRefs o.refs with ⟨h', e' | new⟩
    · rw [hn] at hr g
      obtain rfl := Except.error.inj hr
      exact ⟨grows_view hi g hv, rfl⟩
    · rw [hn] at hr; simp at hr
  | ok vs =>
    rw [hu] at hr
    obtain ⟨new, h1, h2⟩ := hr
    rcases hn : h.unitRefs o.refs with ⟨h', e' | new'⟩
    · rw [hn] at h1; simp at h1
    · rw [hn] at h1 h2 g
      obtain rfl := Except.ok.inj h1
      refine ⟨?_, rfl⟩
      unfold Heap.replace
      rw [setRefs_view g ho, h2]

theorem weighted_refines {h : Heap} (hi : HeapInv h) {P : ℕ} {p : Profile} (hv : h.view P = some p) (hp : p.WF)
    (iter : List (List ℕ) → List (List ℕ)) (hiter : ∀ l, (iter l).Perm l) :
    (h.convertToWeighted P iter).1.view P = some (p.convertToWeighted iter) ∧ (h.convertToWeighted P iter).2 = none := by
  obtain ⟨o, ho, rfl⟩ := view_some.1 hv
  have hw := convertToWeighted_inv hp iter hiter
  unfold Heap.convertToWeighted
  rw [ho]
  unfold Profile.convertToWeighted at hw ⊢
  simp only at hw ⊢
  generalize hL : iter _ = L at hw ⊢
  have hsorted : ∀ a ∈ L, a.Pairwise (· < ·) := by
    intro a ha
    rw [← hL] at ha
    have := (hiter _).mem_iff.1 ha
    rw [mem_foldl_setAdd] at this
    simp only [List.not_mem_nil, false_or] at this
    obtain ⟨v, hv', rfl⟩ := List.mem_map.1 this
    exact sortNat_lt (hp.nodup v hv')
  set vs := L.map (fun a => (a, weightOfApprovalSet (o.refs.map h.voterAt) a)) with hvs
  have hgood : ∀ v ∈ vs, v.1.Pairwise (· < ·) ∧ 0 < v.2 := by
    intro v hv'
    obtain ⟨a, ha, rfl⟩ := List.mem_map.1 hv'
    exact ⟨hsorted a ha, hw.1.weight _ (List.mem_map.2 ⟨a, ha, rfl⟩)⟩
  obtain ⟨rs, h1, h2⟩ := newVoters_refines vs hi hgood
  have g := newVoters_grows vs h
  rcases hn : h.newVoters vs with ⟨h', e' | new'⟩
  · rw [hn] at h1; simp at h1
  · rw [hn] at h1 h2 g
    obtain rfl := Except.ok.inj h1
    refine ⟨?_, rfl⟩
    unfold Heap.replace
    rw [setRefs_view g ho, h2, hvs, List.map_map]
    rfl

/-- C95: calling a method changes what one sees of its profile exactly as in the model without object identity, and raises the same
exception; so C02–C06 and C66 hold of profiles as mutable objects. -/
theorem C95_refines (h : Heap) (hr : ReachableHeap h) (op : HeapOp) (P : ℕ) (pop : ProfileOp) (hop : pureOp h op = some (P, pop))
    (ha : ArgsExist h op) (hl : pop.Legal) (p : Profile) (hv : h.view P = some p) (hp : p.WF) :
    (h.step op).1.view P = some (p.step pop).1 ∧ (h.step op).2 = (p.step pop).2 := by
  have hi := hr.inv
  cases op <;> simp only [pureOp, Option.some.injEq, Prod.mk.injEq, reduceCtorEq] at hop
  all_goals obtain ⟨rfl, rfl⟩ := hop
  · exact addVoter_refines hi hv _
  · exact addVoters_refines hi hv _ ha
  · exact setItem_refines hi hv _ _
  · exact unit_refines hi hv
  · exact weighted_refines hi hv hp _ hl

/-- C95: `P.add_voters(Q)` for a different profile `Q` terminates and adds the voters of `Q` in order. -/
theorem C95_add_profile (h : Heap) (hr : ReachableHeap h) (P Q : ℕ) (hPQ : P ≠ Q) (p q : Profile) (hP : h.view P = some p)
    (hQ : h.view Q = some q) (fuel : ℕ) (hf : q.voters.length < fuel) :
    (h.step (.addFrom P Q fuel)).1.view P = some (p.addVoters (q.voters.map Voter.toRaw)).1 ∧
      (h.step (.addFrom P Q fuel)).2 = (p.addVoters (q.voters.map Voter.toRaw)).2 := by
  have hi := hr.inv
  obtain ⟨o, ho, rfl⟩ := view_some.1 hQ
  rw [List.length_map] at hf
  have he := addFrom_eq hi hPQ ho fuel 0 (by omega)
  have h1 := addVoters_refines hi hP (o.refs.map VoterArg.voter) (by
    intro a ha
    obtain ⟨r, hr', rfl⟩ := List.mem_map.1 ha
    exact hi.bound Q o ho r hr')
  have hs : h.step (.addFrom P Q fuel) = h.addVoters P (o.refs.map VoterArg.voter) := he
  rw [hs]
  simp only [List.map_map] at h1 ⊢
  exact h1

theorem toRaw_legal {p : Profile} (hp : p.WF) {v : Voter} (hv : v ∈ p.voters) : LegalVoter p.numCand v.toRaw := by
  refine ⟨List.Nodup.map (fun x y h => by simpa using h) (hp.nodup v hv), ?_, hp.weight v hv⟩
  intro c hc
  obtain ⟨x, hx, rfl⟩ := List.mem_map.1 hc
  have := hp.lt v hv x hx
  simp
  omega

theorem addFrom_self {h : Heap} (hi : HeapInv h) {P : ℕ} {p : Profile} (hv : h.view P = some p) (hp : p.WF) (fuel i : ℕ)
    (hlt : i < p.voters.length) : (Heap.addFrom P P fuel i h).2 = some .outOfFuel := by
  induction fuel generalizing h p i with
  | zero => rfl
  | succ fuel ih =>
    obtain ⟨o, ho, rfl⟩ := view_some.1 hv
    simp only [List.length_map] at hlt
    unfold Heap.addFrom
    rw [refs_of_view ho, List.drop_eq_getElem_cons hlt]
    simp only
    obtain ⟨w, -, he⟩ := (C66_addVoter _ (h.rawOf (.voter o.refs[i]))).1
      (toRaw_legal hp (v := h.voterAt o.refs[i]) (List.mem_map.2 ⟨_, List.getElem_mem hlt, rfl⟩))
    have hwf := addVoter_inv hp (h.rawOf (.voter o.refs[i]))
    obtain ⟨h1, h2⟩ := addVoter_refines hi hv (.voter o.refs[i])
    have hl := addVoter_local hi P (.voter o.refs[i])
    rw [he] at h1 h2 hwf
    rcases hn : h.addVoter P (.voter o.refs[i]) with ⟨h', _ | e⟩
    · rw [hn] at h1 hl
      exact ih hl.inv h1 hwf.1 (i + 1) (by simp; omega)
    · rw [hn] at h2; simp at h2

/-- C95 (finding): `P.add_voters(P)` never terminates if `P` has a voter: the loop runs over the list it extends. -/
theorem C95_add_itself (h : Heap) (hr : ReachableHeap h) (P : ℕ) (p : Profile) (hv : h.view P = some p) (hp : p.WF) (hne : p.voters ≠ [])
    (fuel : ℕ) : (h.step (.addFrom P P fuel)).2 = some .outOfFuel :=
  addFrom_self hr.inv hv hp fuel 0 (List.length_pos_of_ne_nil hne)

/-- C95: `copy()` returns a new profile with the same content (C05); afterwards neither profile changes when the other one, its voters or
their approval sets are modified. -/
theorem C95_copy (h : Heap) (hr : ReachableHeap h) (P : ℕ) (p : Profile) (hv : h.view P = some p) (hp : p.WF) :
    ∃ h' q, h.step (.copy P) = (h', none) ∧ p.copy = .ok q ∧ h'.view P = some p ∧ h'.view h.profiles.length = some q ∧
      (∀ ops, Untouched h.profiles.length h' ops → (h'.run ops).view h.profiles.length = some q) ∧
      ∀ ops, Untouched P h' ops → (h'.run ops).view P = some p := by
  have hi := hr.inv
  obtain ⟨o, ho, hpo⟩ := view_some.1 hv
  have hlt : P < h.profiles.length := (List.getElem?_eq_some_iff.1 ho).1
  obtain ⟨q, hq, -⟩ := C05_copy_voters p hp
  have hn : o.numCand = p.numCand := by rw [hpo]
  have hvs : p.voters = o.refs.map h.voterAt := by rw [hpo]
  -- the new, empty profile
  obtain ⟨p0, hp0⟩ : ∃ p0, mkProfile (p.numCand : ℤ) none = .ok p0 := by
    rw [C02_mkProfile_ok_iff]
    have := hp.pos
    exact ⟨by exact_mod_cast this, by simp⟩
  have hp0v : p0.voters = [] := by
    unfold mkProfile at hp0
    split_ifs at hp0
    simp only [Option.getD_none, Except.ok.injEq] at hp0
    rw [← hp0]
  set h0 : Heap := { h with profiles := h.profiles ++ [⟨p0.numCand, p0.candNames, []⟩] } with hh0
  have hnew : h.newProfile o.numCand none = (h0, none) := by
    unfold Heap.newProfile
    rw [hn, hp0]
  have l0 : Local h.profiles.length h h0 := by
    have := newProfile_local hi o.numCand none
    rwa [hnew] at this
  have hv0 : h0.view h.profiles.length = some p0 := by
    rw [view_some]
    refine ⟨⟨p0.numCand, p0.candNames, []⟩, by simp [hh0], ?_⟩
    rcases p0 with ⟨a, b, c⟩
    simp only at hp0v
    rw [hp0v]; rfl
  obtain ⟨h1, h2⟩ := addVoters_refines l0.inv hv0 (o.refs.map VoterArg.voter) (by
    intro a ha
    obtain ⟨r, hr', rfl⟩ := List.mem_map.1 ha
    exact hi.bound P o ho r hr')
  have hraw : (o.refs.map VoterArg.voter).map h0.rawOf = p.voters.map Voter.toRaw := by
    rw [hvs, List.map_map, List.map_map]
    rfl
  have hstep : h.step (.copy P) = h0.addVoters h.profiles.length (o.refs.map VoterArg.voter) := by
    change h.copy P = _
    unfold Heap.copy
    rw [ho]
    simp only [hnew]
  have hcopy : p0.addVoters (p.voters.map Voter.toRaw) = (q, none) := by
    unfold Profile.copy at hq
    rw [hp0] at hq
    simp only [bind, Except.bind] at hq
    rcases hm : p0.addVoters (p.voters.map Voter.toRaw) with ⟨q', _ | e⟩
    · rw [hm] at hq
      rw [Except.ok.inj hq]
    · rw [hm] at hq; simp at hq
  rw [hraw, hcopy, ← hstep] at h1 h2
  have hfr := frame_of_inv hi (.copy P) P hlt (by simp [Touches])
  rcases hs : h.step (.copy P) with ⟨h', e⟩
  have hr' : ReachableHeap h' := by
    obtain ⟨ops, rfl⟩ := hr
    refine ⟨ops ++ [.copy P], ?_⟩
    unfold Heap.run at hs ⊢
    rw [List.foldl_append]
    simp only [List.foldl_cons, List.foldl_nil]
    rw [hs]
  rw [hs] at h1 h2 hfr
  simp only at h1 h2 hfr
  subst h2
  obtain ⟨o', ho', -⟩ := view_some.1 h1
  have hlen : h.profiles.length < h'.profiles.length := (List.getElem?_eq_some_iff.1 ho').1
  refine ⟨h', q, rfl, hq, hfr.trans hv, h1, ?_, ?_⟩
  · intro ops hu
    rw [C95_history h' hr' _ hlen ops hu, h1]
  · intro ops hu
    rw [C95_history h' hr' P (by omega) ops hu, hfr, hv]

/-! ## Examples -/

/-- `p = Profile(3); p.add_voters([[0, 1], [2]]); p[0].weight = 3; q = p.copy(); p[1].approved.add(0); q.add_voter(p[0])` -/
def heapProgram : List HeapOp :=
  [.newProfile 3 none, .addVoters 0 [.list [0, 1], .list [2]], .setWeight 0 3, .copy 0, .add 1 0, .addVoter 1 (.voter 0)]

example : ((Heap.run {} heapProgram).view 0).map Profile.voters = some [⟨[0, 1], 3⟩, ⟨[0, 2], 1⟩] ∧
    ((Heap.run {} heapProgram).view 1).map Profile.voters = some [⟨[0, 1], 3⟩, ⟨[2], 1⟩, ⟨[0, 1], 3⟩] := by
  decide +kernel

/-- The state before the copy is reachable, its profile well-formed, and afterwards `p[1].approved.add(0)` does not touch the copy. -/
example : ∃ h p, ReachableHeap h ∧ h.view 0 = some p ∧ p.WF ∧ p.voters ≠ [] ∧
    Untouched h.profiles.length (h.step (.copy 0)).1 [.add 1 0] ∧ Touches (h.step (.copy 0)).1 0 (.add 1 0) := by
  refine ⟨Heap.run {} (heapProgram.take 3), ⟨3, [⟨[0, 1], 3⟩, ⟨[2], 1⟩], [['0'], ['1'], ['2']]⟩, ⟨_, rfl⟩, by decide +kernel,
    ⟨by decide, by decide, by decide, ?_⟩, by decide, ⟨?_, trivial⟩, ?_⟩
  · intro v hv
    simp only [List.mem_cons, List.not_mem_nil, or_false] at hv
    rcases hv with rfl | rfl <;> norm_num
  · rintro ⟨r, v, ⟨o, ho, hr⟩, hv, hs⟩
    have e1 : o.refs = [2, 3] := by
      have : (Heap.step (Heap.run {} (heapProgram.take 3)) (.copy 0)).1.profiles[(Heap.run {} (heapProgram.take 3)).profiles.length]?.map
          ProfileObj.refs = some [2, 3] := by decide +kernel
      rw [ho] at this
      exact Option.some.inj this
    rw [e1] at hr
    simp only [List.mem_cons, List.not_mem_nil, or_false] at hr
    have e2 : ∀ r ∈ [2, 3], (Heap.step (Heap.run {} (heapProgram.take 3)) (.copy 0)).1.voters[r]?.map VoterObj.approved ≠ some 1 := by
      decide +kernel
    refine e2 r (by simpa using hr) ?_
    rw [hv]
    simp [hs]
  · exact ⟨1, ⟨1, 1⟩, ⟨⟨3, [['0'], ['1'], ['2']], [0, 1]⟩, by decide +kernel, by decide⟩, by decide +kernel, rfl⟩

end Abc
