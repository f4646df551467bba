import Verif.Lemmas.Groups
import Verif.Lemmas.Optimal

/-!
# C51–C57, C59: the checks of `properties.py` decide the axioms; reported violations are genuine
-/

namespace Abc
open Spec

/-! ## JR -/

theorem checkJRInner_spec (p : Profile) (hp : p.WF) (W : List ℕ) (q : ℚ) (hq : 0 < q) :
    ∃ r, checkJRInner p W q = .ok r ∧ (r = none ↔ JR p W.toFinset q) ∧
      ∀ g c, r = some (g, c) → q ≤ wt p (grp p g) ∧ ∀ i ∈ grp p g, c ∈ appr p i ∧ appr p i ∩ W.toFinset = ∅ := by
  unfold checkJRInner
  set cond := fun (c : ℕ) (v : Voter) => decide (c ∈ v.approved) && decide ((inter v.approved W).length = 0) with hcond
  have hc : ∀ c (i : Fin p.voters.length), cond c (p.voters.get i) = true ↔ c ∈ appr p i ∧ appr p i ∩ W.toFinset = ∅ := by
    intro c i
    simp only [hcond, Bool.and_eq_true, decide_eq_true_eq, sat_eq hp, mem_appr, sat, Finset.card_eq_zero]
  rcases firstSome_spec (fun cand =>
      if p.groupWeight (p.votersWith (cond cand)) ≥ q then .ok (some (p.votersWith (cond cand), cand)) else .ok none)
      p.candidates (fun c _ => by
        by_cases h : p.groupWeight (p.votersWith (cond c)) ≥ q
        · exact ⟨_, if_pos h⟩
        · exact ⟨_, if_neg h⟩) with ⟨h1, h2⟩ | ⟨c, hcm, b, h1, h2⟩
  · refine ⟨none, h1, ?_, by simp⟩
    simp only [true_iff]
    intro G c hG hcG
    by_contra hno
    push Not at hno
    have hne := nonempty_of_wt hq hG
    obtain ⟨i0, hi0⟩ := hne
    have hcm : c ∈ p.candidates := by
      simp only [Profile.candidates, List.mem_range]
      exact appr_lt hp (hcG i0 hi0)
    have := h2 c hcm
    have hle := wt_le_votersWith hp (cond c) G (fun i hi => (hc c i).2 ⟨hcG i hi, by
      simpa [Finset.not_nonempty_iff_eq_empty] using hno i hi⟩)
    rw [if_pos (le_trans hG hle)] at this
    simp at this
  · split at h1
    · rename_i hge
      obtain rfl := (Option.some.inj (Except.ok.inj h1)).symm
      have key : q ≤ wt p (grp p (p.votersWith (cond c))) ∧
          ∀ i ∈ grp p (p.votersWith (cond c)), c ∈ appr p i ∧ appr p i ∩ W.toFinset = ∅ := by
        rw [groupWeight_votersWith] at hge
        exact ⟨hge, fun i hi => (hc c i).1 (mem_grp_votersWith.1 hi)⟩
      refine ⟨_, h2, ?_, ?_⟩
      · simp only [reduceCtorEq, false_iff]
        intro hJR
        obtain ⟨i, hi, hne⟩ := hJR _ c key.1 (fun i hi => (key.2 i hi).1)
        rw [(key.2 i hi).2] at hne
        simp at hne
      · intro g c' he
        simp only [Option.some.injEq, Prod.mk.injEq] at he
        obtain ⟨rfl, rfl⟩ := he
        exact key
    · simp at h1

/-- C51: `check_JR` decides justified representation. -/
theorem C51_check_JR (p : Profile) (hp : p.WF) (W : List ℕ) (hW : W.Nodup) (hlt : ∀ c ∈ W, c < p.numCand)
    (quota : Option ℚ) (hq : 0 < quotaValue p W.length quota) :
    ∃ b, checkJR p (W.map Int.ofNat) quota = .ok b ∧ (b = true ↔ JR p W.toFinset (quotaValue p W.length quota)) := by
  refine checkWith_spec _ (JR p) p hp W hW hlt quota hq (fun V _ _ => ?_) ?_
  · obtain ⟨r, h1, h2, -⟩ := checkJRInner_spec p hp V _ hq
    exact ⟨r, h1, h2⟩
  · intro he G c hG
    rw [wt_of_empty he] at hG
    linarith

/-- C59 for `check_JR`: the reported group has the required weight, jointly approves the reported candidate, and none of its
members approves a committee member. -/
theorem C59_JR_witness (p : Profile) (hp : p.WF) (W : List ℕ) (q : ℚ) (hq : 0 < q) (g : List ℕ) (c : ℕ)
    (h : checkJRInner p W q = .ok (some (g, c))) :
    q ≤ wt p (grp p g) ∧ ∀ i ∈ grp p g, c ∈ appr p i ∧ appr p i ∩ W.toFinset = ∅ := by
  obtain ⟨r, h1, -, h3⟩ := checkJRInner_spec p hp W q hq
  rw [h1] at h
  exact h3 g c (Except.ok.inj h)

/-! ## Pareto optimality -/

theorem checkParetoInner_spec (p : Profile) (hp : p.WF) (W : List ℕ) (hW : W.Nodup) :
    ∃ r, checkParetoInner p W = .ok r ∧ (r = none ↔ ParetoOptimal p W.toFinset) ∧
      ∀ X, r = some X → IsCommittee p W.length X.toFinset ∧ Dominates p X.toFinset W.toFinset := by
  have hcard : W.toFinset.card = W.length := List.toFinset_card_of_nodup hW
  have hd : ∀ X ∈ combinations p.candidates W.length, ∃ b, dominate p X W = .ok b ∧ (b = true ↔ Dominates p X.toFinset W.toFinset) := by
    intro X hX
    have hXn : X.Nodup := nodup_of_lt (combinations_lt hX)
    have := C09_dominate_iff p hp X W hXn hW
    exact this
  unfold checkParetoInner
  rcases firstSome_spec (fun other => do
      let b ← dominate p other W
      if b then .ok (some other) else .ok none) (combinations p.candidates W.length) (fun X hX => by
        obtain ⟨b, hb, -⟩ := hd X hX
        simp only [hb, bind, Except.bind]
        cases b
        · exact ⟨none, by simp⟩
        · exact ⟨some X, by simp⟩) with ⟨h1, h2⟩ | ⟨X, hXm, b, h1, h2⟩
  · refine ⟨none, h1, ?_, by simp⟩
    simp only [true_iff]
    intro A hA hdom
    rw [hcard, isCommittee_iff_combinations] at hA
    obtain ⟨X, hX, rfl⟩ := hA
    obtain ⟨b, hb, hiff⟩ := hd X hX
    have := h2 X hX
    simp only [hb, bind, Except.bind, hiff.2 hdom, if_true] at this
    simp at this
  · obtain ⟨d, hb, hiff⟩ := hd X hXm
    simp only [hb, bind, Except.bind] at h1
    cases d with
    | false => simp at h1
    | true =>
      simp only [if_true, Except.ok.injEq, Option.some.injEq] at h1
      subst h1
      have hdom := hiff.1 rfl
      have hcom : IsCommittee p W.length X.toFinset := (isCommittee_iff_combinations p _ _).2 ⟨X, hXm, rfl⟩
      refine ⟨_, h2, ?_, ?_⟩
      · simp only [reduceCtorEq, false_iff]
        intro h
        exact h X.toFinset (by rw [hcard]; exact hcom) hdom
      · intro Y hY
        obtain rfl := Option.some.inj hY
        exact ⟨hcom, hdom⟩

/-- C52: the brute-force Pareto check decides Pareto optimality among committees of the same size. -/
theorem C52_check_pareto (p : Profile) (hp : p.WF) (W : List ℕ) (hW : W.Nodup) (hlt : ∀ c ∈ W, c < p.numCand) :
    ∃ b, checkPareto p (W.map Int.ofNat) = .ok b ∧ (b = true ↔ ParetoOptimal p W.toFinset) := by
  obtain ⟨r, h1, h2, -⟩ := checkParetoInner_spec p hp (sortNat W) (sortNat_nodup.2 hW)
  unfold checkPareto
  rw [candidateSet_ofNat hW hlt]
  simp only [bind, Except.bind, h1]
  refine ⟨_, rfl, ?_⟩
  rw [sortNat_toFinset] at h2
  rw [← h2]
  cases r <;> simp

/-- C59 for the Pareto check: the reported committee has the same size and dominates. -/
theorem C59_pareto_witness (p : Profile) (hp : p.WF) (W : List ℕ) (hW : W.Nodup) (X : List ℕ)
    (h : checkParetoInner p W = .ok (some X)) :
    IsCommittee p W.length X.toFinset ∧ Dominates p X.toFinset W.toFinset := by
  obtain ⟨r, h1, -, h3⟩ := checkParetoInner_spec p hp W hW
  rw [h1] at h
  exact h3 X (Except.ok.inj h)

/-! ## EJR and PJR -/

theorem mem_foldl_inter (ss : List (List ℕ)) (s : List ℕ) (x : ℕ) : x ∈ ss.foldl inter s ↔ x ∈ s ∧ ∀ t ∈ ss, x ∈ t := by
  induction ss generalizing s with
  | nil => simp
  | cons t ts ih =>
    simp only [List.foldl_cons, ih, mem_inter, List.mem_cons, forall_eq_or_imp]
    tauto

theorem foldl_inter_nodup (ss : List (List ℕ)) (s : List ℕ) (h : s.Nodup) : (ss.foldl inter s).Nodup := by
  induction ss generalizing s with
  | nil => exact h
  | cons t ts ih => exact ih _ (h.filter _)

theorem interAll_spec (p : Profile) (hp : p.WF) (g : List ℕ) (hg : g ≠ []) (hlt : ∀ x ∈ g, x < p.voters.length) :
    ∃ cut, interAll (g.map (fun vi => (p.voterAt vi).approved)) = .ok cut ∧ cut.Nodup ∧
      ∀ c, c ∈ cut ↔ ∀ i ∈ grp p g, c ∈ appr p i := by
  cases g with
  | nil => exact absurd rfl hg
  | cons x xs =>
    refine ⟨_, rfl, ?_, ?_⟩
    · refine foldl_inter_nodup _ _ ?_
      have hx := hlt x (by simp)
      have := voterAt_fin p ⟨x, hx⟩
      simp only at this
      show (p.voterAt x).approved.Nodup
      rw [this]
      exact hp.nodup _ (List.get_mem _ _)
    · intro c
      rw [mem_foldl_inter]
      constructor
      · rintro ⟨h1, h2⟩ i hi
        rw [mem_appr, ← voterAt_fin]
        rw [mem_grp] at hi
        rcases List.mem_cons.1 hi with hi | hi
        · rw [hi]; exact h1
        · exact h2 _ (List.mem_map.2 ⟨_, hi, rfl⟩)
      · intro h
        have key : ∀ y ∈ x :: xs, c ∈ (p.voterAt y).approved := by
          intro y hy
          have := h ⟨y, hlt y hy⟩ (mem_grp.2 hy)
          rwa [mem_appr, ← voterAt_fin] at this
        refine ⟨key x (by simp), ?_⟩
        intro t ht
        obtain ⟨y, hy, rfl⟩ := List.mem_map.1 ht
        exact key y (by simp [hy])

theorem mem_unionAll (ss : List (List ℕ)) (x : ℕ) : x ∈ unionAll ss ↔ ∃ s ∈ ss, x ∈ s := by
  have : ∀ (ss : List (List ℕ)) (acc : List ℕ), x ∈ ss.foldl (fun acc s => s.foldl setAdd acc) acc ↔ x ∈ acc ∨ ∃ s ∈ ss, x ∈ s := by
    intro ss
    induction ss with
    | nil => simp
    | cons t ts ih =>
      intro acc
      simp only [List.foldl_cons, ih, mem_foldl_setAdd, List.mem_cons, exists_eq_or_imp]
      tauto
  simpa [unionAll] using this ss []

theorem unionAll_nodup (ss : List (List ℕ)) : (unionAll ss).Nodup := by
  have : ∀ (ss : List (List ℕ)) (acc : List ℕ), acc.Nodup → (ss.foldl (fun acc s => s.foldl setAdd acc) acc).Nodup := by
    intro ss
    induction ss with
    | nil => exact fun _ h => h
    | cons t ts ih => exact fun acc h => ih _ (foldl_setAdd_nodup h)
  exact this ss [] List.nodup_nil

theorem unionAll_inter_length (p : Profile) (g W : List ℕ) (hlt : ∀ x ∈ g, x < p.voters.length) :
    (inter (unionAll (g.map (fun vi => (p.voterAt vi).approved))) W).length
      = ((grp p g).biUnion (appr p) ∩ W.toFinset).card := by
  rw [inter_length (unionAll_nodup _)]
  congr 2
  ext c
  simp only [List.mem_toFinset, mem_unionAll, List.mem_map, Finset.mem_biUnion, mem_grp, mem_appr]
  constructor
  · rintro ⟨s, ⟨x, hx, rfl⟩, hc⟩
    refine ⟨⟨x, hlt x hx⟩, hx, ?_⟩
    rwa [← voterAt_fin]
  · rintro ⟨i, hi, hc⟩
    exact ⟨_, ⟨i, hi, rfl⟩, by rwa [voterAt_fin]⟩

theorem wt_unit {p : Profile} (hu : p.hasUnitWeights = true) (G : Group p) : wt p G = G.card := by
  have : ∀ i ∈ G, (p.voters.get i).weight = 1 := by
    intro i _
    have := List.all_eq_true.1 hu _ (List.get_mem p.voters i)
    simpa using this
  unfold wt
  rw [Finset.sum_congr rfl this]
  simp

theorem grp_card {p : Profile} {g : List ℕ} (hn : g.Nodup) (hlt : ∀ x ∈ g, x < p.voters.length) :
    (grp p g).card = g.length := by
  have h1 : g.toFinset = (grp p g).image (fun i : Fin p.voters.length => (i : ℕ)) := by
    ext x
    simp only [List.mem_toFinset, Finset.mem_image, mem_grp]
    constructor
    · intro h; exact ⟨⟨x, hlt x h⟩, h, rfl⟩
    · rintro ⟨i, h, rfl⟩; exact h
  rw [← List.toFinset_card_of_nodup hn, h1, Finset.card_image_of_injective _ Fin.val_injective]

/-- A violating group found by one round of the EJR / PJR search: `bad` is the under-representation condition. -/
def Found (p : Profile) (q : ℚ) (bad : Group p → Prop) (ell : ℕ) : Prop :=
  ∃ (G : Group p) (T : Finset ℕ), Cohesive p q ell G T ∧ bad G

/-- The common core of the two brute-force searches, for unit weights. -/
theorem cohesiveRound_spec (p : Profile) (hp : p.WF) (hu : p.hasUnitWeights = true) (W : List ℕ) (q : ℚ) (hq : 0 < q) (ell : ℕ)
    (hell : 1 ≤ ell) (body : List ℕ → Except Err (Option CohesiveInfo)) (bad : Group p → Prop)
    (hbad : ∀ G H : Group p, H ⊆ G → bad G → bad H)
    (hlow : ∀ G i, bad G → i ∈ G → sat p W.toFinset i < ell)
    (hbody : ∀ g : List ℕ, g.Nodup → g ≠ [] → (∀ x ∈ g, x ∈ underserved p W ell) →
      ∃ cut : List ℕ, cut.Nodup ∧ (∀ c, c ∈ cut ↔ ∀ i ∈ grp p g, c ∈ appr p i) ∧
        ((ell ≤ cut.length ∧ bad (grp p g) ∧ body g = .ok (some ⟨underserved p W ell, ell, cut⟩)) ∨
         (¬ (ell ≤ cut.length ∧ bad (grp p g)) ∧ body g = .ok none))) :
    ∃ r, (if p.groupWeight (underserved p W ell) < (⌈(ell : ℚ) * q⌉ : ℤ) then .ok none
        else firstSome body (combinations (underserved p W ell) (⌈(ell : ℚ) * q⌉ : ℤ).toNat)) = .ok r ∧
      ((r = none ↔ ¬ Found p q bad ell)) ∧ ∀ w, r = some w → w.ell = ell ∧ w.group = underserved p W ell ∧
        ∃ G : Group p, G ⊆ grp p w.group ∧ Cohesive p q ell G w.joint.toFinset ∧ bad G := by
  set low := underserved p W ell with hl
  set m : ℤ := ⌈(ell : ℚ) * q⌉ with hm
  have hlq : 0 < (ell : ℚ) * q := by
    have : (0 : ℚ) < ell := by exact_mod_cast hell
    positivity
  have hmpos : 1 ≤ m := Int.one_le_ceil_iff.2 hlq
  have hlown : low.Nodup := votersWith_nodup _ _
  have hlowlt : ∀ x ∈ low, x < p.voters.length := votersWith_lt
  have hwlow : p.groupWeight low = low.length := by
    rw [groupWeight_eq p low hlown hlowlt, wt_unit hu, grp_card hlown hlowlt]
  have hinlow : ∀ G i, bad G → i ∈ G → (i : ℕ) ∈ low := by
    intro G i hb hi
    rw [hl]
    unfold underserved
    rw [mem_votersWith, voterAt_fin]
    refine ⟨i.2, ?_⟩
    simp only [decide_eq_true_eq]
    rw [sat_eq hp]
    exact hlow G i hb hi
  -- every violating group gives a sublist of `low` of length `m`
  have hcomb : ∀ G T, Cohesive p q ell G T → bad G → ∃ g ∈ combinations low m.toNat, g.Nodup ∧ grp p g ⊆ G := by
    rintro G T ⟨-, hw, -, -⟩ hb
    set g0 := low.filter (fun x => decide (∃ i ∈ G, (i : ℕ) = x)) with hg0
    have hg0n : g0.Nodup := hlown.filter _
    have hg0lt : ∀ x ∈ g0, x < p.voters.length := fun x hx => hlowlt x (List.mem_of_mem_filter hx)
    have hgG : grp p g0 = G := by
      ext i
      rw [mem_grp, hg0, List.mem_filter]
      simp only [decide_eq_true_eq]
      constructor
      · rintro ⟨-, j, hj, e⟩
        rwa [← Fin.ext e]
      · intro hi
        exact ⟨hinlow G i hb hi, i, hi, rfl⟩
    have hcard : (m.toNat) ≤ g0.length := by
      rw [← grp_card hg0n hg0lt, hgG]
      rw [wt_unit hu] at hw
      have : m ≤ (G.card : ℤ) := Int.ceil_le.2 (by exact_mod_cast hw)
      omega
    refine ⟨g0.take m.toNat, ?_, (List.take_sublist _ _).nodup hg0n, ?_⟩
    · rw [mem_combinations]
      exact ⟨(List.take_sublist _ _).trans List.filter_sublist, by simp [hcard]⟩
    · intro i hi
      rw [mem_grp] at hi
      rw [← hgG, mem_grp]
      exact (List.take_sublist _ _).subset hi
  by_cases hlt : p.groupWeight low < (m : ℤ)
  · rw [if_pos hlt]
    refine ⟨none, rfl, ?_, by simp⟩
    simp only [true_iff]
    rintro ⟨G, T, hG, hb⟩
    obtain ⟨g, hg, -, -⟩ := hcomb G T hG hb
    rw [mem_combinations] at hg
    have h1 := hg.1.length_le
    rw [hwlow] at hlt
    have : (low.length : ℤ) < m := by exact_mod_cast hlt
    omega
  · rw [if_neg hlt]
    have hgprop : ∀ g ∈ combinations low m.toNat, g.Nodup ∧ g ≠ [] ∧ (∀ x ∈ g, x ∈ low) ∧ g.length = m.toNat := by
      intro g hg
      rw [mem_combinations] at hg
      refine ⟨hg.1.nodup hlown, ?_, fun x hx => hg.1.subset hx, hg.2⟩
      rintro rfl
      have := hg.2
      simp at this
      omega
    have hcoh : ∀ g ∈ combinations low m.toNat, ∀ cut : List ℕ, cut.Nodup → (∀ c, c ∈ cut ↔ ∀ i ∈ grp p g, c ∈ appr p i) →
        ell ≤ cut.length → Cohesive p q ell (grp p g) cut.toFinset := by
      intro g hg cut hcn hcm hle
      obtain ⟨g1, g2, g3, g4⟩ := hgprop g hg
      refine ⟨hell, ?_, by rw [List.toFinset_card_of_nodup hcn]; exact hle, ?_⟩
      · rw [wt_unit hu, grp_card g1 (fun x hx => hlowlt x (g3 x hx)), g4]
        have h1 := Int.le_ceil ((ell : ℚ) * q)
        have h2 : ((m.toNat : ℤ) : ℚ) = (m : ℚ) := by
          congr 1; omega
        have h3 : ((m.toNat : ℕ) : ℚ) = ((m.toNat : ℤ) : ℚ) := by norm_cast
        rw [h3, h2]
        exact h1
      · intro i hi c hc
        exact (hcm c).1 (by simpa using hc) i hi
    rcases firstSome_spec body (combinations low m.toNat) (fun g hg => by
        obtain ⟨g1, g2, g3, -⟩ := hgprop g hg
        obtain ⟨cut, -, -, h | h⟩ := hbody g g1 g2 g3
        · exact ⟨_, h.2.2⟩
        · exact ⟨_, h.2⟩) with ⟨h1, h2⟩ | ⟨g, hg, b, h1, h2⟩
    · refine ⟨none, h1, ?_, by simp⟩
      simp only [true_iff]
      rintro ⟨G, T, hG, hb⟩
      obtain ⟨g, hg, hgn, hsub⟩ := hcomb G T hG hb
      obtain ⟨g1, g2, g3, -⟩ := hgprop g hg
      obtain ⟨cut, c1, c2, h | h⟩ := hbody g g1 g2 g3
      · have := h2 g hg
        rw [h.2.2] at this
        simp at this
      · refine h.1 ⟨?_, hbad _ _ hsub hb⟩
        have hT : T ⊆ cut.toFinset := by
          intro c hc
          rw [List.mem_toFinset, c2]
          exact fun i hi => hG.2.2.2 i (hsub hi) hc
        have := Finset.card_le_card hT
        rw [List.toFinset_card_of_nodup c1] at this
        exact hG.2.2.1.trans this
    · obtain ⟨g1, g2, g3, -⟩ := hgprop g hg
      obtain ⟨cut, c1, c2, h | h⟩ := hbody g g1 g2 g3
      · rw [h.2.2] at h1
        obtain rfl := (Option.some.inj (Except.ok.inj h1)).symm
        have hC := hcoh g hg cut c1 c2 h.1
        refine ⟨_, h2, ?_, ?_⟩
        · simp only [reduceCtorEq, false_iff, not_not]
          exact ⟨grp p g, _, hC, h.2.1⟩
        · intro w hw
          obtain rfl := (Option.some.inj hw).symm
          refine ⟨rfl, rfl, grp p g, ?_, hC, h.2.1⟩
          intro i hi
          rw [mem_grp] at hi ⊢
          exact g3 _ hi
      · rw [h.2] at h1
        simp at h1

theorem ejrRound_spec (p : Profile) (hp : p.WF) (hu : p.hasUnitWeights = true) (W : List ℕ) (q : ℚ) (hq : 0 < q) (ell : ℕ)
    (hell : 1 ≤ ell) :
    ∃ r, ejrRound p W q ell = .ok r ∧ (r = none ↔ ¬ Found p q (fun G => ∀ i ∈ G, sat p W.toFinset i < ell) ell) ∧
      ∀ w, r = some w → w.ell = ell ∧ w.group = underserved p W ell ∧
        ∃ G : Group p, G ⊆ grp p w.group ∧ Cohesive p q ell G w.joint.toFinset ∧ ∀ i ∈ G, sat p W.toFinset i < ell := by
  refine cohesiveRound_spec p hp hu W q hq ell hell _ _ (fun G H hHG h i hi => h i (hHG hi)) (fun G i h hi => h i hi) ?_
  intro g g1 g2 g3
  have hlt : ∀ x ∈ g, x < p.voters.length := fun x hx => votersWith_lt x (g3 x hx)
  obtain ⟨cut, h1, h2, h3⟩ := interAll_spec p hp g g2 hlt
  have hall : ∀ i ∈ grp p g, sat p W.toFinset i < ell := by
    intro i hi
    have := g3 _ (mem_grp.1 hi)
    unfold underserved at this
    rw [mem_votersWith, voterAt_fin, decide_eq_true_eq, sat_eq hp] at this
    exact this.2
  refine ⟨cut, h2, h3, ?_⟩
  simp only [h1, bind, Except.bind]
  by_cases hc : cut.length ≥ ell
  · exact Or.inl ⟨hc, hall, by rw [if_pos hc]⟩
  · exact Or.inr ⟨fun h => hc h.1, by rw [if_neg hc]⟩

theorem pjrRound_spec (p : Profile) (hp : p.WF) (hu : p.hasUnitWeights = true) (W : List ℕ) (q : ℚ) (hq : 0 < q) (ell : ℕ)
    (hell : 1 ≤ ell) :
    ∃ r, pjrRound p W q ell = .ok r ∧
      (r = none ↔ ¬ Found p q (fun G => (G.biUnion (appr p) ∩ W.toFinset).card < ell) ell) ∧
      ∀ w, r = some w → w.ell = ell ∧ w.group = underserved p W ell ∧
        ∃ G : Group p, G ⊆ grp p w.group ∧ Cohesive p q ell G w.joint.toFinset ∧
          (G.biUnion (appr p) ∩ W.toFinset).card < ell := by
  refine cohesiveRound_spec p hp hu W q hq ell hell _ _ (fun G H hHG h => ?_) (fun G i h hi => ?_) ?_
  · exact lt_of_le_of_lt (Finset.card_le_card (Finset.inter_subset_inter (Finset.biUnion_subset_biUnion_of_subset_left _ hHG) le_rfl)) h
  · exact lt_of_le_of_lt (Finset.card_le_card (Finset.inter_subset_inter (Finset.subset_biUnion_of_mem _ hi) le_rfl)) h
  intro g g1 g2 g3
  have hlt : ∀ x ∈ g, x < p.voters.length := fun x hx => votersWith_lt x (g3 x hx)
  obtain ⟨cut, h1, h2, h3⟩ := interAll_spec p hp g g2 hlt
  refine ⟨cut, h2, h3, ?_⟩
  simp only [h1, bind, Except.bind, unionAll_inter_length p g W hlt]
  by_cases hc : cut.length ≥ ell
  · by_cases hb : ((grp p g).biUnion (appr p) ∩ W.toFinset).card < ell
    · exact Or.inl ⟨hc, hb, by rw [if_pos hc, if_pos hb]⟩
    · exact Or.inr ⟨fun h => hb h.2, by rw [if_pos hc, if_neg hb]⟩
  · exact Or.inr ⟨fun h => hc h.1, by rw [if_neg hc]⟩

/-- the loop over `ell` -/
theorem ellLoop_spec (p : Profile) (hp : p.WF) (q : ℚ) (hq : 0 < q) (round : ℕ → Except Err (Option CohesiveInfo))
    (bad : ℕ → Group p → Prop) (extra : CohesiveInfo → Prop)
    (hround : ∀ ell, 1 ≤ ell → ∃ r, round ell = .ok r ∧ (r = none ↔ ¬ Found p q (bad ell) ell) ∧ ∀ w, r = some w → extra w) :
    ∃ r, (do let bound ← ellUpperBound p q; firstSome (fun ell => round (ell + 1)) (List.range bound)) = .ok r ∧
      (r = none ↔ ∀ ell, ¬ Found p q (bad ell) ell) ∧ ∀ w, r = some w → extra w := by
  obtain ⟨b, hb, hbs⟩ := ellUpperBound_spec p hp q hq
  rw [hb]
  simp only [bind, Except.bind]
  rcases firstSome_spec (fun ell => round (ell + 1)) (List.range b) (fun l _ => by
      obtain ⟨r, h, -⟩ := hround (l + 1) (by omega); exact ⟨r, h⟩) with ⟨h1, h2⟩ | ⟨l, hl, w, h1, h2⟩
  · refine ⟨none, h1, ?_, by simp⟩
    simp only [true_iff]
    rintro ell ⟨G, T, hG, hbad⟩
    obtain ⟨n, rfl⟩ : ∃ n, ell = n + 1 := ⟨ell - 1, by have := hG.1; omega⟩
    have hle : n + 1 ≤ b := (hbs _).2 (le_trans hG.2.1 (wt_le_total hp G))
    obtain ⟨r, e1, e2, -⟩ := hround (n + 1) (by omega)
    have := h2 n (by simp; omega)
    simp only [e1] at this
    exact e2.1 (Except.ok.inj this) ⟨G, T, hG, hbad⟩
  · obtain ⟨r, e1, e2, e3⟩ := hround (l + 1) (by omega)
    simp only [e1] at h1
    obtain rfl := Except.ok.inj h1
    refine ⟨some w, h2, ?_, ?_⟩
    · simp only [reduceCtorEq, false_iff, not_forall, not_not]
      refine ⟨l + 1, ?_⟩
      by_contra hno
      exact absurd (e2.2 hno) (by simp)
    · intro w' hw
      exact e3 w' hw

theorem EJR_iff_found (p : Profile) (W : Finset ℕ) (q : ℚ) :
    EJR p W q ↔ ∀ ell, ¬ Found p q (fun G => ∀ i ∈ G, sat p W i < ell) ell := by
  unfold EJR Found
  constructor
  · rintro h ell ⟨G, T, hG, hbad⟩
    obtain ⟨i, hi, hle⟩ := h ell G T hG
    exact absurd (hbad i hi) (by omega)
  · intro h ell G T hG
    by_contra hno
    push Not at hno
    exact h ell ⟨G, T, hG, hno⟩

theorem PJR_iff_found (p : Profile) (W : Finset ℕ) (q : ℚ) :
    PJR p W q ↔ ∀ ell, ¬ Found p q (fun G => (G.biUnion (appr p) ∩ W).card < ell) ell := by
  unfold PJR Found
  constructor
  · rintro h ell ⟨G, T, hG, hbad⟩
    exact absurd hbad (not_lt.2 (h ell G T hG))
  · intro h ell G T hG
    by_contra hno
    exact h ell ⟨G, T, hG, not_le.1 hno⟩

/-- C53: on profiles with unit weights the brute-force `check_EJR` decides EJR. -/
theorem C53_check_EJR (p : Profile) (hp : p.WF) (hu : p.hasUnitWeights = true) (W : List ℕ) (hW : W.Nodup)
    (hlt : ∀ c ∈ W, c < p.numCand) (quota : Option ℚ) (hq : 0 < quotaValue p W.length quota) :
    ∃ b, checkEJR p (W.map Int.ofNat) quota = .ok b ∧ (b = true ↔ EJR p W.toFinset (quotaValue p W.length quota)) := by
  refine checkWith_spec _ (EJR p) p hp W hW hlt quota hq (fun V _ _ => ?_) ?_
  · obtain ⟨r, h1, h2, -⟩ := ellLoop_spec p hp _ hq (ejrRound p V (quotaValue p W.length quota))
      (fun ell G => ∀ i ∈ G, sat p V.toFinset i < ell) (fun _ => True)
      (fun ell hell => by obtain ⟨r, a, b, -⟩ := ejrRound_spec p hp hu V _ hq ell hell; exact ⟨r, a, b, fun _ _ => trivial⟩)
    exact ⟨r, h1, h2.trans (EJR_iff_found p V.toFinset _).symm⟩
  · intro he ell G T hG
    have h1 := hG.2.1
    rw [wt_of_empty he] at h1
    have h2 : (0 : ℚ) < ell := by exact_mod_cast hG.1
    have := mul_pos h2 hq
    linarith

/-- C54: on profiles with unit weights the brute-force `check_PJR` decides PJR. -/
theorem C54_check_PJR (p : Profile) (hp : p.WF) (hu : p.hasUnitWeights = true) (W : List ℕ) (hW : W.Nodup)
    (hlt : ∀ c ∈ W, c < p.numCand) (quota : Option ℚ) (hq : 0 < quotaValue p W.length quota) :
    ∃ b, checkPJR p (W.map Int.ofNat) quota = .ok b ∧ (b = true ↔ PJR p W.toFinset (quotaValue p W.length quota)) := by
  refine checkWith_spec _ (PJR p) p hp W hW hlt quota hq (fun V _ _ => ?_) ?_
  · obtain ⟨r, h1, h2, -⟩ := ellLoop_spec p hp _ hq (pjrRound p V (quotaValue p W.length quota))
      (fun ell G => (G.biUnion (appr p) ∩ V.toFinset).card < ell) (fun _ => True)
      (fun ell hell => by obtain ⟨r, a, b, -⟩ := pjrRound_spec p hp hu V _ hq ell hell; exact ⟨r, a, b, fun _ _ => trivial⟩)
    exact ⟨r, h1, h2.trans (PJR_iff_found p V.toFinset _).symm⟩
  · intro he ell G T hG
    have h1 := hG.2.1
    rw [wt_of_empty he] at h1
    have h2 : (0 : ℚ) < ell := by exact_mod_cast hG.1
    have := mul_pos h2 hq
    linarith

/-- A single voter of weight 2 who approves candidate 0. -/
def weightedExample : Profile := ⟨2, [⟨[0], 2⟩], []⟩

theorem weightedExample_wf : weightedExample.WF := ⟨by decide, by decide, by decide, by decide +kernel⟩

theorem weightedExample_not_PJR : ¬ PJR weightedExample {1} (quotaValue weightedExample 1 none) := by
  intro h
  have h1 : (2 : ℚ) ≤ wt weightedExample Finset.univ := by decide +kernel
  have h2 : quotaValue weightedExample 1 none = 2 := by decide +kernel
  have := h 1 Finset.univ {0} ⟨le_rfl, by rw [h2]; norm_num; exact h1, by simp, by decide +kernel⟩
  revert this
  decide +kernel

/-- C53/C54, finding: on weighted profiles the brute-force checks count voters instead of weight; both return `True` for a
committee that leaves the only voter unrepresented. -/
theorem C53_weighted_fails : weightedExample.WF ∧ checkEJR weightedExample [1] none = .ok true ∧
    ¬ EJR weightedExample {1} (quotaValue weightedExample 1 none) := by
  refine ⟨weightedExample_wf, by decide +kernel, ?_⟩
  intro h
  refine weightedExample_not_PJR ?_
  intro ell G T hG
  obtain ⟨i, hi, hle⟩ := h ell G T hG
  exact hle.trans (Finset.card_le_card (Finset.inter_subset_inter (Finset.subset_biUnion_of_mem _ hi) le_rfl))

theorem C54_weighted_fails : weightedExample.WF ∧ checkPJR weightedExample [1] none = .ok true ∧
    ¬ PJR weightedExample {1} (quotaValue weightedExample 1 none) :=
  ⟨weightedExample_wf, by decide +kernel, weightedExample_not_PJR⟩

/-- C59 for the brute-force `check_EJR` (unit weights): the reported `ell` and joint candidates are genuine, i.e. some subgroup of
the reported group is `ell`-cohesive with these joint candidates and violates EJR. -/
theorem C59_EJR_witness (p : Profile) (hp : p.WF) (hu : p.hasUnitWeights = true) (W : List ℕ) (q : ℚ) (hq : 0 < q)
    (w : CohesiveInfo) (h : checkEJRInner p W q = .ok (some w)) :
    ∃ G : Group p, G ⊆ grp p w.group ∧ Cohesive p q w.ell G w.joint.toFinset ∧ ∀ i ∈ G, sat p W.toFinset i < w.ell := by
  obtain ⟨r, h1, -, h3⟩ := ellLoop_spec p hp _ hq (ejrRound p W q)
      (fun ell G => ∀ i ∈ G, sat p W.toFinset i < ell)
      (fun w => ∃ G : Group p, G ⊆ grp p w.group ∧ Cohesive p q w.ell G w.joint.toFinset ∧ ∀ i ∈ G, sat p W.toFinset i < w.ell)
      (fun ell hell => by
        obtain ⟨r, a, b, c⟩ := ejrRound_spec p hp hu W _ hq ell hell
        refine ⟨r, a, b, fun w hw => ?_⟩
        obtain ⟨rfl, -, G, hG⟩ := c w hw
        exact ⟨G, hG⟩)
  have h4 : checkEJRInner p W q = .ok r := h1
  rw [h4] at h
  exact h3 w (Except.ok.inj h)

/-- C59 for the brute-force `check_PJR` (unit weights): as for EJR. -/
theorem C59_PJR_witness (p : Profile) (hp : p.WF) (hu : p.hasUnitWeights = true) (W : List ℕ) (q : ℚ) (hq : 0 < q)
    (w : CohesiveInfo) (h : checkPJRInner p W q = .ok (some w)) :
    ∃ G : Group p, G ⊆ grp p w.group ∧ Cohesive p q w.ell G w.joint.toFinset ∧
      (G.biUnion (appr p) ∩ W.toFinset).card < w.ell := by
  obtain ⟨r, h1, -, h3⟩ := ellLoop_spec p hp _ hq (pjrRound p W q)
      (fun ell G => (G.biUnion (appr p) ∩ W.toFinset).card < ell)
      (fun w => ∃ G : Group p, G ⊆ grp p w.group ∧ Cohesive p q w.ell G w.joint.toFinset ∧
        (G.biUnion (appr p) ∩ W.toFinset).card < w.ell)
      (fun ell hell => by
        obtain ⟨r, a, b, c⟩ := pjrRound_spec p hp hu W _ hq ell hell
        refine ⟨r, a, b, fun w hw => ?_⟩
        obtain ⟨rfl, -, G, hG⟩ := c w hw
        exact ⟨G, hG⟩)
  have h4 : checkPJRInner p W q = .ok r := h1
  rw [h4] at h
  exact h3 w (Except.ok.inj h)

/-- Four voters approving `{0}`, `{0}`, `{1}`, `{2}`. -/
def fourVoters : Profile := ⟨5, [⟨[0], 1⟩, ⟨[0], 1⟩, ⟨[1], 1⟩, ⟨[2], 1⟩], []⟩

/-- C59, finding: the reported `cohesive_group` itself need not be cohesive: it is the list of all under-represented voters.
Here all four voters are reported to jointly approve candidate 0. -/
theorem C59_EJR_group_wrong : fourVoters.WF ∧
    checkEJRInner fourVoters [3, 4] 2 = .ok (some ⟨[0, 1, 2, 3], 1, [0]⟩) ∧
    checkPJRInner fourVoters [3, 4] 2 = .ok (some ⟨[0, 1, 2, 3], 1, [0]⟩) ∧
    ¬ ∀ i ∈ grp fourVoters [0, 1, 2, 3], {0} ⊆ appr fourVoters i := by
  refine ⟨⟨by decide, by decide, by decide, by decide +kernel⟩, by decide +kernel, by decide +kernel, ?_⟩
  intro h
  have := h (⟨2, by decide⟩ : Fin fourVoters.voters.length) (by decide +kernel)
  revert this
  decide +kernel

/-- Non-vacuity for C53, C54, C59. -/
example : fourVoters.hasUnitWeights = true ∧ 0 < quotaValue fourVoters 2 none ∧ checkEJR fourVoters [3, 4] none = .ok false ∧
    checkPJR fourVoters [0, 1] none = .ok true := by decide +kernel

/-! ## EJR+ -/

/-- supporters of `c` with fewer than `l` approved committee members -/
def supp (p : Profile) (W : List ℕ) (c l : ℕ) : List ℕ :=
  p.votersWith (fun v => decide (c ∈ v.approved) && decide ((inter v.approved W).length < l))

theorem supp_succ (p : Profile) (W : List ℕ) (c l : ℕ) :
    (supp p W c l ++ p.votersWith (fun v => decide (c ∈ v.approved) && decide ((inter v.approved W).length = l))).Perm
      (supp p W c (l + 1)) := by
  rw [List.perm_ext_iff_of_nodup]
  · intro x
    unfold supp
    simp only [List.mem_append, mem_votersWith, Bool.and_eq_true, decide_eq_true_eq]
    rw [Nat.lt_succ_iff_lt_or_eq]
    tauto
  · rw [List.nodup_append]
    refine ⟨votersWith_nodup _ _, votersWith_nodup _ _, ?_⟩
    rintro a ha b hb rfl
    unfold supp at ha
    rw [mem_votersWith] at ha hb
    simp only [Bool.and_eq_true, decide_eq_true_eq] at ha hb
    omega
  · exact votersWith_nodup _ _

theorem ejrPlusLoop_spec (p : Profile) (W : List ℕ) (q : ℚ) (c n ell : ℕ) (g : List ℕ) (hg : g.Perm (supp p W c ell)) :
    (ejrPlusLoop p q c (fun u => p.votersWith (fun v => decide (c ∈ v.approved) && decide ((inter v.approved W).length = u)))
        n ell g = none ∧
      ∀ l, ell < l → l ≤ ell + n → p.groupWeight (supp p W c l) < (l : ℚ) * q) ∨
    (∃ g' l, ell < l ∧ l ≤ ell + n ∧ g'.Perm (supp p W c l) ∧ (l : ℚ) * q ≤ p.groupWeight (supp p W c l) ∧
      ejrPlusLoop p q c (fun u => p.votersWith (fun v => decide (c ∈ v.approved) && decide ((inter v.approved W).length = u)))
        n ell g = some (g', c, l)) := by
  induction n generalizing ell g with
  | zero => exact Or.inl ⟨rfl, fun l h1 h2 => by omega⟩
  | succ n ih =>
    unfold ejrPlusLoop
    simp only
    have hg' : (g ++ p.votersWith (fun v => decide (c ∈ v.approved) && decide ((inter v.approved W).length = ell))).Perm
        (supp p W c (ell + 1)) := (hg.append_right _).trans (supp_succ p W c ell)
    have hcast : ((ell : ℚ) + 1) = ((ell + 1 : ℕ) : ℚ) := by push_cast; ring
    split
    · rename_i h
      rw [groupWeight_perm p hg', hcast] at h
      exact Or.inr ⟨_, ell + 1, by omega, by omega, hg', h, rfl⟩
    · rename_i h
      rw [groupWeight_perm p hg', hcast] at h
      rcases ih (ell + 1) _ hg' with ⟨h1, h2⟩ | ⟨g', l, h1, h2, h3, h4, h5⟩
      · refine Or.inl ⟨h1, ?_⟩
        intro l hl1 hl2
        by_cases he : l = ell + 1
        · subst he; exact not_le.1 h
        · exact h2 l (by omega) (by omega)
      · exact Or.inr ⟨g', l, by omega, by omega, h3, h4, h5⟩

theorem mem_grp_supp {p : Profile} (hp : p.WF) {W : List ℕ} {c l : ℕ} {i : Fin p.voters.length} :
    i ∈ grp p (supp p W c l) ↔ c ∈ appr p i ∧ sat p W.toFinset i < l := by
  unfold supp
  rw [mem_grp_votersWith]
  simp only [Bool.and_eq_true, decide_eq_true_eq, sat_eq hp, mem_appr]

theorem checkEJRPlusInner_spec (p : Profile) (hp : p.WF) (W : List ℕ) (q : ℚ) (hq : 0 < q)
    (hsat : ∀ i, (sat p W.toFinset i : ℚ) * q ≤ total p) :
    ∃ r, checkEJRPlusInner p W q = .ok r ∧ (r = none ↔ EJRplus p W.toFinset q) ∧
      ∀ g c l, r = some (g, c, l) → 1 ≤ l ∧ c ∉ W ∧ (l : ℚ) * q ≤ wt p (grp p g) ∧
        ∀ i ∈ grp p g, c ∈ appr p i ∧ sat p W.toFinset i < l := by
  obtain ⟨b, hb, hbs⟩ := ellUpperBound_spec p hp q hq
  unfold checkEJRPlusInner
  rw [hb]
  simp only [bind, Except.bind]
  have hnokey : ∀ c, p.voters.any (fun v => decide (c ∈ v.approved) && decide (b < (inter v.approved W).length)) = false := by
    intro c
    rw [List.any_eq_false]
    intro v hv
    simp only [Bool.and_eq_true, decide_eq_true_eq, not_and, not_lt]
    intro _
    obtain ⟨i, rfl⟩ := List.mem_iff_get.1 hv
    rw [sat_eq hp]
    exact (hbs _).2 (hsat i)
  have hcand : ∀ c, (ejrPlusCand p W q b c = .ok none ∧ (c ∈ W ∨ ∀ l : ℕ, 0 < l → l ≤ b → p.groupWeight (supp p W c l) < (l : ℚ) * q)) ∨
      (c ∉ W ∧ ∃ (g : List ℕ) (l : ℕ), 0 < l ∧ g.Perm (supp p W c l) ∧ (l : ℚ) * q ≤ p.groupWeight (supp p W c l) ∧
        ejrPlusCand p W q b c = .ok (some (g, c, l))) := by
    intro c
    unfold ejrPlusCand
    by_cases hc : c ∈ W
    · exact Or.inl ⟨if_pos hc, Or.inl hc⟩
    · rw [if_neg hc, if_neg (by rw [hnokey c]; simp)]
      rcases ejrPlusLoop_spec p W q c b 0 [] (by
          have : supp p W c 0 = [] := by simp [supp, Profile.votersWith]
          rw [this]) with ⟨h1, h2⟩ | ⟨g, l, h1, h2, h3, h4, h5⟩
      · exact Or.inl ⟨by rw [h1], Or.inr (fun l hl1 hl2 => h2 l hl1 (by omega))⟩
      · exact Or.inr ⟨hc, g, l, h1, h3, h4, by rw [h5]⟩
  rcases firstSome_spec (ejrPlusCand p W q b) p.candidates (fun c _ => by
      rcases hcand c with h | ⟨-, g, l, -, -, -, h⟩
      · exact ⟨_, h.1⟩
      · exact ⟨_, h⟩) with ⟨h1, h2⟩ | ⟨c, hc, w, h1, h2⟩
  · refine ⟨none, h1, ?_, by simp⟩
    simp only [true_iff]
    intro l G c hl hG hcW hcG
    by_contra hno
    push Not at hno
    have hlq : 0 < (l : ℚ) * q := mul_pos (by exact_mod_cast hl) hq
    obtain ⟨i0, hi0⟩ := nonempty_of_wt hlq hG
    have hcm : c ∈ p.candidates := by simpa [Profile.candidates] using appr_lt hp (hcG i0 hi0)
    rcases hcand c with ⟨-, h | h⟩ | ⟨-, g, l', -, -, -, h⟩
    · exact hcW (by simpa using h)
    · have h3 := h l hl ((hbs l).2 (hG.trans (wt_le_total hp G)))
      have h4 : wt p G ≤ p.groupWeight (supp p W c l) := by
        unfold supp
        refine wt_le_votersWith hp _ G (fun i hi => ?_)
        simp only [Bool.and_eq_true, decide_eq_true_eq, sat_eq hp]
        exact ⟨mem_appr.1 (hcG i hi), hno i hi⟩
      linarith
    · rw [h2 c hcm] at h
      simp at h
  · rcases hcand c with h | ⟨hcW, g, l, hl, hg, hw, h⟩
    · rw [h.1] at h1
      simp at h1
    · rw [h] at h1
      obtain rfl := (Option.some.inj (Except.ok.inj h1)).symm
      have hgrp : grp p g = grp p (supp p W c l) := by
        ext i
        rw [mem_grp, mem_grp, hg.mem_iff]
      have hw' : (l : ℚ) * q ≤ wt p (grp p g) := by
        rw [hgrp]
        unfold supp at hw ⊢
        rwa [groupWeight_votersWith] at hw
      have hm : ∀ i ∈ grp p g, c ∈ appr p i ∧ sat p W.toFinset i < l := by
        intro i hi
        rw [hgrp] at hi
        exact (mem_grp_supp hp).1 hi
      refine ⟨_, h2, ?_, ?_⟩
      · simp only [reduceCtorEq, false_iff]
        intro hE
        obtain ⟨i, hi, hle⟩ := hE l (grp p g) c hl hw' (by simpa using hcW) (fun i hi => (hm i hi).1)
        have := (hm i hi).2
        omega
      · intro g' c' l' he
        simp only [Option.some.injEq, Prod.mk.injEq] at he
        obtain ⟨rfl, rfl, rfl⟩ := he
        exact ⟨hl, hcW, hw', hm⟩

/-- C55: `check_EJR_plus` decides EJR+, provided no voter approves more committee members than the whole electorate deserves
(`sat · quota ≤ total weight`); for the default quota this always holds. -/
theorem C55_check_EJR_plus (p : Profile) (hp : p.WF) (W : List ℕ) (hW : W.Nodup) (hlt : ∀ c ∈ W, c < p.numCand)
    (quota : Option ℚ) (hq : 0 < quotaValue p W.length quota)
    (hsat : ∀ i, (sat p W.toFinset i : ℚ) * quotaValue p W.length quota ≤ total p) :
    ∃ b, checkEJRPlus p (W.map Int.ofNat) quota = .ok b ∧
      (b = true ↔ EJRplus p W.toFinset (quotaValue p W.length quota)) := by
  refine checkWith_spec _ (EJRplus p) p hp W hW hlt quota hq (fun V _ he => ?_) ?_
  · obtain ⟨r, h1, h2, -⟩ := checkEJRPlusInner_spec p hp V _ hq (by rw [he]; exact hsat)
    exact ⟨r, h1, h2⟩
  · intro he ell G c hl hG
    rw [wt_of_empty he] at hG
    have := mul_pos (show (0 : ℚ) < ell by exact_mod_cast hl) hq
    linarith

/-- C55 for the default quota: no side condition. -/
theorem C55_check_EJR_plus_default (p : Profile) (hp : p.WF) (W : List ℕ) (hW : W.Nodup) (hlt : ∀ c ∈ W, c < p.numCand)
    (hne : W ≠ []) (hv : p.voters ≠ []) :
    ∃ b, checkEJRPlus p (W.map Int.ofNat) none = .ok b ∧ (b = true ↔ EJRplus p W.toFinset (total p / W.length)) := by
  have hk : (0 : ℚ) < W.length := by exact_mod_cast List.length_pos_iff.2 hne
  have ht := total_pos hp hv
  refine C55_check_EJR_plus p hp W hW hlt none (by simp only [quotaValue, Option.getD_none]; positivity) ?_
  intro i
  simp only [quotaValue, Option.getD_none]
  have h1 : (sat p W.toFinset i : ℚ) ≤ W.length := by
    have := sat_le_card p W.toFinset i
    rw [List.toFinset_card_of_nodup hW] at this
    exact_mod_cast this
  calc (sat p W.toFinset i : ℚ) * (total p / W.length) ≤ W.length * (total p / W.length) :=
        mul_le_mul_of_nonneg_right h1 (by positivity)
    _ = total p := by field_simp

/-- C55, finding: with a larger custom quota `check_EJR_plus` raises KeyError. -/
theorem C55_large_quota_KeyError : (⟨3, [⟨[0, 1, 2], 1⟩], []⟩ : Profile).WF ∧
    checkEJRPlus ⟨3, [⟨[0, 1, 2], 1⟩], []⟩ [0, 1] (some 1) = .error .keyError :=
  ⟨⟨by decide, by decide, by decide, by decide +kernel⟩, by decide +kernel⟩

/-- C59 for `check_EJR_plus`. -/
theorem C59_EJRplus_witness (p : Profile) (hp : p.WF) (W : List ℕ) (q : ℚ) (hq : 0 < q)
    (hsat : ∀ i, (sat p W.toFinset i : ℚ) * q ≤ total p) (g : List ℕ) (c l : ℕ)
    (h : checkEJRPlusInner p W q = .ok (some (g, c, l))) :
    1 ≤ l ∧ c ∉ W ∧ (l : ℚ) * q ≤ wt p (grp p g) ∧ ∀ i ∈ grp p g, c ∈ appr p i ∧ sat p W.toFinset i < l := by
  obtain ⟨r, h1, -, h3⟩ := checkEJRPlusInner_spec p hp W q hq hsat
  rw [h1] at h
  exact h3 g c l (Except.ok.inj h)

/-- Non-vacuity for C55: a violation with the default quota is found. -/
example : checkEJRPlus fourVoters [3, 4] none = .ok false ∧ checkEJRPlus fourVoters [0, 1] none = .ok true := by
  decide +kernel

/-! ## FJR -/

/-- `l` lists the candidates approved by at least one voter (in any order). -/
def ListsApproved (p : Profile) (l : List ℕ) : Prop := l.Nodup ∧ ∀ c, c ∈ l ↔ ∃ i, c ∈ appr p i

theorem approvedCandidates_lists (p : Profile) : ListsApproved p p.approvedCandidates := by
  have e : p.approvedCandidates = unionAll (p.voters.map Voter.approved) := by
    unfold Profile.approvedCandidates unionAll
    rw [List.foldl_map]
  rw [e]
  refine ⟨unionAll_nodup _, ?_⟩
  intro c
  rw [mem_unionAll]
  constructor
  · rintro ⟨s, hs, hc⟩
    obtain ⟨v, hv, rfl⟩ := List.mem_map.1 hs
    obtain ⟨i, rfl⟩ := List.mem_iff_get.1 hv
    exact ⟨i, mem_appr.2 hc⟩
  · rintro ⟨i, hi⟩
    exact ⟨_, List.mem_map.2 ⟨_, List.get_mem p.voters i, rfl⟩, mem_appr.1 hi⟩

theorem exists_powerset {p : Profile} {ap : List ℕ} (hap : ListsApproved p ap) (T : Finset ℕ) (b : ℕ) (hb : T.card ≤ b) :
    ∃ l ∈ powerset ap (some b), l.Nodup ∧ l.length ≤ T.card ∧ ∀ i, appr p i ∩ T = appr p i ∩ l.toFinset := by
  set T' := T.filter (fun c => c ∈ ap) with hT'
  have hcard : T'.card ≤ T.card := Finset.card_filter_le _ _
  obtain ⟨l, hl, e, hn⟩ := (C10_powerset_complete ap (some b) T' hap.1).2
    ⟨fun c hc => by simpa using (Finset.mem_filter.1 hc).2, by simpa using hcard.trans hb⟩
  refine ⟨l, hl, hn, ?_, ?_⟩
  · rw [← List.toFinset_card_of_nodup hn, e]; exact hcard
  · intro i
    ext c
    rw [e]
    simp only [Finset.mem_inter, hT', Finset.mem_filter]
    constructor
    · rintro ⟨h1, h2⟩; exact ⟨h1, h2, (hap.2 c).2 ⟨i, h1⟩⟩
    · rintro ⟨h1, h2, -⟩; exact ⟨h1, h2⟩

theorem checkFJRInner_spec (p : Profile) (hp : p.WF) (ap : List ℕ) (hap : ListsApproved p ap) (W : List ℕ) (q : ℚ) (hq : 0 < q) :
    ∃ r, checkFJRInner ap p W q = .ok r ∧ (r = none ↔ FJR p W.toFinset q) ∧
      ∀ w, r = some w → 1 ≤ w.beta ∧ (w.joint.toFinset.card : ℚ) * q ≤ wt p (grp p w.group) ∧
        ∀ i ∈ grp p w.group, w.beta ≤ (appr p i ∩ w.joint.toFinset).card ∧ sat p W.toFinset i < w.beta := by
  obtain ⟨b, hb, hbs⟩ := ellUpperBound_spec p hp q hq
  unfold checkFJRInner
  rw [hb]
  simp only [bind, Except.bind]
  set cond := fun (T : List ℕ) (β : ℕ) (v : Voter) => decide ((inter v.approved T).length ≥ β + 1)
        && decide ((inter v.approved W).length ≤ β) with hcond
  have hc : ∀ T β (i : Fin p.voters.length), cond T β (p.voters.get i) = true ↔
      β + 1 ≤ (appr p i ∩ T.toFinset).card ∧ sat p W.toFinset i < β + 1 := by
    intro T β i
    simp only [hcond, Bool.and_eq_true, decide_eq_true_eq, sat_eq hp, sat]
    omega
  set body := fun (T : List ℕ) (β : ℕ) => (if p.groupWeight (p.votersWith (cond T β)) ≥ (T.length : ℚ) * q then
      (Except.ok (some (⟨β + 1, T, p.votersWith (cond T β)⟩ : FJRInfo)) : Except Err (Option FJRInfo)) else .ok none) with hbody
  have hok : ∀ T β, ∃ r, body T β = .ok r := by
    intro T β
    simp only [hbody]
    split
    · exact ⟨_, rfl⟩
    · exact ⟨_, rfl⟩
  have hok2 : ∀ T : List ℕ, ∃ r, firstSome (body T) (List.range T.length) = .ok r := by
    intro T
    rcases firstSome_spec (body T) (List.range T.length) (fun β _ => hok T β) with ⟨h1, -⟩ | ⟨_, _, b, -, h2⟩
    · exact ⟨_, h1⟩
    · exact ⟨_, h2⟩
  rcases firstSome_spec (fun T => firstSome (body T) (List.range T.length)) (powerset ap (some b)) (fun T _ => hok2 T) with
    ⟨h1, h2⟩ | ⟨T, hT, w, h1, h2⟩
  · refine ⟨none, h1, ?_, by simp⟩
    simp only [true_iff]
    intro G T β hne hβ hw hG
    by_contra hno
    push Not at hno
    have hTb : T.card ≤ b := (hbs _).2 (hw.trans (wt_le_total hp G))
    obtain ⟨l, hl, hn, hlen, hint⟩ := exists_powerset hap T b hTb
    obtain ⟨β', rfl⟩ : ∃ β', β = β' + 1 := ⟨β - 1, by omega⟩
    obtain ⟨i0, hi0⟩ := hne
    have hβlt : β' < l.length := by
      have := hG i0 hi0
      rw [hint] at this
      have h3 := Finset.card_le_card (Finset.inter_subset_right (s₁ := appr p i0) (s₂ := l.toFinset))
      rw [List.toFinset_card_of_nodup hn] at h3
      omega
    have h3 := h2 l hl
    rcases firstSome_spec (body l) (List.range l.length) (fun β _ => hok l β) with ⟨-, h5⟩ | ⟨_, _, b, -, h6⟩
    · have h6 := h5 β' (by simpa using hβlt)
      have hle : wt p G ≤ p.groupWeight (p.votersWith (cond l β')) := by
        refine wt_le_votersWith hp _ G (fun i hi => (hc l β' i).2 ⟨?_, hno i hi⟩)
        have := hG i hi
        rwa [hint] at this
      have hge : p.groupWeight (p.votersWith (cond l β')) ≥ (l.length : ℚ) * q := by
        have : (l.length : ℚ) * q ≤ (T.card : ℚ) * q := mul_le_mul_of_nonneg_right (by exact_mod_cast hlen) hq.le
        linarith
      simp only [hbody, if_pos hge] at h6
      simp at h6
    · rw [h3] at h6
      simp at h6
  · rcases firstSome_spec (body T) (List.range T.length) (fun β _ => hok T β) with ⟨h3, -⟩ | ⟨β, hβ, w', h4, h5⟩
    · rw [h3] at h1; simp at h1
    · rw [h5] at h1
      obtain rfl := Option.some.inj (Except.ok.inj h1)
      simp only [hbody] at h4
      split at h4
      · rename_i hge
        obtain rfl := Option.some.inj (Except.ok.inj h4)
        have hTn : T.Nodup := ((C10_mem_powerset _ _ _).1 hT).1.nodup hap.1
        have hw : (T.toFinset.card : ℚ) * q ≤ wt p (grp p (p.votersWith (cond T β))) := by
          rw [List.toFinset_card_of_nodup hTn, ← groupWeight_votersWith]
          exact hge
        have hm : ∀ i ∈ grp p (p.votersWith (cond T β)), β + 1 ≤ (appr p i ∩ T.toFinset).card ∧ sat p W.toFinset i < β + 1 :=
          fun i hi => (hc T β i).1 (mem_grp_votersWith.1 hi)
        refine ⟨_, h2, ?_, ?_⟩
        · simp only [reduceCtorEq, false_iff]
          intro hF
          have hTpos : (0 : ℚ) < T.toFinset.card := by
            rw [List.toFinset_card_of_nodup hTn]
            have : β < T.length := by simpa using hβ
            exact_mod_cast (by omega : 0 < T.length)
          obtain ⟨i, hi, hle⟩ := hF _ T.toFinset (β + 1) (nonempty_of_wt (mul_pos hTpos hq) hw) (by omega) hw (fun i hi => (hm i hi).1)
          have := (hm i hi).2
          omega
        · intro w hw'
          obtain rfl := Option.some.inj hw'
          exact ⟨by simp, hw, hm⟩
      · simp at h4

/-- C56: the brute-force `check_FJR` decides full justified representation (weighted profiles included). -/
theorem C56_check_FJR (p : Profile) (hp : p.WF) (ap : List ℕ) (hap : ListsApproved p ap) (W : List ℕ) (hW : W.Nodup)
    (hlt : ∀ c ∈ W, c < p.numCand) (quota : Option ℚ) (hq : 0 < quotaValue p W.length quota) :
    ∃ b, checkFJR ap p (W.map Int.ofNat) quota = .ok b ∧ (b = true ↔ FJR p W.toFinset (quotaValue p W.length quota)) := by
  refine checkWith_spec _ (FJR p) p hp W hW hlt quota hq (fun V _ _ => ?_) ?_
  · obtain ⟨r, h1, h2, -⟩ := checkFJRInner_spec p hp ap hap V _ hq
    exact ⟨r, h1, h2⟩
  · rintro he G T β ⟨i, -⟩
    have h1 := i.2
    have h2 : p.voters.length = 0 := by rw [he]; rfl
    omega

/-- C59 for `check_FJR`. -/
theorem C59_FJR_witness (p : Profile) (hp : p.WF) (ap : List ℕ) (hap : ListsApproved p ap) (W : List ℕ) (q : ℚ) (hq : 0 < q)
    (w : FJRInfo) (h : checkFJRInner ap p W q = .ok (some w)) :
    1 ≤ w.beta ∧ (w.joint.toFinset.card : ℚ) * q ≤ wt p (grp p w.group) ∧
      ∀ i ∈ grp p w.group, w.beta ≤ (appr p i ∩ w.joint.toFinset).card ∧ sat p W.toFinset i < w.beta := by
  obtain ⟨r, h1, -, h3⟩ := checkFJRInner_spec p hp ap hap W q hq
  rw [h1] at h
  exact h3 w (Except.ok.inj h)

/-! ## Core -/

theorem checkCoreInner_spec (p : Profile) (hp : p.WF) (ap : List ℕ) (hap : ListsApproved p ap) (W : List ℕ) (q : ℚ) (hq : 0 < q) :
    ∃ r, checkCoreInner ap p W q = .ok r ∧ (r = none ↔ Core p W.toFinset q) ∧
      ∀ g T, r = some (g, T) → (grp p g).Nonempty ∧ (T.toFinset.card : ℚ) * q ≤ wt p (grp p g) ∧
        ∀ i ∈ grp p g, sat p W.toFinset i < (appr p i ∩ T.toFinset).card := by
  obtain ⟨b, hb, hbs⟩ := ellUpperBound_spec p hp q hq
  unfold checkCoreInner
  rw [hb]
  simp only [bind, Except.bind]
  set cond := fun (T : List ℕ) (v : Voter) => decide ((inter v.approved T).length > (inter v.approved W).length) with hcond
  have hc : ∀ T (i : Fin p.voters.length), cond T (p.voters.get i) = true ↔
      sat p W.toFinset i < (appr p i ∩ T.toFinset).card := by
    intro T i
    simp only [hcond, decide_eq_true_eq, sat_eq hp, gt_iff_lt, sat]
  set body := fun (T : List ℕ) => (if p.votersWith (cond T) = [] then (Except.ok none : Except Err (Option (List ℕ × List ℕ)))
    else if (T.length : ℚ) * q ≤ p.groupWeight (p.votersWith (cond T)) then .ok (some (p.votersWith (cond T), T)) else .ok none)
    with hbody
  rcases firstSome_spec body (powerset ap (some b)) (fun T _ => by
      simp only [hbody]
      split
      · exact ⟨_, rfl⟩
      · split
        · exact ⟨_, rfl⟩
        · exact ⟨_, rfl⟩) with ⟨h1, h2⟩ | ⟨T, hT, w, h1, h2⟩
  · refine ⟨none, h1, ?_, by simp⟩
    simp only [true_iff]
    intro G T hne hw
    by_contra hno
    push Not at hno
    have hTb : T.card ≤ b := (hbs _).2 (hw.trans (wt_le_total hp G))
    obtain ⟨l, hl, hn, hlen, hint⟩ := exists_powerset hap T b hTb
    have h3 := h2 l hl
    have hin : ∀ i ∈ G, cond l (p.voters.get i) = true := by
      intro i hi
      rw [hc, ← hint]
      exact hno i hi
    have hle : wt p G ≤ p.groupWeight (p.votersWith (cond l)) := wt_le_votersWith hp _ G hin
    obtain ⟨i0, hi0⟩ := hne
    have hnil : p.votersWith (cond l) ≠ [] :=
      List.ne_nil_of_mem (a := (i0 : ℕ)) (mem_grp.1 (mem_grp_votersWith.2 (hin i0 hi0)))
    have hge : (l.length : ℚ) * q ≤ p.groupWeight (p.votersWith (cond l)) := by
      have : (l.length : ℚ) * q ≤ (T.card : ℚ) * q := mul_le_mul_of_nonneg_right (by exact_mod_cast hlen) hq.le
      linarith
    simp only [hbody, if_neg hnil, if_pos hge] at h3
    simp at h3
  · simp only [hbody] at h1
    split at h1
    · simp at h1
    · rename_i hnil
      split at h1
      · rename_i hge
        obtain rfl := Option.some.inj (Except.ok.inj h1)
        have hTn : T.Nodup := ((C10_mem_powerset _ _ _).1 hT).1.nodup hap.1
        have hne : (grp p (p.votersWith (cond T))).Nonempty := by
          obtain ⟨x, hx⟩ := List.exists_mem_of_ne_nil _ hnil
          exact ⟨⟨x, votersWith_lt x hx⟩, mem_grp.2 hx⟩
        have hw : (T.toFinset.card : ℚ) * q ≤ wt p (grp p (p.votersWith (cond T))) := by
          rw [List.toFinset_card_of_nodup hTn, ← groupWeight_votersWith]
          exact hge
        have hm : ∀ i ∈ grp p (p.votersWith (cond T)), sat p W.toFinset i < (appr p i ∩ T.toFinset).card :=
          fun i hi => (hc T i).1 (mem_grp_votersWith.1 hi)
        refine ⟨_, h2, ?_, ?_⟩
        · simp only [reduceCtorEq, false_iff]
          intro hC
          obtain ⟨i, hi, hle⟩ := hC _ T.toFinset hne hw
          have := hm i hi
          omega
        · intro g T' he
          simp only [Option.some.injEq, Prod.mk.injEq] at he
          obtain ⟨rfl, rfl⟩ := he
          exact ⟨hne, hw, hm⟩
      · simp at h1

/-- C57: the brute-force `check_core` decides core stability (weighted profiles included). -/
theorem C57_check_core (p : Profile) (hp : p.WF) (ap : List ℕ) (hap : ListsApproved p ap) (W : List ℕ) (hW : W.Nodup)
    (hlt : ∀ c ∈ W, c < p.numCand) (quota : Option ℚ) (hq : 0 < quotaValue p W.length quota) :
    ∃ b, checkCore ap p (W.map Int.ofNat) quota = .ok b ∧ (b = true ↔ Core p W.toFinset (quotaValue p W.length quota)) := by
  refine checkWith_spec _ (Core p) p hp W hW hlt quota hq (fun V _ _ => ?_) ?_
  · obtain ⟨r, h1, h2, -⟩ := checkCoreInner_spec p hp ap hap V _ hq
    exact ⟨r, h1, h2⟩
  · rintro he G T ⟨i, -⟩
    have h1 := i.2
    have h2 : p.voters.length = 0 := by rw [he]; rfl
    omega

/-- C59 for `check_core`. -/
theorem C59_core_witness (p : Profile) (hp : p.WF) (ap : List ℕ) (hap : ListsApproved p ap) (W : List ℕ) (q : ℚ) (hq : 0 < q)
    (g T : List ℕ) (h : checkCoreInner ap p W q = .ok (some (g, T))) :
    (grp p g).Nonempty ∧ (T.toFinset.card : ℚ) * q ≤ wt p (grp p g) ∧
      ∀ i ∈ grp p g, sat p W.toFinset i < (appr p i ∩ T.toFinset).card := by
  obtain ⟨r, h1, -, h3⟩ := checkCoreInner_spec p hp ap hap W q hq
  rw [h1] at h
  exact h3 g T (Except.ok.inj h)

/-- Non-vacuity for C56, C57: the listing produced by `approved_candidates`. -/
example : ListsApproved fourVoters fourVoters.approvedCandidates ∧
    checkFJR fourVoters.approvedCandidates fourVoters [3, 4] none = .ok false ∧
    checkFJR fourVoters.approvedCandidates fourVoters [0, 1] none = .ok true ∧
    checkCore fourVoters.approvedCandidates fourVoters [3, 4] none = .ok false ∧
    checkCore fourVoters.approvedCandidates fourVoters [0, 1] none = .ok true :=
  ⟨approvedCandidates_lists _, by decide +kernel, by decide +kernel, by decide +kernel, by decide +kernel⟩

end Abc
