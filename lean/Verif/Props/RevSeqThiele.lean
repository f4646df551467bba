import Verif.Props.SeqThiele

/-!
# C28: reverse sequential Thiele methods
-/

namespace Abc
open Spec

theorem marginalRemove_loss (f : ℕ → ℚ) (p : Profile) (hp : p.WF) (W : List ℕ) (c : ℕ) (hc : c < p.numCand) (hW : c ∈ W) :
    (marginalRemove f p W).getD c 0 = loss f p W.toFinset c := by
  rw [marginalRemove_mem f p hp W c hc hW]
  unfold loss
  rw [score_erase f p _ c (by simpa using hW)]

/-- The candidates considered for removal are exactly the members of minimal loss. -/
theorem mem_tiedMin_marginalRemove (f : ℕ → ℚ) (p : Profile) (hp : p.WF) (W : List ℕ) (hW : ∀ c ∈ W, c < p.numCand)
    (hne : W ≠ []) (c : ℕ) :
    c ∈ tiedMin (marginalRemove f p W) ↔ c ∈ W ∧ ∀ d ∈ W, loss f p W.toFinset c ≤ loss f p W.toFinset d := by
  rw [mem_tiedMin, marginalRemove_length]
  constructor
  · rintro ⟨hc, h⟩
    have hcW : c ∈ W := by
      by_contra hcW
      obtain ⟨d, hd⟩ := List.exists_mem_of_ne_nil W hne
      have h1 := h d (hW d hd)
      have h2 := marginalRemove_notMem f p W d c (hW d hd) hd hc hcW
      linarith
    refine ⟨hcW, fun d hd => ?_⟩
    have := h d (hW d hd)
    rwa [marginalRemove_loss f p hp W c hc hcW, marginalRemove_loss f p hp W d (hW d hd) hd] at this
  · rintro ⟨hcW, h⟩
    have hc := hW c hcW
    refine ⟨hc, fun d hd => ?_⟩
    by_cases hdW : d ∈ W
    · rw [marginalRemove_loss f p hp W c hc hcW, marginalRemove_loss f p hp W d hd hdW]
      exact h d hdW
    · exact (marginalRemove_notMem f p W c d hc hcW hd hdW).le

theorem toFinset_erase {W : List ℕ} (h : W.Nodup) (c : ℕ) : (W.erase c).toFinset = W.toFinset.erase c := by
  ext x
  simp [h.mem_erase_iff]

theorem Spec.RevRun.subset {f : ℕ → ℚ} {p : Profile} {A : Finset ℕ} (h : RevRun f p A) : A ⊆ Finset.range p.numCand := by
  induction h with
  | all => exact subset_rfl
  | remove _ _ _ ih => exact (Finset.erase_subset _ _).trans ih

theorem Spec.RevRunLast.revRun {f : ℕ → ℚ} {p : Profile} {A : Finset ℕ} (h : RevRunLast f p A) : RevRun f p A := by
  induction h with
  | all => exact .all
  | remove _ h1 h2 _ ih => exact .remove ih h1 h2

theorem revRun_smaller {f : ℕ → ℚ} {p : Profile} {A : Finset ℕ} (h : RevRun f p A) (hlt : A.card < p.numCand) :
    ∃ W c, RevRun f p W ∧ c ∈ W ∧ (∀ d ∈ W, loss f p W c ≤ loss f p W d) ∧ A = W.erase c ∧ W.card = A.card + 1 := by
  cases h with
  | all => simp at hlt
  | @remove W c h1 h2 h3 =>
    refine ⟨W, c, h1, h2, h3, rfl, ?_⟩
    rw [Finset.card_erase_of_mem h2]
    have := Finset.card_pos.2 ⟨c, h2⟩
    omega

/-! ## resolute -/

theorem revseqLoop_spec (f : ℕ → ℚ) (p : Profile) (hp : p.WF) (n : ℕ) (W : List ℕ) (hW : W.Pairwise (· < ·))
    (hrun : RevRunLast f p W.toFinset) (hlen : n ≤ W.length) :
    ∃ V, revseqLoop f p n W = .ok V ∧ V.Pairwise (· < ·) ∧ RevRunLast f p V.toFinset ∧ V.length = W.length - n := by
  induction n generalizing W with
  | zero => exact ⟨W, rfl, hW, hrun, by simp⟩
  | succ n ih =>
    have hn := nodup_of_lt hW
    have hne : W ≠ [] := by rintro rfl; simp at hlen
    have hlt : ∀ c ∈ W, c < p.numCand := fun c hc => by
      have := hrun.revRun.subset (List.mem_toFinset.2 hc)
      simpa using this
    have hmne : marginalRemove f p W ≠ [] := by
      intro h
      have := congrArg List.length h
      rw [marginalRemove_length] at this
      have := hp.pos
      simp at *
      omega
    unfold revseqLoop
    simp only
    cases hl : (tiedMin (marginalRemove f p W)).getLast? with
    | none => rw [List.getLast?_eq_none_iff] at hl; exact absurd hl (tiedMin_ne_nil hmne)
    | some c =>
      obtain ⟨h1, h2⟩ := le_getLast_of_lt (tiedMin_lt _) hl
      obtain ⟨h3, h4⟩ := (mem_tiedMin_marginalRemove f p hp W hlt hne c).1 h1
      simp only
      rw [if_neg (by simpa using h3)]
      have hrun' : RevRunLast f p (W.erase c).toFinset := by
        rw [toFinset_erase hn]
        refine .remove hrun (List.mem_toFinset.2 h3) (fun d hd => h4 d (List.mem_toFinset.1 hd)) ?_
        intro d hd hcd
        rw [List.mem_toFinset] at hd
        refine lt_of_le_of_ne (h4 d hd) ?_
        intro he
        have : d ∈ tiedMin (marginalRemove f p W) := by
          rw [mem_tiedMin_marginalRemove f p hp W hlt hne]
          exact ⟨hd, fun e he' => he ▸ h4 e he'⟩
        have := h2 d this
        omega
      have hlen' : (W.erase c).length = W.length - 1 := List.length_erase_of_mem h3
      obtain ⟨V, g1, g2, g3, g4⟩ := ih (W.erase c) (hW.sublist List.erase_sublist) hrun' (by omega)
      exact ⟨V, g1, g2, g3, by omega⟩

/-- C28: reverse sequential Thiele, resolute: the unique committee obtained by always removing the largest-index member of
minimal loss. -/
theorem C28_revseq_resolute (env : Env) (sid : String) (s : ScoreId) (ord : List ℕ → ℕ → List ℕ) (p : Profile) (hp : p.WF)
    (a : Args) (hal : prologue env ("revseq" ++ sid) p a = .ok "standard") (hsid : env.scoreId sid = .ok s)
    (hr : a.resolute = true) :
    ReturnsOne (computeRevseqThieleMethod env sid ord p a)
      (fun A => RevRunLast (marginalFct s) p A ∧ A.card = a.k) := by
  have hv := validCall_of_prologue hal
  have hcand : p.candidates.Pairwise (· < ·) := pairwise_lt_range _
  obtain ⟨V, g1, g2, g3, g4⟩ := revseqLoop_spec (marginalFct s) p hp (p.numCand - a.k) p.candidates hcand
    (by
      have : p.candidates.toFinset = Finset.range p.numCand := by ext x; simp [Profile.candidates]
      rw [this]; exact .all)
    (by simp [Profile.candidates])
  refine ⟨V, ?_, g2, g3, ?_⟩
  · unfold computeRevseqThieleMethod
    rw [hal, hsid]
    simp only [bind, Except.bind, hr, if_true]
    unfold revseqThieleResolute
    rw [g1]
    simp only [bind, Except.bind]
    exact sortedCommittees_of_sorted g2
  · rw [toFinset_card_of_lt g2, g4]
    have := hv.le
    simp only [Profile.candidates, List.length_range]
    omega

/-- The largest-index run is unique. -/
theorem Spec.RevRunLast.unique {f : ℕ → ℚ} {p : Profile} {A B : Finset ℕ} (hA : RevRunLast f p A) (hB : RevRunLast f p B)
    (hc : A.card = B.card) : A = B := by
  induction hA generalizing B with
  | all =>
    symm
    exact Finset.eq_of_subset_of_card_le hB.revRun.subset (by omega)
  | @remove W c hW h1 h2 h3 ih =>
    have hpos := Finset.card_pos.2 ⟨c, h1⟩
    have hle := Finset.card_le_card hW.revRun.subset
    rw [Finset.card_erase_of_mem h1] at hc
    cases hB with
    | all => omega
    | @remove X d hX g1 g2 g3 =>
      have hpos' := Finset.card_pos.2 ⟨d, g1⟩
      rw [Finset.card_erase_of_mem g1] at hc
      obtain rfl := ih hX (by omega)
      have : c = d := by
        rcases lt_trichotomy c d with h | h | h
        · have := h3 d g1 h; have := g2 c h1; linarith
        · exact h
        · have := g3 c h1 h; have := h2 d g1; linarith
      rw [this]

/-! ## irresolute -/

/-- What `tuple(set(committee) - {cand})` is: some listing of the set difference. -/
def Listing (ord : List ℕ → ℕ → List ℕ) : Prop := ∀ W c, c ∈ W → W.Nodup → (ord W c).Perm (W.erase c)

/-- Level invariant. -/
structure RevLevel (f : ℕ → ℚ) (p : Profile) (j : ℕ) (coms : List (List ℕ)) : Prop where
  nodup : ∀ W ∈ coms, W.Nodup
  len : ∀ W ∈ coms, W.length = j
  exact : ∀ A, (∃ W ∈ coms, W.toFinset = A) ↔ RevRun f p A ∧ A.card = j

theorem mem_revseqLevel (f : ℕ → ℚ) (p : Profile) (ord : List ℕ → ℕ → List ℕ) (coms : List (List ℕ)) (V : List ℕ) :
    V ∈ revseqLevel f p ord coms ↔ ∃ W ∈ coms, ∃ c ∈ tiedMin (marginalRemove f p W), V = ord W c := by
  unfold revseqLevel
  have h1 : ∀ (W : List ℕ) (cs : List ℕ) (next : List (List ℕ)),
      V ∈ cs.foldl (fun next cand => setAdd next (ord W cand)) next ↔ V ∈ next ∨ ∃ c ∈ cs, V = ord W c := by
    intro W cs
    induction cs with
    | nil => simp
    | cons c cs ih =>
      intro next
      simp only [List.foldl_cons, ih, mem_setAdd, List.mem_cons, exists_eq_or_imp, or_assoc]
  have h2 : ∀ (cs : List (List ℕ)) (next : List (List ℕ)),
      V ∈ cs.foldl (fun next committee =>
        (tiedMin (marginalRemove f p committee)).foldl (fun next cand => setAdd next (ord committee cand)) next) next ↔
      V ∈ next ∨ ∃ W ∈ cs, ∃ c ∈ tiedMin (marginalRemove f p W), V = ord W c := by
    intro cs
    induction cs with
    | nil => simp
    | cons W cs ih =>
      intro next
      simp only [List.foldl_cons, ih, h1, List.mem_cons, exists_eq_or_imp, or_assoc]
  rw [h2]
  simp

theorem revseqLevel_nodup (f : ℕ → ℚ) (p : Profile) (ord : List ℕ → ℕ → List ℕ) (coms : List (List ℕ)) :
    (revseqLevel f p ord coms).Nodup := by
  unfold revseqLevel
  have h1 : ∀ (W : List ℕ) (cs : List ℕ) (next : List (List ℕ)), next.Nodup →
      (cs.foldl (fun next cand => setAdd next (ord W cand)) next).Nodup := by
    intro W cs
    induction cs with
    | nil => intro next h; exact h
    | cons c cs ih => intro next h; exact ih _ (setAdd_nodup h)
  have h2 : ∀ (cs : List (List ℕ)) (next : List (List ℕ)), next.Nodup →
      (cs.foldl (fun next committee =>
        (tiedMin (marginalRemove f p committee)).foldl (fun next cand => setAdd next (ord committee cand)) next) next).Nodup := by
    intro cs
    induction cs with
    | nil => intro next h; exact h
    | cons W cs ih => intro next h; exact ih _ (h1 W _ _ h)
  exact h2 _ _ List.nodup_nil

theorem revLevel_step (f : ℕ → ℚ) (p : Profile) (hp : p.WF) (ord : List ℕ → ℕ → List ℕ) (hord : Listing ord) (j : ℕ)
    (coms : List (List ℕ)) (h : RevLevel f p (j + 1) coms) (hj : j + 1 ≤ p.numCand) :
    RevLevel f p j (revseqLevel f p ord coms) := by
  have hmem : ∀ W ∈ coms, W ≠ [] ∧ (∀ c ∈ W, c < p.numCand) ∧ RevRun f p W.toFinset := by
    intro W hW
    have h1 := h.len W hW
    have h2 := ((h.exact _).1 ⟨W, hW, rfl⟩).1
    refine ⟨by rintro rfl; simp at h1, ?_, h2⟩
    intro c hc
    simpa using h2.subset (List.mem_toFinset.2 hc)
  refine ⟨?_, ?_, ?_⟩
  · intro V hV
    obtain ⟨W, hW, c, hc, rfl⟩ := (mem_revseqLevel f p ord coms V).1 hV
    obtain ⟨g1, g2, g3⟩ := hmem W hW
    have hcW := ((mem_tiedMin_marginalRemove f p hp W g2 g1 c).1 hc).1
    exact (hord W c hcW (h.nodup W hW)).nodup_iff.2 ((h.nodup W hW).erase c)
  · intro V hV
    obtain ⟨W, hW, c, hc, rfl⟩ := (mem_revseqLevel f p ord coms V).1 hV
    obtain ⟨g1, g2, g3⟩ := hmem W hW
    have hcW := ((mem_tiedMin_marginalRemove f p hp W g2 g1 c).1 hc).1
    rw [(hord W c hcW (h.nodup W hW)).length_eq, List.length_erase_of_mem hcW, h.len W hW]
    rfl
  · intro A
    constructor
    · rintro ⟨V, hV, rfl⟩
      obtain ⟨W, hW, c, hc, rfl⟩ := (mem_revseqLevel f p ord coms V).1 hV
      obtain ⟨g1, g2, g3⟩ := hmem W hW
      obtain ⟨hcW, hmin⟩ := (mem_tiedMin_marginalRemove f p hp W g2 g1 c).1 hc
      have hperm := hord W c hcW (h.nodup W hW)
      have e : (ord W c).toFinset = W.toFinset.erase c := by
        rw [List.toFinset_eq_of_perm _ _ hperm, toFinset_erase (h.nodup W hW)]
      rw [e]
      refine ⟨.remove g3 (List.mem_toFinset.2 hcW) (fun d hd => hmin d (List.mem_toFinset.1 hd)), ?_⟩
      rw [Finset.card_erase_of_mem (List.mem_toFinset.2 hcW), List.toFinset_card_of_nodup (h.nodup W hW), h.len W hW]
      rfl
    · rintro ⟨hA, hcard⟩
      obtain ⟨W, c, k1, k2, k3, rfl, k5⟩ := revRun_smaller hA (by omega)
      obtain ⟨L, hL, rfl⟩ := (h.exact W).2 ⟨k1, by omega⟩
      obtain ⟨g1, g2, g3⟩ := hmem L hL
      have hcL := List.mem_toFinset.1 k2
      refine ⟨ord L c, (mem_revseqLevel f p ord coms _).2 ⟨L, hL, c, ?_, rfl⟩, ?_⟩
      · exact (mem_tiedMin_marginalRemove f p hp L g2 g1 c).2 ⟨hcL, fun d hd => k3 d (List.mem_toFinset.2 hd)⟩
      · rw [List.toFinset_eq_of_perm _ _ (hord L c hcL (h.nodup L hL)), toFinset_erase (h.nodup L hL)]

theorem revseqLevels_spec (f : ℕ → ℚ) (p : Profile) (hp : p.WF) (ord : List ℕ → ℕ → List ℕ) (hord : Listing ord) (n j : ℕ)
    (coms : List (List ℕ)) (h : RevLevel f p (j + n) coms) (hj : j + n ≤ p.numCand) :
    RevLevel f p j (revseqLevels f p ord n coms) := by
  induction n generalizing coms with
  | zero => exact h
  | succ n ih => exact ih _ (revLevel_step f p hp ord hord (j + n) coms h (by omega)) (by omega)

theorem revLevel_start (f : ℕ → ℚ) (p : Profile) : RevLevel f p p.numCand [p.candidates] := by
  have e : p.candidates.toFinset = Finset.range p.numCand := by ext x; simp [Profile.candidates]
  refine ⟨by simp [Profile.candidates, List.nodup_range], by simp [Profile.candidates], ?_⟩
  intro A
  simp only [List.mem_singleton, exists_eq_left, e]
  constructor
  · rintro rfl; exact ⟨.all, by simp⟩
  · rintro ⟨h1, h2⟩
    exact (Finset.eq_of_subset_of_card_le h1.subset (by simp [h2])).symm

/-- C28: reverse sequential Thiele with `resolute=False` returns exactly the committees obtainable by repeatedly removing a
member of minimal loss — for every iteration order of Python sets (`ord`); the list is sorted but a committee may be repeated
(see `C28_duplicates`). -/
theorem C28_revseq_committees (env : Env) (sid : String) (s : ScoreId) (ord : List ℕ → ℕ → List ℕ) (hord : Listing ord)
    (p : Profile) (hp : p.WF) (a : Args) (hal : prologue env ("revseq" ++ sid) p a = .ok "standard")
    (hsid : env.scoreId sid = .ok s) (hr : a.resolute = false) (hmax : a.max = none) :
    ∃ cs, computeRevseqThieleMethod env sid ord p a = .ok cs ∧ (∀ W ∈ cs, W.Pairwise (· < ·)) ∧
      cs.Pairwise (fun a b => strKey a ≤ strKey b) ∧
      ∀ A, (∃ W ∈ cs, W.toFinset = A) ↔ RevRun (marginalFct s) p A ∧ A.card = a.k := by
  have hv := validCall_of_prologue hal
  have hle := hv.le
  have hlev := revseqLevels_spec (marginalFct s) p hp ord hord (p.numCand - a.k) a.k [p.candidates]
    (by rw [show a.k + (p.numCand - a.k) = p.numCand by omega]; exact revLevel_start _ p) (by omega)
  obtain ⟨out, h1, h2, h3, h4⟩ := C07_sortedCommittees_perm_sorted _ hlev.nodup
  refine ⟨out, ?_, h3, h4, ?_⟩
  · unfold computeRevseqThieleMethod
    rw [hal, hsid]
    simp only [bind, Except.bind, hr, if_true, Bool.false_eq_true, if_false]
    unfold revseqThieleIrresolute
    rw [h1]
    simp [bind, Except.bind, Args.maxNum, hmax, truncate]
  · intro A
    rw [← hlev.exact A]
    have := h2.mem_iff (a := A)
    simpa using this

/-- C28: if the listing of a set does not depend on how it was obtained (which holds in CPython for at most 9 candidates),
every committee is returned once, and `max_num_of_committees` is respected. -/
theorem C28_revseq_exact (env : Env) (sid : String) (s : ScoreId) (ord : List ℕ → ℕ → List ℕ) (hord : Listing ord)
    (hcan : ∀ W c W' c', c ∈ W → c' ∈ W' → W.Nodup → W'.Nodup → (W.erase c).Perm (W'.erase c') → ord W c = ord W' c')
    (p : Profile) (hp : p.WF) (a : Args) (hal : prologue env ("revseq" ++ sid) p a = .ok "standard")
    (hsid : env.scoreId sid = .ok s) :
    Answers a (computeRevseqThieleMethod env sid ord p a) (fun A => RevRun (marginalFct s) p A ∧ A.card = a.k) := by
  have hv := validCall_of_prologue hal
  have hle := hv.le
  set f := marginalFct s with hf
  cases hr : a.resolute with
  | true =>
    unfold Answers
    rw [hr]
    obtain ⟨W, h1, h2, h3, h4⟩ := C28_revseq_resolute env sid s ord p hp a hal hsid hr
    exact ⟨W, h1, h2, h3.revRun, h4⟩
  | false =>
  set coms := revseqLevels f p ord (p.numCand - a.k) [p.candidates] with hcoms
  have hlev : RevLevel f p a.k coms := revseqLevels_spec f p hp ord hord (p.numCand - a.k) a.k [p.candidates]
    (by rw [show a.k + (p.numCand - a.k) = p.numCand by omega]; exact revLevel_start _ p) (by omega)
  -- no two listings of the same set
  have hnd : (coms.map List.toFinset).Nodup := by
    have key : ∀ n j cs, RevLevel f p (j + n) cs → j + n ≤ p.numCand → (cs.map List.toFinset).Nodup →
        ((revseqLevels f p ord n cs).map List.toFinset).Nodup := by
      intro n
      induction n with
      | zero => intro j cs _ _ h; exact h
      | succ n ih =>
        intro j cs h hj hn
        have hstep := revLevel_step f p hp ord hord (j + n) cs h (by omega)
        refine ih j _ hstep (by omega) ?_
        refine List.Nodup.map_on ?_ (revseqLevel_nodup f p ord cs)
        intro V hV V' hV' he
        have n1 := hstep.nodup V hV
        have n2 := hstep.nodup V' hV'
        obtain ⟨W, hW, c, hc, rfl⟩ := (mem_revseqLevel f p ord cs V).1 hV
        obtain ⟨W', hW', c', hc', rfl⟩ := (mem_revseqLevel f p ord cs V').1 hV'
        have hmem : ∀ W ∈ cs, ∀ c ∈ tiedMin (marginalRemove f p W), c ∈ W := by
          intro W hW c hc
          have h1 := h.len W hW
          have h2 := ((h.exact _).1 ⟨W, hW, rfl⟩).1
          refine ((mem_tiedMin_marginalRemove f p hp W ?_ ?_ c).1 hc).1
          · intro x hx
            simpa using h2.subset (List.mem_toFinset.2 hx)
          · rintro rfl; simp at h1
        have m1 := hmem W hW c hc
        have m2 := hmem W' hW' c' hc'
        have p1 := hord W c m1 (h.nodup W hW)
        have p2 := hord W' c' m2 (h.nodup W' hW')
        have hp12 : (ord W c).Perm (ord W' c') := by
          rw [List.perm_ext_iff_of_nodup n1 n2]
          intro x
          have := congrArg (fun s => x ∈ s) he
          simpa using this
        exact hcan W c W' c' m1 m2 (h.nodup W hW) (h.nodup W' hW') (p1.symm.trans (hp12.trans p2))
    exact key _ a.k _ (by rw [show a.k + (p.numCand - a.k) = p.numCand by omega]; exact revLevel_start _ p) (by omega) (by simp)
  obtain ⟨out, h1, h2, h3⟩ := sortedCommittees_canonical hlev.nodup hnd
  have hout : ∀ A, (∃ W ∈ out, W.toFinset = A) ↔ RevRun f p A ∧ A.card = a.k := by
    intro A
    rw [← hlev.exact A]
    have := h3.mem_iff (a := A)
    simpa using this
  have hres : computeRevseqThieleMethod env sid ord p a = .ok (truncate a.maxNum out) := by
    unfold computeRevseqThieleMethod
    rw [hal, hsid]
    simp only [bind, Except.bind, hr, if_true, Bool.false_eq_true, if_false]
    unfold revseqThieleIrresolute
    rw [← hf, ← hcoms, h1]
    rfl
  rw [hres]
  unfold Answers
  rw [hr]
  cases hm : a.max with
  | none => exact ⟨out, by simp [Args.maxNum, hm, truncate], h2, hout⟩
  | some n =>
    simp only [Args.maxNum, hm, Option.map_some, truncate]
    exact returnsSome_of_take h2 hout _

/-- C28, finding: the dictionary keys are tuples in set iteration order, so the same committee can be returned twice.  The
listing below depends on which candidate was removed last, as CPython's does (for 11 candidates CPython 3.11 lists the set
`{2, 10}` as `(2, 10)` or as `(10, 2)`, depending on which candidates were removed before). -/
theorem C28_duplicates : ∃ (ord : List ℕ → ℕ → List ℕ) (p : Profile), Listing ord ∧ p.WF ∧
    revseqThieleIrresolute (marginalFct .av) p ord 2 none
      = .ok [[0, 1], [0, 1], [0, 2], [0, 2], [0, 3], [1, 2], [1, 2], [1, 3], [2, 3]] := by
  refine ⟨fun W c => if W.length = 3 ∧ c = 3 then (W.erase c).reverse else W.erase c, ⟨4, [⟨[], 1⟩], []⟩, ?_, ?_, ?_⟩
  · intro W c _ _
    simp only
    split
    · exact List.reverse_perm _
    · exact List.Perm.refl _
  · exact ⟨by decide, by decide, by decide, by decide +kernel⟩
  · decide +kernel

/-- Non-vacuity: sorted listings satisfy the hypotheses. -/
example : Listing (fun W c => sortNat (W.erase c)) ∧
    computeRevseqThieleMethod exampleEnv "pav" (fun W c => sortNat (W.erase c)) ⟨3, [⟨[0, 1], 1⟩, ⟨[1, 2], 1⟩], []⟩
      { committeesize := 2, resolute := false } = .ok [[0, 1], [1, 2]] := by
  refine ⟨fun W c _ _ => sortNat_perm _, by decide +kernel⟩

end Abc
