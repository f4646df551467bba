import Verif.Lemmas.MesLoop
import Verif.Lemmas.TopSets

/-!
# C37, C38: the Method of Equal Shares with its completions
-/

namespace Abc
open Spec

/-! ## runs with and without tie-breaking -/

theorem Spec.Run.imp {σ : Type} {B B' : List ℕ → σ → ℕ → Prop} {upd : List ℕ → σ → ℕ → σ} {W₀ : List ℕ} {s₀ : σ}
    (h : ∀ W s c, B W s c → B' W s c) {W : List ℕ} {s : σ} (hr : Run B upd W₀ s₀ W s) : Run B' upd W₀ s₀ W s := by
  induction hr with
  | start => exact .start
  | step _ h1 ih => exact .step ih (h _ _ _ h1)

theorem run_next_false {p : Profile} {r : ℚ} {W : List ℕ} {b : VoterMap p} :
    Run (MESNext p false) (mesUpd p) [] (budgetOf p r) W b ↔ MRun p r W b :=
  ⟨fun h => h.imp (fun _ _ _ h => h.1), fun h => h.imp (fun _ _ _ h => ⟨h, by simp⟩)⟩

theorem run_next_true {p : Profile} {r : ℚ} {W : List ℕ} {b : VoterMap p} :
    Run (MESNext p true) (mesUpd p) [] (budgetOf p r) W b ↔ RunFirst (MESBest p) (mesUpd p) [] (budgetOf p r) W b := by
  constructor
  · intro h
    induction h with
    | start => exact .start
    | step _ h1 ih => exact .step ih h1.1 (h1.2 rfl)
  · intro h
    induction h with
    | start => exact .start
    | step _ h1 h2 ih => exact .step ih ⟨h1, fun _ => h2⟩

theorem run_next_run {p : Profile} {resolute : Bool} {r : ℚ} {W : List ℕ} {b : VoterMap p}
    (h : Run (MESNext p resolute) (mesUpd p) [] (budgetOf p r) W b) : MRun p r W b := h.imp (fun _ _ _ h => h.1)

theorem mrun_nodup {p : Profile} {r : ℚ} {W : List ℕ} {b : VoterMap p} (h : MRun p r W b) :
    W.Nodup ∧ ∀ c ∈ W, c < p.numCand :=
  h.nodup (m := p.numCand) (fun _ _ _ _ h => ⟨h.1, h.2.1⟩) (by simp) (by simp)

/-! ## completion by seq-Phragmén -/

theorem phragmen_start_le {p : Profile} (hp : p.WF) {b : VoterMap p} (hb : ∀ i, 0 ≤ b i) (n : ℕ) (i : Fin p.voters.length) :
    - b i / (p.voters.get i).weight ≤ (n : ℚ) := by
  have h1 := weight_pos hp i
  have h2 : - b i / (p.voters.get i).weight ≤ 0 := div_nonpos_of_nonpos_of_nonneg (by have := hb i; linarith) h1.le
  exact h2.trans (by positivity)

theorem startLoad_eq (p : Profile) (b : VoterMap p) :
    List.zipWith (fun (v : Voter) b => -b / v.weight) p.voters (List.ofFn b)
      = List.ofFn (fun i => - b i / (p.voters.get i).weight) := zipWith_ofFn _ _ _

theorem phragmenPhase_irresolute {p : Profile} (hp : p.WF) (hw : ApproversAtLeastOne p) (k : ℕ) (hk : k ≤ p.numCand)
    (W : List ℕ) (hWn : W.Nodup) (hWm : ∀ c ∈ W, c < p.numCand) (hl : W.length < k) (b : VoterMap p) (hb : ∀ i, 0 ≤ b i) :
    ∃ new, phragmenPhase p k false W (List.ofFn b) = .ok new ∧ new ≠ [] ∧ (∀ X ∈ new, X.Pairwise (· < ·)) ∧
      ∀ X, X ∈ new ↔ ∃ V x, PRun p W (fun i => - b i / (p.voters.get i).weight) V x ∧ V.length = k ∧ X = sortNat V := by
  set x₀ : VoterMap p := fun i => - b i / (p.voters.get i).weight with hx₀
  have h0 : ∀ i, x₀ i ≤ W.length := phragmen_start_le hp hb W.length
  have hs := phragmen_succSpec hp hw k hk W x₀ h0
  have huni := universes_run (out := fun n : List ℕ × List ℚ => sortNat n.1) hs
    (full := fun n => decide (n.1.length = k)) (fun _ _ => rfl) hl none (dfsFuel p k)
    (by unfold dfsFuel; exact Nat.pow_le_pow_right (by omega) (Nat.sub_le _ _))
  rw [collect_none] at huni
  set ls := (leaves (succOf fun n => .ok (seqphragmenSuccs p k n)) (k - W.length) (W, List.ofFn x₀)).map
    (fun n : List ℕ × List ℚ => sortNat n.1) with hls
  have hnd : ∀ {V x}, PRun p W x₀ V x → V.Nodup := fun h => (h.nodup (m := p.numCand) (fun _ _ _ _ h => ⟨h.1, h.2.1⟩) hWn hWm).1
  have hmem : ∀ X, X ∈ ls.foldl setAdd [] ↔ ∃ V x, PRun p W x₀ V x ∧ V.length = k ∧ X = sortNat V := by
    intro X
    rw [mem_foldl_setAdd]
    simp only [List.not_mem_nil, false_or, hls, List.mem_map]
    constructor
    · rintro ⟨n, hn, rfl⟩
      obtain ⟨V, x, h1, h2, rfl⟩ := (mem_leaves_run hs (k - W.length) (by omega) n).1 hn
      exact ⟨V, x, h1, by omega, rfl⟩
    · rintro ⟨V, x, h1, h2, rfl⟩
      exact ⟨(V, List.ofFn x), (mem_leaves_run hs (k - W.length) (by omega) _).2 ⟨V, x, h1, by omega, rfl⟩, rfl⟩
  have hlt : ∀ X ∈ ls.foldl setAdd [], X.Pairwise (· < ·) := by
    intro X hX
    obtain ⟨V, x, h1, -, rfl⟩ := (hmem X).1 hX
    exact sortNat_lt (hnd h1)
  obtain ⟨ds, e1, e2, e3⟩ := sortedCommittees_of_lt hlt (foldl_setAdd_nodup List.nodup_nil)
  have hmap : ds.map sortNat = ds := by
    conv_rhs => rw [← List.map_id ds]
    exact List.map_congr_left (fun X hX => sortNat_of_lt (e2.asc X hX))
  refine ⟨ds, ?_, ?_, e2.asc, fun X => by rw [e3.mem_iff, hmem]⟩
  · unfold phragmenPhase
    simp only [Bool.false_eq_true, if_false]
    unfold seqphragmenIrresolute
    rw [startLoad_eq, ← hx₀, huni]
    simp only [bind, Except.bind]
    rw [e1]
    simp only [hmap]
  · obtain ⟨V, t, rest, g1, g2, g3⟩ := leaves_head_run hs (k - W.length) W x₀ .start (by omega)
    have : sortNat V ∈ ds := by
      rw [e3.mem_iff, hmem]
      exact ⟨V, t, g1.run, by omega, rfl⟩
    exact List.ne_nil_of_mem this

theorem phragmenPhase_resolute {p : Profile} (hp : p.WF) (hw : ApproversAtLeastOne p) (k : ℕ) (hk : k ≤ p.numCand)
    (W : List ℕ) (hl : W.length < k) (b : VoterMap p) (hb : ∀ i, 0 ≤ b i) :
    ∃ V x, RunFirst (PhragBest p) (phragUpd p) W (fun i => - b i / (p.voters.get i).weight) V x ∧ V.length = k ∧
      phragmenPhase p k true W (List.ofFn b) = .ok [sortNat V] := by
  obtain ⟨V', V, x, info, g1, g2, g3, g4⟩ := seqphragmenLoop_spec hp hw k hk W _ (phragmen_start_le hp hb W.length) (k - W.length)
    W W (List.Perm.refl _) _ [] .start (by omega)
  refine ⟨V, x, g3, by omega, ?_⟩
  unfold phragmenPhase
  simp only [if_true]
  unfold seqphragmenResolute
  rw [startLoad_eq, g1]
  simp only [bind, Except.bind, List.map_cons, List.map_nil]
  rw [sortNat_eq_of_perm g2]

/-! ## completion by AV -/

theorem unionList_spec {W T : List ℕ} (hW : W.Nodup) : (unionList W T).Nodup ∧ (unionList W T).toFinset = W.toFinset ∪ T.toFinset := by
  refine ⟨foldl_setAdd_nodup hW, ?_⟩
  ext x
  simp only [List.mem_toFinset, Finset.mem_union]
  exact mem_foldl_setAdd

theorem avPhaseLoop_spec {p : Profile} (hp : p.WF) (hne : p.voters ≠ []) (k : ℕ) (hk : k ≤ p.numCand) (W : List ℕ) (hW : W.Nodup)
    (hWm : ∀ c ∈ W, c < p.numCand) (hl : W.length < k) (n j : ℕ) (hj : 1 ≤ j) (hjk : j ≤ k) (hn : k < n + j)
    (hH : j + W.toFinset.card = k ∨ ∃ i, j = i + 1 ∧ TooFew (candScore .av p) (Finset.range p.numCand) W.toFinset k i) :
    ∃ new, avPhaseLoop p k W n j = .ok new ∧ new ≠ [] ∧ (∀ X ∈ new, X.Pairwise (· < ·)) ∧
      ∀ A, (∃ X ∈ new, X.toFinset = A) ↔ TopSet (candScore .av p) (Finset.range p.numCand) W.toFinset k A := by
  induction n generalizing j with
  | zero => omega
  | succ n ih =>
    set a : Args := { committeesize := (j : ℤ), resolute := false } with ha
    have hak : a.k = j := by simp [Args.k, ha]
    have hv : ValidCall p a := ⟨by rw [hak]; exact hj, by rw [hak]; omega, hne, by simp [ha], by simp [ha]⟩
    have hans := separableAlgorithm_answers .av p hp a hv
    rw [hak] at hans
    have hmx : a.maxNum = none := by simp [Args.maxNum, ha]
    rw [hmx] at hans
    change Returns (separableAlgorithm .av p j false none) _ at hans
    obtain ⟨cs, e1, e2, e3⟩ := hans
    set s := candScore .av p with hs
    set U := Finset.range p.numCand with hU
    have hcs : ∀ T, (∃ V ∈ cs, V.toFinset = T) ↔ TopSet s U ∅ j T := fun T => by rw [e3, sepOpt_iff_topSet]
    have hlen : ∀ V, (unionList W V).length = (W.toFinset ∪ V.toFinset).card := by
      intro V
      obtain ⟨h1, h2⟩ := unionList_spec (W := W) (T := V) hW
      rw [← h2, List.toFinset_card_of_nodup h1]
    have hWU : W.toFinset ⊆ U := by
      intro c hc
      rw [hU, Finset.mem_range]
      exact hWm c (by simpa using hc)
    unfold avPhaseLoop
    rw [e1]
    simp only [bind, Except.bind]
    rw [if_neg (by
      rw [List.any_eq_true]
      rintro ⟨X, hX, hXk⟩
      obtain ⟨V, hV, rfl⟩ := List.mem_map.1 hX
      have := union_card_le hH ((hcs V.toFinset).1 ⟨V, hV, rfl⟩)
      rw [decide_eq_true_eq, hlen] at hXk
      omega)]
    set new := (cs.map (unionList W)).filter (fun c => decide (c.length = k)) with hnew
    have hnm : ∀ X, X ∈ new ↔ ∃ V ∈ cs, (W.toFinset ∪ V.toFinset).card = k ∧ X = unionList W V := by
      intro X
      rw [hnew, List.mem_filter, List.mem_map]
      constructor
      · rintro ⟨⟨V, hV, rfl⟩, h⟩
        refine ⟨V, hV, ?_, rfl⟩
        rw [← hlen]; simpa using h
      · rintro ⟨V, hV, h, rfl⟩
        exact ⟨⟨V, hV, rfl⟩, by rw [hlen]; simpa using h⟩
    by_cases hnil : new = []
    · rw [if_neg (by simp [hnil])]
      have htoo : TooFew s U W.toFinset k j := by
        intro T hT
        obtain ⟨V, hV, rfl⟩ := (hcs T).2 hT
        refine lt_of_le_of_ne (union_card_le hH hT) ?_
        intro he
        have : unionList W V ∈ new := (hnm _).2 ⟨V, hV, he, rfl⟩
        simp [hnil] at this
      have hjlt : j < k := by
        rcases Nat.lt_or_ge j k with h | h
        · exact h
        · exfalso
          -- some top set exists
          obtain ⟨T, hT⟩ : ∃ T, TopSet s U ∅ j T := by
            have hne' : (U.powersetCard j).Nonempty := Finset.powersetCard_nonempty.2 (by rw [hU, Finset.card_range]; omega)
            obtain ⟨T, hT, hmax⟩ := Finset.exists_max_image _ (fun A => ∑ c ∈ A, s c) hne'
            rw [Finset.mem_powersetCard] at hT
            refine ⟨T, (topSet_iff s U ∅ j T).2 ⟨hT, by simp, fun B hB _ => hmax B (Finset.mem_powersetCard.2 hB)⟩⟩
          have h1 := htoo T hT
          have h2 := Finset.card_le_card (Finset.subset_union_right (s₁ := W.toFinset) (s₂ := T))
          rw [hT.card] at h2
          omega
      exact ih (j + 1) (by omega) (by omega) (by omega) (Or.inr ⟨j, rfl, htoo⟩)
    · rw [if_pos (by simpa using hnil)]
      refine ⟨new.map sortNat, rfl, by simpa using hnil, ?_, ?_⟩
      · intro X hX
        obtain ⟨Y, hY, rfl⟩ := List.mem_map.1 hX
        obtain ⟨V, -, -, rfl⟩ := (hnm Y).1 hY
        exact sortNat_lt (unionList_spec hW).1
      · intro A
        have hex : ∃ T, TopSet s U ∅ j T ∧ (W.toFinset ∪ T).card = k := by
          obtain ⟨X, hX⟩ := List.exists_mem_of_ne_nil new hnil
          obtain ⟨V, hV, h, -⟩ := (hnm X).1 hX
          exact ⟨V.toFinset, (hcs _).1 ⟨V, hV, rfl⟩, h⟩
        rw [unions_eq hWU hH hex A]
        constructor
        · rintro ⟨X, hX, rfl⟩
          obtain ⟨Y, hY, rfl⟩ := List.mem_map.1 hX
          obtain ⟨V, hV, h, rfl⟩ := (hnm Y).1 hY
          refine ⟨V.toFinset, (hcs _).1 ⟨V, hV, rfl⟩, h, ?_⟩
          rw [sortNat_toFinset, (unionList_spec hW).2]
        · rintro ⟨T, hT, h, rfl⟩
          obtain ⟨V, hV, rfl⟩ := (hcs T).2 hT
          refine ⟨sortNat (unionList W V), List.mem_map.2 ⟨_, (hnm _).2 ⟨V, hV, h, rfl⟩, rfl⟩, ?_⟩
          rw [sortNat_toFinset, (unionList_spec hW).2]

/-! ## the completions together -/

/-- like `Completed`, with smallest-index tie-breaking in the completion by seq-Phragmén -/
def CompletedR (p : Profile) (k : ℕ) (resolute : Bool) (completion : Completion) (W : List ℕ) (b : VoterMap p) (A : Finset ℕ) : Prop :=
  if resolute = true ∧ completion = .seqphragmen then
    ∃ V x, RunFirst (PhragBest p) (phragUpd p) W (fun i => - b i / (p.voters.get i).weight) V x ∧ V.length = k ∧ V.toFinset = A
  else Completed p k completion W b A

theorem CompletedR.completed {p : Profile} {k : ℕ} {resolute : Bool} {completion : Completion} {W : List ℕ} {b : VoterMap p}
    {A : Finset ℕ} (h : CompletedR p k resolute completion W b A) : Completed p k completion W b A := by
  unfold CompletedR at h
  split at h
  · rename_i hc
    obtain ⟨V, x, h1, h2, h3⟩ := h
    rw [hc.2]
    exact ⟨V, x, h1.run, h2, h3⟩
  · exact h

/-- The completions that `_equal_shares_algorithm` implements, with the condition that seq-Phragmén needs. -/
def CompletionOk (p : Profile) (completion : Completion) : Prop :=
  completion = .none ∨ (completion = .seqphragmen ∧ ApproversAtLeastOne p) ∨ completion = .av

theorem compSpec {p : Profile} (hp : p.WF) (hne : p.voters ≠ []) (k : ℕ) (hk : k ≤ p.numCand) (resolute : Bool)
    (completion : Completion) (hc : CompletionOk p completion) (r : ℚ) (hr : 0 ≤ r) :
    CompSpec p k resolute completion r
      (fun W b X => X.Pairwise (· < ·) ∧ CompletedR p k resolute completion W b X.toFinset) := by
  intro W b hrun hl hdone
  have hmr := run_next_run hrun
  obtain ⟨hWn, hWm⟩ := mrun_nodup hmr
  have hb := (C36_budgets p hp r hr W b hmr).1
  rcases hc with rfl | ⟨rfl, hw⟩ | rfl
  · refine ⟨[sortNat W], rfl, by simp, by simpa using sortNat_lt hWn, ?_⟩
    intro X
    simp only [List.mem_singleton]
    constructor
    · rintro rfl
      refine ⟨sortNat_lt hWn, ?_⟩
      unfold CompletedR
      rw [if_neg (by simp)]
      exact sortNat_toFinset W
    · rintro ⟨h1, h2⟩
      unfold CompletedR at h2
      rw [if_neg (by simp)] at h2
      have h2 : X.toFinset = W.toFinset := h2
      exact eq_of_lt_toFinset h1 (sortNat_lt hWn) (by rw [h2, sortNat_toFinset])
  · cases resolute with
    | false =>
      obtain ⟨new, e1, e2, e3, e4⟩ := phragmenPhase_irresolute hp hw k hk W hWn hWm hl b hb
      refine ⟨new, e1, e2, e3, ?_⟩
      intro X
      rw [e4]
      unfold CompletedR
      beta_reduce
      rw [if_neg (by simp)]
      constructor
      · rintro ⟨V, x, h1, h2, rfl⟩
        exact ⟨sortNat_lt (h1.nodup (m := p.numCand) (fun _ _ _ _ h => ⟨h.1, h.2.1⟩) hWn hWm).1, V, x, h1, h2, (sortNat_toFinset V).symm⟩
      · rintro ⟨h0, V, x, h1, h2, h3⟩
        refine ⟨V, x, h1, h2, eq_of_lt_toFinset h0 (sortNat_lt ?_) (by rw [sortNat_toFinset, h3])⟩
        exact (h1.nodup (m := p.numCand) (fun _ _ _ _ h => ⟨h.1, h.2.1⟩) hWn hWm).1
    | true =>
      obtain ⟨V, x, h1, h2, h3⟩ := phragmenPhase_resolute hp hw k hk W hl b hb
      have hVn : V.Nodup := (h1.run.nodup (m := p.numCand) (fun _ _ _ _ h => ⟨h.1, h.2.1⟩) hWn hWm).1
      refine ⟨[sortNat V], h3, by simp, by simpa using sortNat_lt hVn, ?_⟩
      intro X
      unfold CompletedR
      beta_reduce
      rw [if_pos ⟨rfl, rfl⟩, List.mem_singleton]
      constructor
      · rintro rfl
        exact ⟨sortNat_lt hVn, V, x, h1, h2, (sortNat_toFinset V).symm⟩
      · rintro ⟨h0, V', x', g1, g2, g3⟩
        obtain ⟨rfl, -⟩ := g1.unique h1 (by omega)
        exact eq_of_lt_toFinset h0 (sortNat_lt hVn) (by rw [sortNat_toFinset, g3])
  · have hWc : W.toFinset.card = W.length := List.toFinset_card_of_nodup hWn
    obtain ⟨new, e1, e2, e3, e4⟩ := avPhaseLoop_spec hp hne k hk W hWn hWm hl k (k - W.length) (by omega) (by omega) (by omega)
      (Or.inl (by omega))
    refine ⟨new, e1, e2, e3, ?_⟩
    intro X
    unfold CompletedR
    beta_reduce
    rw [if_neg (by simp)]
    have hiff : ∀ A, Completed p k .av W b A ↔ TopSet (candScore .av p) (Finset.range p.numCand) W.toFinset k A := by
      intro A
      rw [topSet_iff]
      rfl
    rw [hiff, ← e4]
    constructor
    · intro h
      exact ⟨e3 X h, X, h, rfl⟩
    · rintro ⟨h0, Y, hY, h⟩
      have : Y = X := eq_of_lt_toFinset (e3 Y hY) h0 h
      exact this ▸ hY

/-! ## the algorithm -/

theorem startBudget_none (p : Profile) (k : ℕ) : startBudget p k none = List.ofFn (budgetOf p (k / total p)) := by
  unfold startBudget budgetOf
  simp only
  rw [totalWeight_eq, voters_map_ofFn]
  congr 1
  funext i
  ring

theorem startBudget_some (p : Profile) (k : ℕ) (r : ℚ) (hr : r ≠ 0) : startBudget p k (some r) = List.ofFn (budgetOf p r) := by
  unfold startBudget budgetOf
  simp only
  rw [if_pos hr, voters_map_ofFn]

/-- what the main loop of Equal Shares computes -/
theorem equalShares_loop {p : Profile} (hp : p.WF) (hne : p.voters ≠ []) (k : ℕ) (hk : k ≤ p.numCand) (hk1 : 1 ≤ k) (resolute : Bool)
    (completion : Completion) (hc : CompletionOk p completion) (r : ℚ) (hr : 0 ≤ r) (max : Option ℕ)
    (hmax : ∀ m, max = some m → 0 < m) :
    ∃ w, mesLoop p k resolute completion max (dfsFuel p k) [([], List.ofFn (budgetOf p r))] [] = .ok w ∧ w.Nodup ∧ w ≠ [] ∧
      (∀ X ∈ w, X.Pairwise (· < ·)) ∧
      (∀ X ∈ w, ∃ W b, Run (MESNext p resolute) (mesUpd p) [] (budgetOf p r) W b ∧
        ((W.length = k ∧ W.toFinset = X.toFinset) ∨ (W.length < k ∧ MESDone p W b ∧ CompletedR p k resolute completion W b X.toFinset))) ∧
      (max = some w.length ∨ ((∀ A W b, Run (MESNext p resolute) (mesUpd p) [] (budgetOf p r) W b →
        ((W.length = k ∧ W.toFinset = A) ∨ (W.length < k ∧ MESDone p W b ∧ CompletedR p k resolute completion W b A)) →
        ∃ X ∈ w, X.toFinset = A) ∧ ∀ m, max = some m → w.length < m)) := by
  have hC := compSpec hp hne k hk resolute completion hc r hr
  obtain ⟨w, g1, g2, g3, g4, g5⟩ := mesLoop_spec hp hC max (dfsFuel p k) [([], budgetOf p r)] []
    (by simpa using ⟨Run.start, hk1⟩) (by simp [dfsFuel]) (by simp) (by simp) (by simpa using hmax)
  have hcomp : (∀ n ∈ [(([] : List ℕ), budgetOf p r)], ∀ X, MOut p k resolute
      (fun W b X => X.Pairwise (· < ·) ∧ CompletedR p k resolute completion W b X.toFinset) n.1 n.2 X → X ∈ w) →
      ∀ A W b, Run (MESNext p resolute) (mesUpd p) [] (budgetOf p r) W b →
        ((W.length = k ∧ W.toFinset = A) ∨ (W.length < k ∧ MESDone p W b ∧ CompletedR p k resolute completion W b A)) →
        ∃ X ∈ w, X.toFinset = A := by
    intro h A W b hrun hfin
    rcases hfin with ⟨hl, rfl⟩ | ⟨hl, hd, hcm⟩
    · refine ⟨sortNat W, h ([], budgetOf p r) (by simp) _ ((mout_iff hk1 _).2 ⟨W, b, hrun, Or.inl ⟨hl, rfl⟩⟩), sortNat_toFinset W⟩
    · obtain ⟨X, hX1, hX2⟩ := exists_lt_list A
      exact ⟨X, h ([], budgetOf p r) (by simp) _ ((mout_iff hk1 _).2 ⟨W, b, hrun, Or.inr ⟨hl, hd, hX1, by rw [hX2]; exact hcm⟩⟩), hX2⟩
  refine ⟨w, by simpa using g1, g2, ?_, g3, ?_, ?_⟩
  · rcases g5 with g5 | ⟨-, g6, -⟩
    · have := hmax _ g5
      exact List.ne_nil_of_length_pos this
    · obtain ⟨X, hX⟩ := mout_exists hp hC [] (budgetOf p r) .start hk1
      exact List.ne_nil_of_mem (g6 ([], budgetOf p r) (by simp) X hX)
  · intro X hX
    rcases g4 X hX with h | ⟨n, hn, h⟩
    · simp at h
    · rw [List.mem_singleton] at hn
      subst hn
      obtain ⟨W, b, h1, h2⟩ := (mout_iff hk1 X).1 h
      refine ⟨W, b, h1, ?_⟩
      rcases h2 with ⟨h2, rfl⟩ | ⟨h2, h3, h4⟩
      · exact Or.inl ⟨h2, (sortNat_toFinset W).symm⟩
      · exact Or.inr ⟨h2, h3, h4.2⟩
  · rcases g5 with g5 | ⟨-, g6, g7⟩
    · exact Or.inl g5
    · exact Or.inr ⟨hcomp g6, g7⟩

/-- the resolute algorithm with an arbitrary budget -/
theorem equalShares_resolute {p : Profile} (hp : p.WF) (hne : p.voters ≠ []) (k : ℕ) (hk : k ≤ p.numCand) (hk1 : 1 ≤ k)
    (completion : Completion) (hc : CompletionOk p completion) (r : ℚ) (hr : 0 ≤ r) (mx : Option ℕ) (pv : Option ℚ)
    (hpv : startBudget p k pv = List.ofFn (budgetOf p r)) :
    ∃ X W b, equalSharesAlgorithm p k true mx completion pv = .ok [X] ∧ X.Pairwise (· < ·) ∧
      RunFirst (MESBest p) (mesUpd p) [] (budgetOf p r) W b ∧
        ((W.length = k ∧ W.toFinset = X.toFinset) ∨ (W.length < k ∧ MESDone p W b ∧ CompletedR p k true completion W b X.toFinset)) := by
  obtain ⟨w, g1, g2, g3, g4, g5, g6⟩ := equalShares_loop hp hne k hk hk1 true completion hc r hr (some 1) (by simp)
  obtain ⟨X, rfl⟩ : ∃ X, w = [X] := by
    rw [← List.length_eq_one_iff]
    have := List.length_pos_of_ne_nil g3
    rcases g6 with g6 | ⟨-, g7⟩
    · have := Option.some.inj g6; omega
    · have := g7 1 rfl; omega
  obtain ⟨W, b, h1, h2⟩ := g5 X (by simp)
  refine ⟨X, W, b, ?_, g4 X (by simp), run_next_true.1 h1, h2⟩
  unfold equalSharesAlgorithm
  rw [hpv]
  simp only [if_true, g1, bind, Except.bind]
  rw [sortedCommittees_one (nodup_of_lt (g4 X (by simp))), sortNat_of_lt (g4 X (by simp))]

theorem computeEqualShares_eq {env : Env} {float : Except Err (List (List ℕ))} {p : Profile} {a : Args} {completion : Completion}
    (hc : CompletionOk p completion) {rid alg : String} (hid : completion.ruleId = .ok rid) (hal : prologue env rid p a = .ok alg)
    (hex : ExactAlg env alg) :
    computeEqualShares env float completion p a
      = equalSharesAlgorithm p a.k a.resolute a.maxNum completion none >>= sortedCommittees := by
  unfold computeEqualShares
  rw [hid]
  simp only [bind, Except.bind, hal]
  rw [withFractions_exact hex, if_neg (by rcases hc with rfl | ⟨rfl, -⟩ | rfl <;> simp)]

/-- C38, resolute: ties are broken in favour of the smallest index while buying candidates and in the completion by
seq-Phragmén. -/
theorem C38_equal_shares_resolute (env : Env) (float : Except Err (List (List ℕ))) (p : Profile) (hp : p.WF)
    (completion : Completion) (hc : CompletionOk p completion) (a : Args) (rid alg : String) (hid : completion.ruleId = .ok rid)
    (hal : prologue env rid p a = .ok alg) (hex : ExactAlg env alg) (hr : a.resolute = true) :
    ∃ X W b, computeEqualShares env float completion p a = .ok [X] ∧ X.Pairwise (· < ·) ∧
      RunFirst (MESBest p) (mesUpd p) [] (budgetOf p (a.k / total p)) W b ∧
        ((W.length = a.k ∧ W.toFinset = X.toFinset) ∨
         (W.length < a.k ∧ MESDone p W b ∧ CompletedR p a.k true completion W b X.toFinset)) := by
  have hv := validCall_of_prologue hal
  have ht := total_pos hp hv.voters
  obtain ⟨X, W, b, h1, h2, h3, h4⟩ := equalShares_resolute hp hv.voters a.k hv.le hv.pos completion hc (a.k / total p)
    (by positivity) a.maxNum none (startBudget_none p a.k)
  refine ⟨X, W, b, ?_, h2, h3, h4⟩
  rw [computeEqualShares_eq hc hid hal hex, hr, h1]
  simp only [bind, Except.bind]
  rw [sortedCommittees_one (nodup_of_lt h2), sortNat_of_lt h2]

/-- C38: Equal Shares (exact fractions) without completion, with completion by seq-Phragmén and with completion by AV returns
exactly the committees of its definition. -/
theorem C38_equal_shares (env : Env) (float : Except Err (List (List ℕ))) (p : Profile) (hp : p.WF)
    (completion : Completion) (hc : CompletionOk p completion) (a : Args) (rid alg : String) (hid : completion.ruleId = .ok rid)
    (hal : prologue env rid p a = .ok alg) (hex : ExactAlg env alg) :
    Answers a (computeEqualShares env float completion p a) (MESWinner p a.k completion (a.k / total p)) := by
  have hv := validCall_of_prologue hal
  have ht := total_pos hp hv.voters
  cases hr : a.resolute with
  | true =>
    obtain ⟨X, W, b, h1, h2, h3, h4⟩ := C38_equal_shares_resolute env float p hp completion hc a rid alg hid hal hex hr
    unfold Answers
    rw [hr]
    refine ⟨X, h1, h2, W, b, h3.run, ?_⟩
    rcases h4 with h4 | ⟨h4, h5, h6⟩
    · exact Or.inl h4
    · exact Or.inr ⟨h4, h5, h6.completed⟩
  | false =>
    rw [computeEqualShares_eq hc hid hal hex]
    refine resort_answers ?_
    obtain ⟨w, g1, g2, g3, g4, g5, g6⟩ := equalShares_loop hp hv.voters a.k hv.le hv.pos false completion hc (a.k / total p)
      (by positivity) a.maxNum (by
        intro m hm
        obtain ⟨z, hz, rfl⟩ := maxNum_some hm
        have := hv.max z hz
        omega)
    have e : equalSharesAlgorithm p a.k a.resolute a.maxNum completion none = sortedCommittees w := by
      unfold equalSharesAlgorithm
      rw [hr, startBudget_none]
      simp only [Bool.false_eq_true, if_false, g1, bind, Except.bind]
    rw [e]
    obtain ⟨ds, d1, d2, d3⟩ := sortedCommittees_of_lt g4 g2
    rw [d1]
    have hcr : ∀ W b A, CompletedR p a.k false completion W b A = Completed p a.k completion W b A := by
      intro W b A
      unfold CompletedR
      rw [if_neg (by simp)]
    have hsound : ∀ X ∈ ds, MESWinner p a.k completion (a.k / total p) X.toFinset := by
      intro X hX
      obtain ⟨W, b, h1, h2⟩ := g5 X (d3.mem_iff.1 hX)
      rw [hcr] at h2
      exact ⟨W, b, run_next_false.1 h1, h2⟩
    unfold Answers
    rw [hr]
    cases hm : a.max with
    | none =>
      have hmn : a.maxNum = none := by simp [Args.maxNum, hm]
      rw [hmn] at g6
      refine ⟨ds, rfl, d2, ?_⟩
      intro A
      constructor
      · rintro ⟨X, hX, rfl⟩; exact hsound X hX
      · rintro ⟨W, b, h1, h2⟩
        rcases g6 with g6 | ⟨g6, -⟩
        · simp at g6
        · obtain ⟨X, hX, rfl⟩ := g6 A W b (run_next_false.2 h1) (by rw [hcr]; exact h2)
          exact ⟨X, d3.mem_iff.2 hX, rfl⟩
    | some n =>
      have hmn : a.maxNum = some n.toNat := by simp [Args.maxNum, hm]
      rw [hmn] at g6
      refine ⟨ds, rfl, d2, hsound, ?_⟩
      -- all winning committees: a finite set
      have hbound : ∀ A, MESWinner p a.k completion (a.k / total p) A → A ∈ (Finset.range p.numCand).powerset := by
        rintro A ⟨W, b, h1, h2⟩
        obtain ⟨hWn, hWm⟩ := mrun_nodup h1
        rw [Finset.mem_powerset]
        have hWs : W.toFinset ⊆ Finset.range p.numCand := by
          intro c hc
          rw [Finset.mem_range]
          exact hWm c (by simpa using hc)
        rcases h2 with ⟨-, rfl⟩ | ⟨-, -, h2⟩
        · exact hWs
        · rcases hc with rfl | ⟨rfl, -⟩ | rfl
          · have h2 : A = W.toFinset := h2
            rw [h2]; exact hWs
          · obtain ⟨V, x, h3, -, rfl⟩ := h2
            intro c hc
            rw [Finset.mem_range]
            exact (h3.nodup (m := p.numCand) (fun _ _ _ _ h => ⟨h.1, h.2.1⟩) hWn hWm).2 c (by simpa using hc)
          · exact h2.1.1
      classical
      refine ⟨(Finset.range p.numCand).powerset.filter (MESWinner p a.k completion (a.k / total p)), ?_, ?_⟩
      · intro A
        rw [Finset.mem_filter]
        exact ⟨fun h => h.2, fun h => ⟨hbound A h, h⟩⟩
      · have himg : (ds.map List.toFinset).toFinset.card = ds.length := by
          rw [List.toFinset_card_of_nodup (map_toFinset_nodup_of_lt d2.asc d2.nodup), List.length_map]
        have hsub : (ds.map List.toFinset).toFinset ⊆
            (Finset.range p.numCand).powerset.filter (MESWinner p a.k completion (a.k / total p)) := by
          intro A hA
          rw [List.mem_toFinset, List.mem_map] at hA
          obtain ⟨X, hX, rfl⟩ := hA
          rw [Finset.mem_filter]
          exact ⟨hbound _ (hsound X hX), hsound X hX⟩
        have hle := Finset.card_le_card hsub
        rw [himg] at hle
        rcases g6 with g6 | ⟨g6, g7⟩
        · have : ds.length = n.toNat := by rw [d3.length_eq]; exact (Option.some.inj g6).symm
          omega
        · have h7 := g7 _ rfl
          rw [← d3.length_eq] at h7
          have heq : (Finset.range p.numCand).powerset.filter (MESWinner p a.k completion (a.k / total p)) ⊆
              (ds.map List.toFinset).toFinset := by
            intro A hA
            obtain ⟨W, b, h1, h2⟩ := (Finset.mem_filter.1 hA).2
            obtain ⟨X, hX, rfl⟩ := g6 A W b (run_next_false.2 h1) (by rw [hcr]; exact h2)
            rw [List.mem_toFinset, List.mem_map]
            exact ⟨X, d3.mem_iff.2 hX, rfl⟩
          have := Finset.card_le_card heq
          rw [himg] at this
          omega

/-- C36: what `compute_equal_shares(completion=None)` returns: the voters start with `k / total` per unit of weight and pay exactly 1 for
every member of the committee (so there are at most `k`); their remaining budgets `b` are not negative, and unless the committee is full,
no further candidate can be paid by its supporters. -/
theorem C36_outcome (env : Env) (float : Except Err (List (List ℕ))) (p : Profile) (hp : p.WF) (a : Args) (alg : String)
    (hal : prologue env "equal-shares-without-completion" p a = .ok alg) (hex : ExactAlg env alg) (cs : List (List ℕ))
    (hcs : computeEqualShares env float .none p a = .ok cs) (X : List ℕ) (hX : X ∈ cs) :
    ∃ W b, MRun p (a.k / total p) W b ∧ W.Perm X ∧ (∀ i, 0 ≤ b i) ∧ ∑ i, b i = a.k - X.length ∧ X.length ≤ a.k ∧
      (X.length = a.k ∨ ∀ c < p.numCand, c ∉ X → ∑ i ∈ backers p c, b i < 1) := by
  have hv := validCall_of_prologue hal
  have ht := total_pos hp hv.voters
  have hans := C38_equal_shares env float p hp .none (Or.inl rfl) a _ alg rfl hal hex
  have hXn : X.Nodup := by
    have hcan : Canonical cs := by
      unfold Answers at hans
      split at hans
      · obtain ⟨V, e, h1, -⟩ := hans
        rw [hcs] at e
        obtain rfl := Except.ok.inj e
        exact ⟨by simpa using h1, by simp, by simp⟩
      · obtain ⟨V, e, h1, -⟩ := hans
        rw [hcs] at e
        obtain rfl := Except.ok.inj e
        exact h1
      · obtain ⟨V, e, h1, -⟩ := hans
        rw [hcs] at e
        obtain rfl := Except.ok.inj e
        exact h1
    exact nodup_of_lt (hcan.asc X hX)
  obtain ⟨W, b, h1, h2⟩ := answers_mem hans hcs hX
  obtain ⟨g1, g2, -⟩ := C36_budgets p hp (a.k / total p) (by positivity) W b h1
  have hset : W.toFinset = X.toFinset := by
    rcases h2 with ⟨-, h2⟩ | ⟨-, -, h2⟩
    · exact h2
    · exact h2.symm
  have hperm : W.Perm X := (List.perm_ext_iff_of_nodup (mrun_nodup h1).1 hXn).2 fun x => by
    rw [← List.mem_toFinset, hset, List.mem_toFinset]
  have hsum : ∑ i, b i = a.k - X.length := by
    rw [g2, hperm.length_eq, div_mul_cancel₀ _ ht.ne']
  refine ⟨W, b, h1, hperm, g1, hsum, ?_, ?_⟩
  · have : (0 : ℚ) ≤ a.k - X.length := by rw [← hsum]; exact Finset.sum_nonneg fun i _ => g1 i
    have : (X.length : ℚ) ≤ a.k := by linarith
    exact_mod_cast this
  · rw [← hperm.length_eq]
    rcases h2 with ⟨h2, -⟩ | ⟨-, h2, -⟩
    · exact Or.inl h2
    · refine Or.inr fun c hc hcX => ?_
      exact not_le.1 (h2 c hc (fun h => hcX (hperm.mem_iff.1 h)))

end Abc
