import Verif.Spec.FileIO
import Verif.Props.Preferences

/-!
# Properties of the .abc.yaml format: C63
-/

namespace Abc
open Spec

/-! ## Adding voters -/

theorem legalVoter_of_stores {n : ℕ} {a : List ℤ} {w : ℚ} {v : Voter} (h : Stores ⟨a, w⟩ v) :
    (∀ c ∈ v.approved, c < n) ↔ ∀ c ∈ a, c < (n : ℤ) := by
  obtain ⟨-, -, h3⟩ := h
  constructor
  · intro hc c hca
    obtain ⟨x, hx, rfl⟩ := (h3 c).1 hca
    exact_mod_cast hc x hx
  · intro hc x hx
    exact_mod_cast hc x ((h3 x).2 ⟨x, hx, rfl⟩)

theorem mkVoter_none_cases (a : List ℤ) (w : ℚ) :
    (LegalSet a ∧ 0 < w ∧ ∃ v, mkVoter a w none = .ok v ∧ Stores ⟨a, w⟩ v) ∨
    (¬ (LegalSet a ∧ 0 < w) ∧ mkVoter a w none = .error .valueError) := by
  unfold mkVoter
  cases hc : candidateSet a none with
  | error e =>
    refine Or.inr ⟨?_, by simp [bind, Except.bind, C01_candidateSet_error hc]⟩
    rintro ⟨⟨h1, h2⟩, -⟩
    obtain ⟨s, hs⟩ := (C01_candidateSet_ok_iff a none).2 ⟨h1, h2, fun n hn => by simp at hn⟩
    rw [hc] at hs
    exact absurd hs (by simp)
  | ok s =>
    obtain ⟨h1, h2, -⟩ := (C01_candidateSet_ok_iff a none).1 ⟨s, hc⟩
    obtain ⟨g1, -, g3⟩ := C01_candidateSet_elements hc
    by_cases hw : w ≤ 0
    · refine Or.inr ⟨fun h => absurd h.2 (not_lt.2 hw), ?_⟩
      simp [bind, Except.bind, hw]
    · refine Or.inl ⟨⟨h1, h2⟩, lt_of_not_ge hw, ⟨s, w⟩, ?_, rfl, g1, g3⟩
      simp [bind, Except.bind, hw]

theorem addWeighted_cases (p : Profile) (a : List ℤ) (w : ℚ) :
    (LegalVoter p.numCand ⟨a, w⟩ ∧ ∃ v, Stores ⟨a, w⟩ v ∧ addWeighted p a w = .ok { p with voters := p.voters ++ [v] }) ∨
    (¬ LegalVoter p.numCand ⟨a, w⟩ ∧ addWeighted p a w = .error .valueError) := by
  unfold addWeighted
  rcases mkVoter_none_cases a w with ⟨h1, h2, v, hv, hs⟩ | ⟨h, he⟩
  · rw [hv]
    simp only [bind, Except.bind]
    have hsub : v.approved.Nodup := hs.2.1.imp (fun h => ne_of_lt h)
    by_cases hlt : ∀ c ∈ a, c < (p.numCand : ℤ)
    · refine Or.inl ⟨⟨h1.1, fun c hc => ⟨h1.2 c hc, hlt c hc⟩, h2⟩, v, hs, ?_⟩
      have hw : 0 < v.weight := by rw [hs.1]; exact h2
      have := addVoters_toRaw p [v] (by
        intro x hx
        obtain rfl := List.mem_singleton.1 hx
        exact ⟨hsub, (legalVoter_of_stores hs).2 hlt, hw⟩)
      simp only [List.map_cons, List.map_nil, Profile.addVoters] at this
      have hsort : sortNat v.approved = v.approved := by
        have : v.approved.Pairwise (· ≤ ·) := hs.2.1.imp le_of_lt
        exact this.insertionSort_eq
      unfold addVoterE
      cases hq : p.addVoter v.toRaw with
      | mk q o =>
        rw [hq] at this
        cases o with
        | none =>
          simp only [Profile.addVoters, Prod.mk.injEq, and_true] at this
          rw [this, hsort]
        | some e => simp at this
    · refine Or.inr ⟨fun h => hlt (fun c hc => (h.2.1 c hc).2), ?_⟩
      have hill : ¬ LegalVoter p.numCand v.toRaw := by
        intro h
        refine hlt ((legalVoter_of_stores hs).1 ?_)
        intro c hc
        have := (h.2.1 (c : ℤ) (by simp only [Voter.toRaw]; exact List.mem_map.2 ⟨c, hc, rfl⟩)).2
        exact_mod_cast this
      unfold addVoterE
      rw [(C66_addVoter p v.toRaw).2 hill]
  · rw [he]
    refine Or.inr ⟨fun hl => h ⟨⟨hl.1, fun c hc => (hl.2.1 c hc).1⟩, hl.2.2⟩, rfl⟩

theorem addZip_cases (p : Profile) (l : List (List ℤ × ℚ)) :
    ((∀ x ∈ l, LegalVoter p.numCand ⟨x.1, x.2⟩) ∧ ∃ ws, List.Forall₂ (fun x v => Stores ⟨x.1, x.2⟩ v) l ws ∧
      addZip p l = .ok { p with voters := p.voters ++ ws }) ∨
    ((∃ x ∈ l, ¬ LegalVoter p.numCand ⟨x.1, x.2⟩) ∧ addZip p l = .error .valueError) := by
  induction l generalizing p with
  | nil => exact Or.inl ⟨by simp, [], .nil, by simp [addZip]⟩
  | cons x l ih =>
    obtain ⟨a, w⟩ := x
    rcases addWeighted_cases p a w with ⟨h, v, hs, he⟩ | ⟨h, he⟩
    · unfold addZip
      rw [he]
      simp only [bind, Except.bind]
      rcases ih { p with voters := p.voters ++ [v] } with ⟨g1, ws, g2, g3⟩ | ⟨⟨y, hy, hbad⟩, g⟩
      · refine Or.inl ⟨?_, v :: ws, .cons hs g2, ?_⟩
        · intro y hy
          rcases List.mem_cons.1 hy with rfl | hy
          · exact h
          · exact g1 y hy
        · rw [g3]
          simp
      · exact Or.inr ⟨⟨y, by simp [hy], hbad⟩, g⟩
    · refine Or.inr ⟨⟨(a, w), by simp, h⟩, ?_⟩
      unfold addZip
      rw [he]
      rfl

theorem addVotersE_cases (p : Profile) (vs : List RawVoter) :
    ((∀ v ∈ vs, LegalVoter p.numCand v) ∧ ∃ ws, List.Forall₂ Stores vs ws ∧
      addVotersE p vs = .ok { p with voters := p.voters ++ ws }) ∨
    ((∃ v ∈ vs, ¬ LegalVoter p.numCand v) ∧ addVotersE p vs = .error .valueError) := by
  obtain ⟨good, bad, ws, h1, h2, h3, h4, h5⟩ := C66_addVoters p vs
  unfold addVotersE
  cases hq : p.addVoters vs with
  | mk q o =>
    rw [hq] at h4 h5
    dsimp only at h4 h5
    rcases h5 with ⟨rfl, rfl⟩ | ⟨v, rest, rfl, hbad, rfl⟩
    · rw [List.append_nil] at h1
      subst h1
      exact Or.inl ⟨h2, ws, h3, by rw [h4]⟩
    · exact Or.inr ⟨⟨v, by simp [h1], hbad⟩, rfl⟩

/-! ## The voters of a document -/

theorem forall₂_zip {sets : List (List ℤ)} {ws : List ℚ} {vs : List Voter}
    (h : List.Forall₂ (fun x v => Stores ⟨x.1, x.2⟩ v) (sets.zip ws) vs) :
    List.Forall₂ Stores ((sets.zip ws).map (fun x => (⟨x.1, x.2⟩ : RawVoter))) vs := by
  rw [List.forall₂_map_left_iff]
  exact h

theorem mem_zip_of_length {sets : List (List ℤ)} {ws : List ℚ} (h : ws.length = sets.length) :
    (∀ s ∈ sets, ∃ w, (s, w) ∈ sets.zip ws) ∧ (∀ w ∈ ws, ∃ s, (s, w) ∈ sets.zip ws) := by
  induction sets generalizing ws with
  | nil =>
    obtain rfl := List.length_eq_zero_iff.1 h
    simp
  | cons s sets ih =>
    cases ws with
    | nil => simp at h
    | cons w ws =>
      obtain ⟨h1, h2⟩ := ih (by simpa using h)
      constructor
      · intro t ht
        rcases List.mem_cons.1 ht with rfl | ht
        · exact ⟨w, by simp⟩
        · obtain ⟨u, hu⟩ := h1 t ht
          exact ⟨u, by simp [hu]⟩
      · intro t ht
        rcases List.mem_cons.1 ht with rfl | ht
        · exact ⟨s, by simp⟩
        · obtain ⟨u, hu⟩ := h2 t ht
          exact ⟨u, by simp [hu]⟩

/-- The ballots are legal iff the approval sets and the weights are. -/
theorem legal_ballots_iff {V : Type} (d : YamlDoc V) (sets : List (List ℤ)) (n : ℕ)
    (hlen : ∀ ws, d.voterWeights = some ws → ws.length = sets.length) :
    (∀ v ∈ docBallots d sets, LegalVoter n v) ↔
      (∀ s ∈ sets, LegalSet s ∧ ∀ c ∈ s, c < n) ∧ ∀ ws, d.voterWeights = some ws → ∀ w ∈ ws, 0 < w := by
  unfold docBallots
  cases hw : d.voterWeights with
  | none =>
    simp only [List.mem_map, forall_exists_index, and_imp, forall_apply_eq_imp_iff₂, reduceCtorEq, false_implies,
      implies_true, and_true]
    refine forall₂_congr (fun s _ => ?_)
    unfold LegalVoter LegalSet
    constructor
    · rintro ⟨h1, h2, -⟩
      exact ⟨⟨h1, fun c hc => (h2 c hc).1⟩, fun c hc => (h2 c hc).2⟩
    · rintro ⟨⟨h1, h2⟩, h3⟩
      exact ⟨h1, fun c hc => ⟨h2 c hc, h3 c hc⟩, one_pos⟩
  | some ws =>
    obtain ⟨g1, g2⟩ := mem_zip_of_length (hlen ws hw)
    simp only [List.mem_map, Prod.exists, Option.some.injEq, forall_eq']
    constructor
    · intro h
      constructor
      · intro s hs
        obtain ⟨w, hm⟩ := g1 s hs
        obtain ⟨h1, h2, -⟩ := h ⟨s, w⟩ ⟨s, w, hm, rfl⟩
        exact ⟨⟨h1, fun c hc => (h2 c hc).1⟩, fun c hc => (h2 c hc).2⟩
      · intro w hws
        obtain ⟨s, hm⟩ := g2 w hws
        exact (h ⟨s, w⟩ ⟨s, w, hm, rfl⟩).2.2
    · rintro ⟨h1, h2⟩ v ⟨s, w, hm, rfl⟩
      obtain ⟨k1, k2⟩ := List.of_mem_zip hm
      obtain ⟨⟨l1, l2⟩, l3⟩ := h1 s k1
      exact ⟨l1, fun c hc => ⟨l2 c hc, l3 c hc⟩, h2 w k2⟩

theorem yamlVoters_cases {V : Type} (d : YamlDoc V) (p : Profile) (sets : List (List ℤ))
    (hlen : ∀ ws, d.voterWeights = some ws → ws.length = sets.length) :
    ((∀ v ∈ docBallots d sets, LegalVoter p.numCand v) ∧ ∃ vs, List.Forall₂ Stores (docBallots d sets) vs ∧
      yamlVoters p sets d.voterWeights = .ok { p with voters := p.voters ++ vs }) ∨
    (¬ (∀ v ∈ docBallots d sets, LegalVoter p.numCand v) ∧ yamlVoters p sets d.voterWeights = .error .valueError) := by
  unfold yamlVoters docBallots
  cases hw : d.voterWeights with
  | none =>
    dsimp only
    rcases addVotersE_cases p (sets.map (fun s => ⟨s, 1⟩)) with h | ⟨⟨v, hv, hb⟩, h2⟩
    · exact Or.inl h
    · exact Or.inr ⟨fun h => hb (h v hv), h2⟩
  | some ws =>
    dsimp only
    rw [if_neg (by simp [hlen ws hw])]
    rcases addZip_cases p (sets.zip ws) with ⟨h1, vs, h2, h3⟩ | ⟨⟨x, hx, hb⟩, h2⟩
    · refine Or.inl ⟨?_, vs, forall₂_zip h2, h3⟩
      intro v hv
      obtain ⟨x, hx, rfl⟩ := List.mem_map.1 hv
      exact h1 x hx
    · exact Or.inr ⟨fun h => hb (h _ (List.mem_map.2 ⟨x, hx, rfl⟩)), h2⟩

/-! ## The number of candidates -/

theorem foldl_max_ge (l : List ℤ) (x : ℤ) : x ≤ l.foldl max x ∧ (∀ y ∈ l, y ≤ l.foldl max x) ∧
    (l.foldl max x = x ∨ l.foldl max x ∈ l) := by
  induction l generalizing x with
  | nil => simp
  | cons y l ih =>
    obtain ⟨h1, h2, h3⟩ := ih (max x y)
    simp only [List.foldl_cons]
    refine ⟨le_trans (le_max_left _ _) h1, ?_, ?_⟩
    · intro z hz
      rcases List.mem_cons.1 hz with rfl | hz
      · exact le_trans (le_max_right _ _) h1
      · exact h2 z hz
    · rcases h3 with h3 | h3
      · rw [h3]
        rcases max_choice x y with h | h <;> simp [h]
      · exact Or.inr (List.mem_cons_of_mem _ h3)

theorem yamlNumCand_cases {V : Type} (d : YamlDoc V) (sets : List (List ℤ)) :
    (∃ n : ℕ, 0 < n ∧ DocNumCand d sets n ∧ yamlNumCand d.numCand sets = .ok (n : ℤ)) ∨
    ((∀ n : ℕ, 0 < n → ¬ DocNumCand d sets n) ∧
      (yamlNumCand d.numCand sets = .error .valueError ∨ ∃ m : ℤ, m ≤ 0 ∧ yamlNumCand d.numCand sets = .ok m)) := by
  unfold DocNumCand yamlNumCand
  cases hn : d.numCand with
  | some m =>
    dsimp only
    by_cases h : 0 < m
    · exact Or.inl ⟨m.toNat, by omega, by omega, by rw [Int.toNat_of_nonneg h.le]⟩
    · exact Or.inr ⟨fun n hn e => by omega, Or.inr ⟨m, by omega, rfl⟩⟩
  | none =>
    dsimp only
    cases hf : sets.flatten with
    | nil =>
      refine Or.inr ⟨?_, Or.inl rfl⟩
      rintro n - ⟨⟨s, hs, hc⟩, -⟩
      have : (n : ℤ) - 1 ∈ sets.flatten := List.mem_flatten.2 ⟨s, hs, hc⟩
      rw [hf] at this
      simp at this
    | cons x l =>
      obtain ⟨h1, h2, h3⟩ := foldl_max_ge l x
      generalize hm : l.foldl max x = m at h1 h2 h3
      have hmem : m ∈ sets.flatten := by
        rw [hf]
        rcases h3 with h3 | h3
        · simp [h3]
        · simp [h3]
      have hub : ∀ s ∈ sets, ∀ c ∈ s, c ≤ m := by
        intro s hs c hc
        have : c ∈ sets.flatten := List.mem_flatten.2 ⟨s, hs, hc⟩
        rw [hf] at this
        rcases List.mem_cons.1 this with rfl | hcl
        · exact h1
        · exact h2 c hcl
      have hval : (do let m ← pyMaxInt (x :: l); Except.ok (m + 1) : Except Err ℤ) = .ok (m + 1) := by
        simp [pyMaxInt, bind, Except.bind, hm]
      obtain ⟨s, hs, hms⟩ := List.mem_flatten.1 hmem
      by_cases h0 : 0 ≤ m
      · refine Or.inl ⟨(m + 1).toNat, by omega, ⟨⟨s, hs, ?_⟩, ?_⟩, ?_⟩
        · have : (((m + 1).toNat : ℕ) : ℤ) - 1 = m := by omega
          rw [this]
          exact hms
        · intro t ht c hc
          have := hub t ht c hc
          omega
        · rw [hval, Int.toNat_of_nonneg (by omega)]
      · refine Or.inr ⟨?_, Or.inr ⟨m + 1, by omega, hval⟩⟩
        rintro n hn ⟨⟨t, ht, hc⟩, -⟩
        have := hub t ht _ hc
        omega

theorem mkProfile_pos (n : ℕ) (h : 0 < n) : mkProfile (n : ℤ) none = .ok ⟨n, [], (List.range n).map strNat⟩ := by
  unfold mkProfile
  rw [if_neg (by omega)]
  simp

theorem mkProfile_nonpos (n : ℤ) (h : n ≤ 0) : mkProfile n none = .error .valueError := by
  unfold mkProfile
  rw [if_pos h]

/-! ## Compute instances -/

theorem candidateSet_none_cases (c : List ℤ) :
    (LegalSet c ∧ ∃ s, candidateSet c none = .ok s ∧ s.Pairwise (· < ·) ∧ ∀ x : ℤ, x ∈ c ↔ x ∈ s.map Int.ofNat) ∨
    (¬ LegalSet c ∧ candidateSet c none = .error .valueError) := by
  cases hc : candidateSet c none with
  | error e =>
    refine Or.inr ⟨?_, by rw [C01_candidateSet_error hc]⟩
    rintro ⟨h1, h2⟩
    obtain ⟨s, hs⟩ := (C01_candidateSet_ok_iff c none).2 ⟨h1, h2, fun n hn => by simp at hn⟩
    rw [hc] at hs
    exact absurd hs (by simp)
  | ok s =>
    obtain ⟨h1, h2, -⟩ := (C01_candidateSet_ok_iff c none).1 ⟨s, hc⟩
    obtain ⟨g1, -, g3⟩ := C01_candidateSet_elements hc
    refine Or.inl ⟨⟨h1, h2⟩, s, rfl, g1, ?_⟩
    intro x
    rw [g3 x]
    simp only [List.mem_map]
    rfl

theorem yamlResult_cases (r : Option (Option (List (List ℤ)))) :
    ((∀ cs, r = some (some cs) → ∀ c ∈ cs, LegalSet c) ∧ ∃ r', yamlResult r = .ok r' ∧ SameResult r r') ∨
    (¬ (∀ cs, r = some (some cs) → ∀ c ∈ cs, LegalSet c) ∧ yamlResult r = .error .valueError) := by
  match r with
  | none => exact Or.inl ⟨by simp, none, rfl, trivial⟩
  | some none => exact Or.inl ⟨by simp, some none, rfl, trivial⟩
  | some (some cs) =>
    have key : ((∀ c ∈ cs, LegalSet c) ∧ ∃ sets, cs.mapM (fun c => candidateSet c none) = .ok sets ∧
          SameResult (some (some cs)) (some (some (sets.map (fun s => s.map Int.ofNat))))) ∨
        ((∃ c ∈ cs, ¬ LegalSet c) ∧ cs.mapM (fun c => candidateSet c none) = .error .valueError) := by
      induction cs with
      | nil => exact Or.inl ⟨by simp, [], rfl, .nil⟩
      | cons c cs ih =>
        rcases candidateSet_none_cases c with ⟨h1, s, h2, h3, h4⟩ | ⟨h, he⟩
        · rcases ih with ⟨g1, sets, g2, g3⟩ | ⟨⟨x, hx, hb⟩, g⟩
          · refine Or.inl ⟨?_, s :: sets, ?_, ?_⟩
            · intro x hx
              rcases List.mem_cons.1 hx with rfl | hx
              · exact h1
              · exact g1 x hx
            · rw [List.mapM_cons, h2, g2]
              rfl
            · refine .cons ⟨?_, h1.1, h4⟩ g3
              rw [List.pairwise_map]
              exact h3.imp (fun h => Int.ofNat_lt.2 h)
          · refine Or.inr ⟨⟨x, by simp [hx], hb⟩, ?_⟩
            rw [List.mapM_cons, h2, g]
            rfl
        · refine Or.inr ⟨⟨c, by simp, h⟩, ?_⟩
          rw [List.mapM_cons, he]
          rfl
    unfold yamlResult
    dsimp only
    rcases key with ⟨h1, sets, h2, h3⟩ | ⟨⟨c, hc, hb⟩, h2⟩
    · refine Or.inl ⟨fun cs' h c hc => h1 c (by simp at h; rw [h]; exact hc), _, ?_, h3⟩
      rw [h2]
      rfl
    · refine Or.inr ⟨fun h => hb (h cs rfl c hc), ?_⟩
      rw [h2]
      rfl

theorem readInstances_cases {V : Type} (q : Profile) (k : Option ℤ) (insts : List (Instance V)) :
    ((∀ i ∈ insts, i.ruleId ≠ none) ∧ (∀ i ∈ insts, ∀ cs, i.result = some (some cs) → ∀ c ∈ cs, LegalSet c) ∧
      ∃ js, insts.mapM (readInstance q k) = .ok js ∧ List.Forall₂ (ReadAs q k) insts js) ∨
    (¬ (∀ i ∈ insts, i.ruleId ≠ none) ∧ (∀ i ∈ insts, ∀ cs, i.result = some (some cs) → ∀ c ∈ cs, LegalSet c) ∧
      insts.mapM (readInstance q k) = .error .malformattedFile) ∨
    (¬ (∀ i ∈ insts, ∀ cs, i.result = some (some cs) → ∀ c ∈ cs, LegalSet c) ∧
      (insts.mapM (readInstance q k) = .error .malformattedFile ∨ insts.mapM (readInstance q k) = .error .valueError)) := by
  induction insts with
  | nil => exact Or.inl ⟨by simp, by simp, [], rfl, .nil⟩
  | cons i insts ih =>
    rw [List.mapM_cons]
    by_cases hr : i.ruleId = none
    · have he : readInstance q k i = .error .malformattedFile := by simp [readInstance, hr]
      rw [he]
      by_cases hv : ∀ j ∈ i :: insts, ∀ cs, j.result = some (some cs) → ∀ c ∈ cs, LegalSet c
      · exact Or.inr (Or.inl ⟨fun h => h i (by simp) hr, hv, rfl⟩)
      · exact Or.inr (Or.inr ⟨hv, Or.inl rfl⟩)
    · have hr' : i.ruleId.isNone = false := by
        cases h : i.ruleId with
        | none => exact absurd h hr
        | some _ => rfl
      rcases yamlResult_cases i.result with ⟨h1, r', h2, h3⟩ | ⟨h, he⟩
      · have hi : readInstance q k i = .ok { i with profile := some q, committeesize := some k, result := r' } := by
          simp [readInstance, hr', h2, bind, Except.bind]
        rw [hi]
        simp only [bind, Except.bind]
        rcases ih with ⟨g1, g2, js, g3, g4⟩ | ⟨g1, g2, g3⟩ | ⟨g1, g2⟩
        · refine Or.inl ⟨?_, ?_, { i with profile := some q, committeesize := some k, result := r' } :: js, by rw [g3]; rfl, .cons ⟨rfl, rfl, rfl, h3, rfl⟩ g4⟩
          · intro j hj
            rcases List.mem_cons.1 hj with rfl | hj
            · exact hr
            · exact g1 j hj
          · intro j hj
            rcases List.mem_cons.1 hj with rfl | hj
            · exact h1
            · exact g2 j hj
        · refine Or.inr (Or.inl ⟨fun h => g1 (fun j hj => h j (by simp [hj])), ?_, by rw [g3]⟩)
          intro j hj
          rcases List.mem_cons.1 hj with rfl | hj
          · exact h1
          · exact g2 j hj
        · refine Or.inr (Or.inr ⟨fun h => g1 (fun j hj => h j (by simp [hj])), ?_⟩)
          rcases g2 with g2 | g2
          · exact Or.inl (by rw [g2])
          · exact Or.inr (by rw [g2])
      · have hi : readInstance q k i = .error .valueError := by
          simp [readInstance, hr', he, bind, Except.bind]
        rw [hi]
        exact Or.inr (Or.inr ⟨fun h' => h (h' i (by simp)), Or.inr rfl⟩)

/-! ## Reading -/

/-- C63, reading: from a legal document the reader builds the profile it describes: the declared number of candidates (or the
largest candidate plus one), the voters in the order of the document with their approval sets and weights (1 if the document has
no weights), candidates named by their numbers; the committee size is the document's, and each compute instance gets this
profile and this committee size, its committees as sets, all other entries unchanged. -/
theorem C63_read {V : Type} (d : YamlDoc V) (sets : List (List ℤ)) (n : ℕ) (hs : d.profile = some sets)
    (hv : DocValues d sets n) (hsh : DocShape d sets) :
    ∃ q js, readDoc d = .ok (q, d.committeesize, js) ∧ q.numCand = n ∧ q.candNames = (List.range n).map strNat ∧
      List.Forall₂ Stores (docBallots d sets) q.voters ∧
      List.Forall₂ (ReadAs q d.committeesize) (d.compute.getD []) js := by
  have hnum : yamlNumCand d.numCand sets = .ok (n : ℤ) := by
    rcases yamlNumCand_cases d sets with ⟨m, hm, hd, he⟩ | ⟨h, -⟩
    · have : m = n := by
        have h1 := hv.numCand
        unfold DocNumCand at hd h1
        cases hn : d.numCand with
        | some x =>
          rw [hn] at hd h1
          dsimp only at hd h1
          omega
        | none =>
          rw [hn] at hd h1
          dsimp only at hd h1
          obtain ⟨⟨s, a1, a2⟩, a3⟩ := hd
          obtain ⟨⟨t, b1, b2⟩, b3⟩ := h1
          have := a3 t b1 _ b2
          have := b3 s a1 _ a2
          omega
      rw [he, this]
    · exact absurd hv.numCand (h n hv.pos)
  have hleg := (legal_ballots_iff d sets n hsh.weights).2 ⟨hv.sets, hv.weights⟩
  rcases yamlVoters_cases d ⟨n, [], (List.range n).map strNat⟩ sets hsh.weights with ⟨-, vs, h2, h3⟩ | ⟨h, -⟩
  · rcases readInstances_cases { (⟨n, [], (List.range n).map strNat⟩ : Profile) with voters := [] ++ vs } d.committeesize
      (d.compute.getD []) with ⟨-, -, js, g3, g4⟩ | ⟨g, -⟩ | ⟨g, -⟩
    · refine ⟨_, js, ?_, rfl, rfl, ?_, g4⟩
      · unfold readDoc
        rw [hs]
        simp only [hnum, bind, Except.bind, mkProfile_pos n hv.pos, h3]
        rw [g3]
        simp only [hsh.keys, ne_eq, not_true_eq_false, if_false]
      · exact h2
    · refine absurd ?_ g
      intro i hi
      cases hc : d.compute with
      | none => simp [hc] at hi
      | some l => exact hsh.rules l hc i (by simpa [hc] using hi)
    · refine absurd ?_ g
      intro i hi
      cases hc : d.compute with
      | none => simp [hc] at hi
      | some l => exact hv.results l hc i (by simpa [hc] using hi)
  · exact absurd hleg h

/-- C63, reading: exactly the legal documents are accepted. -/
theorem C63_read_ok_iff {V : Type} (d : YamlDoc V) :
    (∃ r, readDoc d = .ok r) ↔ ∃ sets n, d.profile = some sets ∧ DocValues d sets n ∧ DocShape d sets := by
  constructor
  · rintro ⟨r, hr⟩
    unfold readDoc at hr
    cases hs : d.profile with
    | none => simp [hs] at hr
    | some sets =>
      rw [hs] at hr
      dsimp only at hr
      rcases yamlNumCand_cases d sets with ⟨n, hn, hd, he⟩ | ⟨-, he | ⟨m, hm, he⟩⟩
      · simp only [he, bind, Except.bind, mkProfile_pos n hn] at hr
        by_cases hlen : ∀ ws, d.voterWeights = some ws → ws.length = sets.length
        · rcases yamlVoters_cases d ⟨n, [], (List.range n).map strNat⟩ sets hlen with ⟨h1, vs, h2, h3⟩ | ⟨-, h⟩
          · rw [h3] at hr
            dsimp only at hr
            obtain ⟨k1, k2⟩ := (legal_ballots_iff d sets n hlen).1 h1
            rcases readInstances_cases { (⟨n, [], (List.range n).map strNat⟩ : Profile) with voters := [] ++ vs }
              d.committeesize (d.compute.getD []) with ⟨g1, g2, js, g3, -⟩ | ⟨-, -, g⟩ | ⟨-, g | g⟩
            · rw [g3] at hr
              dsimp only at hr
              refine ⟨sets, n, rfl, ⟨hn, hd, k1, k2, ?_⟩, ⟨hlen, ?_, ?_⟩⟩
              · intro l hl i hi
                exact g2 i (by simpa [hl] using hi)
              · intro l hl i hi
                exact g1 i (by simpa [hl] using hi)
              · by_contra hk
                simp [hk] at hr
            · rw [g] at hr
              simp at hr
            · rw [g] at hr
              simp at hr
            · rw [g] at hr
              simp at hr
          · rw [h] at hr
            simp at hr
        · push Not at hlen
          obtain ⟨ws, hw, hl⟩ := hlen
          simp [yamlVoters, hw, hl] at hr
      · simp [he, bind, Except.bind] at hr
      · simp [he, bind, Except.bind, mkProfile_nonpos m hm] at hr
  · rintro ⟨sets, n, hs, hv, hsh⟩
    obtain ⟨q, js, h, -⟩ := C63_read d sets n hs hv hsh
    exact ⟨_, h⟩

/-- C63, reading: a document without a profile, or with legal numbers but a wrong structure (number of weights, missing rule id,
undefined key), raises MalformattedFileException. -/
theorem C63_read_malformatted {V : Type} (d : YamlDoc V)
    (h : d.profile = none ∨ ∃ sets n, d.profile = some sets ∧ DocValues d sets n ∧ ¬ DocShape d sets) :
    readDoc d = .error .malformattedFile := by
  rcases h with h | ⟨sets, n, hs, hv, hsh⟩
  · simp [readDoc, h]
  · unfold readDoc
    rw [hs]
    dsimp only
    rcases yamlNumCand_cases d sets with ⟨m, hm, hd, he⟩ | ⟨h, -⟩
    · have hmn : m = n := by
        have h1 := hv.numCand
        unfold DocNumCand at hd h1
        cases hn : d.numCand with
        | some x =>
          rw [hn] at hd h1
          dsimp only at hd h1
          omega
        | none =>
          rw [hn] at hd h1
          dsimp only at hd h1
          obtain ⟨⟨s, a1, a2⟩, a3⟩ := hd
          obtain ⟨⟨t, b1, b2⟩, b3⟩ := h1
          have := a3 t b1 _ b2
          have := b3 s a1 _ a2
          omega
      subst hmn
      simp only [he, bind, Except.bind, mkProfile_pos m hm]
      by_cases hlen : ∀ ws, d.voterWeights = some ws → ws.length = sets.length
      · have hleg := (legal_ballots_iff d sets m hlen).2 ⟨hv.sets, hv.weights⟩
        rcases yamlVoters_cases d ⟨m, [], (List.range m).map strNat⟩ sets hlen with ⟨-, vs, h2, h3⟩ | ⟨h, -⟩
        · rw [h3]
          dsimp only
          rcases readInstances_cases { (⟨m, [], (List.range m).map strNat⟩ : Profile) with voters := [] ++ vs }
            d.committeesize (d.compute.getD []) with ⟨g1, g2, js, g3, -⟩ | ⟨-, -, g⟩ | ⟨g, -⟩
          · rw [g3]
            dsimp only
            rw [if_pos]
            intro hk
            refine hsh ⟨hlen, ?_, hk⟩
            intro l hl i hi
            exact g1 i (by simpa [hl] using hi)
          · rw [g]
          · refine absurd ?_ g
            intro i hi
            cases hc : d.compute with
            | none => simp [hc] at hi
            | some l => exact hv.results l hc i (by simpa [hc] using hi)
        · exact absurd hleg h
      · push Not at hlen
        obtain ⟨ws, hw, hl⟩ := hlen
        simp [yamlVoters, hw, hl]
    · exact absurd hv.numCand (h n hv.pos)

/-- C63, reading: the only exceptions are MalformattedFileException and ValueError. -/
theorem C63_read_errors {V : Type} (d : YamlDoc V) (e : Err) (h : readDoc d = .error e) :
    e = .malformattedFile ∨ e = .valueError := by
  unfold readDoc at h
  cases hs : d.profile with
  | none =>
    rw [hs] at h
    exact Or.inl (by simpa using h.symm)
  | some sets =>
    rw [hs] at h
    dsimp only at h
    rcases yamlNumCand_cases d sets with ⟨n, hn, hd, he⟩ | ⟨-, he | ⟨m, hm, he⟩⟩
    · simp only [he, bind, Except.bind, mkProfile_pos n hn] at h
      by_cases hlen : ∀ ws, d.voterWeights = some ws → ws.length = sets.length
      · rcases yamlVoters_cases d ⟨n, [], (List.range n).map strNat⟩ sets hlen with ⟨h1, vs, h2, h3⟩ | ⟨-, h4⟩
        · rw [h3] at h
          dsimp only at h
          rcases readInstances_cases { (⟨n, [], (List.range n).map strNat⟩ : Profile) with voters := [] ++ vs }
            d.committeesize (d.compute.getD []) with ⟨g1, g2, js, g3, -⟩ | ⟨-, -, g⟩ | ⟨-, g | g⟩
          · rw [g3] at h
            dsimp only at h
            split at h
            · exact Or.inl (by simpa using h.symm)
            · simp at h
          · rw [g] at h
            exact Or.inl (by simpa using h.symm)
          · rw [g] at h
            exact Or.inl (by simpa using h.symm)
          · rw [g] at h
            exact Or.inr (by simpa using h.symm)
        · rw [h4] at h
          exact Or.inr (by simpa using h.symm)
      · push Not at hlen
        obtain ⟨ws, hw, hl⟩ := hlen
        simp [yamlVoters, hw, hl] at h
        exact Or.inl h.symm
    · simp only [he, bind, Except.bind] at h
      exact Or.inr (by simpa using h.symm)
    · simp only [he, bind, Except.bind, mkProfile_nonpos m hm] at h
      exact Or.inr (by simpa using h.symm)

/-! ## Writing -/

/-- A compute instance that can be written next to the profile `p` and the committee size `k`. -/
structure Spec.Writable {V : Type} (str : Profile → Name) (p : Profile) (k : Option ℤ) (i : Instance V) : Prop where
  ruleId : i.ruleId ≠ none
  profile : ∀ q, i.profile = some q → str q = str p
  committeesize : ∀ c, i.committeesize = some c → ∃ m, c = some m ∧ k = some m

theorem writeInstance_ok {V : Type} (str : Profile → Name) (p : Profile) (k : Option ℤ) (i : Instance V) (h : Writable str p k i) :
    writeInstance str p k i = .ok { ruleId := i.ruleId, result := i.result, others := i.others } := by
  have h1 : i.ruleId.isNone = false := by
    cases hr : i.ruleId with
    | none => exact absurd hr h.ruleId
    | some _ => rfl
  have h2 : writeCheckProfile str p i.profile = .ok () := by
    unfold writeCheckProfile
    cases hq : i.profile with
    | none => rfl
    | some q => simp [h.profile q hq]
  have h3 : writeCheckSize k i.committeesize = .ok () := by
    unfold writeCheckSize
    cases hq : i.committeesize with
    | none => rfl
    | some c =>
      obtain ⟨m, rfl, rfl⟩ := h.committeesize c hq
      simp
  simp [writeInstance, h1, h2, h3, bind, Except.bind]

theorem writable_of_ok {V : Type} (str : Profile → Name) (p : Profile) (k : Option ℤ) (i j : Instance V)
    (h : writeInstance str p k i = .ok j) : Writable str p k i := by
  unfold writeInstance at h
  cases hr : i.ruleId with
  | none => simp [hr] at h
  | some r =>
    simp only [hr, Option.isNone_some, Bool.false_eq_true, if_false, bind, Except.bind] at h
    refine ⟨by simp [hr], ?_, ?_⟩
    · intro q hq
      by_contra hne
      simp [writeCheckProfile, hq, hne] at h
    · intro c hc
      cases hp : writeCheckProfile str p i.profile with
      | error e => simp [hp] at h
      | ok u =>
        rw [hp] at h
        dsimp only at h
        cases c with
        | none => simp [writeCheckSize, hc] at h
        | some m =>
          refine ⟨m, rfl, ?_⟩
          by_contra hne
          simp [writeCheckSize, hc, Ne.symm hne] at h

theorem writeInstances_ok {V : Type} (str : Profile → Name) (p : Profile) (k : Option ℤ) (insts : List (Instance V))
    (h : ∀ i ∈ insts, Writable str p k i) :
    insts.mapM (writeInstance str p k) =
      .ok (insts.map (fun i => { ruleId := i.ruleId, result := i.result, others := i.others })) := by
  induction insts with
  | nil => rfl
  | cons i insts ih =>
    rw [List.mapM_cons, writeInstance_ok str p k i (h i (by simp)), ih (fun j hj => h j (by simp [hj]))]
    rfl

theorem mapM_ok_mem {α β : Type} {f : α → Except Err β} {l : List α} {r : List β} (h : l.mapM f = .ok r) :
    ∀ x ∈ l, ∃ y, f x = .ok y := by
  induction l generalizing r with
  | nil => simp
  | cons a l ih =>
    rw [List.mapM_cons] at h
    cases ha : f a with
    | error e => simp [ha, bind, Except.bind] at h
    | ok y =>
      cases hl : l.mapM f with
      | error e => simp [ha, hl, bind, Except.bind] at h
      | ok ys =>
        intro x hx
        rcases List.mem_cons.1 hx with rfl | hx
        · exact ⟨y, ha⟩
        · exact ih hl x hx

/-- C63, writing: a profile can always be written; compute instances are accepted iff each of them has a rule id and does not
contradict the profile (as printed) and the committee size that are written. -/
theorem C63_write_ok_iff {V : Type} (str : Profile → Name) (p : Profile) (k : Option ℤ) (insts : Option (List (Instance V)))
    (description : Option Name) :
    (∃ d, writeDoc str p k insts description = .ok d) ↔ ∀ l, insts = some l → ∀ i ∈ l, Writable str p k i := by
  unfold writeDoc
  cases insts with
  | none =>
    refine ⟨fun _ l hl => by simp at hl, fun _ => ⟨_, rfl⟩⟩
  | some l =>
    constructor
    · rintro ⟨d, hd⟩ l' hl' i hi
      obtain rfl := Option.some.inj hl'
      unfold writeInstances at hd
      cases hm : l.mapM (writeInstance str p k) with
      | error e => simp [hm, bind, Except.bind] at hd
      | ok js =>
        obtain ⟨j, hj⟩ := mapM_ok_mem hm i hi
        exact writable_of_ok str p k i j hj
    · intro h
      have he : writeInstances str p k (some l) =
          .ok (some (l.map (fun i => { ruleId := i.ruleId, result := i.result, others := i.others }))) := by
        unfold writeInstances
        dsimp only
        rw [writeInstances_ok str p k l (h l rfl)]
        rfl
      rw [he]
      exact ⟨_, rfl⟩

/-- ruamel.yaml reads what it wrote, for all documents whose weights it can represent (`num`; it cannot represent `Fraction`s). -/
def Spec.YamlFaithful {V F : Type} (dump : YamlDoc V → Except Err F) (load : F → Except Err (YamlDoc V)) (num : ℚ → Prop) : Prop :=
  ∀ d, (∀ ws, d.voterWeights = some ws → ∀ w ∈ ws, num w) → ∃ f, dump d = .ok f ∧ load f = .ok d

theorem stores_iff (v : Voter) (w : Voter) (h : Stores ⟨v.approved.map Int.ofNat, v.weight⟩ w) :
    w.A = v.A ∧ w.weight = v.weight := by
  refine ⟨?_, h.1⟩
  ext c
  simp only [Voter.A, List.mem_toFinset]
  have := h.2.2 (c : ℤ)
  simp only [List.mem_map] at this
  constructor
  · intro hc
    obtain ⟨x, hx, e⟩ := this.2 ⟨c, hc, rfl⟩
    have : x = c := Int.ofNat_injective e
    rwa [← this]
  · intro hc
    obtain ⟨x, hx, e⟩ := this.1 ⟨c, hc, rfl⟩
    have : x = c := by exact_mod_cast e
    rwa [← this]

/-- C63: writing a profile (with any weights ruamel.yaml can represent), a committee size and compute instances and reading the
file gives the same number of candidates, the same approval sets and weights in the same order, the same committee size, and
the same compute instances.  Candidate names are not stored. -/
theorem C63_roundtrip {V F : Type} (dump : YamlDoc V → Except Err F) (load : F → Except Err (YamlDoc V)) (num : ℚ → Prop)
    (hf : YamlFaithful dump load num) (str : Profile → Name) (p : Profile) (hp : p.WF) (hnum : ∀ v ∈ p.voters, num v.weight)
    (k : Option ℤ) (insts : Option (List (Instance V))) (description : Option Name)
    (hw : ∀ l, insts = some l → ∀ i ∈ l, Writable str p k i ∧ ∀ cs, i.result = some (some cs) → ∀ c ∈ cs, LegalSet c) :
    ∃ f q js, writeYaml dump str p k insts description = .ok f ∧ readYaml load f = .ok (q, k, js) ∧
      q.WF ∧ q.numCand = p.numCand ∧ q.voters.map Voter.A = p.voters.map Voter.A ∧
      q.voters.map Voter.weight = p.voters.map Voter.weight ∧ q.candNames = (List.range p.numCand).map strNat ∧
      List.Forall₂ (ReadAs q k) (insts.getD []) js := by
  -- the document
  have hd : writeDoc str p k insts description = .ok
      { profile := some (p.voters.map (fun v => v.approved.map Int.ofNat))
        numCand := some p.numCand
        committeesize := k
        voterWeights := if p.hasUnitWeights then none else some (p.voters.map Voter.weight)
        compute := insts.map (fun l => l.map (fun i => { ruleId := i.ruleId, result := i.result, others := i.others }))
        description := description } := by
    unfold writeDoc
    cases insts with
    | none => rfl
    | some l =>
      unfold writeInstances
      dsimp only
      rw [writeInstances_ok str p k l (fun i hi => (hw l rfl i hi).1)]
      rfl
  generalize hdd : ({ profile := some (p.voters.map (fun v => v.approved.map Int.ofNat))
                      numCand := some p.numCand
                      committeesize := k
                      voterWeights := if p.hasUnitWeights then none else some (p.voters.map Voter.weight)
                      compute := insts.map (fun l => l.map (fun i => { ruleId := i.ruleId, result := i.result, others := i.others }))
                      description := description } : YamlDoc V) = d at hd
  have hsets : d.profile = some (p.voters.map (fun v => v.approved.map Int.ofNat)) := by rw [← hdd]
  have hk : d.committeesize = k := by rw [← hdd]
  have hc : d.compute = insts.map (fun l => l.map (fun i => { ruleId := i.ruleId, result := i.result, others := i.others })) := by
    rw [← hdd]
  have hww : d.voterWeights = if p.hasUnitWeights then none else some (p.voters.map Voter.weight) := by rw [← hdd]
  have hwv : ∀ ws, d.voterWeights = some ws → ws = p.voters.map Voter.weight := by
    intro ws hws
    rw [hww] at hws
    split at hws
    · simp at hws
    · exact (Option.some.inj hws).symm
  obtain ⟨f, hf1, hf2⟩ := hf d (by
    intro ws hws w hw'
    rw [hwv ws hws] at hw'
    obtain ⟨v, hv, rfl⟩ := List.mem_map.1 hw'
    exact hnum v hv)
  have hcomp : ∀ l, d.compute = some l → ∃ l', insts = some l' ∧
      l = l'.map (fun i => { ruleId := i.ruleId, result := i.result, others := i.others }) := by
    intro l hl
    rw [hc] at hl
    cases hi : insts with
    | none => simp [hi] at hl
    | some l' =>
      rw [hi] at hl
      exact ⟨l', rfl, (Option.some.inj hl).symm⟩
  have hvals : DocValues d (p.voters.map (fun v => v.approved.map Int.ofNat)) p.numCand := by
    refine ⟨hp.pos, ?_, ?_, ?_, ?_⟩
    · unfold DocNumCand
      rw [← hdd]
    · intro s hs
      obtain ⟨v, hv, rfl⟩ := List.mem_map.1 hs
      refine ⟨⟨(hp.nodup v hv).map Int.ofNat_injective, ?_⟩, ?_⟩
      · intro c hc
        obtain ⟨x, -, rfl⟩ := List.mem_map.1 hc
        exact Int.natCast_nonneg x
      · intro c hc
        obtain ⟨x, hx, rfl⟩ := List.mem_map.1 hc
        exact Int.ofNat_lt.2 (hp.lt v hv x hx)
    · intro ws hws w hw'
      rw [hwv ws hws] at hw'
      obtain ⟨v, hv, rfl⟩ := List.mem_map.1 hw'
      exact hp.weight v hv
    · intro l hl i hi
      obtain ⟨l', hl', rfl⟩ := hcomp l hl
      obtain ⟨j, hj, rfl⟩ := List.mem_map.1 hi
      exact (hw l' hl' j hj).2
  have hshape : DocShape d (p.voters.map (fun v => v.approved.map Int.ofNat)) := by
    refine ⟨?_, ?_, by rw [← hdd]⟩
    · intro ws hws
      rw [hwv ws hws]
      simp
    · intro l hl i hi
      obtain ⟨l', hl', rfl⟩ := hcomp l hl
      obtain ⟨j, hj, rfl⟩ := List.mem_map.1 hi
      exact (hw l' hl' j hj).1.ruleId
  obtain ⟨q, js, h1, h2, h3, h4, h5⟩ := C63_read d _ _ hsets hvals hshape
  have hballots : docBallots d (p.voters.map (fun v => v.approved.map Int.ofNat)) =
      p.voters.map (fun v => ⟨v.approved.map Int.ofNat, v.weight⟩) := by
    unfold docBallots
    rw [hww]
    by_cases hu : p.hasUnitWeights = true
    · rw [if_pos hu]
      dsimp only
      rw [List.map_map]
      refine List.map_congr_left ?_
      intro v hv
      have : v.weight = 1 := by
        unfold Profile.hasUnitWeights at hu
        rw [List.all_eq_true] at hu
        simpa using hu v hv
      simp [this]
    · rw [if_neg hu]
      dsimp only
      rw [List.zip_map', List.map_map]
      rfl
  rw [hballots, List.forall₂_map_left_iff] at h4
  have hA : q.voters.map Voter.A = p.voters.map Voter.A ∧ q.voters.map Voter.weight = p.voters.map Voter.weight := by
    clear hballots h5 h1 hvals hshape
    generalize p.voters = l at h4
    generalize q.voters = m at h4
    induction h4 with
    | nil => exact ⟨rfl, rfl⟩
    | cons h _ ih =>
      obtain ⟨a1, a2⟩ := stores_iff _ _ h
      exact ⟨by simp [a1, ih.1], by simp [a2, ih.2]⟩
  have hforall : List.Forall₂ (ReadAs q k) (insts.getD []) js := by
    rw [hk, hc] at h5
    cases hi : insts with
    | none =>
      rw [hi] at h5
      exact h5
    | some l =>
      rw [hi] at h5
      simp only [Option.map_some, Option.getD_some, List.forall₂_map_left_iff] at h5
      refine h5.imp ?_
      intro i j hij
      exact ⟨hij.ruleId, hij.profile, hij.committeesize, hij.result, hij.others⟩
  refine ⟨f, q, js, ?_, ?_, ⟨?_, ?_, ?_, ?_⟩, h2, hA.1, hA.2, ?_, hforall⟩
  · unfold writeYaml
    rw [hd]
    exact hf1
  · unfold readYaml
    rw [hf2]
    simp only [bind, Except.bind]
    rw [h1, hk]
  · rw [h2]; exact hp.pos
  · intro v hv
    obtain ⟨x, -, hx⟩ : ∃ x ∈ p.voters, Stores ⟨x.approved.map Int.ofNat, x.weight⟩ v := by
      obtain ⟨j, hj, rfl⟩ := List.mem_iff_getElem.1 hv
      have hl := h4.length_eq
      exact ⟨p.voters[j]'(by omega), List.getElem_mem _, h4.get (by omega) hj⟩
    exact hx.2.1.imp (fun h => ne_of_lt h)
  · intro v hv c hc
    have : v.A ∈ q.voters.map Voter.A := List.mem_map_of_mem hv
    rw [hA.1] at this
    obtain ⟨u, hu, e⟩ := List.mem_map.1 this
    rw [h2]
    refine hp.lt u hu c ?_
    have : c ∈ u.A := by rw [e]; simpa [Voter.A] using hc
    simpa [Voter.A] using this
  · intro v hv
    have : v.weight ∈ q.voters.map Voter.weight := List.mem_map_of_mem hv
    rw [hA.2] at this
    obtain ⟨u, hu, e⟩ := List.mem_map.1 this
    rw [← e]
    exact hp.weight u hu
  · rw [h3]

/-- C63: what was read can be written again if the file has a committee size ... -/
theorem C63_rewrite {V : Type} (str : Profile → Name) (q : Profile) (m : ℤ) (is js : List (Instance V))
    (h : List.Forall₂ (ReadAs q (some m)) is js) (hr : ∀ i ∈ is, i.ruleId ≠ none) (description : Option Name) :
    ∃ d, writeDoc str q (some m) (some js) description = .ok d := by
  rw [C63_write_ok_iff]
  intro l hl j hj
  obtain rfl := Option.some.inj hl
  obtain ⟨t, ht, rfl⟩ := List.mem_iff_getElem.1 hj
  have hl := h.length_eq
  have hij := h.get (i := t) (by omega) ht
  simp only [List.get_eq_getElem] at hij
  refine ⟨?_, ?_, ?_⟩
  · rw [hij.ruleId]
    exact hr _ (List.getElem_mem _)
  · intro q' hq'
    rw [hij.profile] at hq'
    rw [Option.some.inj hq']
  · intro c hc
    rw [hij.committeesize] at hc
    exact ⟨m, (Option.some.inj hc).symm, rfl⟩

/-- ... but not if it has compute instances and no committee size: the reader stores `committeesize = None` in the instances and
the writer calls `int(None)`. -/
theorem C63_rewrite_fails {V : Type} (str : Profile → Name) (q : Profile) (is js : List (Instance V)) (hne : is ≠ [])
    (h : List.Forall₂ (ReadAs q none) is js) (hr : ∀ i ∈ is, i.ruleId ≠ none) (description : Option Name) :
    writeDoc str q none (some js) description = .error .typeError := by
  cases h with
  | nil => exact absurd rfl hne
  | @cons i j is' js' hij htl =>
    have h1 : j.ruleId.isNone = false := by
      rw [hij.ruleId]
      cases hr' : i.ruleId with
      | none => exact absurd hr' (hr i (by simp))
      | some _ => rfl
    have : writeInstance str q none j = .error .typeError := by
      simp [writeInstance, h1, writeCheckProfile, hij.profile, writeCheckSize, hij.committeesize, bind, Except.bind]
    unfold writeDoc writeInstances
    dsimp only
    rw [List.mapM_cons, this]
    rfl

/-- The hypotheses of `C63_roundtrip` can be met: a YAML library that stores the document as it is. -/
example : YamlFaithful (V := ℕ) (F := YamlDoc ℕ) (fun d => .ok d) (fun f => .ok f) (fun _ => True) :=
  fun d _ => ⟨d, rfl, rfl⟩

def yamlExample : YamlDoc ℕ where
  profile := some [[2, 0], [], [1]]
  voterWeights := some [1, 1/2, 3]
  committeesize := some 2
  compute := some [{ ruleId := some "pav".toList, result := some (some [[1, 0]]) }]

example : (readDoc yamlExample).toOption.map (fun r => (r.1, r.2.1)) =
    some (⟨3, [⟨[0, 2], 1⟩, ⟨[], 1/2⟩, ⟨[1], 3⟩], [['0'], ['1'], ['2']]⟩, some 2) := by decide +kernel

example : DocValues (V := ℕ) { profile := some [[2, 0], [], [1]] } [[2, 0], [], [1]] 3 :=
  ⟨by decide, ⟨⟨[2, 0], by simp, by simp⟩, by simp⟩, by simp [LegalSet], by simp, by simp⟩

end Abc
