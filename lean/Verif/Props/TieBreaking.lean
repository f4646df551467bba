import Verif.Spec.TieBreaking
import Verif.Props.Dispatch

/-!
# C105: which of several winning committees are returned
-/

namespace Abc
open Spec

/-! ## Lexicographic order of ascending lists -/

/-- Of two ascending lists of the same length, the one containing the smallest candidate that only one of them contains is the
smaller one. -/
theorem lex_iff {X Y : List ℕ} (hX : X.Pairwise (· < ·)) (hY : Y.Pairwise (· < ·)) (hl : X.length = Y.length) :
    X < Y ↔ ∃ m ∈ X, m ∉ Y ∧ ∀ z < m, z ∈ X ↔ z ∈ Y := by
  induction X generalizing Y with
  | nil =>
    obtain rfl : Y = [] := List.length_eq_zero_iff.1 hl.symm
    simp
  | cons a X ih =>
    cases Y with
    | nil => simp at hl
    | cons b Y =>
      rw [List.pairwise_cons] at hX hY
      have hl' : X.length = Y.length := by simpa using hl
      rcases lt_trichotomy a b with hab | rfl | hab
      · refine ⟨fun _ => ⟨a, by simp, ?_, ?_⟩, fun _ => List.Lex.rel hab⟩
        · rw [List.mem_cons, not_or]
          exact ⟨hab.ne, fun h => absurd (hY.1 a h) (by omega)⟩
        · intro z hz
          simp only [List.mem_cons]
          constructor
          · rintro (rfl | h)
            · omega
            · have := hX.1 z h; omega
          · rintro (rfl | h)
            · omega
            · have := hY.1 z h; omega
      · rw [List.cons_lt_cons_iff]
        simp only [lt_self_iff_false, false_or, true_and]
        rw [ih hX.2 hY.2 hl']
        constructor
        · rintro ⟨m, h1, h2, h3⟩
          have := hX.1 m h1
          refine ⟨m, by simp [h1], ?_, ?_⟩
          · rw [List.mem_cons, not_or]
            exact ⟨by omega, h2⟩
          · intro z hz
            simp only [List.mem_cons, h3 z hz]
        · rintro ⟨m, h1, h2, h3⟩
          rw [List.mem_cons, not_or] at h2
          rcases List.mem_cons.1 h1 with h | h
          · exact absurd h h2.1
          · refine ⟨m, h, h2.2, fun z hz => ?_⟩
            have := h3 z hz
            simp only [List.mem_cons] at this
            by_cases hza : z = a
            · subst hza
              exact ⟨fun h => absurd (hX.1 z h) (by omega), fun h => absurd (hY.1 z h) (by omega)⟩
            · simpa [hza] using this
      · constructor
        · intro h
          rw [List.cons_lt_cons_iff] at h
          omega
        · rintro ⟨m, h1, h2, h3⟩
          exfalso
          have hm : a ≤ m := by
            rcases List.mem_cons.1 h1 with rfl | h
            · exact le_rfl
            · exact (hX.1 m h).le
          have := (h3 b (by omega)).2 (by simp)
          rcases List.mem_cons.1 this with rfl | h
          · omega
          · have := hX.1 b h; omega

theorem sorted_append_lt {C X Y : List ℕ} (h1 : (C ++ X).Nodup) (h2 : (C ++ Y).Nodup) (hX : X.Pairwise (· < ·))
    (hY : Y.Pairwise (· < ·)) (hl : X.length = Y.length) (h : X < Y) : sortNat (C ++ X) < sortNat (C ++ Y) := by
  rw [lex_iff (sortNat_lt h1) (sortNat_lt h2) (by rw [sortNat_length, sortNat_length]; simp [hl])]
  obtain ⟨m, g1, g2, g3⟩ := (lex_iff hX hY hl).1 h
  refine ⟨m, by simp [mem_sortNat, g1], ?_, ?_⟩
  · rw [mem_sortNat, List.mem_append, not_or]
    exact ⟨fun hc => (List.nodup_append.1 h1).2.2 m hc m g1 rfl, g2⟩
  · intro z hz
    simp only [mem_sortNat, List.mem_append, g3 z hz]

theorem combinations_head {α : Type} {l : List α} {m : ℕ} (h : m ≤ l.length) : ∃ rest, combinations l m = l.take m :: rest := by
  induction l generalizing m with
  | nil =>
    obtain rfl : m = 0 := by simpa using h
    exact ⟨[], rfl⟩
  | cons x l ih =>
    cases m with
    | zero => exact ⟨[], rfl⟩
    | succ m =>
      obtain ⟨rest, hr⟩ := ih (m := m) (by simpa using h)
      exact ⟨rest.map (x :: ·) ++ combinations l (m + 1), by simp [combinations, hr]⟩

theorem sortedCommittees_mem {cs out : List (List ℕ)} (h : sortedCommittees cs = .ok out) :
    (∀ W ∈ cs, W.Nodup) ∧ ∀ V, V ∈ out ↔ ∃ W ∈ cs, V = sortNat W := by
  have hnd : ∀ W ∈ cs, W.Nodup := by
    intro W hW
    by_contra hn
    unfold sortedCommittees at h
    rw [mapM_mkSet_error hW hn] at h
    exact absurd h (by simp [bind, Except.bind])
  refine ⟨hnd, fun V => ?_⟩
  rw [sortedCommittees_ok hnd] at h
  rw [← Except.ok.inj h, List.mem_insertionSort, List.mem_map]
  exact ⟨fun ⟨W, h1, h2⟩ => ⟨W, h1, h2.symm⟩, fun ⟨W, h1, h2⟩ => ⟨W, h1, h2.symm⟩⟩

theorem answers_ok_of_valid {a : Args} {r : Except Err (List (List ℕ))} {S : Finset ℕ → Prop} (h : Answers a r S) :
    ∃ cs, r = .ok cs ∧ ∀ W ∈ cs, W.Pairwise (· < ·) ∧ S W.toFinset := by
  unfold Answers at h
  split at h
  · obtain ⟨W, h1, h2, h3⟩ := h
    exact ⟨[W], h1, by simpa using ⟨h2, h3⟩⟩
  · obtain ⟨cs, h1, h2, h3⟩ := h
    exact ⟨cs, h1, fun W hW => ⟨h2.asc W hW, (h3 _).1 ⟨W, hW, rfl⟩⟩⟩
  · obtain ⟨cs, h1, h2, h3, -⟩ := h
    exact ⟨cs, h1, fun W hW => ⟨h2.asc W hW, h3 W hW⟩⟩

/-! ## AV and SAV -/

theorem separable_prefix (l : List ℚ) (p : Profile) (k : ℕ) (resolute : Bool) (max : Option ℕ) (hmax : ∀ n, max = some n → 0 < n)
    (full cs : List (List ℕ)) (hfull : separableCommittees l p k false none = .ok full)
    (hcs : separableCommittees l p k resolute max = .ok cs) :
    ∀ W ∈ cs, ∀ V ∈ full, V ∉ cs → W < V := by
  unfold separableCommittees at hfull hcs
  cases ht : pyGetFromEnd (sortRat l) k with
  | error e => rw [ht] at hcs; exact absurd hcs (by simp [bind, Except.bind])
  | ok t =>
    rw [ht] at hfull hcs
    simp only [bind, Except.bind, Bool.false_eq_true, if_false] at hfull hcs
    set b := decide ((p.candidates.filter (fun c => decide (l.getD c 0 = t))).length =
      k - (p.candidates.filter (fun c => decide (l.getD c 0 > t))).length) with hb
    set C := if b then sortNat (p.candidates.filter (fun c => decide (l.getD c 0 > t)) ++
      p.candidates.filter (fun c => decide (l.getD c 0 = t))) else p.candidates.filter (fun c => decide (l.getD c 0 > t)) with hC
    set P := if b then [] else p.candidates.filter (fun c => decide (l.getD c 0 = t)) with hP
    set m := if b then 0 else k - (p.candidates.filter (fun c => decide (l.getD c 0 > t))).length with hm
    have hPasc : P.Pairwise (· < ·) := by
      rw [hP]; split
      · simp
      · exact (pairwise_lt_range _).filter _
    set L := (combinations P m).map (fun sel => C ++ sel) with hL
    obtain ⟨f1, f2⟩ := sortedCommittees_mem hfull
    have hpw : L.Pairwise (fun X Y => sortNat X < sortNat Y) := by
      rw [hL, List.pairwise_map]
      refine (combinations_lex hPasc m).imp_of_mem ?_
      intro X Y hX hY hlt
      have n1 := f1 _ (List.mem_map.2 ⟨X, hX, rfl⟩)
      have n2 := f1 _ (List.mem_map.2 ⟨Y, hY, rfl⟩)
      rw [mem_combinations] at hX hY
      exact sorted_append_lt n1 n2 (hPasc.sublist hX.1) (hPasc.sublist hY.1) (hX.2.trans hY.2.symm) hlt
    have fin : ∀ n, sortedCommittees (L.take n) = .ok cs → ∀ W ∈ cs, ∀ V ∈ full, V ∉ cs → W < V := by
      intro n hn W hW V hV hVn
      obtain ⟨-, g2⟩ := sortedCommittees_mem hn
      obtain ⟨X, hX, rfl⟩ := (g2 W).1 hW
      obtain ⟨Y, hY, rfl⟩ := (f2 V).1 hV
      have hYd : Y ∈ L.drop n := by
        rw [← List.take_append_drop n L, List.mem_append] at hY
        exact hY.resolve_left (fun h => hVn ((g2 _).2 ⟨Y, h, rfl⟩))
      rw [← List.take_append_drop n L, List.pairwise_append] at hpw
      exact hpw.2.2 X hX Y hYd
    cases resolute with
    | true =>
      rw [if_pos rfl] at hcs
      by_cases hle : m ≤ P.length
      · obtain ⟨rest, hr⟩ := combinations_head hle
        refine fin 1 ?_
        rw [hL, hr]
        exact hcs
      · intro W _ V hV
        exfalso
        obtain ⟨Y, hY, -⟩ := (f2 V).1 hV
        obtain ⟨sel, hs, -⟩ := List.mem_map.1 hY
        rw [mem_combinations] at hs
        have := hs.1.length_le
        omega
    | false =>
      simp only [Bool.false_eq_true, if_false] at hcs
      cases max with
      | none => exact fin L.length (by rw [List.take_length]; exact hcs)
      | some n =>
        refine fin n ?_
        dsimp only at hcs
        rw [collectUpTo_eq n _ _ (by simpa using hmax n rfl)] at hcs
        exact hcs

theorem separable_returnsFirst (env : Env) (r : SepRule) (p : Profile) (hp : p.WF) (a : Args)
    (hal : prologue env r.id p a = .ok "standard") : ReturnsFirst (computeSeparable env r p a) (SepOpt r p a.k) := by
  have hv := validCall_of_prologue hal
  have hcomp : computeSeparable env r p a = separableAlgorithm r p a.k a.resolute a.maxNum := by
    unfold computeSeparable
    rw [hal]
    simp [bind, Except.bind]
  rw [hcomp]
  have hb : ValidCall p { a with resolute := false, max := none } :=
    ⟨hv.pos, hv.le, hv.voters, by simp, by simp⟩
  obtain ⟨full, g1, g2, g3⟩ := separableAlgorithm_answers r p hp { a with resolute := false, max := none } hb
  have h := separableAlgorithm_answers r p hp a hv
  obtain ⟨cs, hcs, hmem⟩ := answers_ok_of_valid h
  refine ⟨cs, hcs, hmem, ?_⟩
  intro W hW V hV hSV hVn
  refine separable_prefix _ p a.k a.resolute a.maxNum ?_ full cs g1 hcs W hW V ?_ hVn
  · intro n hn
    obtain ⟨z, hz, rfl⟩ := maxNum_some hn
    have := hv.max z hz
    omega
  · obtain ⟨V', h1, h2⟩ := (g3 _).2 hSV
    rw [← eq_of_lt_toFinset (g2.asc V' h1) hV h2]
    exact h1

/-- **C105** AV and SAV return the lexicographically first of the winning committees: with `resolute=True` the first one, with
`max_num_of_committees = n` the first `n`. -/
theorem C105_separable (w : World) (r : SepRule) (p : Profile) (hp : p.WF) (a : Args) (alg : String)
    (hal : prologue w.env r.id p a = .ok alg) :
    ReturnsFirst (compute w r.id p a.committeesize none a.kw) (SepOpt r p a.k) := by
  rw [compute_none hal]
  cases r with
  | av => exact separable_returnsFirst w.env .av p hp a (standard_of hal rfl)
  | sav => exact separable_returnsFirst w.env .sav p hp a (standard_of hal rfl)

/-- **C105** The committee that AV and SAV return with `resolute=True` consists of the candidates with the highest scores, where of
two candidates with the same score the one with the smaller index has priority. -/
theorem C105_priority (w : World) (r : SepRule) (p : Profile) (hp : p.WF) (a : Args) (alg : String)
    (hal : prologue w.env r.id p a = .ok alg) (hr : a.resolute = true) :
    ∃ W, compute w r.id p a.committeesize none a.kw = .ok [W] ∧ IsCommittee p a.k W.toFinset ∧
      ∀ c ∈ W, ∀ d < p.numCand, d ∉ W → candScore r p d < candScore r p c ∨ (candScore r p d = candScore r p c ∧ c < d) := by
  have hans : Answers a (compute w r.id p a.committeesize none a.kw) (SepOpt r p a.k) := by
    rw [compute_none hal]
    cases r with
    | av => exact C20_separable_optimal w.env .av p hp a (standard_of hal rfl)
    | sav => exact C20_separable_optimal w.env .sav p hp a (standard_of hal rfl)
  unfold Answers at hans
  rw [hr] at hans
  obtain ⟨W, h1, h2, h3⟩ := hans
  obtain ⟨cs, g1, -, g3⟩ := C105_separable w r p hp a alg hal
  rw [h1] at g1
  obtain rfl := Except.ok.inj g1
  refine ⟨W, h1, h3.1, ?_⟩
  intro c hc d hd hdW
  have hcW : c ∈ W.toFinset := List.mem_toFinset.2 hc
  have hdW' : d ∉ W.toFinset := fun h => hdW (List.mem_toFinset.1 h)
  set B := insert d (W.toFinset.erase c) with hB
  have hdB : d ∉ W.toFinset.erase c := fun h => hdW' (Finset.mem_of_mem_erase h)
  have hBc : IsCommittee p a.k B := by
    refine ⟨?_, ?_⟩
    · intro x hx
      rcases Finset.mem_insert.1 hx with rfl | hx
      · exact Finset.mem_range.2 hd
      · exact h3.1.1 (Finset.mem_of_mem_erase hx)
    · rw [hB, Finset.card_insert_of_notMem hdB, Finset.card_erase_of_mem hcW, h3.1.2]
      have : 0 < W.toFinset.card := Finset.card_pos.2 ⟨c, hcW⟩
      rw [h3.1.2] at this
      omega
  have hsum : ∑ x ∈ B, candScore r p x = ∑ x ∈ W.toFinset, candScore r p x - candScore r p c + candScore r p d := by
    rw [hB, Finset.sum_insert hdB, ← Finset.add_sum_erase _ _ hcW]
    ring
  have hle := h3.2 B hBc
  rw [hsum] at hle
  rcases lt_or_eq_of_le (show candScore r p d ≤ candScore r p c by linarith) with h | h
  · exact Or.inl h
  · refine Or.inr ⟨h, ?_⟩
    by_contra hcd
    have hne : c ≠ d := by rintro rfl; exact hdW hc
    have hlt : d < c := by omega
    set V := sortNat B.toList with hV
    have hVasc : V.Pairwise (· < ·) := sortNat_lt (Finset.nodup_toList _)
    have hVB : V.toFinset = B := by simp [hV, sortNat_toFinset]
    have hVopt : SepOpt r p a.k V.toFinset := by
      rw [hVB]
      refine ⟨hBc, fun B' hB' => ?_⟩
      have := h3.2 B' hB'
      rw [hsum]
      linarith
    have hVn : V ∉ [W] := by
      intro hm
      rw [List.mem_singleton] at hm
      rw [hm] at hVB
      exact hdW' (by rw [hVB, hB]; exact Finset.mem_insert_self _ _)
    have hWV := g3 W (by simp) V hVasc hVopt hVn
    have hlen : V.length = W.length := by
      rw [← List.toFinset_card_of_nodup (nodup_of_lt hVasc), ← List.toFinset_card_of_nodup (nodup_of_lt h2), hVB, hBc.2, h3.1.2]
    have hVW : V < W := by
      rw [lex_iff hVasc h2 hlen]
      have hmV : ∀ z, z ∈ V ↔ z ∈ B := fun z => by rw [← List.mem_toFinset, hVB]
      refine ⟨d, (hmV d).2 (by rw [hB]; exact Finset.mem_insert_self _ _), hdW, ?_⟩
      intro z hz
      rw [hmV, hB, Finset.mem_insert, Finset.mem_erase, List.mem_toFinset]
      constructor
      · rintro (h | h)
        · omega
        · exact h.2
      · intro h
        exact Or.inr ⟨by omega, h⟩
    exact lt_irrefl _ (hWV.trans hVW)

/-! ## Brute force for Thiele methods -/

theorem thieleBruteforce_first (f : ℕ → ℚ) (hf : ∀ i, 0 ≤ f i) (p : Profile) (hp : p.WF) (k : ℕ) (hk : k ≤ p.numCand)
    (W : List ℕ) (hW : thieleBruteforce f p k true none = .ok [W]) (V : List ℕ) (hV : V.Pairwise (· < ·))
    (hVo : ThieleOpt f p k V.toFinset) (hVW : V ≠ W) : W < V := by
  have hge : ∀ W : List ℕ, 0 ≤ thieleScore f p W := fun W => by
    rw [thieleScore_eq]; exact score_nonneg f hf p hp _
  obtain ⟨out, h1, h2, h3, h4, -⟩ := bruteBest (· > ·) (fun a => lt_irrefl a) (fun a b c h h' => lt_trans h' h)
    (fun a b => (lt_trichotomy b a).imp id (Or.imp Eq.symm id)) p k hk (thieleScore f p) (score f p)
    (fun W _ => thieleScore_eq f p W) (-1) (fun W _ => Or.inl (by have := hge W; linarith)) (ThieleOpt f p k)
    (fun A => by simp [ThieleOpt])
  set l := combinations p.candidates k with hl
  set st := l.foldl (bestStep (· > ·) (thieleScore f p)) ([], -1) with hst
  have hsub : st.1.Sublist l := bestFold_sublist (· > ·) (thieleScore f p) (fun a => lt_irrefl a)
    (fun a b c h h' => lt_trans h' h) (fun a b => (lt_trichotomy b a).imp id (Or.imp Eq.symm id)) (-1) l
  have hbr := (bruteThiele_resolute f p l (fun W _ => by have := hge W; linarith)).1
  rw [← hst] at hbr
  obtain ⟨out', g1, g2, g3⟩ := sortedCommittees_of_lt (cs := st.1) (fun W hW => combinations_lt (hsub.subset hW))
    (hsub.nodup (combinations_nodup List.nodup_range _))
  rw [h1] at g1
  obtain rfl := Except.ok.inj g1
  have hne : st.1 ≠ [] := by
    intro h0
    rw [h0] at g3
    exact h4 g3.eq_nil
  obtain ⟨x, xs, hx, -⟩ := pyGet_zero_of_ne_nil hne
  have hxlt := h2.asc x (g3.mem_iff.2 (by rw [hx]; simp))
  obtain ⟨o, o1, o2, o3⟩ := sortedCommittees_of_lt (cs := [x]) (by simpa using hxlt) (by simp)
  obtain rfl : o = [x] := by simpa using o3
  have : thieleBruteforce f p k true none = .ok [x] := by
    unfold thieleBruteforce
    rw [← hl, hbr, hx]
    simp [o1, bind, Except.bind, truncate, pyGet]
  rw [this] at hW
  obtain rfl : x = W := by simpa using Except.ok.inj hW
  obtain ⟨V', e1, e2⟩ := (h3 _).2 hVo
  rw [eq_of_lt_toFinset (h2.asc V' e1) hV e2] at e1
  have hpw : st.1.Pairwise (· < ·) := (combinations_lex (pairwise_lt_range _) k).sublist hsub
  rw [hx, List.pairwise_cons] at hpw
  have := g3.mem_iff.1 e1
  rw [hx, List.mem_cons] at this
  exact hpw.1 V (this.resolve_left hVW)

theorem run_thiele (w : World) (p : Profile) (a : Args) {ruleId : String} {s : ScoreId} (hs : w.env.scoreId ruleId = .ok s)
    (hok : s = .pav ∨ s = .slav ∨ s = .cc ∨ ∃ b, s = .geom b ∧ 0 < b) :
    w.run ruleId p a = computeThieleMethod w.env ruleId (thieleSolver w.solve ruleId (marginalFct s) p a) p a := by
  have : w.run ruleId p a = w.thiele ruleId p a := by
    rcases scoreId_cases hs with ⟨rfl, -⟩ | ⟨rfl, -⟩ | ⟨rfl, -⟩ | ⟨rfl, rfl⟩ | ⟨hg, -⟩ | ⟨-, l, rfl⟩
    · rfl
    · rfl
    · rfl
    · simp at hok
    · exact run_geom w p _ hg
    · simp at hok
  rw [this]
  unfold World.thiele
  rw [hs]

/-- **C105** A Thiele method computed by brute force with `resolute=True` returns the lexicographically first winning committee. -/
theorem C105_thiele_bruteforce (w : World) (p : Profile) (hp : p.WF) (a : Args) (ruleId : String) (s : ScoreId)
    (hal : prologue w.env ruleId p a = .ok "brute-force") (hs : w.env.scoreId ruleId = .ok s)
    (hok : s = .pav ∨ s = .slav ∨ s = .cc ∨ ∃ b, s = .geom b ∧ 0 < b) (hr : a.resolute = true) :
    ReturnsFirst (compute w ruleId p a.committeesize none a.kw) (ThieleOpt (marginalFct s) p a.k) := by
  have hv := validCall_of_prologue hal
  have hf : ∀ i, 0 ≤ marginalFct s i := marginalFct_nonneg s (fun b hb => by
    rcases hok with h | h | h | ⟨b', h, hb'⟩
    · rw [h] at hb; cases hb
    · rw [h] at hb; cases hb
    · rw [h] at hb; cases hb
    · rw [h] at hb; cases hb; exact hb')
  rw [compute_none hal, run_thiele w p a hs hok]
  have h1 := C21_bruteforce_optimal w.env ruleId s (thieleSolver w.solve ruleId (marginalFct s) p a) p hp a hal hs hf
  have h2 := (thieleBruteforce_answers (marginalFct s) hf p hp a hv).2
  have he : computeThieleMethod w.env ruleId (thieleSolver w.solve ruleId (marginalFct s) p a) p a
      = thieleBruteforce (marginalFct s) p a.k a.resolute a.maxNum := by
    unfold computeThieleMethod
    rw [hal, hs]
    simp only [bind, Except.bind]
    rw [if_neg (by decide), if_pos trivial]
    cases hb : thieleBruteforce (marginalFct s) p a.k a.resolute a.maxNum with
    | error e => rfl
    | ok cs =>
      obtain ⟨x, xs, rfl, -⟩ := pyGet_zero_of_ne_nil (h2 cs hb)
      rfl
  unfold Answers at h1
  rw [hr] at h1
  obtain ⟨W, g1, g2, g3⟩ := h1
  refine ⟨[W], g1, by simpa using ⟨g2, g3⟩, ?_⟩
  intro W' hW' V hV hVo hVn
  obtain rfl := List.mem_singleton.1 hW'
  rw [he, hr, show a.maxNum = none by simp [Args.maxNum, hv.excl hr]] at g1
  exact thieleBruteforce_first (marginalFct s) hf p hp a.k hv.le W' g1 V hV hVo (by simpa using hVn)

/-! ## The rules that sort all winning committees first -/

theorem leading_finalList (a : Args) (full : List (List ℕ)) : Leading a full (finalList a full) := by
  unfold Leading finalList Args.maxNum truncate
  cases a.resolute <;> cases a.max <;> rfl

theorem lexccBruteforce_leading {p : Profile} {a : Args} (hv : ValidCall p a) {full : List (List ℕ)} {vec : List ℚ}
    (h : lexccBruteforce p a.k false none = .ok (full, vec)) (hne : full ≠ []) :
    lexccBruteforce p a.k a.resolute a.maxNum = .ok (finalList a full, vec) := by
  unfold lexccBruteforce at h ⊢
  dsimp only at h ⊢
  cases hs : sortedCommittees ((combinations p.candidates a.k).foldl (lexccStep p a.k) ([], List.replicate a.k 0)).1 with
  | error e => rw [hs] at h; exact absurd h (by simp [bind, Except.bind])
  | ok out =>
    rw [hs] at h
    simp only [bind, Except.bind, Bool.false_eq_true, if_false, truncate] at h ⊢
    obtain ⟨rfl, rfl⟩ := Prod.mk.inj (Except.ok.inj h)
    rcases finishB hv hne with ⟨hr, y, ys, -, hy, he⟩ | ⟨hr, he⟩
    · simp [hr, hy, ← he, truncate]
    · simp [hr, ← he, truncate]

theorem lexminimaxavBruteforce_leading {p : Profile} {a : Args} (hv : ValidCall p a) {full : List (List ℕ)} {vec : List ℕ}
    (h : lexminimaxavBruteforce p a.k false none = .ok (full, vec)) (hne : full ≠ []) :
    lexminimaxavBruteforce p a.k a.resolute a.maxNum = .ok (finalList a full, vec) := by
  unfold lexminimaxavBruteforce at h ⊢
  dsimp only at h ⊢
  cases hs : sortedCommittees ((combinations p.candidates a.k).foldl (lexminimaxavStep p)
    ([], List.replicate p.voters.length (p.numCand + 1))).1 with
  | error e => rw [hs] at h; exact absurd h (by simp [bind, Except.bind])
  | ok out =>
    rw [hs] at h
    simp only [bind, Except.bind, Bool.false_eq_true, if_false, truncate] at h ⊢
    obtain ⟨rfl, rfl⟩ := Prod.mk.inj (Except.ok.inj h)
    rcases finishB hv hne with ⟨hr, y, ys, -, hy, he⟩ | ⟨hr, he⟩
    · simp [hr, hy, ← he, truncate]
    · simp [hr, ← he, truncate]

theorem minimaxavBruteforce_leading {p : Profile} {a : Args} (hv : ValidCall p a) {full : List (List ℕ)}
    (h : minimaxavBruteforce p a.k false none = .ok full) (hne : full ≠ []) :
    minimaxavBruteforce p a.k a.resolute a.maxNum = .ok (finalList a full) := by
  unfold minimaxavBruteforce at h ⊢
  dsimp only at h ⊢
  cases hs : sortedCommittees ((combinations p.candidates a.k).foldl (minimaxavStep p) ([], p.numCand + 1)).1 with
  | error e => rw [hs] at h; exact absurd h (by simp [bind, Except.bind])
  | ok out =>
    rw [hs] at h
    simp only [bind, Except.bind, Bool.false_eq_true, if_false, truncate] at h ⊢
    obtain rfl := Except.ok.inj h
    rcases finishB hv hne with ⟨hr, y, ys, -, hy, he⟩ | ⟨hr, he⟩
    · simp [hr, hy, ← he, truncate]
    · simp [hr, ← he, truncate]

theorem monroeBruteforce_leading {matching : List MEdge → List MEdge} {minCost : FlowNet → Except Err ℕ} {p : Profile} {a : Args}
    (hv : ValidCall p a) {full : List (List ℕ)}
    (h : monroeBruteforce matching minCost p a.k false none = .ok full) (hne : full ≠ []) :
    monroeBruteforce matching minCost p a.k a.resolute a.maxNum = .ok (finalList a full) := by
  unfold monroeBruteforce at h ⊢
  cases hst : (combinations p.candidates a.k).foldlM (monroeStep (monroescore matching minCost p)) ([], -1) with
  | error e => rw [hst] at h; exact absurd h (by simp [bind, Except.bind])
  | ok st =>
    rw [hst] at h
    simp only [bind, Except.bind] at h ⊢
    cases hs : sortedCommittees st.1 with
    | error e => rw [hs] at h; exact absurd h (by simp)
    | ok out =>
      rw [hs] at h
      simp only [Bool.false_eq_true, if_false, truncate] at h
      obtain rfl := Except.ok.inj h
      have := finishA hv hs hne
      simpa only [hs, bind, Except.bind] using this

/-- **C105** lex-CC, minimax AV, lex-minimax AV and Monroe, computed by brute force: with `resolute=True` the first, with
`max_num_of_committees = n` the first `n` committees of the list that is returned with `resolute=False`. -/
theorem C105_leading (w : World) (hw : w.Exact) (p : Profile) (hp : p.WF) (a b : Args) (hk : b.committeesize = a.committeesize)
    (hb : b.resolute = false) (hbm : b.max = none) (ruleId : String)
    (hal : prologue w.env ruleId p a = .ok "brute-force") (hal' : prologue w.env ruleId p b = .ok "brute-force")
    (hrule : ruleId = "lexcc" ∨ ruleId = "minimaxav" ∨
      ((ruleId = "lexminimaxav" ∨ ruleId = "monroe") ∧ ∀ v ∈ p.voters, v.weight = 1)) :
    ∃ full cs, compute w ruleId p b.committeesize none b.kw = .ok full ∧
      compute w ruleId p a.committeesize none a.kw = .ok cs ∧ Leading a full cs := by
  have hv := validCall_of_prologue hal
  have hkk : b.k = a.k := by unfold Args.k; rw [hk]
  have hbn : b.maxNum = none := by simp [Args.maxNum, hbm]
  rcases hrule with rfl | rfl | ⟨rfl | rfl, hu⟩
  · obtain ⟨full, h1, h2, -⟩ := C31_valid w hw p hp b _ _ hal' (.lexcc (fun h => absurd h (by decide)))
    refine ⟨full, finalList a full, h1, ?_, leading_finalList a full⟩
    rw [compute_none hal'] at h1
    rw [compute_none hal]
    have h3 : computeLexcc w.env (lexccSolver w.solve p b) p b = .ok full := h1
    show computeLexcc w.env (lexccSolver w.solve p a) p a = _
    unfold computeLexcc at h3 ⊢
    rw [hal'] at h3
    rw [hal]
    simp only [bind, Except.bind, if_true, hb, hbn, hkk] at h3 ⊢
    cases hr : lexccBruteforce p a.k false none with
    | error e => rw [hr] at h3; exact absurd h3 (by simp)
    | ok x =>
      rw [hr] at h3
      obtain rfl := Except.ok.inj h3
      rw [lexccBruteforce_leading hv (full := x.1) (vec := x.2) hr h2]
  · obtain ⟨full, h1, h2, -⟩ := C31_valid w hw p hp b _ _ hal' .minimaxav
    refine ⟨full, finalList a full, h1, ?_, leading_finalList a full⟩
    rw [compute_none hal'] at h1
    rw [compute_none hal]
    have h3 : computeMinimaxav w.env (minimaxavSolver w.solve p b) p b = .ok full := h1
    show computeMinimaxav w.env (minimaxavSolver w.solve p a) p a = _
    unfold computeMinimaxav at h3 ⊢
    rw [hal'] at h3
    rw [hal]
    simp only [bind, Except.bind, if_true, hb, hbn, hkk] at h3 ⊢
    cases hr : minimaxavBruteforce p a.k false none with
    | error e => rw [hr] at h3; exact absurd h3 (by simp)
    | ok x =>
      rw [hr] at h3
      dsimp only at h3
      have hx : x = full := by
        cases hg : pyGet x 0 with
        | error e => rw [hg] at h3; exact absurd h3 (by simp)
        | ok y => rw [hg] at h3; exact Except.ok.inj h3
      subst hx
      rw [minimaxavBruteforce_leading hv hr h2]
      obtain ⟨y, g1, -⟩ := finalList_get hv h2
      simp only [g1]
  · obtain ⟨full, h1, h2, -⟩ := C31_valid w hw p hp b _ _ hal' (.lexminimaxav hu)
    refine ⟨full, finalList a full, h1, ?_, leading_finalList a full⟩
    rw [compute_none hal'] at h1
    rw [compute_none hal]
    have h3 : computeLexminimaxav w.env (lexminimaxavSolver w.solve p b) p b = .ok full := h1
    show computeLexminimaxav w.env (lexminimaxavSolver w.solve p a) p a = _
    have hu' := unitWeights_iff.2 hu
    unfold computeLexminimaxav at h3 ⊢
    rw [hal'] at h3
    rw [hal]
    simp only [bind, Except.bind, if_true, hb, hbn, hkk, hu', not_true_eq_false, if_false] at h3 ⊢
    cases hr : lexminimaxavBruteforce p a.k false none with
    | error e => rw [hr] at h3; exact absurd h3 (by simp)
    | ok x =>
      rw [hr] at h3
      obtain rfl := Except.ok.inj h3
      rw [lexminimaxavBruteforce_leading hv (full := x.1) (vec := x.2) hr h2]
  · obtain ⟨full, h1, h2, h2', h2'', -⟩ := C31_valid w hw p hp b _ _ hal' (.monroe hu)
    refine ⟨full, finalList a full, h1, ?_, leading_finalList a full⟩
    rw [compute_none hal'] at h1
    rw [compute_none hal]
    have h3 : computeMonroe w.env w.matching w.minCost (monroeSolver w.solve w.matching w.minCost p b) p b = .ok full := h1
    show computeMonroe w.env w.matching w.minCost (monroeSolver w.solve w.matching w.minCost p a) p a = _
    have hu' := unitWeights_iff.2 hu
    unfold computeMonroe at h3 ⊢
    rw [hal'] at h3
    rw [hal]
    simp only [bind, Except.bind, if_true, hb, hbn, hkk, hu', not_true_eq_false, if_false] at h3 ⊢
    cases hr : monroeBruteforce w.matching w.minCost p a.k false none with
    | error e => rw [hr] at h3; exact absurd h3 (by simp)
    | ok x =>
      rw [hr] at h3
      dsimp only at h3
      have hx : x = full := by
        cases hg : pyGet x 0 with
        | error e => rw [hg] at h3; exact absurd h3 (by simp)
        | ok y =>
          rw [hg] at h3
          dsimp only at h3
          cases hm : monroescore w.matching w.minCost p y with
          | error e => rw [hm] at h3; exact absurd h3 (by simp)
          | ok z => rw [hm] at h3; exact Except.ok.inj h3
      subst hx
      rw [monroeBruteforce_leading hv hr h2]
      obtain ⟨y, g1, g2⟩ := finalList_get hv h2
      simp only [g1]
      have hyn : y ≠ [] := by
        rintro rfl
        have := (h2'' [] g2).2.2.2 (by decide)
        have hpos := hv.pos
        unfold Args.k at hpos
        simp at this
        omega
      obtain ⟨m, hm, -⟩ := C17_monroescore w.matching hw.matching w.minCost hw.minCost p y (h2'' y g2).2.1 hyn
      simp only [hm]

/-- **C105** Thiele methods: branch-and-bound, and brute force with `resolute=False`, return the first committees of the complete list
returned with `resolute=False`. -/
theorem C105_leading_thiele (w : World) (p : Profile) (hp : p.WF) (a b : Args) (hk : b.committeesize = a.committeesize)
    (hb : b.resolute = false) (hbm : b.max = none) (ruleId alg : String) (s : ScoreId)
    (hal : prologue w.env ruleId p a = .ok alg) (hal' : prologue w.env ruleId p b = .ok alg) (hs : w.env.scoreId ruleId = .ok s)
    (hok : s = .pav ∨ s = .slav ∨ s = .cc ∨ ∃ b, s = .geom b ∧ 1 ≤ b)
    (halg : alg = "branch-and-bound" ∨ (alg = "brute-force" ∧ a.resolute = false)) :
    ∃ full cs, compute w ruleId p b.committeesize none b.kw = .ok full ∧
      compute w ruleId p a.committeesize none a.kw = .ok cs ∧ Leading a full cs := by
  have hkk : b.k = a.k := by unfold Args.k; rw [hk]
  have hok' : s = .pav ∨ s = .slav ∨ s = .cc ∨ ∃ b, s = .geom b ∧ 0 < b := by
    rcases hok with h | h | h | ⟨b, h, hb⟩
    · exact Or.inl h
    · exact Or.inr (Or.inl h)
    · exact Or.inr (Or.inr (Or.inl h))
    · exact Or.inr (Or.inr (Or.inr ⟨b, h, by linarith⟩))
  have hprop : s.Proper := by
    rcases hok with rfl | rfl | rfl | ⟨b, rfl, hb⟩
    · trivial
    · trivial
    · trivial
    · exact hb
  have hfb : ∀ out, finalList b out = out := by
    intro out
    simp [finalList, hb, Args.maxNum, hbm, truncate]
  rw [compute_none hal, compute_none hal', run_thiele w p a hs hok', run_thiele w p b hs hok']
  rcases halg with rfl | ⟨rfl, hr⟩
  · obtain ⟨out, e1, e2, e3, -⟩ := computeThiele_bnb w.env ruleId s (thieleSolver w.solve ruleId (marginalFct s) p a) p hp a hal hs hprop
    obtain ⟨out', f1, f2, f3, -⟩ := computeThiele_bnb w.env ruleId s (thieleSolver w.solve ruleId (marginalFct s) p b) p hp b hal' hs hprop
    rw [hkk] at f3
    have : out = out' := canonical_ext e2 f2 (fun A => (e3 A).trans (f3 A).symm)
    subst this
    rw [e1, f1, hfb]
    exact ⟨_, _, rfl, rfl, leading_finalList a out⟩
  · have hv := validCall_of_prologue hal
    have hf := (C16_nonneg_nonincreasing s hprop).1
    have h1 := C21_bruteforce_optimal w.env ruleId s (thieleSolver w.solve ruleId (marginalFct s) p b) p hp b hal' hs hf
    unfold Answers at h1
    rw [hb, hbm] at h1
    obtain ⟨full, g1, g2, g3⟩ := h1
    have hge : ∀ W : List ℕ, 0 ≤ thieleScore (marginalFct s) p W := fun W => by
      rw [thieleScore_eq]; exact score_nonneg _ hf p hp _
    obtain ⟨out, o1, o2, o3, o4, -⟩ := bruteBest (· > ·) (fun a => lt_irrefl a) (fun a b c h h' => lt_trans h' h)
      (fun a b => (lt_trichotomy b a).imp id (Or.imp Eq.symm id)) p a.k hv.le (thieleScore (marginalFct s) p)
      (score (marginalFct s) p)
      (fun W _ => thieleScore_eq _ p W) (-1) (fun W _ => Or.inl (by have := hge W; linarith)) (ThieleOpt (marginalFct s) p a.k)
      (fun A => by simp [ThieleOpt])
    rw [hkk] at g3
    have : full = out := canonical_ext g2 o2 (fun A => (g3 A).trans (o3 A).symm)
    subst this
    refine ⟨full, finalList a full, g1, ?_, leading_finalList a full⟩
    have hfin := finishA hv o1 o4
    obtain ⟨x, hx, -⟩ := finalList_get hv o4
    have : thieleBruteforce (marginalFct s) p a.k a.resolute a.maxNum = .ok (finalList a full) := by
      rw [← hfin, hr]
      unfold thieleBruteforce
      rw [bruteThieleStep_irresolute]
    unfold computeThieleMethod
    rw [hal, hs]
    simp only [bind, Except.bind]
    rw [if_neg (by decide), if_pos trivial, this]
    simp only [hx]

/-! ## Concrete cases -/

/-- Eleven candidates; the only voter approves 2 and 10. -/
def twoAndTen : Profile := ⟨11, [⟨[2, 10], 1⟩], []⟩

example : twoAndTen.WF := ⟨by decide, by decide, by decide, by decide⟩

/-- **C105, finding.** Committees are listed in the order of their *printed* form, so `{10}` comes before `{2}`.  Hence with eleven or
more candidates brute force and branch-and-bound break the same tie differently (PAV, one seat, one voter approving 2 and 10), and
`resolute=True` does not return the first committee of the list returned with `resolute=False`. -/
theorem C105_string_order :
    computeThieleMethod exampleEnv "pav" (fun _ => .error .importError) twoAndTen { committeesize := 1, algorithm := "brute-force", resolute := true }
      = .ok [[2]] ∧
    computeThieleMethod exampleEnv "pav" (fun _ => .error .importError) twoAndTen { committeesize := 1, algorithm := "branch-and-bound", resolute := true }
      = .ok [[10]] ∧
    computeThieleMethod exampleEnv "pav" (fun _ => .error .importError) twoAndTen { committeesize := 1, algorithm := "brute-force", resolute := false }
      = .ok [[10], [2]] := by
  refine ⟨?_, ?_, ?_⟩ <;> decide +kernel

/-- AV with a tie of three candidates for the second seat: `max_num_of_committees = 2` returns the first two of three. -/
example : computeSeparable exampleEnv .av ⟨4, [⟨[0, 1, 2], 1⟩, ⟨[3], 5⟩], []⟩ { committeesize := 2, resolute := false, max := some 2 }
    = .ok [[0, 3], [1, 3]] := by decide +kernel

end Abc
