import Verif.Spec.ReportPhragmen
import Verif.Lemmas.Report
import Verif.Props.Phragmen

/-!
# Protocols with loads
-/

namespace Abc
open Spec Classical

theorem eq_of_lt_of_mem {l m : List ℕ} (hl : l.Pairwise (· < ·)) (hm : m.Pairwise (· < ·)) (h : ∀ c, c ∈ l ↔ c ∈ m) : l = m :=
  List.Perm.eq_of_pairwise (le := (· < ·)) (fun a b _ _ h1 h2 => absurd (lt_trans h1 h2) (lt_irrefl _)) hl hm
    ((List.perm_ext_iff_of_nodup (nodup_of_lt hl) (nodup_of_lt hm)).2 h)

theorem flatMap_sep {sep : Name} {l : List Name} (h : l ≠ []) : l.flatMap (fun x => x ++ sep) = sep.intercalate l ++ sep := by
  induction l with
  | nil => exact absurd rfl h
  | cons a l ih =>
    rw [List.flatMap_cons]
    cases l with
    | nil => simp
    | cons b l => rw [ih (by simp), intercalate_cons_cons]; simp

theorem loadsText_ok (num : ℚ → Name) {p : Profile} (hne : p.voters ≠ []) (pre : Name) {load : List ℚ} (hl : load.length = p.voters.length) :
    loadsText num p (pre ++ "(".toList) load = .ok (pre ++ listText num load) := by
  have h1 : (List.range p.voters.length).mapM (fun v => pyGet load v) = .ok load := by
    rw [mapM_ok_of (g := fun v => load.getD v 0)]
    · congr 1
      refine List.ext_getElem (by simp [hl]) ?_
      intro i h1 h2
      simp [h2]
    · intro v hv
      have : v < load.length := by rw [hl]; simpa using hv
      simp [pyGet, this]
  unfold loadsText
  rw [h1]
  have hne' : load.map num ≠ [] := by
    intro h
    rw [List.map_eq_nil_iff] at h
    rw [h] at hl
    exact hne (List.length_eq_zero_iff.1 hl.symm)
  have h2 : load.flatMap (fun x => num x ++ ", ".toList) = ", ".toList.intercalate (load.map num) ++ ", ".toList := by
    rw [← flatMap_sep hne', List.flatMap_map]
  simp only [bind, Except.bind]
  rw [h2]
  congr 1
  unfold listText
  have h3 : ", ".toList = [','] ++ [' '] := rfl
  have : pre ++ "(".toList ++ (", ".toList.intercalate (load.map num) ++ ", ".toList) =
      ((pre ++ "(".toList ++ ", ".toList.intercalate (load.map num)) ++ [',']) ++ [' '] := by
    conv_lhs => rw [h3]
    simp
  rw [this, List.dropLast_concat, List.dropLast_concat]
  simp

theorem phragTied_eq {p : Profile} (hp : p.WF) (hw : ApproversAtLeastOne p) (k : ℕ) (hk : k ≤ p.numCand) (V W : List ℕ) (hVW : V.Perm W)
    (hlen : W.length < k) (x : VoterMap p) (hx : ∀ i, x i ≤ W.length) : tiedMin (newMaxload p k V (List.ofFn x)) = phragTied p W x := by
  refine eq_of_lt_of_mem (tiedMin_lt _) (List.Pairwise.filter _ List.pairwise_lt_range) fun c => ?_
  rw [mem_tiedMin_newMaxload hp hw k hk V W hVW hlen x hx]
  unfold phragTied
  simp only [List.mem_filter, List.mem_range, decide_eq_true_eq]
  exact ⟨fun h => ⟨h.1, h⟩, fun h => h.2⟩

theorem phragRound_ok (num : ℚ → Name) (tieText : Name) {p : Profile} (hn : Named p) (hne : p.voters ≠ []) (i : ℕ) {c : ℕ}
    (hc : c < p.numCand) {tied : List ℕ} (ht : ∀ d ∈ tied, d < p.numCand) (y : VoterMap p) (m : ℚ) :
    phragRoundMsgs num p tieText i ⟨c, tied, List.ofFn y, m⟩ = .ok (LoadRound.lines num p tieText ⟨i + 1, c, m, List.ofFn y, tied⟩) := by
  unfold phragRoundMsgs LoadRound.lines
  dsimp only
  rw [nameOf_ok hn hc]
  have h := loadsText_ok num hne [] (load := List.ofFn y) (by simp)
  rw [List.nil_append, List.nil_append] at h
  dsimp only [bind, Except.bind]
  rw [h]
  dsimp only
  by_cases h2 : tied.length > 1
  · rw [if_pos h2, if_pos h2, setText_ok hn ht]
  · rw [if_neg h2, if_neg h2]

/-- The rounds of seq-Phragmén and what is printed about them. -/
theorem phragLoop_protocol {p : Profile} (hp : p.WF) (hn : Named p) (hne : p.voters ≠ []) (hw : ApproversAtLeastOne p) (k : ℕ)
    (hk : k ≤ p.numCand) (W₀ : List ℕ) (x₀ : VoterMap p) (h0 : ∀ i, x₀ i ≤ W₀.length) (n : ℕ) (V W : List ℕ) (hVW : V.Perm W)
    (x : VoterMap p) (info : List PhragInfo) (hrun : RunFirst (PhragBest p) (phragUpd p) W₀ x₀ W x) (hlen : W.length + n ≤ k) :
    ∃ V' U x' infos, seqphragmenLoop p k n V (List.ofFn x) info = .ok (V', List.ofFn x', info ++ infos) ∧ V'.Perm (W ++ U) ∧
      RunFirst (PhragBest p) (phragUpd p) W₀ x₀ (W ++ U) x' ∧ U.length = n ∧
      ∀ num tieText, phragRoundsMsgs num p tieText W.length infos =
        .ok ((phragProtocol p k W x U).flatMap (LoadRound.lines num p tieText)) := by
  induction n generalizing V W x info with
  | zero => exact ⟨V, [], x, [], by simp [seqphragmenLoop], by simpa using hVW, by simpa using hrun, rfl, fun _ _ => rfl⟩
  | succ n ih =>
    have hb := prun_bound hp hw h0 hrun.run
    have hmem := mem_tiedMin_newMaxload hp hw k hk V W hVW (by omega) x hb
    have htied := phragTied_eq hp hw k hk V W hVW (by omega) x hb
    obtain ⟨c, cs, hcs, hget⟩ := pyGet_zero_of_ne_nil (tiedMin_ne_nil (newMaxload_ne_nil hp k V (List.ofFn x)))
    obtain ⟨h1, h2⟩ := head_le_of_lt (tiedMin_lt _) hget
    have hc := (hmem c).1 h1
    have hstep : RunFirst (PhragBest p) (phragUpd p) W₀ x₀ (W ++ [c]) (phragUpd p W x c) := by
      refine .step hrun hc ?_
      intro d hd hbest
      have := h2 d ((hmem d).2 hbest)
      omega
    have hmin : listMin (newMaxload p k V (List.ofFn x)) = if (backers p c).Nonempty then newLoad p x c else (k : ℚ) + 1 := by
      unfold tiedMin at h1
      simp only [List.mem_filter, decide_eq_true_eq] at h1
      rw [← h1.2, newMaxload_getD hp k V x c hc.1, if_neg (by rw [hVW.mem_iff]; exact hc.2.1)]
      simp only [wt_backers_pos hp]
    have hperm : (sortNat (V ++ [c])).Perm (W ++ [c]) := (sortNat_perm _).trans (hVW.append_right _)
    obtain ⟨V', U, x', infos, g1, g2, g3, g4, g5⟩ := ih (sortNat (V ++ [c])) (W ++ [c]) hperm (phragUpd p W x c)
      (info ++ [⟨c, tiedMin (newMaxload p k V (List.ofFn x)), List.ofFn (phragUpd p W x c), listMin (newMaxload p k V (List.ofFn x))⟩])
      hstep (by simp; omega)
    refine ⟨V', c :: U, x',
      ⟨c, tiedMin (newMaxload p k V (List.ofFn x)), List.ofFn (phragUpd p W x c), listMin (newMaxload p k V (List.ofFn x))⟩ :: infos,
      ?_, by simpa using g2, by simpa using g3, by simp [g4], ?_⟩
    · unfold seqphragmenLoop
      simp only [hget, bind, Except.bind]
      rw [phragUpd_eq hp k V W hVW x c hc, g1]
      simp
    · intro num tieText
      unfold phragRoundsMsgs phragProtocol
      rw [htied, hmin, phragRound_ok num tieText hn hne W.length hc.1 (by
        intro d hd
        unfold phragTied at hd
        simp only [List.mem_filter, List.mem_range] at hd
        exact hd.1)]
      have := g5 num tieText
      rw [List.length_append, List.length_singleton] at this
      rw [this]
      rfl

/-! ## The search with the dictionary -/

theorem dictSet_keys {β : Type} (d : List (List ℕ × β)) (key : List ℕ) (value : β) :
    (dictSet d key value).map Prod.fst = setAdd (d.map Prod.fst) key := by
  unfold dictSet setAdd
  split
  · rename_i h
    rw [List.map_map]
    refine List.map_congr_left fun e _ => ?_
    simp only [Function.comp]
    split
    · rename_i he; exact he.symm
    · rfl
  · simp

theorem mem_dictSet {β : Type} {d : List (List ℕ × β)} {key : List ℕ} {value : β} {e : List ℕ × β} (h : e ∈ dictSet d key value) :
    e = (key, value) ∨ e ∈ d := by
  unfold dictSet at h
  split at h
  · obtain ⟨e', he', rfl⟩ := List.mem_map.1 h
    split
    · exact Or.inl rfl
    · exact Or.inr he'
  · simp only [List.mem_append, List.mem_singleton] at h
    exact h.symm

section
variable {N β : Type} {full : N → Bool} {out : N → List ℕ} {val : N → β} {succs : N → Except Err (List N)} {max : Option ℕ}

theorem expandLoopD_keys (ns np : List N) (d : List (List ℕ × β)) :
    expandLoop full out max ns np (d.map Prod.fst) =
      (expandLoopD full out val max ns np d).map (List.map Prod.fst) (fun r => (r.1, r.2.map Prod.fst)) := by
  induction ns generalizing np d with
  | nil => rfl
  | cons n ns ih =>
    unfold expandLoop expandLoopD
    by_cases hf : full n
    · rw [if_pos hf, if_pos hf]
      have hl : (setAdd (d.map Prod.fst) (out n)).length = (dictSet d (out n) (val n)).length := by
        rw [← dictSet_keys d (out n) (val n), List.length_map]
      dsimp only
      rw [hl]
      by_cases hm : max = some (dictSet d (out n) (val n)).length
      · rw [if_pos hm, if_pos hm, ← dictSet_keys d (out n) (val n)]; rfl
      · rw [if_neg hm, if_neg hm, ← dictSet_keys d (out n) (val n), ih]
    · rw [if_neg hf, if_neg hf, ih]

theorem universesD_keys (fuel : ℕ) (stack : List N) (d : List (List ℕ × β)) :
    universes full out succs max fuel stack (d.map Prod.fst) =
      (universesD full out val succs max fuel stack d).map (List.map Prod.fst) := by
  induction fuel generalizing stack d with
  | zero => cases stack <;> rfl
  | succ fuel ih =>
    cases stack with
    | nil => rfl
    | cons n rest =>
      unfold universes universesD
      cases hs : succs n with
      | error e => rfl
      | ok ns =>
        simp only [bind, Except.bind]
        rw [expandLoopD_keys (val := val)]
        cases he : expandLoopD full out val max ns [] d with
        | inl w => rfl
        | inr r => simp only [Sum.map_inr]; exact ih _ _

variable {I : N → Prop} {Q : List ℕ × β → Prop}

theorem expandLoopD_inv (ns np : List N) (d : List (List ℕ × β)) (hnp : ∀ m ∈ np, I m) (hd : ∀ e ∈ d, Q e)
    (h1 : ∀ m ∈ ns, full m = true → Q (out m, val m)) (h2 : ∀ m ∈ ns, full m = false → I m) :
    match expandLoopD full out val max ns np d with
    | .inl d' => ∀ e ∈ d', Q e
    | .inr r => (∀ m ∈ r.1, I m) ∧ ∀ e ∈ r.2, Q e := by
  induction ns generalizing np d with
  | nil => exact ⟨hnp, hd⟩
  | cons n ns ih =>
    unfold expandLoopD
    cases hf : full n with
    | true =>
      simp only [if_true]
      have hd' : ∀ e ∈ dictSet d (out n) (val n), Q e := by
        intro e he
        rcases mem_dictSet he with rfl | he
        · exact h1 n (by simp) hf
        · exact hd e he
      by_cases hm : max = some (dictSet d (out n) (val n)).length
      · rw [if_pos hm]; exact hd'
      · rw [if_neg hm]
        exact ih np _ hnp hd' (fun m hm => h1 m (by simp [hm])) (fun m hm => h2 m (by simp [hm]))
    | false =>
      simp only [Bool.false_eq_true, if_false]
      refine ih _ d ?_ hd (fun m hm => h1 m (by simp [hm])) (fun m hm => h2 m (by simp [hm]))
      intro m hm
      rcases List.mem_append.1 hm with hm | hm
      · exact hnp m hm
      · rw [List.mem_singleton] at hm
        rw [hm]; exact h2 n (by simp) hf

theorem universesD_inv (hs : ∀ n ns, I n → succs n = .ok ns → ∀ m ∈ ns, if full m then Q (out m, val m) else I m) (fuel : ℕ)
    (stack : List N) (d : List (List ℕ × β)) (hst : ∀ n ∈ stack, I n) (hd : ∀ e ∈ d, Q e) {r : List (List ℕ × β)}
    (hr : universesD full out val succs max fuel stack d = .ok r) : ∀ e ∈ r, Q e := by
  induction fuel generalizing stack d with
  | zero =>
    cases stack with
    | nil => unfold universesD at hr; cases hr; exact hd
    | cons n rest => unfold universesD at hr; cases hr
  | succ fuel ih =>
    cases stack with
    | nil => unfold universesD at hr; cases hr; exact hd
    | cons n rest =>
      unfold universesD at hr
      cases hn : succs n with
      | error e => rw [hn] at hr; cases hr
      | ok ns =>
        rw [hn] at hr
        simp only [bind, Except.bind] at hr
        have hi := expandLoopD_inv (full := full) (out := out) (val := val) (max := max) (I := I) (Q := Q) ns [] d (by simp) hd
          (fun m hm hf => by have := hs n ns (hst n (by simp)) hn m hm; rwa [if_pos hf] at this)
          (fun m hm hf => by have := hs n ns (hst n (by simp)) hn m hm; rwa [hf, if_neg (by simp)] at this)
        cases he : expandLoopD full out val max ns [] d with
        | inl w =>
          rw [he] at hr hi
          cases hr
          exact hi
        | inr w =>
          rw [he] at hr hi
          refine ih _ _ ?_ hi.2 hr
          intro m hm
          rcases List.mem_append.1 hm with hm | hm
          · exact hi.1 m hm
          · exact hst m (by simp [hm])

end

end Abc
