import Verif.Spec.Tolerance
import Verif.Props.Failures

/-!
# Replacing a solver with tolerances by an exact one
-/

namespace Abc

open Spec

/-- The code cannot tell the two answers apart. -/
def SameAnswer (n : ℕ) (thr : ℚ) (r r' : SolveResult) : Prop :=
  (r = .other ∧ r' = .other) ∨ (r = .infeasible ∧ r' = .infeasible) ∨
    ∃ x x', r = .optimal x ∧ r' = .optimal x' ∧ ∀ c < n, (thr ≤ x (.cand c) ↔ thr ≤ x' (.cand c))

/-- The two solvers cannot be told apart on programs encoding committees. -/
def Agree (n : ℕ) (thr ε : ℚ) (s s' : Program → SolveResult) : Prop :=
  ∀ (p : Profile) (P : Program) (F : Finset ℕ → Prop) (v : Finset ℕ → ℚ), p.numCand = n → Encodes P p F v →
    (∀ A B, F A → F B → v A < v B → v A + ε < v B) → SameAnswer n thr (s P) (s' P)

theorem exists_agreeing {η ε thr : ℚ} {s : Program → SolveResult} (h : TolerantSolver η ε s) (h1 : η < thr) (h2 : thr ≤ 1 - η)
    (h0 : 0 ≤ η) (n : ℕ) : ∃ s', SoundSolver s' ∧ (Decides s → ExactSolver s') ∧ Agree n thr ε s s' := by
  classical
  let good (P : Program) (x x' : IVar → ℚ) : Prop := OptimalSol P x' ∧ ∀ c < n, (thr ≤ x (.cand c) ↔ thr ≤ x' (.cand c))
  let s' : Program → SolveResult := fun P => match s P with
    | .other => .other
    | .infeasible => .infeasible
    | .optimal x => if hg : ∃ x', good P x x' then .optimal hg.choose
        else if ho : ∃ x', OptimalSol P x' then .optimal ho.choose else .other
  have hopt : ∀ P x, s P = .optimal x → (∃ x', OptimalSol P x') → ∃ x', s' P = .optimal x' ∧ OptimalSol P x' := by
    intro P x hx ho
    by_cases hg : ∃ x', good P x x'
    · exact ⟨hg.choose, by simp only [s', hx, dif_pos hg], hg.choose_spec.1⟩
    · exact ⟨ho.choose, by simp only [s', hx, dif_neg hg, dif_pos ho], ho.choose_spec⟩
  refine ⟨s', fun P => ⟨fun x' hx' => ?_, fun hi => ?_⟩, fun hd P => ⟨fun ho => ?_, fun hno => ?_⟩, ?_⟩
  · cases hs : s P with
    | other => simp only [s', hs] at hx'; cases hx'
    | infeasible => simp only [s', hs] at hx'; cases hx'
    | optimal x =>
      by_cases ho : ∃ x', OptimalSol P x'
      · obtain ⟨x'', e1, e2⟩ := hopt P x hs ho
        rw [e1] at hx'
        cases hx'
        exact e2
      · have hg : ¬ ∃ x', good P x x' := fun ⟨y, hy⟩ => ho ⟨y, hy.1⟩
        simp only [s', hs, dif_neg hg, dif_neg ho] at hx'
        cases hx'
  · cases hs : s P with
    | other => simp only [s', hs] at hi; cases hi
    | infeasible => exact (h P).2 hs
    | optimal x =>
      simp only [s', hs] at hi
      split at hi
      · cases hi
      · split at hi <;> cases hi
  · obtain ⟨x, hx⟩ := (hd P).1 ho
    exact hopt P x hx ho
  · have := (hd P).2 hno
    simp only [s', this]
  · intro p P F v hn hE hgap
    cases hs : s P with
    | other => exact Or.inl ⟨rfl, by simp only [s', hs]⟩
    | infeasible => exact Or.inr (Or.inl ⟨rfl, by simp only [s', hs]⟩)
    | optimal x =>
      obtain ⟨y, hy, hbest, hclose⟩ := (h P).1 x hs
      have hA := hE.sound y hy
      have hmax : ∀ B, F B → v B ≤ v (solCommittee p y) := by
        intro B hB
        by_contra hlt
        have h3 := hgap _ _ hA.1 hB (not_le.1 hlt)
        obtain ⟨z, hz, -, ez⟩ := hE.complete B hB
        have := hbest z hz
        rw [ez] at this
        linarith [hA.2]
      obtain ⟨x', hx', ec, ev⟩ := hE.complete _ hA.1
      have hg : ∃ x', good P x x' := by
        refine ⟨x', ⟨hx', fun z hz => ?_⟩, fun c hc => ?_⟩
        · rw [ev]
          exact (hE.sound z hz).2.trans (hmax _ (hE.sound z hz).1)
        · have hc' : c < p.numCand := hn ▸ hc
          have hmem : (x' (.cand c) = 1) ↔ y (.cand c) = 1 := by
            have : c ∈ solCommittee p x' ↔ c ∈ solCommittee p y := by rw [ec]
            simpa [solCommittee, hc'] using this
          have hcl := abs_le.1 (hclose (.cand c))
          rcases hE.binary y hy c hc' with e | e
          · have e' : x' (.cand c) = 0 := by
              rcases hE.binary x' hx' c hc' with e' | e'
              · exact e'
              · rw [hmem, e] at e'; norm_num at e'
            rw [e] at hcl
            rw [e']
            constructor
            · intro h; linarith
            · intro h; linarith
          · have e' : x' (.cand c) = 1 := hmem.2 e
            rw [e] at hcl
            rw [e']
            constructor
            · intro h; linarith
            · intro h; linarith
      refine Or.inr (Or.inr ⟨x, hg.choose, rfl, by simp only [s', hs, dif_pos hg], hg.choose_spec.2⟩)

section
variable {ε thr : ℚ} {s s' : Program → SolveResult} {p : Profile} (hA : Agree p.numCand thr ε s s')
include hA

theorem optLoop_agree (f : List ℕ → Except Err ℚ) {k : ℕ} (resolute : Bool) (max : Option ℕ) {v : Finset ℕ → ℚ} : ∀ (fuel : ℕ) (P : Program)
    (F : Finset ℕ → Prop) (cs : List (List ℕ)) (m : Option ℚ), Encodes P p F v → (∀ A, F A → IsCommittee p k A) →
      (∀ A B, F A → F B → v A < v B → v A + ε < v B) →
      optLoop s thr (some f) p k resolute max fuel P cs m = optLoop s' thr (some f) p k resolute max fuel P cs m := by
  classical
  intro fuel
  induction fuel with
  | zero => intro P F cs m _ _ _; rfl
  | succ fuel ih =>
    intro P F cs m hE hF hgap
    unfold optLoop
    rcases hA p P F v rfl hE hgap with ⟨e, e'⟩ | ⟨e, e'⟩ | ⟨x, x', e, e', hx⟩
    · rw [e, e']
    · rw [e, e']
    · rw [e, e']
      have hfil : p.candidates.filter (fun c => decide (thr ≤ x (.cand c))) = p.candidates.filter (fun c => decide (thr ≤ x' (.cand c))) := by
        refine List.filter_congr fun c hc => ?_
        have : c < p.numCand := by simpa [Profile.candidates] using hc
        simp only [hx c this]
      simp only [hfil, objectiveValue]
      set W := p.candidates.filter (fun c => decide (thr ≤ x' (.cand c))) with hW
      by_cases hl : W.length ≠ k
      · rw [if_pos hl, if_pos hl]
      · rw [if_neg hl, if_neg hl]
        have hn : W.Nodup := List.nodup_range.filter _
        have hcom : IsCommittee p k W.toFinset := by
          refine ⟨fun c hc => ?_, ?_⟩
          · rw [List.mem_toFinset, hW, List.mem_filter] at hc
            simpa [Profile.candidates] using hc.1
          · rw [List.toFinset_card_of_nodup hn]; exact not_not.1 hl
        have hE' := hE.exclude hF hn hcom
        cases f W with
        | error e => rfl
        | ok val =>
          simp only [bind, Except.bind]
          rw [ih _ _ _ _ hE' (fun A h => hF A h.1) (fun A B h h' => hgap A B h.1 h'.1)]

theorem optimizeRule_agree (f : List ℕ → Except Err ℚ) {k : ℕ} (resolute : Bool) (max : Option ℕ) {v : Finset ℕ → ℚ} {P : Program}
    {F : Finset ℕ → Prop} (hE : Encodes P p F v) (hF : ∀ A, F A → IsCommittee p k A)
    (hgap : ∀ A B, F A → F B → v A < v B → v A + ε < v B) :
    optimizeRule s thr (some f) p k resolute max P = optimizeRule s' thr (some f) p k resolute max P :=
  optLoop_agree hA f resolute max _ _ _ _ _ hE hF hgap

end

theorem int_apart {ε : ℚ} (he : ε < 1) {a b : ℤ} (h : (a : ℚ) < b) : (a : ℚ) + ε < b := by
  have h1 : a + 1 ≤ b := by exact_mod_cast h
  have h2 : (a : ℚ) + 1 ≤ b := by exact_mod_cast h1
  linarith

section
variable {ε : ℚ} {s s' : Program → SolveResult} {p : Profile}

theorem ilpThiele_agree (hA : Agree p.numCand thrMip ε s s') (hp : p.WF) (f : ℕ → ℚ) (k : ℕ) (resolute : Bool) (max : Option ℕ)
    (hgap : Apart ε p k (score f p)) : ilpThiele s f p k resolute max = ilpThiele s' f p k resolute max := by
  unfold ilpThiele
  split
  · rfl
  · rename_i h
    rw [not_not] at h
    rw [optimizeRule_agree hA _ resolute max (C62_thiele_program hp (scoreValues_antitone h)) (fun _ h => h) hgap]

theorem ortoolsCC_agree (hA : Agree p.numCand thrCp ε s s') (hp : p.WF) (k : ℕ) (resolute : Bool) (max : Option ℕ)
    (hgap : Apart ε p k (score (marginalFct .cc) p)) : ortoolsCC s p k resolute max = ortoolsCC s' p k resolute max := by
  unfold ortoolsCC
  split
  · rfl
  · rw [optimizeRule_agree hA _ resolute max (C62_cc_program hp) (fun _ h => h) hgap]

theorem ilpMinimaxav_agree {thr : ℚ} (hA : Agree p.numCand thr ε s s') (hp : p.WF) (k : ℕ) (resolute : Bool) (max : Option ℕ)
    (he : ε < 1) : ilpMinimaxav s thr p k resolute max = ilpMinimaxav s' thr p k resolute max := by
  unfold ilpMinimaxav
  rw [optimizeRule_agree hA _ resolute max (C62_minimaxav_program hp (k := k)) (fun _ h => h) (fun A B _ _ h => ?_)]
  have : ((-(mmScore p A : ℤ) : ℤ) : ℚ) < ((-(mmScore p B : ℤ) : ℤ) : ℚ) := by push_cast; exact h
  have := int_apart he this
  push_cast at this
  exact this

theorem lexminimaxavLoop_agree (hA : Agree p.numCand thrMip ε s s') (hp : p.WF) (k : ℕ) (resolute : Bool) (max : Option ℕ)
    (he : ε < 1) : ∀ (D : ℕ) (cs : List (List ℕ)) (hdc : List (ℕ × ℕ)), D ≤ p.numCand → (∀ dn ∈ hdc, dn.1 ≤ p.numCand) →
      lexminimaxavLoop s p k resolute max D cs hdc = lexminimaxavLoop s' p k resolute max D cs hdc := by
  intro D
  induction D with
  | zero => intro cs hdc _ _; rfl
  | succ D ih =>
    intro cs hdc hD hhdc
    unfold lexminimaxavLoop
    rw [optimizeRule_agree hA _ _ _ (C62_lexminimaxav_program hp (k := k) hhdc (d := D) (by omega)) (fun _ h => h.1) (fun A B _ _ h => ?_)]
    · refine bind_congr fun r => bind_congr fun c => ih _ _ (by omega) ?_
      intro dn hdn
      rcases List.mem_append.1 hdn with h | h
      · exact hhdc dn h
      · rw [List.mem_singleton] at h; subst h; simp only; omega
    · have := int_apart (a := cntDist p A D) (b := cntDist p B D) he (by exact_mod_cast h)
      exact_mod_cast this

end

/-- What a sound solver returns, an exact one returns. -/
theorem optimizeRule_sound {s : Program → SolveResult} (hs : SoundSolver s) : ∃ e, ExactSolver e ∧ ∀ (thr : ℚ)
    (score : Option (List ℕ → Except Err ℚ)) (p : Profile) (k : ℕ) (resolute : Bool) (max : Option ℕ) (P : Program) r,
      optimizeRule s thr score p k resolute max P = .ok r → optimizeRule e thr score p k resolute max P = .ok r := by
  obtain ⟨e, h1, h2⟩ := exists_answering hs
  exact ⟨e, h2, fun thr score p k resolute max P r => optimizeRule_mono h1 thr score p k resolute max P r⟩

section
variable {ε : ℚ} {s s' : Program → SolveResult} {p : Profile} (hA : Agree p.numCand thrMip ε s s') (hs' : SoundSolver s') (hp : p.WF)
  {a : Args} (hv : ValidCall p a)
include hA hs' hp hv

theorem gurobiLexminimaxav_agree (he : ε < 1) :
    gurobiLexminimaxav s p a.k a.resolute a.maxNum = gurobiLexminimaxav s' p a.k a.resolute a.maxNum := by
  unfold gurobiLexminimaxav
  rw [ilpMinimaxav_agree hA hp a.k true none he]
  cases hb : ilpMinimaxav s' thrMip p a.k true none with
  | error e => rfl
  | ok base =>
    simp only [bind, Except.bind]
    cases hg : pyGet base 0 with
    | error e => rfl
    | ok c =>
      simp only
      obtain ⟨e, he', hmono⟩ := exists_answering hs'
      have hv' : ValidCall p { a with resolute := true, max := none } := ⟨hv.pos, hv.le, hv.voters, by simp, by simp⟩
      have hbase : Answers { a with resolute := true, max := none } (ilpMinimaxav e thrMip p a.k true none) (MinimaxavOpt p a.k) :=
        C62_ilp_minimaxav hmono thrMip_pos thrMip_le p hp { a with resolute := true, max := none } hv'
      rw [ilpMinimaxav_mono he' _ _ _ _ _ _ hb] at hbase
      obtain ⟨W, e1, hlt, hW⟩ := hbase
      obtain rfl := Except.ok.inj e1
      obtain rfl : W = c := Except.ok.inj (show Except.ok W = Except.ok c from hg)
      have hMN : minimaxavScore p W ≤ p.numCand := by
        rw [mmScore_list hlt, mmScore_le p hp]; exact fun v hv => dist_le_numCand p hp a.k _ hW.1 v hv
      rw [lexminimaxavLoop_agree hA hp a.k a.resolute a.maxNum he _ _ _ hMN (by simpa using hMN)]

theorem lexccLoop_agree (hg : Granular p) : ∀ (n : ℕ) (sats : List ℚ) (O : Finset ℕ), LexccLevel p a.k sats.length O →
    sats = (List.range sats.length).map (covLevel p O) → (∀ l < sats.length + n, Apart ε p a.k (coverage p (l + 1))) →
    lexccLoop s p a.k n sats = lexccLoop s' p a.k n sats := by
  intro n
  induction n with
  | zero => intro sats O _ _ _; rfl
  | succ n ih =>
    intro sats O hO hsats hgap
    unfold lexccLoop
    have hE := C62_lexcc_program hp hg hO hsats
    rw [optimizeRule_agree hA _ true none hE (fun A h => h.1) (fun A B h h' => hgap _ (by omega) A B h.1 h'.1)]
    cases hb : optimizeRule s' thrMip (some (fun W => .ok (atLeastScore p (sats.length + 1) W))) p a.k true none (lexccProgram p a.k sats) with
    | error e => rfl
    | ok r =>
      simp only [bind, Except.bind]
      cases hc : pyGet r.1 0 with
      | error e => rfl
      | ok c =>
        simp only
        obtain ⟨e, he, hmono⟩ := optimizeRule_sound hs'
        have hv' : ValidCall p { a with resolute := true, max := none } := ⟨hv.pos, hv.le, hv.voters, by simp, by simp⟩
        obtain ⟨cs, m, e1, ⟨-, -, -, hm⟩, -, hcs, hres, -⟩ := C61_enumeration (a := { a with resolute := true, max := none })
          (score := some (fun W => .ok (atLeastScore p (sats.length + 1) W))) he thrMip_pos thrMip_le hv' hE (fun A hA => hA.1)
          (fun f hf W _ _ => by rw [← Option.some.inj hf]; simp only [atLeastScore_eq]) ⟨O, hO⟩
        have e2 := hmono _ _ _ _ _ _ _ _ hb
        obtain ⟨W, rfl, hW⟩ := hres rfl
        have hWF := (hcs W (by simp)).2.1
        have e3 : Except.ok (ε := Err) ([W], m) = .ok r := e1.symm.trans e2
        obtain rfl := Except.ok.inj e3
        obtain rfl : W = c := Except.ok.inj (show Except.ok W = Except.ok c from hc)
        have hnext : LexccLevel p a.k (sats.length + 1) W.toFinset :=
          lexMax_succ.2 ⟨hWF, fun B hB => by rw [hW]; exact hm B hB⟩
        refine ih _ W.toFinset (by simpa using hnext) ?_ (by
          intro l hl
          rw [List.length_append, List.length_singleton] at hl
          exact hgap l (by omega))
        rw [List.length_append, List.length_singleton, List.range_succ, List.map_append, List.map_singleton, atLeastScore_eq]
        congr 1
        refine hsats.trans (List.map_congr_left fun i hi => ?_)
        exact hO.agree hWF i (by simpa using hi)

theorem gurobiLexcc_agree (hg : Granular p) (hgap : ∀ l < a.k, Apart ε p a.k (coverage p (l + 1))) :
    gurobiLexcc s p a.k a.resolute a.maxNum = gurobiLexcc s' p a.k a.resolute a.maxNum := by
  obtain ⟨A₀, hA₀⟩ := exists_committee hv.le
  have hk := hv.pos
  unfold gurobiLexcc
  rw [lexccLoop_agree hA hs' hp hv hg (a.k - 1) [] A₀ (lexMax_zero.2 hA₀) rfl (fun l hl => hgap l (by simp at hl; omega))]
  cases hb : lexccLoop s' p a.k (a.k - 1) [] with
  | error e => rfl
  | ok sats =>
    simp only [bind, Except.bind]
    obtain ⟨e, h1, h2⟩ := exists_answering hs'
    obtain ⟨sats', O, e1, e2, h3, h4⟩ := lexccLoop_spec h2 hp hg hv (a.k - 1) [] A₀ (lexMax_zero.2 hA₀) rfl
    rw [lexccLoop_mono h1 _ _ _ _ _ hb] at e1
    obtain rfl := Except.ok.inj e1
    have hlen : sats.length + 1 = a.k := by simp at e2; omega
    rw [optimizeRule_agree hA _ a.resolute a.maxNum (C62_lexcc_program hp hg h3 h4) (fun A h => h.1)
      (fun A B h h' => hgap _ (by omega) A B h.1 h'.1)]

end

/-- The threshold that the code uses for an algorithm. -/
def codeThr (algorithm : String) : ℚ := if algorithm = "ortools-cp" then thrCp else thrMip

section
variable {ε : ℚ} {s s' : String → Program → SolveResult} {p : Profile} (hA : ∀ alg, Agree p.numCand (codeThr alg) ε (s alg) (s' alg))
  (hs' : ∀ alg, SoundSolver (s' alg)) (hp : p.WF) {a : Args} (hv : ValidCall p a)
include hA

theorem agree_mip {alg : String} (h : alg ≠ "ortools-cp") : Agree p.numCand thrMip ε (s alg) (s' alg) := by
  have := hA alg
  rwa [codeThr, if_neg h] at this

theorem agree_cp : Agree p.numCand thrCp ε (s "ortools-cp") (s' "ortools-cp") := by
  have := hA "ortools-cp"
  rwa [codeThr, if_pos rfl] at this

include hp in
theorem thieleSolver_agree {sid : String} {sc : ScoreId} (hsid : sid = "cc" → sc = .cc) (hgap : Apart ε p a.k (score (marginalFct sc) p)) (alg : String) :
    thieleSolver s sid (marginalFct sc) p a alg = thieleSolver s' sid (marginalFct sc) p a alg := by
  unfold thieleSolver
  split
  · rename_i h
    have : alg ≠ "ortools-cp" := by
      rintro rfl
      revert h; decide
    exact ilpThiele_agree (agree_mip hA this) hp _ _ _ _ hgap
  · split
    · rename_i h
      obtain ⟨rfl, h2⟩ := h
      obtain rfl := hsid h2
      exact ortoolsCC_agree (agree_cp hA) hp _ _ _ hgap
    · rfl

include hv in
theorem monroeSolver_agree (matching : List MEdge → List MEdge) (minCost : FlowNet → Except Err ℕ) (he : ε < 1) (alg : String) :
    monroeSolver s matching minCost p a alg = monroeSolver s' matching minCost p a alg := by
  have hgap : ∀ A B, IsCommittee p a.k A → IsCommittee p a.k B → monroeValue p A < monroeValue p B → monroeValue p A + ε < monroeValue p B := by
    intro A B _ _ h
    unfold monroeValue at h ⊢
    have := int_apart (a := (monroeNum p A : ℤ)) (b := (monroeNum p B : ℤ)) he (by exact_mod_cast h)
    exact_mod_cast this
  unfold monroeSolver
  split
  · rename_i h
    have : alg ≠ "ortools-cp" := by rintro rfl; revert h; decide
    rw [optimizeRule_agree (agree_mip hA this) _ _ _ (C62_monroe_program false p hv.pos) (fun _ h => h) hgap]
  · split
    · rename_i h
      subst h
      rw [optimizeRule_agree (agree_cp hA) _ _ _ (C62_monroe_program_cp p hv.pos) (fun _ h => h) hgap]
    · split
      · rename_i h
        have : alg ≠ "ortools-cp" := by rintro rfl; revert h; decide
        rw [optimizeRule_agree (agree_mip hA this) _ _ _ (C62_monroe_program true p hv.pos) (fun _ h => h) hgap]
      · rfl

include hp in
theorem minimaxavSolver_agree (he : ε < 1) (alg : String) : minimaxavSolver s p a alg = minimaxavSolver s' p a alg := by
  unfold minimaxavSolver
  split
  · rename_i h
    have : alg ≠ "ortools-cp" := by rintro rfl; revert h; decide
    exact ilpMinimaxav_agree (agree_mip hA this) hp _ _ _ he
  · split
    · rename_i h
      subst h
      exact ilpMinimaxav_agree (agree_cp hA) hp _ _ _ he
    · split
      · rename_i h
        have : alg ≠ "ortools-cp" := by rintro rfl; revert h; decide
        exact ilpMinimaxav_agree (agree_mip hA this) hp _ _ _ he
      · rfl

include hs' hp hv in
theorem lexminimaxavSolver_agree (he : ε < 1) (alg : String) : lexminimaxavSolver s p a alg = lexminimaxavSolver s' p a alg := by
  unfold lexminimaxavSolver
  split
  · rename_i h
    have : alg ≠ "ortools-cp" := by rintro rfl; revert h; decide
    exact gurobiLexminimaxav_agree (agree_mip hA this) (hs' alg) hp hv he
  · rfl

include hs' hp hv in
theorem lexccSolver_agree (hg : Granular p) (hgap : ∀ l < a.k, Apart ε p a.k (coverage p (l + 1))) (alg : String) :
    lexccSolver s p a alg = lexccSolver s' p a alg := by
  unfold lexccSolver
  split
  · rename_i h
    have : alg ≠ "ortools-cp" := by rintro rfl; revert h; decide
    rw [gurobiLexcc_agree (agree_mip hA this) (hs' alg) hp hv hg hgap]
  · rfl

end

section
variable {ε : ℚ} (w : World) {s' : String → Program → SolveResult} {p : Profile}
  (hA : ∀ alg, Agree p.numCand (codeThr alg) ε (w.solve alg) (s' alg))
  (hs' : ∀ alg, SoundSolver (s' alg)) (hp : p.WF) {a : Args} (hv : ValidCall p a)
include hA hp

theorem thiele_agree {sid : String} (hgap : ∀ sc, w.env.scoreId sid = .ok sc → Apart ε p a.k (score (marginalFct sc) p)) :
    w.thiele sid p a = World.thiele { w with solve := s' } sid p a := by
  unfold World.thiele
  cases h : w.env.scoreId sid with
  | error e => rfl
  | ok sc =>
    have : thieleSolver w.solve sid (marginalFct sc) p a = thieleSolver s' sid (marginalFct sc) p a := by
      funext alg
      refine thieleSolver_agree hA hp (fun e => ?_) (hgap sc h) alg
      subst e
      exact (Except.ok.inj h).symm
    simp only [this]

include hs' hv in
/-- A rule returns the same with both solvers. -/
theorem run_agree {ruleId : String} (hR : Resolves w p a.k ε ruleId) :
    w.run ruleId p a = World.run { w with solve := s' } ruleId p a := by
  have hno : ∀ t ∈ ["minimaxphragmen", "leximaxphragmen", "maximin-support"], ruleId ≠ t := by
    rintro t ht rfl
    cases hR with
    | thiele h _ =>
      simp only [List.mem_cons, List.not_mem_nil, or_false] at ht
      rcases ht with rfl | rfl | rfl <;> · rcases scoreId_cases h with h | h | h | h | h | h <;> exact absurd h.1 (by decide)
    | lexcc => simp at ht
    | monroe => simp at ht
    | minimaxav => simp at ht
    | lexminimaxav => simp at ht
    | other h => simp only [List.mem_cons, List.not_mem_nil, or_false] at h ht; tauto
  have hth : ruleId = "pav" ∨ ruleId = "slav" ∨ ruleId = "cc" ∨ ruleId.toList.take 4 = "geom".toList →
      ∀ sc, w.env.scoreId ruleId = .ok sc → Apart ε p a.k (score (marginalFct sc) p) := by
    intro h sc hsc
    cases hR with
    | thiele h1 h2 => rw [hsc] at h1; rw [Except.ok.inj h1]; exact h2
    | lexcc => exact absurd h (by decide)
    | monroe => exact absurd h (by decide)
    | minimaxav => exact absurd h (by decide)
    | lexminimaxav => exact absurd h (by decide)
    | other h1 h2 => simp only [List.mem_cons, List.not_mem_nil, or_false] at h1; tauto
  have hsid : ∀ {t}, w.env.scoreId ruleId = .ok t → ruleId ∉ ["lexcc", "monroe", "minimaxav", "lexminimaxav"] := by
    intro t ht hm
    simp only [List.mem_cons, List.not_mem_nil, or_false] at hm
    rcases hm with rfl | rfl | rfl | rfl <;> · rcases scoreId_cases ht with h | h | h | h | h | h <;> exact absurd h.1 (by decide)
  have hlt : ruleId = "monroe" ∨ ruleId = "minimaxav" ∨ ruleId = "lexminimaxav" → ε < 1 := by
    intro h
    cases hR with
    | thiele h1 _ => have := hsid h1; simp only [List.mem_cons, List.not_mem_nil, or_false] at this; tauto
    | lexcc => exact absurd h (by decide)
    | monroe h1 => exact h1
    | minimaxav h1 => exact h1
    | lexminimaxav h1 => exact h1
    | other h1 h2 => simp only [List.mem_cons, List.not_mem_nil, or_false] at h1; tauto
  have hlex : ruleId = "lexcc" → Granular p ∧ ∀ l < a.k, Apart ε p a.k (coverage p (l + 1)) := by
    intro h
    cases hR with
    | thiele h1 _ => have := hsid h1; simp only [List.mem_cons, List.not_mem_nil, or_false] at this; tauto
    | lexcc h1 h2 => exact ⟨h1, h2⟩
    | monroe => exact absurd h (by decide)
    | minimaxav => exact absurd h (by decide)
    | lexminimaxav => exact absurd h (by decide)
    | other h1 h2 => simp only [List.mem_cons, List.not_mem_nil, or_false] at h1; tauto
  unfold World.run
  dsimp only
  refine ite_congr rfl (fun _ => rfl) fun _ => ite_congr rfl (fun _ => rfl) fun _ => ?_
  refine ite_congr rfl (fun h => by subst h; exact thiele_agree w hA hp (hth (by simp))) fun _ => ?_
  refine ite_congr rfl (fun h => by subst h; exact thiele_agree w hA hp (hth (by simp))) fun _ => ?_
  refine ite_congr rfl (fun h => by subst h; exact thiele_agree w hA hp (hth (by simp))) fun _ => ?_
  refine ite_congr rfl (fun h => ?_) fun _ => ?_
  · rw [funext (lexccSolver_agree (a := a) hA hs' hp hv (hlex h).1 (hlex h).2)]
  refine ite_congr rfl (fun _ => rfl) fun _ => ite_congr rfl (fun _ => rfl) fun _ => ite_congr rfl (fun _ => rfl) fun _ =>
    ite_congr rfl (fun _ => rfl) fun _ => ite_congr rfl (fun _ => rfl) fun _ => ?_
  refine ite_congr rfl (fun h => absurd h (hno _ (by simp))) fun _ => ?_
  refine ite_congr rfl (fun h => absurd h (hno _ (by simp))) fun _ => ?_
  refine ite_congr rfl (fun h => absurd h (hno _ (by simp))) fun _ => ?_
  refine ite_congr rfl (fun h => ?_) fun _ => ?_
  · rw [funext (monroeSolver_agree hA hv w.matching w.minCost (hlt (Or.inl h)))]
  refine ite_congr rfl (fun _ => rfl) fun _ => ?_
  refine ite_congr rfl (fun h => ?_) fun _ => ?_
  · rw [funext (minimaxavSolver_agree (a := a) hA hp (hlt (Or.inr (Or.inl h))))]
  refine ite_congr rfl (fun h => ?_) fun _ => ?_
  · rw [funext (lexminimaxavSolver_agree hA hs' hp hv (hlt (Or.inr (Or.inr h))))]
  refine ite_congr rfl (fun _ => rfl) fun _ => ite_congr rfl (fun _ => rfl) fun _ => ite_congr rfl (fun _ => rfl) fun _ =>
    ite_congr rfl (fun _ => rfl) fun _ => ite_congr rfl (fun _ => rfl) fun _ => ite_congr rfl (fun _ => rfl) fun _ =>
    ite_congr rfl (fun _ => rfl) fun _ => ite_congr rfl (fun _ => rfl) fun _ => ite_congr rfl (fun _ => rfl) fun _ => ?_
  exact ite_congr rfl (fun h => thiele_agree w hA hp (hth (by simp [h]))) fun _ => rfl

end

/-! ## Checks depend only on the status -/

/-- Forget the values. -/
def SolveResult.status : SolveResult → SolveResult
  | .optimal _ => .optimal fun _ => 0
  | .infeasible => .infeasible
  | .other => .other

/-- The same answer up to the witness. -/
def SameVerdict {ω : Type} (x y : Except Err (Option ω)) : Prop := x.map Option.isNone = y.map Option.isNone

theorem SameVerdict.refl {ω : Type} (x : Except Err (Option ω)) : SameVerdict x x := rfl

theorem SameVerdict.bind {α ω : Type} (x : Except Err α) {f g : α → Except Err (Option ω)} (h : ∀ a, SameVerdict (f a) (g a)) :
    SameVerdict (x >>= f) (x >>= g) := by
  cases x with
  | error e => rfl
  | ok a => exact h a

theorem solveCheck_status {ω : Type} (s : Program → SolveResult) (P : Program) (info : (IVar → ℚ) → ω) :
    SameVerdict (solveCheck s P info) (solveCheck (fun P => (s P).status) P info) := by
  unfold solveCheck SameVerdict
  dsimp only
  cases s P <;> rfl

theorem byAlgorithm_verdict {ω : Type} (algorithm : String) (b : Except Err (Option ω)) {x y : Except Err (Option ω)} (h : SameVerdict x y) :
    SameVerdict (byAlgorithm algorithm b x) (byAlgorithm algorithm b y) := by
  unfold byAlgorithm
  split
  · rfl
  · split
    · exact h
    · rfl

theorem checkWith_verdict {ω : Type} {f g : List ℕ → ℚ → Except Err (Option ω)} (h : ∀ W q, SameVerdict (f W q) (g W q)) (p : Profile)
    (committee : List ℤ) (quota : Option ℚ) : checkWith f p committee quota = checkWith g p committee quota := by
  unfold checkWith
  refine bind_congr fun q => bind_congr fun W => ?_
  have := h W q
  unfold SameVerdict at this
  cases hf : f W q with
  | error e =>
    cases hg : g W q with
    | error e' => rw [hf, hg] at this; simp only [Except.map] at this; cases this; rfl
    | ok r' => rw [hf, hg] at this; simp only [Except.map] at this; cases this
  | ok r =>
    cases hg : g W q with
    | error e' => rw [hf, hg] at this; simp only [Except.map] at this; cases this
    | ok r' =>
      rw [hf, hg] at this
      simp only [Except.map] at this
      cases r <;> cases r' <;> simp_all [bind, Except.bind]

theorem checkPriceability_status (s : Program → SolveResult) (m : MaxProgram → SolveResult) (p : Profile) (committee : List ℤ)
    (algorithm : String) (stable : Bool) : checkPriceability s m p committee algorithm stable =
      checkPriceability (fun P => (s P).status) (fun P => (m P).status) p committee algorithm stable := by
  unfold checkPriceability
  refine bind_congr fun W => ite_congr rfl (fun _ => ?_) fun _ => rfl
  unfold checkPriceabilityGurobi
  refine ite_congr rfl (fun _ => rfl) fun _ => ?_
  cases stable with
  | true => simp only [if_true]; cases m (stableProgram p W) <;> rfl
  | false => simp only [Bool.false_eq_true, if_false]; cases s (priceProgram p W) <;> rfl

theorem check_status (s : Program → SolveResult) (m : MaxProgram → SolveResult) (ap : List ℕ) (name : String) (p : Profile)
    (committee : List ℤ) (quota : Option ℚ) (algorithm : String) : check s m ap name p committee quota algorithm =
      check (fun P => (s P).status) (fun P => (m P).status) ap name p committee quota algorithm := by
  unfold check
  refine ite_congr rfl (fun _ => ite_congr rfl (fun _ => rfl) fun _ => ?_) fun _ => ite_congr rfl (fun _ => rfl) fun _ =>
    ite_congr rfl (fun _ => ?_) fun _ => ite_congr rfl (fun _ => ?_) fun _ => ite_congr rfl (fun _ => rfl) fun _ =>
    ite_congr rfl (fun _ => ?_) fun _ => ite_congr rfl (fun _ => ite_congr rfl (fun _ => rfl) fun _ => checkPriceability_status _ _ _ _ _ _) fun _ =>
    ite_congr rfl (fun _ => ite_congr rfl (fun _ => rfl) fun _ => checkPriceability_status _ _ _ _ _ _) fun _ =>
    ite_congr rfl (fun _ => ?_) fun _ => rfl
  · unfold checkParetoOptimality
    refine bind_congr fun W => ?_
    have := byAlgorithm_verdict algorithm (checkParetoInner p W) (solveCheck_status s (paretoProgram p W) (chosenCands p))
    unfold SameVerdict at this
    unfold checkParetoGurobi
    generalize byAlgorithm algorithm (checkParetoInner p W) (solveCheck s (paretoProgram p W) (chosenCands p)) = x at this
    generalize byAlgorithm algorithm (checkParetoInner p W) (solveCheck (fun P => (s P).status) (paretoProgram p W) (chosenCands p)) = y at this
    cases x with
    | error e =>
      cases y with
      | error e' => simp only [Except.map] at this; cases this; rfl
      | ok r' => simp only [Except.map] at this; cases this
    | ok r =>
      cases y with
      | error e' => simp only [Except.map] at this; cases this
      | ok r' => exact this
  · exact checkWith_verdict (fun W q => byAlgorithm_verdict _ _ (SameVerdict.bind _ fun _ => solveCheck_status _ _ _)) _ _ _
  · exact checkWith_verdict (fun W q => byAlgorithm_verdict _ _ (SameVerdict.bind _ fun _ => solveCheck_status _ _ _)) _ _ _
  · exact checkWith_verdict (fun W q => byAlgorithm_verdict _ _ (SameVerdict.bind _ fun _ => solveCheck_status _ _ _)) _ _ _
  · exact checkWith_verdict (fun W q => byAlgorithm_verdict _ _ (solveCheck_status _ _ _)) _ _ _

/-- An exact solver and a completion of a solver with the right status such that both report the same. -/
theorem exists_status {s : Program → SolveResult} (h : StatusSolver s) : ∃ e sc, ExactSolver e ∧ Answering s sc ∧
    Answering (fun P => (e P).status) (fun P => (sc P).status) := by
  classical
  let e : Program → SolveResult := fun P => if h : ∃ x, OptimalSol P x then .optimal h.choose
    else if ∃ x, Feasible P x then .other else .infeasible
  have he : ExactSolver e := by
    refine fun P => ⟨fun h => ⟨h.choose, by simp only [e, dif_pos h], h.choose_spec⟩, fun h => ?_⟩
    have h1 : ¬ ∃ x, OptimalSol P x := fun ⟨x, hx⟩ => h ⟨x, hx.1⟩
    simp only [e, dif_neg h1, if_neg h]
  refine ⟨e, fun P => match s P with | .other => e P | r => r, he, fun P hP => ?_, fun P hP => ?_⟩
  · cases hs : s P <;> simp_all
  · cases hs : s P with
    | other => simp only [hs]
    | optimal x =>
      simp only [hs]
      have hf := (h P).1 x hs
      by_cases ho : ∃ x, OptimalSol P x
      · simp only [e, dif_pos ho]; rfl
      · exact absurd (by simp only [e, dif_neg ho, if_pos hf]; rfl) hP
    | infeasible =>
      simp only [hs]
      rw [(he P).2 ((h P).2 hs)]

theorem exists_statusMax {s : MaxProgram → SolveResult} (h : StatusMaxSolver s) : ∃ e sc, ExactMaxSolver e ∧ AnsweringMax s sc ∧
    AnsweringMax (fun P => (e P).status) (fun P => (sc P).status) := by
  classical
  let opt (P : MaxProgram) (x : IVar → ℚ) : Prop := MaxFeasible P x ∧ ∀ y, MaxFeasible P y → P.base.obj.eval y ≤ P.base.obj.eval x
  let e : MaxProgram → SolveResult := fun P => if h : ∃ x, opt P x then .optimal h.choose
    else if ∃ x, MaxFeasible P x then .other else .infeasible
  have he : ExactMaxSolver e := by
    refine fun P => ⟨fun h => ⟨h.choose, by simp only [e, opt, dif_pos h], h.choose_spec⟩, fun h => ?_⟩
    have h1 : ¬ ∃ x, opt P x := fun ⟨x, hx⟩ => h ⟨x, hx.1⟩
    simp only [e, dif_neg h1, if_neg h]
  refine ⟨e, fun P => match s P with | .other => e P | r => r, he, fun P hP => ?_, fun P hP => ?_⟩
  · cases hs : s P <;> simp_all
  · cases hs : s P with
    | other => simp only [hs]
    | optimal x =>
      simp only [hs]
      have hf := (h P).1 x hs
      by_cases ho : ∃ x, opt P x
      · simp only [e, dif_pos ho]; rfl
      · exact absurd (by simp only [e, dif_neg ho, if_pos hf]; rfl) hP
    | infeasible =>
      simp only [hs]
      rw [(he P).2 ((h P).2 hs)]

end Abc
