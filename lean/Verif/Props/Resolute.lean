import Verif.Spec.Resolute
import Verif.Props.LosingCandidate
import Verif.Props.TieBreaking
import Verif.Lemmas.Report

/-!
# C117: `resolute=True` and the approvals of a candidate
-/

namespace Abc

open Spec

theorem LoserIrrelevantOne.still {c : ℕ} {r r' : Except Err (List (List ℕ))} (h : LoserIrrelevantOne c r r') : StillElectedOne c r r' := by
  obtain ⟨W, W', h1, h2, h3⟩ := h
  refine ⟨W, W', h1, h2, fun hc => ?_⟩
  by_contra hn
  exact hn (h3 hn ▸ hc)

/-! ### Runs with smallest-index tie-breaking -/

section
variable {σ τ : Type} {Best : List ℕ → σ → ℕ → Prop} {upd : List ℕ → σ → ℕ → σ} {Best' : List ℕ → τ → ℕ → Prop}
  {upd' : List ℕ → τ → ℕ → τ} {W₀ : List ℕ} {s₀ : σ} {m : σ → τ} {c : ℕ}

/-- If the first run after the change does not elect `c`, it is the first run before. -/
theorem first_unchanged (F : Favours c Best upd Best' upd' W₀ s₀ m) {W W' : List ℕ} {x : σ} {y : τ}
    (h : RunFirst Best upd W₀ s₀ W x) (h' : RunFirst Best' upd' W₀ (m s₀) W' y) (hl : W.length = W'.length) (hc : c ∉ W') : W' = W := by
  obtain ⟨x', -, hx⟩ := favours_back_first F h' hc
  exact (RunFirst.unique hx h hl.symm).1

/-- A first run that is longer than another one continues it. -/
theorem Spec.RunFirst.extends {V W : List ℕ} {s t : σ} (hV : RunFirst Best upd W₀ s₀ V s) (hW : RunFirst Best upd W₀ s₀ W t)
    (hl : V.length < W.length) : ∃ d, Best V s d := by
  induction hW with
  | start => exact absurd hV.run.length (by omega)
  | @step W t d hW g1 g2 ih =>
    rw [List.length_append, List.length_singleton] at hl
    rcases Nat.lt_or_ge V.length W.length with h | h
    · exact ih h
    · obtain ⟨rfl, rfl⟩ := RunFirst.unique hV hW (by omega)
      exact ⟨d, g1⟩

end

theorem one_of_run {σ τ : Type} {Best : List ℕ → σ → ℕ → Prop} {upd : List ℕ → σ → ℕ → σ} {Best' : List ℕ → τ → ℕ → Prop}
    {upd' : List ℕ → τ → ℕ → τ} {s₀ : σ} {s₀' : τ} {m : σ → τ} {c k : ℕ} (F : Favours c Best upd Best' upd' [] s₀ m) (h0 : s₀' = m s₀)
    {r r' : Except Err (List (List ℕ))} (h : ∃ W x, RunFirst Best upd [] s₀ W x ∧ W.length = k ∧ r = .ok [sortNat W])
    (h' : ∃ W x, RunFirst Best' upd' [] s₀' W x ∧ W.length = k ∧ r' = .ok [sortNat W]) : LoserIrrelevantOne c r r' := by
  subst h0
  obtain ⟨W, x, h1, h2, h3⟩ := h
  obtain ⟨W', x', h1', h2', h3'⟩ := h'
  refine ⟨_, _, h3, h3', fun hc => ?_⟩
  rw [mem_sortNat] at hc
  rw [first_unchanged F h1 h1' (h2.trans h2'.symm) hc]

/-! ### First committees in a fixed order -/

/-- `W` is the only committee with `S` that precedes all of them. -/
def LeastOf (le : List ℕ → List ℕ → Prop) (S : Finset ℕ → Prop) (W : List ℕ) : Prop :=
  W.Pairwise (· < ·) ∧ S W.toFinset ∧ ∀ V : List ℕ, V.Pairwise (· < ·) → S V.toFinset → le W V

section
variable {le : List ℕ → List ℕ → Prop} (hle : ∀ V W : List ℕ, V.Pairwise (· < ·) → W.Pairwise (· < ·) → le V W → le W V → V = W)
  {c : ℕ} {S S' : Finset ℕ → Prop} {W W' : List ℕ} (h : LeastOf le S W) (h' : LeastOf le S' W')
include hle h h'

theorem least_one (K : KeepsOne c S S') (hc : c ∉ W') : W' = W := by
  obtain ⟨h1, h2⟩ := K W'.toFinset h'.2.1 (by rwa [List.mem_toFinset])
  exact hle _ _ h'.1 h.1 (h'.2.2 W h.1 (h2 _ h.2.1)) (h.2.2 W' h'.1 h1)

theorem least_still (K : KeepsStill c S S') (hc : c ∈ W) : c ∈ W' := by
  by_contra hn
  obtain ⟨h1, h2⟩ := K W.toFinset W'.toFinset h.2.1 (by rwa [List.mem_toFinset]) h'.2.1 (by rwa [List.mem_toFinset])
  rw [hle _ _ h'.1 h.1 (h'.2.2 W h.1 h1) (h.2.2 W' h'.1 h2)] at hn
  exact hn hc

end

theorem lex_antisymm : ∀ V W : List ℕ, V.Pairwise (· < ·) → W.Pairwise (· < ·) → V ≤ W → W ≤ V → V = W :=
  fun _ _ _ _ h h' => le_antisymm h h'

theorem key_antisymm : ∀ V W : List ℕ, V.Pairwise (· < ·) → W.Pairwise (· < ·) → strKey V ≤ strKey W → strKey W ≤ strKey V → V = W :=
  fun _ _ hV hW h h' => eq_of_strKey_eq hV hW (List.le_antisymm h h')

/-- Single committees: the first one in the lexicographic order. -/
theorem least_of_returnsFirst {a : Args} (hr : a.resolute = true) {r : Except Err (List (List ℕ))} {S : Finset ℕ → Prop}
    (g : Answers a r S) (h : ReturnsFirst r S) : ∃ W, r = .ok [W] ∧ LeastOf (· ≤ ·) S W := by
  unfold Answers at g
  rw [hr] at g
  obtain ⟨W, h1, h2, h3⟩ := g
  obtain ⟨cs, g1, -, g3⟩ := h
  rw [h1] at g1
  obtain rfl := Except.ok.inj g1
  refine ⟨W, h1, h2, h3, fun V hV hSV => ?_⟩
  by_cases he : V = W
  · exact he ▸ le_rfl
  · exact (g3 W (by simp) V hV hSV (by simpa using he)).le

/-- Single committees: the first one of the canonical list. -/
theorem least_of_leading {a b : Args} (hr : a.resolute = true) (hb : b.resolute = false) (hbm : b.max = none)
    {r r₁ : Except Err (List (List ℕ))} {S : Finset ℕ → Prop} (g : Answers b r₁ S) (hne : ∃ A, S A)
    (h : ∃ full cs, r₁ = .ok full ∧ r = .ok cs ∧ Leading a full cs) :
    ∃ W, r = .ok [W] ∧ LeastOf (fun V W => strKey V ≤ strKey W) S W := by
  unfold Answers at g
  rw [hb, hbm] at g
  obtain ⟨full, h1, h2, h3⟩ := g
  obtain ⟨full', cs, g1, g2, g3⟩ := h
  rw [h1] at g1
  obtain rfl := Except.ok.inj g1
  unfold Leading at g3
  rw [hr] at g3
  obtain ⟨A, hA⟩ := hne
  obtain ⟨V, hV, -⟩ := (h3 A).2 hA
  cases full with
  | nil => cases hV
  | cons W rest =>
    refine ⟨W, by rw [g2, g3]; rfl, h2.asc W (by simp), (h3 _).1 ⟨W, by simp, rfl⟩, fun U hU hSU => ?_⟩
    obtain ⟨U', hU', e⟩ := (h3 _).2 hSU
    obtain rfl := asc_unique (h2.asc U' hU') hU e
    rcases List.mem_cons.1 hU' with h | h
    · exact h ▸ List.le_refl _
    · exact (List.pairwise_cons.1 h2.sorted).1 U' h

/-- All rules but three accept `resolute=False`. -/
theorem irresolute_supported {env : Env} {ruleId : String} {ri : RuleInfo} (h : ruleInfo env ruleId = .ok ri) :
    false ∈ ri.resoluteValues ∨ ruleId ∈ ["greedy-monroe", "equal-shares-with-increment-completion", "rsd"] := by
  rcases (C19_rule_table env ruleId ri).1 h with h | ⟨-, rfl⟩ | ⟨_, _, _, _, _, rfl⟩
  · have : ∀ t ∈ ruleTable, false ∈ t.2.2 ∨ t.1 ∈ ["greedy-monroe", "equal-shares-with-increment-completion", "rsd"] := by decide +kernel
    exact this _ h
  · simp
  · simp

theorem prologue_irresolute {env : Env} {ruleId : String} {p : Profile} {a : Args} {alg : String} (h : prologue env ruleId p a = .ok alg)
    (hid : ruleId ∉ ["greedy-monroe", "equal-shares-with-increment-completion", "rsd"]) :
    prologue env ruleId p { a with resolute := false, max := none } = .ok alg := by
  rw [C19_prologue_ok_iff] at h ⊢
  obtain ⟨ri, h1, h2, h3, h4, h5, h6, -, -, -⟩ := h
  exact ⟨ri, h1, h2, h3, h4, h5, h6, (irresolute_supported h1).resolve_right hid, by simp, by simp⟩

/-! ### The first committees of the rules -/

section
variable {w : World} {p : Profile} (hp : p.WF) {a : Args} (hr : a.resolute = true) {ruleId alg : String}
  (hal : prologue w.env ruleId p a = .ok alg)
include hp hr hal

theorem least_separable (r : SepRule) (hid : ruleId = r.id) :
    ∃ W, compute w ruleId p a.committeesize none a.kw = .ok [W] ∧ LeastOf (· ≤ ·) (SepOpt r p a.k) W := by
  subst hid
  refine least_of_returnsFirst hr ?_ (C105_separable w r p hp a alg hal)
  rw [compute_none hal]
  cases r with
  | av => exact C20_separable_optimal w.env .av p hp a (standard_of hal rfl)
  | sav => exact C20_separable_optimal w.env .sav p hp a (standard_of hal rfl)

theorem least_thiele (hw : w.Exact) {s : ScoreId} (hs : w.env.scoreId ruleId = .ok s)
    (hok : s = .pav ∨ s = .slav ∨ s = .cc ∨ ∃ b, s = .geom b ∧ 0 < b) (halg : alg = "brute-force") :
    ∃ W, compute w ruleId p a.committeesize none a.kw = .ok [W] ∧ LeastOf (· ≤ ·) (ThieleOpt (marginalFct s) p a.k) W := by
  subst halg
  refine least_of_returnsFirst hr (C31_compute w hw p hp a ruleId _ hal (.thiele hs ?_ ?_)) (C105_thiele_bruteforce w p hp a ruleId s hal hs hok hr)
  · exact hok.imp id (Or.imp id (Or.imp id fun ⟨b, e, hb⟩ => ⟨b, e, Or.inr (Or.inr ⟨rfl, hb⟩)⟩))
  · exact fun h => absurd h (by decide)

theorem least_branch (hw : w.Exact) {s : ScoreId} (hs : w.env.scoreId ruleId = .ok s)
    (hok : s = .pav ∨ s = .slav ∨ s = .cc ∨ ∃ b, s = .geom b ∧ 1 ≤ b) (halg : alg = "branch-and-bound") :
    ∃ W, compute w ruleId p a.committeesize none a.kw = .ok [W] ∧
      LeastOf (fun V W => strKey V ≤ strKey W) (ThieleOpt (marginalFct s) p a.k) W := by
  subst halg
  have hS : ∀ b : Args, Elects w p b.k "branch-and-bound" ruleId (ThieleOpt (marginalFct s) p b.k) := fun b =>
    .thiele hs (hok.imp id (Or.imp id (Or.imp id fun ⟨b, e, hb⟩ => ⟨b, e, Or.inr (Or.inl ⟨rfl, hb⟩)⟩))) fun h => absurd h (by decide)
  have hid : ruleId ∉ ["greedy-monroe", "equal-shares-with-increment-completion", "rsd"] := by
    intro hid
    simp only [List.mem_cons, List.not_mem_nil, or_false] at hid
    rcases hid with rfl | rfl | rfl
    all_goals
      have := prologue_alg_mem hal rfl
      revert this
      decide
  have hal' := prologue_irresolute hal hid
  exact least_of_leading (b := { a with resolute := false, max := none }) hr rfl rfl (C31_compute w hw p hp _ ruleId _ hal' (hS _))
    (elects_nonempty hw hp hal (hS a)) (C105_leading_thiele w p hp a { a with resolute := false, max := none } rfl rfl rfl ruleId _ s hal hal' hs hok (Or.inl rfl))

theorem least_leading (hw : w.Exact) {S : Finset ℕ → Prop} (hS : Elects w p a.k alg ruleId S) (halg : alg = "brute-force")
    (hrule : ruleId = "lexcc" ∨ ruleId = "minimaxav" ∨ ((ruleId = "lexminimaxav" ∨ ruleId = "monroe") ∧ ∀ v ∈ p.voters, v.weight = 1)) :
    ∃ W, compute w ruleId p a.committeesize none a.kw = .ok [W] ∧ LeastOf (fun V W => strKey V ≤ strKey W) S W := by
  subst halg
  have hid : ruleId ∉ ["greedy-monroe", "equal-shares-with-increment-completion", "rsd"] := by
    rcases hrule with rfl | rfl | ⟨rfl | rfl, -⟩ <;> decide
  have hal' := prologue_irresolute hal hid
  exact least_of_leading (b := { a with resolute := false, max := none }) hr rfl rfl (C31_compute w hw p hp _ ruleId _ hal' hS)
    (elects_nonempty hw hp hal hS) (C105_leading w hw p hp a { a with resolute := false, max := none } rfl rfl rfl ruleId hal hal' hrule)

end

/-! ### The runs of the rules -/

section
variable {c : ℕ} {p p' : Profile} (hp : p.WF) (M : MoreApprovals c p p')
include hp M

theorem first_seqThiele {f : ℕ → ℚ} (hf : ∀ i, 0 ≤ f i) {W W' : List ℕ} (h : SeqRunFirst f p W) (h' : SeqRunFirst f p' W')
    (hl : W.length = W'.length) (hc : c ∉ W') : W' = W := by
  have conv : ∀ q : Profile, q.numCand = p.numCand → ∀ {V}, SeqRunFirst f q V → RunFirst (fun W (_ : Unit) e => e < p.numCand ∧ e ∉ W ∧
      ∀ d < p.numCand, d ∉ W → gain f q W.toFinset d ≤ gain f q W.toFinset e) (fun _ _ _ => ()) [] () V () := by
    intro q hq V hV
    induction hV with
    | nil => exact .start
    | snoc _ h2 h3 h4 h5 ih =>
      exact .step ih ⟨by rw [← hq]; exact h2, h3, fun d hd => h4 d (by rw [hq]; exact hd)⟩
        fun d hd hbest => absurd (hbest.2.2 _ (by rw [← hq]; exact h2) h3) (not_le.2 (h5 d hd hbest.2.1))
  refine first_unchanged (m := id) (favours_of_values (v := fun W (_ : Unit) e => gain f p W.toFinset e)
    (v' := fun W (_ : Unit) e => gain f p' W.toFinset e) (fun _ _ _ _ => rfl) (fun W s d _ hcW hdc => ?_)
    (fun W s _ hcW => ?_)) (conv p rfl h) (conv p' M.cand h') hl hc
  · exact gain_new_other M (by simpa using hcW) hdc
  · exact gain_new_self hp M hf (by simpa using hcW)

/-- Equal Shares -/
theorem first_mes_unchanged (hp' : p'.WF) {k : ℕ} {cp : Completion} (hcp : cp = .none ∨ cp = .seqphragmen) {r : ℚ} (hr : 0 ≤ r)
    {X X' W W' : List ℕ} {b : VoterMap p} {b' : VoterMap p'} (hX : X.Pairwise (· < ·)) (hX' : X'.Pairwise (· < ·))
    (h : RunFirst (MESBest p) (mesUpd p) [] (budgetOf p r) W b)
    (he : (W.length = k ∧ W.toFinset = X.toFinset) ∨ (W.length < k ∧ MESDone p W b ∧ CompletedR p k true cp W b X.toFinset))
    (h' : RunFirst (MESBest p') (mesUpd p') [] (budgetOf p' r) W' b')
    (he' : (W'.length = k ∧ W'.toFinset = X'.toFinset) ∨ (W'.length < k ∧ MESDone p' W' b' ∧ CompletedR p' k true cp W' b' X'.toFinset))
    (hc : c ∉ X') : X' = X := by
  have hcW : c ∉ W' := by
    intro g
    have hs : W'.toFinset ⊆ X'.toFinset := by
      rcases he' with ⟨-, h⟩ | ⟨-, -, h⟩
      · exact h.subset
      · exact completed_superset h.completed
    exact hc (List.mem_toFinset.1 (hs (List.mem_toFinset.2 g)))
  rw [budgetOf_new M] at h'
  obtain ⟨y, rfl, hy⟩ := favours_back_first (favours_mes hp M hp' hr) h' hcW
  have stuck : ∀ {V : List ℕ} {x : VoterMap p}, MESDone p V x → ¬ ∃ d, MESBest p V x d := by
    rintro V x hd ⟨d, d1, d2, q, hq, -⟩
    exact hd d d1 d2 ((exists_price_iff hp x d).1 ⟨q, hq⟩)
  have fin : ∀ {V : List ℕ} {x : VoterMap p}, RunFirst (MESBest p) (mesUpd p) [] (budgetOf p r) V x → ∀ i, 0 ≤ x i := fun hV =>
    (C36_budgets p hp r hr _ _ hV.run).1
  rcases he' with ⟨g1, g2⟩ | ⟨g1, g2, g3⟩
  · rcases he with ⟨e1, e2⟩ | ⟨e1, e2, e3⟩
    · obtain ⟨rfl, -⟩ := RunFirst.unique hy h (g1.trans e1.symm)
      exact asc_unique hX' hX (g2.symm.trans e2)
    · exact absurd (RunFirst.extends h hy (by omega)) (stuck e2)
  · have g2' := done_of_new M (fin hy) g2
    rcases he with ⟨e1, e2⟩ | ⟨e1, e2, e3⟩
    · exact absurd (RunFirst.extends hy h (by omega)) (stuck g2')
    · have hlen : W'.length = W.length := by
        rcases lt_trichotomy W'.length W.length with hlt | heq | hgt
        · exact absurd (RunFirst.extends hy h hlt) (stuck g2')
        · exact heq
        · exact absurd (RunFirst.extends h hy hgt) (stuck e2)
      obtain ⟨rfl, rfl⟩ := RunFirst.unique hy h hlen
      rcases hcp with rfl | rfl
      · unfold CompletedR at e3 g3
        rw [if_neg (by simp)] at e3 g3
        have e3 : X.toFinset = W'.toFinset := e3
        have g3 : X'.toFinset = W'.toFinset := g3
        exact asc_unique hX' hX (g3.trans e3.symm)
      · unfold CompletedR at e3 g3
        rw [if_pos ⟨rfl, rfl⟩] at e3 g3
        obtain ⟨V, x, v1, v2, v3⟩ := e3
        obtain ⟨V', x', v1', v2', v3'⟩ := g3
        rw [startLoads_new M] at v1'
        have hcV : c ∉ V' := fun g => hc (List.mem_toFinset.1 (v3' ▸ List.mem_toFinset.2 g))
        obtain rfl := first_unchanged (favours_completion hp M (fin hy) e2) v1 v1' (v2.trans v2'.symm) hcV
        exact asc_unique hX' hX (v3'.symm.trans v3)

end

theorem maximinLoop_first {solve : Program → SolveResult} (hs : ExactSolver solve) {iter : List ℕ → List ℕ}
    (hit : ∀ l, iter l = l) {p : Profile} (hp : p.WF) (n : ℕ) (W : List ℕ) (hr : RunFirst (mmBest (1 / 10 ^ 7) p) mmUpd [] () W ())
    (hle : W.length + n ≤ p.numCand) :
    ∃ V, maximinLoop solve iter p n W = .ok V ∧ RunFirst (mmBest (1 / 10 ^ 7) p) mmUpd [] () V () ∧ V.length = W.length + n := by
  induction n generalizing W with
  | zero => exact ⟨W, rfl, hr, rfl⟩
  | succ n ih =>
    obtain ⟨hnd, hlt⟩ := mmRun_nodup hr.run
    obtain ⟨tied, e, -, hne, hmem⟩ := maximinTied_spec hs (iter := iter) (fun l => by rw [hit]) hp hnd hlt (by omega)
    have hasc : tied.Pairwise (· < ·) := by
      unfold maximinTied at e
      cases hsc : maximinScores solve p W with
      | error err => rw [hsc] at e; cases e
      | ok scores =>
        rw [hsc, hit] at e
        simp only [bind, Except.bind] at e
        cases hm : pyMax ((p.candidates.filter (fun c => decide (c ∉ W))).map (fun c => scores.getD c 0)) with
        | error err => rw [hm] at e; cases e
        | ok x =>
          rw [hm] at e
          obtain rfl := Except.ok.inj e
          exact ((List.pairwise_lt_range).filter _).filter _
    obtain ⟨c, rest, rfl⟩ := List.exists_cons_of_ne_nil hne
    have hc : MaximinBest (1 / 10 ^ 7) p W c := (hmem c).1 List.mem_cons_self
    obtain ⟨V, h1, h2, h3⟩ := ih (W ++ [c]) (.step hr hc fun d hd hb => by
      rcases List.mem_cons.1 ((hmem d).2 hb) with h | h
      · omega
      · exact absurd ((List.pairwise_cons.1 hasc).1 d h) (by omega)) (by simp; omega)
    refine ⟨V, ?_, h2, by rw [h3]; simp; omega⟩
    unfold maximinLoop
    rw [e]
    simp only [bind, Except.bind, pyGet]
    simpa using h1

/-- `compute_maximin_support` with `resolute=True`, if sets of candidates are iterated in ascending order. -/
theorem maximin_first (env : Env) (solve : String → Program → SolveResult) (iter : List ℕ → List ℕ) (hit : ∀ l, iter l = l)
    (p : Profile) (hp : p.WF) (hi : IntegerWeights p) (a : Args) (hk : a.k ≤ 3162) (alg : String)
    (hal : prologue env "maximin-support" p a = .ok alg) (hs : ExactSolver (solve alg)) (hr : a.resolute = true) :
    ∃ W x, RunFirst (fun W (_ : Unit) e => MaximinBest 0 p W e) (fun _ _ _ => ()) [] () W x ∧ W.length = a.k ∧
      computeMaximinSupport env solve iter p a = .ok [sortNat W] := by
  have hv := validCall_of_prologue hal
  have halg : alg = "gurobi" ∨ alg.toList.take 4 = "mip-".toList := by
    have h := maximin_alg hal
    simp only [List.mem_cons, List.not_mem_nil, or_false] at h
    rcases h with rfl | rfl | rfl
    · exact Or.inl rfl
    · exact Or.inr (by decide)
    · exact Or.inr (by decide)
  obtain ⟨V, h1, h2, h3⟩ := maximinLoop_first hs hit hp a.k [] .start (by simpa using hv.le)
  rw [List.length_nil, Nat.zero_add] at h3
  have conv : ∀ W s, RunFirst (mmBest (1 / 10 ^ 7) p) mmUpd [] () W s → W.length ≤ a.k →
      RunFirst (fun W (_ : Unit) e => MaximinBest 0 p W e) (fun _ _ _ => ()) [] () W s := by
    intro W s hW
    induction hW with
    | start => exact fun _ => .start
    | @step W s c g1 g2 g3 ih =>
      intro hl
      rw [List.length_append, List.length_singleton] at hl
      have hb := fun d => C68_maximin_best hp hi hk (W := W) d (by omega)
      exact .step (ih (by omega)) ((hb c).1 g2) fun d hd h => g3 d hd ((hb d).2 h)
  refine ⟨V, (), conv V () h2 h3.le, h3, ?_⟩
  unfold computeMaximinSupport
  rw [hal]
  simp only [bind, Except.bind]
  rw [if_pos halg, hr, if_pos rfl]
  unfold maximinResolute
  have hV := sortedCommittees_one (mmRun_nodup h2.run).1
  rw [h1]
  simp only [bind, Except.bind]
  rw [hV]
  exact sortedCommittees_idem hV

theorem geom_base {s : ScoreId} {P : ℚ → Prop} (hP : ∀ {b}, P b → 0 < b) (h : s = .pav ∨ s = .slav ∨ s = .cc ∨ ∃ b, s = .geom b ∧ P b)
    {b : ℚ} (hb : s = .geom b) : 0 < b := by
  rcases h with rfl | rfl | rfl | ⟨x, rfl, hx⟩
  · cases hb
  · cases hb
  · cases hb
  · cases hb
    exact hP hx

/-! ### The theorems -/

section
variable {w w' : World} (hw : w.Exact) (hw' : w'.Exact) {p p' : Profile} (hp : p.WF) (hp' : p'.WF) {a a' : Args}
  (h : a.resolute = true) (h' : a'.resolute = true) (hk : a'.k = a.k) {ruleId alg alg' : String}
  (hal : prologue w.env ruleId p a = .ok alg) (hal' : prologue w'.env ruleId p' a' = .ok alg') {c : ℕ} (M : MoreApprovals c p p')
include hw hw' hp hp' h h' hk hal hal' M

/-- **C117** `resolute=True`: additional approvals for a candidate `c` who is not elected with them do not change the committee. -/
theorem C117_loser (hr : ResoluteRule w w' p p' a.k alg alg' ruleId) :
    LoserIrrelevantOne c (compute w ruleId p a.committeesize none a.kw) (compute w' ruleId p' a'.committeesize none a'.kw) := by
  have lexOne : ∀ {S S' : Finset ℕ → Prop} {r r' : Except Err (List (List ℕ))}, KeepsOne c S S' →
      (∃ W, r = .ok [W] ∧ LeastOf (· ≤ ·) S W) → (∃ W, r' = .ok [W] ∧ LeastOf (· ≤ ·) S' W) → LoserIrrelevantOne c r r' := by
    rintro S S' r r' K ⟨W, g1, g2⟩ ⟨W', g1', g2'⟩
    exact ⟨W, W', g1, g1', least_one lex_antisymm g2 g2' K⟩
  have keyOne : ∀ {S S' : Finset ℕ → Prop} {r r' : Except Err (List (List ℕ))}, KeepsOne c S S' →
      (∃ W, r = .ok [W] ∧ LeastOf (fun V W => strKey V ≤ strKey W) S W) →
      (∃ W, r' = .ok [W] ∧ LeastOf (fun V W => strKey V ≤ strKey W) S' W) → LoserIrrelevantOne c r r' := by
    rintro S S' r r' K ⟨W, g1, g2⟩ ⟨W', g1', g2'⟩
    exact ⟨W, W', g1, g1', least_one key_antisymm g2 g2' K⟩
  have hpos : (0 : ℚ) ≤ a.k / total p := div_nonneg (Nat.cast_nonneg _) (total_pos hp (validCall_of_prologue hal).voters).le
  cases hr with
  | av => exact lexOne (hk ▸ (both_av hp M a.k).2) (least_separable hp h hal .av rfl) (least_separable hp' h' hal' .av rfl)
  | thiele h1 h2 h3 h4 h5 =>
    exact lexOne (hk ▸ (both_thiele hp M (marginalFct_nonneg _ fun b hb => geom_base (fun h => h) h3 hb) a.k).2)
      (least_thiele hp h hal hw h1 h3 h4) (least_thiele hp' h' hal' hw' h2 h3 h5)
  | thieleBranch h1 h2 h3 h4 h5 =>
    exact keyOne (hk ▸ (both_thiele hp M (marginalFct_nonneg _ fun b hb => geom_base (fun h => by linarith) h3 hb) a.k).2)
      (least_branch hp h hal hw h1 h3 h4) (least_branch hp' h' hal' hw' h2 h3 h5)
  | lexcc h1 h2 =>
    exact keyOne (hk ▸ (both_lexcc hp M a.k).2)
      (least_leading hp h hal hw (.lexcc fun g => absurd (h1.symm.trans g) (by decide)) h1 (Or.inl rfl))
      (least_leading hp' h' hal' hw' (.lexcc fun g => absurd (h2.symm.trans g) (by decide)) h2 (Or.inl rfl))
  | monroe h1 h2 h3 =>
    exact keyOne (hk ▸ (both_monroe M a.k).2)
      (least_leading hp h hal hw (.monroe h1) h2 (Or.inr (Or.inr ⟨Or.inr rfl, h1⟩)))
      (least_leading hp' h' hal' hw' (.monroe (unit_new M h1)) h3 (Or.inr (Or.inr ⟨Or.inr rfl, unit_new M h1⟩)))
  | @seqThiele sid s h1 h2 h3 =>
    obtain ⟨ri, hi, -⟩ := (C19_prologue_ok_iff _ _ p a alg).1 hal
    obtain ⟨ri', hi', -⟩ := (C19_prologue_ok_iff _ _ p' a' alg').1 hal'
    obtain ⟨W, g1, g2, g3⟩ := C27_seqThiele_resolute w.env sid s p hp a
      (standard_of hal ((ruleInfo_seq (Or.inl rfl) h1 hi) ▸ hi)) h1 h3 h
    obtain ⟨W', g1', g2', g3'⟩ := C27_seqThiele_resolute w'.env sid s p' hp' a'
      (standard_of hal' ((ruleInfo_seq (Or.inl rfl) h2 hi') ▸ hi')) h2 h3 h'
    rw [compute_none hal, compute_none hal', run_seq w p _ h1, run_seq w' p' _ h2]
    refine ⟨_, _, g3, g3', fun hc => ?_⟩
    rw [mem_sortNat] at hc
    rw [first_seqThiele hp M h3 g1 g1' (by rw [g2, g2', hk]) hc]
  | seqphragmen h1 h2 h3 h4 =>
    rw [compute_none hal, compute_none hal']
    have g := C33_seqphragmen_resolute w.env (w.float "seqphragmen" p a) p hp h1 a alg hal h3 h
    have g' := C33_seqphragmen_resolute w'.env (w'.float "seqphragmen" p' a') p' hp' h2 a' alg' hal' h4 h'
    rw [hk] at g'
    refine one_of_run (favours_phragmen hp M (W₀ := []) (x₀ := fun _ => 0) fun d _ _ hb i => ?_) rfl g g'
    unfold newLoad
    refine div_nonneg ?_ (Finset.sum_nonneg (fun i _ => (weight_pos hp i).le))
    simp
  | maximinSupport h1 h2 h3 h4 h5 =>
    rw [compute_none hal, compute_none hal']
    have g := maximin_first w.env w.solve w.iter h4 p hp h1 a h3 alg hal (hw.solve alg) h
    have g' := maximin_first w'.env w'.solve w'.iter h5 p' hp' h2 a' (by rw [hk]; exact h3) alg' hal' (hw'.solve alg') h'
    rw [hk] at g'
    exact one_of_run (favours_maximin hp M hp') rfl g g'
  | greedyMonroe h1 h2 h3 =>
    rw [compute_none hal, compute_none hal']
    obtain ⟨W, Ds, C, -, -, g1, -, g2, g3, g4, g5, g6, -⟩ := (C32_greedy_monroe w.env w.matching hw.matching w.minCost hw.minCost
      (w.iter p.candidates) p (hw.iter _) a (standard_of hal rfl)).1 (unitWeights_iff.2 h1)
    obtain ⟨W', Ds', C', -, -, g1', -, g2', g3', g4', g5', g6', -⟩ := (C32_greedy_monroe w'.env w'.matching hw'.matching w'.minCost
      hw'.minCost (w'.iter p'.candidates) p' (hw'.iter _) a' (standard_of hal' rfl)).1 (unitWeights_iff.2 (unit_new M h1))
    refine ⟨C, C', g1, g1', fun hc => ?_⟩
    have hcW : c ∉ W' := fun g => hc (List.mem_toFinset.1 (g6' ▸ List.mem_toFinset.2 g))
    have := first_unchanged (favours_greedyMonroe M a.k) (g2 (h2 _)) (hk ▸ g2' (h3 _)) (by rw [g3, g3', hk]) hcW
    subst this
    exact asc_unique g5' g5 (g6'.trans g6.symm)
  | enestroem h1 h2 =>
    rw [compute_none hal, compute_none hal']
    have g := (C40_enestroem w.env (w.float "phragmen-enestroem" p a) p hp a alg hal h1).2 h
    have g' := (C40_enestroem w'.env (w'.float "phragmen-enestroem" p' a') p' hp' a' alg' hal' h2).2 h'
    rw [hk, total_new M] at g'
    exact one_of_run (favours_enestroem M _) (weights_new M) g g'
  | consensus h1 h2 =>
    rw [compute_none hal, compute_none hal']
    have g := (C41_consensus w.env (w.float "consensus-rule" p a) p a alg hal h1).2 h
    have g' := (C41_consensus w'.env (w'.float "consensus-rule" p' a') p' a' alg' hal' h2).2 h'
    rw [hk] at g'
    exact one_of_run (favours_consensus M) rfl g g'
  | equalShares h1 h2 h3 h4 h5 =>
    have same : ∀ {e : Env} {q : Profile} {b : Args} {x : String}, prologue e ruleId q b = .ok x → prologue e "equal-shares" q b = .ok x := by
      intro e q b x hx
      rw [← hx]
      refine prologue_alias ?_ q b
      simp only [List.mem_cons, List.not_mem_nil, or_false] at h1
      rcases h1 with rfl | rfl | rfl <;> rfl
    have run : ∀ (u : World) (q : Profile) (b : Args), u.run ruleId q b = computeEqualShares u.env (u.float ruleId q b) .seqphragmen q b := by
      intro u q b
      simp only [List.mem_cons, List.not_mem_nil, or_false] at h1
      rcases h1 with rfl | rfl | rfl <;> rfl
    obtain ⟨X, W, b, g1, g2, g3, g4⟩ := C38_equal_shares_resolute w.env (w.float ruleId p a) p hp .seqphragmen
      (Or.inr (Or.inl ⟨rfl, h2⟩)) a _ alg rfl (same hal) h4 h
    obtain ⟨X', W', b', g1', g2', g3', g4'⟩ := C38_equal_shares_resolute w'.env (w'.float ruleId p' a') p' hp' .seqphragmen
      (Or.inr (Or.inl ⟨rfl, h3⟩)) a' _ alg' rfl (same hal') h5 h'
    rw [compute_none hal, compute_none hal', run, run]
    rw [hk, total_new M] at g3'
    rw [hk] at g4'
    exact ⟨X, X', g1, g1', first_mes_unchanged hp M hp' (Or.inr rfl) hpos g2 g2' g3 g4 g3' g4'⟩
  | equalSharesNone h1 h2 h3 =>
    have same : ∀ {e : Env} {q : Profile} {b : Args} {x : String}, prologue e ruleId q b = .ok x →
        prologue e "equal-shares-without-completion" q b = .ok x := by
      intro e q b x hx
      rw [← hx]
      refine prologue_alias ?_ q b
      simp only [List.mem_cons, List.not_mem_nil, or_false] at h1
      rcases h1 with rfl | rfl | rfl <;> rfl
    have run : ∀ (u : World) (q : Profile) (b : Args), u.run ruleId q b = computeEqualShares u.env (u.float ruleId q b) .none q b := by
      intro u q b
      simp only [List.mem_cons, List.not_mem_nil, or_false] at h1
      rcases h1 with rfl | rfl | rfl <;> rfl
    obtain ⟨X, W, b, g1, g2, g3, g4⟩ := C38_equal_shares_resolute w.env (w.float ruleId p a) p hp .none
      (Or.inl rfl) a _ alg rfl (same hal) h2 h
    obtain ⟨X', W', b', g1', g2', g3', g4'⟩ := C38_equal_shares_resolute w'.env (w'.float ruleId p' a') p' hp' .none
      (Or.inl rfl) a' _ alg' rfl (same hal') h3 h'
    rw [compute_none hal, compute_none hal', run, run]
    rw [hk, total_new M] at g3'
    rw [hk] at g4'
    exact ⟨X, X', g1, g1', first_mes_unchanged hp M hp' (Or.inl rfl) hpos g2 g2' g3 g4 g3' g4'⟩

/-- **C117** `resolute=True`: additional approvals for an elected candidate never cost the seat.  Besides the rules above, this holds for
satisfaction approval voting and for the two rules based on distances. -/
theorem C117_monotone (hr : ResoluteRule w w' p p' a.k alg alg' ruleId ∨ ruleId = "sav" ∨
      (ruleId = "minimaxav" ∧ alg = "brute-force" ∧ alg' = "brute-force") ∨
      (ruleId = "lexminimaxav" ∧ (∀ v ∈ p.voters, v.weight = 1) ∧ alg = "brute-force" ∧ alg' = "brute-force")) :
    StillElectedOne c (compute w ruleId p a.committeesize none a.kw) (compute w' ruleId p' a'.committeesize none a'.kw) := by
  rcases hr with hr | rfl | ⟨rfl, h1, h2⟩ | ⟨rfl, hu, h1, h2⟩
  · exact LoserIrrelevantOne.still (C117_loser hw hw' hp hp' h h' hk hal hal' M hr)
  · obtain ⟨W, g1, g2⟩ := least_separable hp h hal .sav rfl
    obtain ⟨W', g1', g2'⟩ := least_separable hp' h' hal' .sav rfl
    rw [hk] at g2'
    exact ⟨W, W', g1, g1', least_still lex_antisymm g2 g2' (still_sep hp M .sav a.k).2⟩
  · obtain ⟨W, g1, g2⟩ := least_leading hp h hal hw .minimaxav h1 (Or.inr (Or.inl rfl))
    obtain ⟨W', g1', g2'⟩ := least_leading hp' h' hal' hw' .minimaxav h2 (Or.inr (Or.inl rfl))
    rw [hk] at g2'
    exact ⟨W, W', g1, g1', least_still key_antisymm g2 g2' (still_minimaxav M a.k).2⟩
  · obtain ⟨W, g1, g2⟩ := least_leading hp h hal hw (.lexminimaxav hu) h1 (Or.inr (Or.inr ⟨Or.inl rfl, hu⟩))
    obtain ⟨W', g1', g2'⟩ := least_leading hp' h' hal' hw' (.lexminimaxav (unit_new M hu)) h2 (Or.inr (Or.inr ⟨Or.inl rfl, unit_new M hu⟩))
    rw [hk] at g2'
    exact ⟨W, W', g1, g1', least_still key_antisymm g2 g2' (still_lexminimaxav M a.k).2⟩

end

/-! ### The hypotheses can be met -/

/-- There is a world as required by the theorems. -/
example : ∃ w : World, w.env = exampleEnv ∧ w.Exact ∧ ∀ l, w.iter l = l := exists_ascending_world exampleEnv

/-- A voter additionally approves candidate 2.  Greedy Monroe and Equal Shares elect candidates 0 and 1 nevertheless. -/
example (w : World) (hw : w.env = exampleEnv) (hit : ∀ l, w.iter l = l) (p p' : Profile)
    (e : p = ⟨3, [⟨[0, 1], 1⟩, ⟨[0], 1⟩, ⟨[1], 1⟩, ⟨[1], 1⟩], []⟩) (e' : p' = ⟨3, [⟨[0, 1, 2], 1⟩, ⟨[0], 1⟩, ⟨[1], 1⟩, ⟨[1], 1⟩], []⟩) :
    MoreApprovals 2 p p' ∧ ResoluteRule w w p p' 2 "standard" "standard" "greedy-monroe" ∧
    prologue w.env "greedy-monroe" p { committeesize := 2, resolute := true } = .ok "standard" ∧
    prologue w.env "greedy-monroe" p' { committeesize := 2, resolute := true } = .ok "standard" ∧
    ResoluteRule w w p p' 2 "standard-fractions" "standard-fractions" "equal-shares" ∧
    prologue w.env "equal-shares" p { committeesize := 2, resolute := true } = .ok "standard-fractions" ∧
    prologue w.env "equal-shares" p' { committeesize := 2, resolute := true } = .ok "standard-fractions" ∧
    compute bothWorld "equal-shares" p' 2 none {} = .ok [[0, 1]] := by
  subst e e'
  refine ⟨⟨rfl, .cons ⟨rfl, Or.inr (by decide)⟩ (.cons ⟨rfl, Or.inl rfl⟩ (.cons ⟨rfl, Or.inl rfl⟩ (.cons ⟨rfl, Or.inl rfl⟩ .nil)))⟩,
    .greedyMonroe (by decide +kernel) hit hit, ?_, ?_, ?_, ?_, ?_, ?_⟩
  · rw [hw]; decide +kernel
  · rw [hw]; decide +kernel
  · refine .equalShares (by simp) (approversAtLeastOne_of_weights ?_) (approversAtLeastOne_of_weights ?_) (Or.inl rfl) (Or.inl rfl)
    all_goals decide +kernel
  · rw [hw]; decide +kernel
  · rw [hw]; decide +kernel
  · decide +kernel

/-- For minimax approval voting a losing candidate matters: a voter who additionally approves candidate 2 makes candidate 1 lose to
candidate 0, while with `resolute=True` candidate 2 is never returned. -/
example : compute { bothWorld with env := exampleEnv } "minimaxav" ⟨3, [⟨[], 1⟩, ⟨[1], 1⟩, ⟨[0, 1], 1⟩], []⟩ 1 none
      { algorithm := some "brute-force", resolute := some true } = .ok [[1]] ∧
    compute { bothWorld with env := exampleEnv } "minimaxav" ⟨3, [⟨[2], 1⟩, ⟨[1], 1⟩, ⟨[0, 1], 1⟩], []⟩ 1 none
      { algorithm := some "brute-force", resolute := some true } = .ok [[0]] := by
  decide +kernel

end Abc
