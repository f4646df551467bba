import Verif.Spec.Promises
import Verif.Props.Hierarchy
import Verif.Props.ParetoRules
import Verif.Props.LeximaxJustified
import Verif.Props.LeximaxPriceable
import Verif.Props.MaximinPriceable

/-!
# C77: what `compute` returns passes `check`
-/

namespace Abc

open Spec

section
variable {p : Profile} {A : Finset ℕ} {q : ℚ}

theorem Spec.EJRplus.mono {q' : ℚ} (hq : q ≤ q') (h : EJRplus p A q) : EJRplus p A q' := by
  intro ℓ G c h1 h2 h3 h4
  exact h ℓ G c h1 (le_trans (mul_le_mul_of_nonneg_left hq (by positivity)) h2) h3 h4

theorem of_jr (h : JR p A q) : ∀ n ∈ ["jr"], Satisfies n p A q := by
  intro n hn
  rw [List.mem_singleton] at hn
  subst hn
  exact h

theorem of_pareto (h : ParetoOptimal p A) : ∀ n ∈ ["pareto"], Satisfies n p A q := by
  intro n hn
  rw [List.mem_singleton] at hn
  subst hn
  exact h

theorem of_pjr (h : PJR p A q) : ∀ n ∈ ["jr", "pjr"], Satisfies n p A q := by
  intro n hn
  simp only [List.mem_cons, List.not_mem_nil, or_false] at hn
  rcases hn with rfl | rfl
  · exact h.jr
  · exact h

theorem of_ejrplus (hq : 0 < q) (h : EJRplus p A q) : ∀ n ∈ ["jr", "pjr", "ejr", "ejr+"], Satisfies n p A q := by
  intro n hn
  simp only [List.mem_cons, List.not_mem_nil, or_false] at hn
  rcases hn with rfl | rfl | rfl | rfl
  · exact (h.ejr hq).pjr.jr
  · exact (h.ejr hq).pjr
  · exact h.ejr hq
  · exact h

theorem of_append {l l' : List String} (h : ∀ n ∈ l, Satisfies n p A q) (h' : ∀ n ∈ l', Satisfies n p A q) :
    ∀ n ∈ l ++ l', Satisfies n p A q := by
  intro n hn
  rcases List.mem_append.1 hn with hn | hn
  · exact h n hn
  · exact h' n hn

theorem of_priceable (h : PriceableOrFull false p A) : ∀ n ∈ ["priceability"], Satisfies n p A q := by
  intro n hn
  rw [List.mem_singleton] at hn
  subst hn
  exact h

end

/-- The rules keep their promises. -/
theorem promises_elects {w : World} {p : Profile} (hp : p.WF) (hne : p.voters ≠ []) {k : ℕ} (hk : 1 ≤ k) {alg ruleId : String}
    {names : List String} (h : Promises w p k alg ruleId names) :
    ∃ S, Elects w p k alg ruleId S ∧ ∀ A, S A → A.Nonempty → ∀ n ∈ names, Satisfies n p A (total p / A.card) := by
  have ht := total_pos hp hne
  have hkq : (0 : ℚ) < k := by exact_mod_cast hk
  have hq : 0 < total p / k := div_pos ht hkq
  cases h with
  | av => exact ⟨_, .av, fun A hA _ => of_pareto (av_pareto hp hA)⟩
  | sav => exact ⟨_, .sav, fun A hA _ => of_pareto (sav_pareto hp hA)⟩
  | pav h =>
    refine ⟨_, .thiele (s := .pav) rfl (Or.inl rfl) h, fun A hA _ => ?_⟩
    rw [hA.1.2]
    exact of_append (l := ["jr", "pjr", "ejr", "ejr+"]) (of_ejrplus hq (pav_EJRplus p hp hne k hk A hA))
      (of_pareto (ThieleOpt.pareto (marginalFct_pos .pav trivial) hp hA))
  | slav h =>
    exact ⟨_, .thiele (s := .slav) rfl (Or.inr (Or.inl rfl)) h, fun A hA _ =>
      of_pareto (ThieleOpt.pareto (marginalFct_pos .slav trivial) hp hA)⟩
  | cc h =>
    refine ⟨_, .thiele (s := .cc) rfl (Or.inr (Or.inr (Or.inl rfl))) h, fun A hA _ => ?_⟩
    rw [hA.1.2]
    exact of_jr (cc_JR p hp hne k hk A hA)
  | @geom _ b hb hb1 h =>
    refine ⟨_, .thiele hb (Or.inr (Or.inr (Or.inr ⟨b, rfl, hb1⟩))) h, fun A hA _ => ?_⟩
    have : 0 < b := by
      rcases hb1 with h | ⟨-, h⟩ | ⟨-, h⟩
      · linarith
      · linarith
      · exact h
    exact of_pareto (ThieleOpt.pareto (marginalFct_pos (.geom b) this) hp hA)
  | lexcc h =>
    refine ⟨_, .lexcc h, fun A hA _ => ?_⟩
    rw [hA.1.2]
    exact of_append (l := ["jr"]) (of_jr (lexcc_JR hp hne hk hA)) (of_pareto (lexcc_pareto hp hA))
  | seqcc =>
    refine ⟨_, .seqThiele (sid := "cc") (s := .cc) rfl (marginalFct_nonneg .cc (by simp)), fun A hA _ => ?_⟩
    obtain ⟨V, h1, h2, rfl⟩ := hA
    have hn := (elects_valid (w := w) (alg := alg) (ruleId := "seq" ++ "cc") (.seqThiele (sid := "cc") (s := .cc) rfl
      (marginalFct_nonneg .cc (by simp))) ⟨V, h1, h2, rfl⟩).2.2 (by decide)
    rw [hn]
    exact of_jr (seqcc_JR p hp hne k hk V h1 h2)
  | seqphragmen h1 h2 =>
    refine ⟨_, .seqphragmen h1 h2, fun A hA _ => ?_⟩
    refine of_append (l := ["jr", "pjr"]) (of_pjr ?_) (of_priceable (seqphragmen_priceable hp hA))
    have hcom := isCommittee_of_run (p := p) (fun W s c h => ⟨h.1, h.2.1⟩) hA
    obtain ⟨W, x, h3, h4, rfl⟩ := hA
    rw [hcom.2, ← h4]
    exact prun_PJR hp hne h3 (by omega)
  | maximinSupport h1 h2 =>
    refine ⟨_, .maximinSupport h1 h2, fun A hA _ => ?_⟩
    have := (elects_valid (w := w) (alg := alg) (.maximinSupport h1 h2) hA).2.2 (by decide)
    rw [this]
    exact of_append (l := ["jr", "pjr"]) (of_pjr (C68_maximin_PJR hp hne hk hA)) (of_priceable (maximin_priceable hp hk hA))
  | leximaxphragmen h1 h2 h3 =>
    refine ⟨_, .leximaxphragmen h1 h2, fun A hA _ => ?_⟩
    have := (elects_valid (w := w) (alg := alg) (.leximaxphragmen h1 h2) hA).2.2 (by decide)
    rw [this]
    refine of_pjr (levelWinner_PJR hp hne hk (by norm_num) (by norm_num) ?_ (by linarith) hA)
    have : (0 : ℚ) ≤ p.voters.length * total p := by positivity
    linarith
  | monroe h =>
    refine ⟨_, .monroe h, fun A hA _ => ?_⟩
    rw [hA.1.2]
    exact of_jr (monroe_JR hp hne h hk hA)
  | monroePJR h hd =>
    refine ⟨_, .monroe h, fun A hA _ => ?_⟩
    rw [hA.1.2]
    exact of_pjr (monroe_PJR hp hne h hk hd hA)
  | greedyMonroe h =>
    refine ⟨_, .greedyMonroe h, fun A hA _ => ?_⟩
    rw [(isCommittee_of_run (p := p) (fun W s c h => ⟨h.1, h.2.1⟩) hA).2]
    exact of_jr (greedyMonroe_JR hp hne h hk hA)
  | greedyMonroePJR h hd =>
    refine ⟨_, .greedyMonroe h, fun A hA _ => ?_⟩
    rw [(isCommittee_of_run (p := p) (fun W s c h => ⟨h.1, h.2.1⟩) hA).2]
    exact of_pjr (greedyMonroe_PJR hp hne h hk hd hA)
  | lexminimaxav h => exact ⟨_, .lexminimaxav h, fun A hA _ => of_pareto (lexminimaxav_pareto hA)⟩
  | equalShares h h1 h2 =>
    refine ⟨_, .equalShares h h1 h2, fun A hA _ => ?_⟩
    rw [(mesWinner_valid hA).2.2 (by simp)]
    exact of_append (l := ["jr", "pjr", "ejr", "ejr+"]) (of_ejrplus hq (mesWinner_EJRplus hp hne k hk _ A hA))
      (of_priceable (mesWinner_priceable hp hne _ (Or.inr rfl) hA))
  | equalSharesAv h =>
    refine ⟨_, .equalSharesAv h, fun A hA _ => ?_⟩
    rw [(mesWinner_valid hA).2.2 (by simp)]
    exact of_ejrplus hq (mesWinner_EJRplus hp hne k hk _ A hA)
  | equalSharesNone h h1 =>
    refine ⟨_, .equalSharesNone h h1, fun A hA hAne => ?_⟩
    have hc : (0 : ℚ) < A.card := by exact_mod_cast hAne.card_pos
    have hle : (A.card : ℚ) ≤ k := by exact_mod_cast (mesWinner_valid hA).2.1
    exact of_append (l := ["jr", "pjr", "ejr", "ejr+"])
      (of_ejrplus (div_pos ht hc) ((mesWinner_EJRplus hp hne k hk _ A hA).mono (div_le_div_of_nonneg_left ht.le hc hle)))
      (of_priceable (mesWinner_priceable hp hne _ (Or.inl rfl) hA))
  | enestroem h =>
    refine ⟨_, .enestroem h, fun A hA _ => ?_⟩
    rw [(isCommittee_of_run (p := p) (fun W s c h => ⟨h.1, h.2.1⟩) hA).2]
    exact of_pjr (enestroem_PJR hp hne hk hA)

/-- **C77** What `compute` returns passes `check`: for every valid call of a rule that promises a property, `check` answers `True`
for every (non-empty) committee returned, with the default quota and whatever exact solvers are used. -/
theorem C77_compute_check (w : World) (hw : w.Exact) {solve : Program → SolveResult} {solveMax : MaxProgram → SolveResult}
    (hs : ExactSolver solve) (hm : ExactMaxSolver solveMax) (ap : List ℕ) (p : Profile) (hp : p.WF) (a : Args)
    (ruleId alg : String) (hal : prologue w.env ruleId p a = .ok alg) (names : List String)
    (hprom : Promises w p a.k alg ruleId names) {algorithm : String} (ha : algorithm = "fastest" ∨ algorithm = "gurobi") :
    ∃ cs, compute w ruleId p a.committeesize none a.kw = .ok cs ∧ cs ≠ [] ∧
      ∀ W ∈ cs, W ≠ [] → ∀ name ∈ names, check solve solveMax ap name p (W.map Int.ofNat) none algorithm = .ok true := by
  have hv := validCall_of_prologue hal
  obtain ⟨S, hS, hsat⟩ := promises_elects hp hv.voters hv.pos hprom
  obtain ⟨cs, h1, h2, -, h4, -, -⟩ := C31_valid w hw p hp a ruleId alg hal hS
  refine ⟨cs, h1, h2, fun W hW hne name hn => ?_⟩
  have hSW := answers_mem (C31_compute w hw p hp a ruleId alg hal hS) h1 hW
  obtain ⟨g1, g2, -, -⟩ := h4 W hW
  have hname : name ∈ propertyNames := by
    cases hprom <;> revert name <;> decide
  obtain ⟨b, e1, e2⟩ := C60_check hs hm ap hp g2 g1 ha hv.voters hne hname
  rw [e1, e2.2]
  have := hsat W.toFinset hSW (by rwa [List.toFinset_nonempty_iff]) name hn
  rwa [List.toFinset_card_of_nodup g2] at this

/-- **C77** The same for the brute-force checks; JR, EJR+ and Pareto optimality for all profiles, PJR and EJR for those with unit
weights (there is no brute-force check of priceability). -/
theorem C77_compute_check_brute_force (w : World) (hw : w.Exact) {solve : Program → SolveResult} {solveMax : MaxProgram → SolveResult}
    (hs : ExactSolver solve) (hm : ExactMaxSolver solveMax) (p : Profile) (hp : p.WF) (ap : List ℕ) (hap : ListsApproved p ap) (a : Args)
    (ruleId alg : String) (hal : prologue w.env ruleId p a = .ok alg) (names : List String)
    (hprom : Promises w p a.k alg ruleId names) :
    ∃ cs, compute w ruleId p a.committeesize none a.kw = .ok cs ∧ cs ≠ [] ∧
      ∀ W ∈ cs, W ≠ [] → ∀ name ∈ names, name ∈ ["jr", "ejr+", "pareto"] ∨ name ∈ ["pjr", "ejr"] ∧ p.hasUnitWeights = true →
        check solve solveMax ap name p (W.map Int.ofNat) none "brute-force" = .ok true := by
  have hv := validCall_of_prologue hal
  obtain ⟨S, hS, hsat⟩ := promises_elects hp hv.voters hv.pos hprom
  obtain ⟨cs, h1, h2, -, h4, -, -⟩ := C31_valid w hw p hp a ruleId alg hal hS
  obtain ⟨cs', h1', -, h3⟩ := C77_compute_check w hw hs hm ap p hp a ruleId alg hal names hprom (algorithm := "gurobi") (Or.inr rfl)
  rw [h1] at h1'
  obtain rfl := Except.ok.inj h1'
  refine ⟨cs, h1, h2, fun W hW hne name hn hnm => ?_⟩
  obtain ⟨g1, g2, -, -⟩ := h4 W hW
  rw [← h3 W hW hne name hn]
  refine C60_algorithms_agree solveMax hs hp ap hap g2 g1 none (div_pos (total_pos hp hv.voters) ?_) ?_
  · exact_mod_cast List.length_pos_iff.2 hne
  · simp only [List.mem_cons, List.not_mem_nil, or_false] at hnm ⊢
    tauto

/-- **C77** Without tolerances: leximax-Phragmén satisfies PJR (for electorates of every size). -/
theorem C77_leximax_PJR {p : Profile} (hp : p.WF) (hn : p.voters ≠ []) (hw : ∀ v ∈ p.voters, 1 ≤ v.weight) {k : ℕ} (hk : 0 < k)
    (hen : k ≤ (approvedSet p).card) {A : Finset ℕ} (hA : LeximaxPhragmen p k A) : PJR p A (total p / k) :=
  levelWinner_PJR hp hn hk le_rfl le_rfl (by simp) (by simp) ((C70_levels_exact hp hn hw hk hen A).2 hA)

/-- **C77** Without tolerances: every committee of leximax-Phragmén passes the checks of JR, PJR and priceability. -/
theorem C77_leximax_check {solve : Program → SolveResult} {solveMax : MaxProgram → SolveResult} (hs : ExactSolver solve)
    (hm : ExactMaxSolver solveMax) (ap : List ℕ) {p : Profile} (hp : p.WF) (hn : p.voters ≠ []) (hw : ∀ v ∈ p.voters, 1 ≤ v.weight)
    {k : ℕ} (hk : 0 < k) {W : List ℕ} (hW : W.Nodup) (hA : LeximaxPhragmen p k W.toFinset) {algorithm : String}
    (ha : algorithm = "fastest" ∨ algorithm = "gurobi") {name : String} (hname : name ∈ ["jr", "pjr", "priceability"]) :
    check solve solveMax ap name p (W.map Int.ofNat) none algorithm = .ok true := by
  obtain ⟨hcom, x, l, hx, -, -⟩ := id hA
  have hlen : W.length = k := by rw [← hcom.2, List.toFinset_card_of_nodup hW]
  have hne : W ≠ [] := by rintro rfl; simp at hlen; omega
  have hsub : W.toFinset ⊆ approvedSet p := by
    intro c hc
    have h1 := hx.one c hc
    obtain ⟨i, -, hi⟩ := Finset.exists_ne_zero_of_sum_ne_zero (by rw [h1]; exact one_ne_zero)
    exact Finset.mem_biUnion.2 ⟨i, Finset.mem_univ _, (hx.approved i c (right_ne_zero_of_mul hi)).1⟩
  have hcard := Finset.card_le_card hsub
  have hP := C77_leximax_PJR hp hn hw hk (by rw [← hcom.2]; exact hcard) hA
  simp only [List.mem_cons, List.not_mem_nil, or_false] at hname
  obtain ⟨b, h1, h2⟩ := C60_check hs hm ap hp hW (fun c hc => Finset.mem_range.1 (hcom.1 (List.mem_toFinset.2 hc))) ha hn hne (name := name)
    (by rcases hname with rfl | rfl | rfl <;> decide)
  rw [h1]
  rw [hlen] at h2
  rw [h2.2 ?_]
  rcases hname with rfl | rfl | rfl
  · exact hP.jr
  · exact hP
  · show PriceableOrFull false p W.toFinset
    unfold PriceableOrFull
    rw [if_neg (not_lt.2 hcard), if_neg (by simp)]
    exact leximax_priceable hp hn hk hA

/-- Two single voters and two pairs of voters, all approving different candidates. -/
def minimaxTrap : Profile := ⟨4, [⟨[0], 1⟩, ⟨[1], 1⟩, ⟨[2], 1⟩, ⟨[2], 1⟩, ⟨[3], 1⟩, ⟨[3], 1⟩], []⟩

theorem minimaxTrap_wf : minimaxTrap.WF := ⟨by decide, by decide, by decide, by decide +kernel⟩

theorem minimaxTrap_one {B : Finset ℕ} (hB : IsCommittee minimaxTrap 3 B) {t : ℚ} (h : LoadWithin minimaxTrap B t) : 1 ≤ t := by
  obtain ⟨x, hx, ht⟩ := h
  have h01 : 0 ∈ B ∨ 1 ∈ B := by
    by_contra hcon
    push Not at hcon
    have : B ⊆ {2, 3} := by
      intro c hc
      have h1 := Finset.mem_range.1 (hB.1 hc)
      change c < 4 at h1
      have h2 : c ≠ 0 := fun h => hcon.1 (h ▸ hc)
      have h3 : c ≠ 1 := fun h => hcon.2 (h ▸ hc)
      simp only [Finset.mem_insert, Finset.mem_singleton]
      omega
    have h1 := Finset.card_le_card this
    rw [hB.2] at h1
    exact absurd h1 (by decide)
  have key : ∀ c : ℕ, c ∈ B → c < 2 → 1 ≤ t := by
    intro c hc hc2
    have h6 : minimaxTrap.voters.length = 6 := rfl
    have hone := hx.one c hc
    have hz : ∀ i : Fin minimaxTrap.voters.length, (i : ℕ) ≠ c → x i c = 0 := by
      intro i hi
      by_contra hne
      have h1 := (hx.approved i c hne).1
      have h2 : ∀ (i : Fin minimaxTrap.voters.length) (c : ℕ), c < 2 → c ∈ appr minimaxTrap i → (i : ℕ) = c := by
        intro i c hc
        interval_cases c <;> revert i <;> decide
      exact hi (h2 i c hc2 h1)
    have hi : c < minimaxTrap.voters.length := by omega
    rw [Finset.sum_eq_single (⟨c, hi⟩ : Fin minimaxTrap.voters.length)
      (fun i _ hne => by rw [hz i (fun h => hne (Fin.ext h)), mul_zero]) (by simp)] at hone
    have hw : ∀ i : Fin minimaxTrap.voters.length, (minimaxTrap.voters.get i).weight = 1 := by decide +kernel
    rw [hw, one_mul] at hone
    have h1 := ht ⟨c, hi⟩
    rw [← hone]
    exact (Finset.single_le_sum (fun d _ => hx.nonneg _ d) hc).trans h1
  rcases h01 with h | h
  · exact key 0 h (by omega)
  · exact key 1 h (by omega)

theorem minimaxTrap_opt : MinimaxPhragmenOpt 0 minimaxTrap 3 {0, 1, 2} := by
  have hcom : IsCommittee minimaxTrap 3 {0, 1, 2} := ⟨by decide, by decide⟩
  refine ⟨⟨hcom, Or.inl (by decide)⟩, fun B t hB ht => ?_⟩
  have h1 := minimaxTrap_one hB ht
  let x : Fin 6 → ℕ → ℚ := fun i c =>
    if (i : ℕ) = 0 ∧ c = 0 then 1 else if (i : ℕ) = 1 ∧ c = 1 then 1 else if ((i : ℕ) = 2 ∨ (i : ℕ) = 3) ∧ c = 2 then 1 / 2 else 0
  refine ⟨x, ⟨fun i c => ?_, fun i c hne => ?_, ?_⟩, fun i => ?_⟩
  · dsimp only [x]; split_ifs <;> norm_num
  · dsimp only [x] at hne
    split_ifs at hne with h1 h2 h3
    · obtain ⟨h, rfl⟩ := h1
      obtain rfl : i = ⟨0, by decide⟩ := Fin.ext h
      decide
    · obtain ⟨h, rfl⟩ := h2
      obtain rfl : i = ⟨1, by decide⟩ := Fin.ext h
      decide
    · obtain ⟨h | h, rfl⟩ := h3
      · obtain rfl : i = ⟨2, by decide⟩ := Fin.ext h
        decide
      · obtain rfl : i = ⟨3, by decide⟩ := Fin.ext h
        decide
    · exact absurd rfl hne
  · dsimp only [x]; decide +kernel
  · have h2 : ∀ i : Fin 6, ∑ c ∈ ({0, 1, 2} : Finset ℕ), x i c ≤ 1 := by dsimp only [x]; decide +kernel
    exact (h2 i).trans (by linarith)

/-- **C77** (finding) In contrast to leximax-Phragmén, minimax-Phragmén may return committees that violate even JR: here every committee
causes a largest load of 1, so `{0, 1, 2}` is among the committees returned, although the last two of six voters have no
representative and agree on candidate 3. -/
theorem C77_minimaxphragmen_finding (w : World) (hw : w.Exact) {alg : String}
    (hal : prologue w.env "minimaxphragmen" minimaxTrap { committeesize := 3, resolute := false } = .ok alg) :
    (∃ cs, compute w "minimaxphragmen" minimaxTrap 3 none { resolute := some false } = .ok cs ∧ [0, 1, 2] ∈ cs) ∧
      checkJR minimaxTrap [0, 1, 2] none = .ok false := by
  refine ⟨?_, by decide +kernel⟩
  obtain ⟨cs, h1, h2, h3⟩ := C31_compute w hw minimaxTrap minimaxTrap_wf { committeesize := 3, resolute := false } "minimaxphragmen" alg hal
    (.minimaxphragmen (fun v hv => ⟨1, by revert v; decide +kernel⟩) (by decide +kernel) (by decide))
  refine ⟨cs, h1, ?_⟩
  obtain ⟨W, hW, he⟩ := (h3 {0, 1, 2}).2 minimaxTrap_opt
  have : W = [0, 1, 2] := by
    have h4 := h2.asc W hW
    exact (List.perm_of_nodup_nodup_toFinset_eq (h4.imp ne_of_lt) (by decide) (by rw [he]; rfl)).eq_of_pairwise
      (fun a b _ _ h h' => absurd h (not_lt.2 h'.le)) h4 (by decide)
  rwa [this] at hW

/-! ### Examples -/

/-- Non-vacuity: the call of `C77_minimaxphragmen_finding` is valid if Gurobi is available. -/
example : prologue { exampleEnv with available := ["gurobi"] } "minimaxphragmen" minimaxTrap { committeesize := 3, resolute := false }
    = .ok "gurobi" := by decide +kernel

/-- Non-vacuity: an electorate that is small enough for leximax-Phragmén's promise. -/
example (w : World) : Promises w minimaxTrap 3 "gurobi" "leximaxphragmen" ["jr", "pjr"] :=
  .leximaxphragmen (by decide +kernel) (by decide) (by decide +kernel)

/-- Non-vacuity: a world, solvers and a call of a rule for which all hypotheses hold; `check` accepts the committee. -/
example : ∃ (w : World) (solve : Program → SolveResult) (solveMax : MaxProgram → SolveResult) (cs : List (List ℕ)), w.env = exampleEnv ∧
    compute w "monroe" fourVoters 2 none { resolute := some false, algorithm := some "brute-force" } = .ok cs ∧ cs ≠ [] ∧
    ∀ W ∈ cs, W ≠ [] → check solve solveMax [] "pjr" fourVoters (W.map Int.ofNat) none "fastest" = .ok true := by
  obtain ⟨w, hwe, hw⟩ := exists_exact_world exampleEnv
  obtain ⟨solve, hs⟩ := exists_exactSolver
  obtain ⟨solveMax, hm⟩ := exists_exactMaxSolver
  have hwf : fourVoters.WF := ⟨by decide, by decide, by decide, by
    intro v hv
    simp [fourVoters] at hv
    rcases hv with rfl | rfl | rfl | rfl <;> norm_num⟩
  obtain ⟨cs, h1, h2, h3⟩ := C77_compute_check w hw hs hm [] fourVoters hwf
    { committeesize := 2, resolute := false, algorithm := "brute-force" } "monroe" "brute-force"
    (by rw [hwe]; decide +kernel) ["jr", "pjr"] (.monroePJR (by decide +kernel) (by decide)) (algorithm := "fastest") (Or.inl rfl)
  exact ⟨w, solve, solveMax, cs, hwe, h1, h2, fun W hW hne => h3 W hW hne "pjr" (by simp)⟩

end Abc
