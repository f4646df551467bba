import Verif.Lemmas.VoterMaps
import Verif.Model.Budgets
import Verif.Spec.Budgets
import Verif.Props.Axioms

/-!
# C40, C41: Phragmén-Eneström and the consensus rule
-/

namespace Abc
open Spec

theorem budgetSupport_eq (p : Profile) (b : VoterMap p) (c : ℕ) : budgetSupport p (List.ofFn b) c = support p b c := by
  unfold budgetSupport support backers
  rw [sum_filter_map, zip_ofFn, List.map_ofFn, List.sum_ofFn, Finset.filter_filter, Finset.sum_filter]
  refine Finset.sum_congr rfl (fun i _ => ?_)
  simp only [Bool.and_eq_true, decide_eq_true_eq, not_le, Function.comp, mem_appr]
  simp only [and_comm]

theorem pyMax_spec {l : List ℚ} (h : l ≠ []) : ∃ M, pyMax l = .ok M ∧ M ∈ l ∧ ∀ x ∈ l, x ≤ M := by
  cases l with
  | nil => exact absurd rfl h
  | cons a l =>
    refine ⟨l.foldl max a, rfl, ?_, ?_⟩
    · have := listMax_mem h
      exact this
    · intro x hx
      exact le_listMax hx

theorem mem_available {p : Profile} {W : List ℕ} {c : ℕ} : c ∈ available p W ↔ c < p.numCand ∧ c ∉ W := by
  simp [available, Profile.candidates]

theorem available_lt (p : Profile) (W : List ℕ) : (available p W).Pairwise (· < ·) := (pairwise_lt_range _).filter _

theorem maxSupport_spec {p : Profile} (W : List ℕ) (hW : W.length < p.numCand) (b : VoterMap p) :
    ∃ tied M, maxSupport p W (List.ofFn b) = .ok (tied, M) ∧ tied.Pairwise (· < ·) ∧ tied ≠ [] ∧
      (∀ c, c ∈ tied ↔ SupportBest p W b c) ∧ ∀ c ∈ tied, support p b c = M := by
  obtain ⟨d0, hd0, hd0W⟩ := exists_not_mem hW
  have hne : available p W ≠ [] := List.ne_nil_of_mem (mem_available.2 ⟨hd0, hd0W⟩)
  obtain ⟨M, h1, h2, h3⟩ := pyMax_spec (l := (available p W).map (budgetSupport p (List.ofFn b))) (by simpa using hne)
  set T := (available p W).filter (fun c => decide (budgetSupport p (List.ofFn b) c = M)) with hT
  have hTlt : T.Pairwise (· < ·) := (available_lt p W).filter _
  have hmem : ∀ c, c ∈ T ↔ SupportBest p W b c := by
    intro c
    rw [hT, List.mem_filter, mem_available, decide_eq_true_eq, budgetSupport_eq]
    unfold SupportBest
    rw [and_assoc]
    refine and_congr_right fun hc => and_congr_right fun hcW => ?_
    constructor
    · rintro rfl d hd hdW
      have := h3 _ (List.mem_map.2 ⟨d, mem_available.2 ⟨hd, hdW⟩, rfl⟩)
      rwa [budgetSupport_eq] at this
    · intro h
      obtain ⟨d, hd, rfl⟩ := List.mem_map.1 h2
      have hd' := mem_available.1 hd
      rw [budgetSupport_eq]
      refine le_antisymm ?_ (h d hd'.1 hd'.2)
      have := h3 _ (List.mem_map.2 ⟨c, mem_available.2 ⟨hc, hcW⟩, rfl⟩)
      rwa [budgetSupport_eq, budgetSupport_eq] at this
  have hTne : T ≠ [] := by
    obtain ⟨d, hd, hdM⟩ := List.mem_map.1 h2
    exact List.ne_nil_of_mem (a := d) (List.mem_filter.2 ⟨hd, by simpa using hdM⟩)
  refine ⟨T, M, ?_, hTlt, hTne, hmem, ?_⟩
  · unfold maxSupport
    simp only [h1, bind, Except.bind]
    rw [← hT, sortNat_of_lt hTlt, if_neg hTne]
  · intro c hc
    rw [hT, List.mem_filter, decide_eq_true_eq, budgetSupport_eq] at hc
    exact hc.2

/-- Rules that run the same search for `resolute` with the bound 1. -/
theorem run_answers_effMax {σ : Type} {Best : List ℕ → σ → ℕ → Prop} {upd : List ℕ → σ → ℕ → σ} {s₀ : σ}
    {N : Type} {node : List ℕ → σ → N} {succs : N → Except Err (List N)} {full : N → Bool} {out : N → List ℕ}
    {p : Profile} {a : Args} (hv : ValidCall p a)
    (hs : SuccSpec Best upd [] s₀ p.numCand a.k node succs)
    (hB : ∀ W s c, Run Best upd [] s₀ W s → Best W s c → c < p.numCand ∧ c ∉ W)
    (hfull : ∀ W s, full (node W s) = decide (W.length = a.k)) (hout : ∀ W s, out (node W s) = sortNat W)
    {r : Except Err (List (List ℕ))}
    (hr : r = do
      let winning ← universes full out succs a.effMax (dfsFuel p a.k) [node [] s₀] []
      sortedCommittees winning) :
    Answers a r (RunWinner Best upd s₀ a.k) ∧
    (a.resolute = true → ∃ W s, RunFirst Best upd [] s₀ W s ∧ W.length = a.k ∧ r = .ok [sortNat W]) := by
  have hpos := hv.pos
  have hfirst : a.resolute = true → ∃ W s, RunFirst Best upd [] s₀ W s ∧ W.length = a.k ∧ W.Nodup ∧ r = .ok [sortNat W] := by
    intro hres
    obtain ⟨W, s, h1, h2, h3⟩ := universes_first (out := out) hs hfull (by simp; omega) (dfsFuel p a.k) (by simp [dfsFuel])
    have hn : W.Nodup := (h1.run.nodup (m := p.numCand) hB (by simp) (by simp)).1
    refine ⟨W, s, h1, h2, hn, ?_⟩
    rw [hr]
    unfold Args.effMax
    rw [hres, if_pos rfl, h3]
    simp only [bind, Except.bind, hout]
    rw [sortedCommittees_one (sortNat_nodup.2 hn), sortNat_of_lt (sortNat_lt hn)]
  refine ⟨?_, fun h => let ⟨W, s, h1, h2, _, h4⟩ := hfirst h; ⟨W, s, h1, h2, h4⟩⟩
  refine run_answers hv hs hB hfull hout ?_ ?_
  · intro hres
    obtain ⟨W, s, h1, h2, h3, h4⟩ := hfirst hres
    exact ⟨W, s, h1, h2, by rw [h4, sortedCommittees_one h3]⟩
  · intro hres
    rw [hr]
    unfold Args.effMax
    rw [hres]
    rfl

/-! ## Phragmén-Eneström -/

/-- C40: budgets stay between 0 and the voter's weight. -/
theorem C40_budget_range (p : Profile) (hp : p.WF) (q : ℚ) (hq : 0 ≤ q) (W : List ℕ) (b : VoterMap p)
    (h : Run (SupportBest p) (enestroemUpd p q) [] (fun i => (p.voters.get i).weight) W b) :
    ∀ i, 0 ≤ b i ∧ b i ≤ (p.voters.get i).weight := by
  induction h with
  | start => exact fun i => ⟨(weight_pos hp i).le, le_rfl⟩
  | @step W b c _ hc ih =>
    intro i
    unfold enestroemUpd
    split
    · split
      · rename_i hs
        have hS : 0 < support p b c := lt_of_le_of_lt hq hs
        have e : b i - q * (b i / support p b c) = b i * ((support p b c - q) / support p b c) := by field_simp
        have h1 : 0 ≤ (support p b c - q) / support p b c := div_nonneg (by linarith) hS.le
        have h2 : (support p b c - q) / support p b c ≤ 1 := by rw [div_le_one hS]; linarith
        obtain ⟨h3, h4⟩ := ih i
        rw [e]
        refine ⟨mul_nonneg h3 h1, ?_⟩
        nlinarith
      · exact ⟨le_rfl, (weight_pos hp i).le⟩
    · exact ih i

/-- For non-negative budgets the support is simply the sum of the supporters' budgets. -/
theorem support_eq_sum (p : Profile) (b : VoterMap p) (hb : ∀ i, 0 ≤ b i) (c : ℕ) : support p b c = ∑ i ∈ backers p c, b i := by
  unfold support
  rw [Finset.sum_filter]
  refine Finset.sum_congr rfl (fun i _ => ?_)
  split
  · rfl
  · rename_i h
    linarith [hb i]

/-- C40: the supporters of the elected candidate pay exactly the price, or all they have if they cannot afford it; nobody else
pays. -/
theorem C40_payment (p : Profile) (q : ℚ) (hq : 0 ≤ q) (W : List ℕ) (b : VoterMap p) (hb : ∀ i, 0 ≤ b i) (c : ℕ) :
    ∑ i ∈ backers p c, (b i - enestroemUpd p q W b c i) = min q (support p b c) ∧
    ∀ i ∉ backers p c, enestroemUpd p q W b c i = b i := by
  refine ⟨?_, fun i hi => by unfold enestroemUpd; rw [if_neg hi]⟩
  have hS := support_eq_sum p b hb c
  by_cases hs : q < support p b c
  · rw [min_eq_left hs.le]
    have hpos : 0 < support p b c := lt_of_le_of_lt hq hs
    have : ∑ i ∈ backers p c, (b i - enestroemUpd p q W b c i) = ∑ i ∈ backers p c, (q / support p b c) * b i := by
      refine Finset.sum_congr rfl (fun i hi => ?_)
      unfold enestroemUpd
      rw [if_pos hi, if_pos hs]
      ring
    rw [this, ← Finset.mul_sum, ← hS, div_mul_cancel₀ _ hpos.ne']
  · rw [min_eq_right (not_lt.1 hs)]
    rw [hS]
    refine Finset.sum_congr rfl (fun i hi => ?_)
    unfold enestroemUpd
    rw [if_pos hi, if_neg hs]
    ring

theorem enestroem_succSpec {p : Profile} (k : ℕ) (hk : k ≤ p.numCand) (q : ℚ) (hq : 0 ≤ q) (b₀ : VoterMap p) :
    SuccSpec (SupportBest p) (enestroemUpd p q) [] b₀ p.numCand k (fun W b => (W, List.ofFn b)) (enestroemSuccs p q) := by
  intro W b _ hlen
  obtain ⟨tied, M, h1, h2, h3, h4, h5⟩ := maxSupport_spec W (by omega) b
  refine ⟨tied, ?_, h2, h3, fun c hc => ((h4 c).1 hc).1, h4⟩
  unfold enestroemSuccs
  simp only [h1, bind, Except.bind]
  congr 1
  refine List.map_congr_left (fun c hc => ?_)
  rw [zipWith_ofFn]
  congr 2
  funext i
  unfold enestroemUpd
  simp only [mem_backers, h5 c hc, gt_iff_lt]
  split
  · split
    · rename_i hM
      have : 0 < M := lt_of_le_of_lt hq hM
      field_simp
    · ring
  · rfl

theorem voters_map_ofFn (p : Profile) (g : Voter → ℚ) : p.voters.map g = List.ofFn (fun i => g (p.voters.get i)) := by
  apply List.ext_getElem <;> simp

/-- C40: Phragmén-Eneström (exact fractions) returns exactly the committees of all runs that elect in each round an unelected
candidate of maximal support and charge its supporters; for `resolute` the smallest-index run. -/
theorem C40_enestroem (env : Env) (float : Except Err (List (List ℕ))) (p : Profile) (hp : p.WF) (a : Args) (alg : String)
    (hal : prologue env "phragmen-enestroem" p a = .ok alg) (hex : ExactAlg env alg) :
    Answers a (computeEnestroem env float p a) (EnestroemWinner p a.k) ∧
    (a.resolute = true → ∃ W b, RunFirst (SupportBest p) (enestroemUpd p (total p / a.k)) [] (fun i => (p.voters.get i).weight) W b ∧
      W.length = a.k ∧ computeEnestroem env float p a = .ok [sortNat W]) := by
  have hv := validCall_of_prologue hal
  have hq : 0 ≤ total p / (a.k : ℚ) := div_nonneg (total_pos hp hv.voters).le (by positivity)
  refine run_answers_effMax (p := p) (a := a) hv (enestroem_succSpec a.k hv.le (total p / a.k) hq (fun i => (p.voters.get i).weight))
    (fun _ _ _ _ hb => ⟨hb.1, hb.2.1⟩) (full := fun n => decide (n.1.length = a.k)) (out := fun n => sortNat n.1)
    (fun _ _ => rfl) (fun _ _ => rfl) ?_
  unfold computeEnestroem
  rw [hal]
  simp only [bind, Except.bind]
  rw [withFractions_exact hex]
  unfold enestroemAlgorithm
  have e : (p.voters.map Voter.weight).sum = total p := totalWeight_eq p
  simp only [e]
  rw [voters_map_ofFn]
  simp only [bind, Except.bind]

/-! ## Consensus rule -/

theorem consensus_succSpec {p : Profile} (k : ℕ) (hk : k ≤ p.numCand) (b₀ : VoterMap p) :
    SuccSpec (ConsensusBest p) (consensusUpd p) [] b₀ p.numCand k (fun W b => (W, List.ofFn b)) (consensusSuccs p) := by
  intro W b _ hlen
  obtain ⟨tied, M, h1, h2, h3, h4, h5⟩ := maxSupport_spec W (by omega) (income p b)
  refine ⟨tied, ?_, h2, h3, fun c hc => ((h4 c).1 hc).1, h4⟩
  have hinc : List.zipWith (fun (v : Voter) b => b + v.weight) p.voters (List.ofFn b) = List.ofFn (income p b) := by
    rw [zipWith_ofFn]
    rfl
  unfold consensusSuccs
  simp only [hinc, h1, bind, Except.bind]
  congr 1
  refine List.map_congr_left (fun c hc => ?_)
  rw [zipWith_ofFn]
  congr 2
  funext i
  unfold consensusUpd
  have hw : (((p.voters.zip (List.ofFn (income p b))).filter
      (fun vb => decide (¬ vb.2 ≤ 0) && decide (c ∈ vb.1.approved))).map (fun vb => vb.1.weight)).sum
      = ∑ j ∈ backers p c with 0 < income p b j, (p.voters.get j).weight := by
    unfold backers
    rw [sum_filter_map, zip_ofFn, List.map_ofFn, List.sum_ofFn, Finset.filter_filter, Finset.sum_filter]
    refine Finset.sum_congr rfl (fun i _ => ?_)
    simp only [Bool.and_eq_true, decide_eq_true_eq, not_le, Function.comp, mem_appr]
    simp only [and_comm]
  rw [hw, totalWeight_eq]
  simp only [Bool.and_eq_true, decide_eq_true_eq, not_le, mem_backers]
  simp only [and_comm]
  split
  · ring
  · rfl

/-- C41: the consensus rule (exact fractions) returns exactly the committees of all runs that elect in each round an unelected
candidate of maximal support; for `resolute` the smallest-index run. -/
theorem C41_consensus (env : Env) (float : Except Err (List (List ℕ))) (p : Profile) (a : Args) (alg : String)
    (hal : prologue env "consensus-rule" p a = .ok alg) (hex : ExactAlg env alg) :
    Answers a (computeConsensus env float p a) (ConsensusWinner p a.k) ∧
    (a.resolute = true → ∃ W b, RunFirst (ConsensusBest p) (consensusUpd p) [] (fun _ => 0) W b ∧
      W.length = a.k ∧ computeConsensus env float p a = .ok [sortNat W]) := by
  have hv := validCall_of_prologue hal
  refine run_answers_effMax (p := p) (a := a) hv (consensus_succSpec a.k hv.le (fun _ => 0))
    (fun _ _ _ _ hb => ⟨hb.1, hb.2.1⟩) (full := fun n => decide (n.1.length = a.k)) (out := fun n => sortNat n.1)
    (fun _ _ => rfl) (fun _ _ => rfl) ?_
  unfold computeConsensus
  rw [hal]
  simp only [bind, Except.bind]
  rw [withFractions_exact hex]
  unfold consensusAlgorithm zeroLoad
  rw [List.ofFn_const]
  simp only [bind, Except.bind]

/-- C41: a round in which the elected candidate has a supporter that is not in debt leaves the sum of the budgets unchanged. -/
theorem C41_budget_balance (p : Profile) (hp : p.WF) (W : List ℕ) (b : VoterMap p) (c : ℕ)
    (hc : ∃ i ∈ backers p c, 0 < income p b i) : ∑ i, consensusUpd p W b c i = ∑ i, b i := by
  set S := (backers p c).filter (fun i => 0 < income p b i) with hS
  have hpos : 0 < ∑ j ∈ S, (p.voters.get j).weight := by
    obtain ⟨i, hi, hi2⟩ := hc
    exact Finset.sum_pos (fun i _ => weight_pos hp i) ⟨i, Finset.mem_filter.2 ⟨hi, hi2⟩⟩
  have e : ∀ i, consensusUpd p W b c i = b i + (p.voters.get i).weight
      - (if i ∈ S then total p * ((p.voters.get i).weight / ∑ j ∈ S, (p.voters.get j).weight) else 0) := by
    intro i
    unfold consensusUpd income
    simp only [hS, Finset.mem_filter]
    unfold income
    split <;> ring
  rw [Finset.sum_congr rfl (fun i _ => e i), Finset.sum_sub_distrib, Finset.sum_add_distrib, Finset.sum_ite_mem, Finset.univ_inter,
    ← Finset.mul_sum, show ∑ i ∈ S, (p.voters.get i).weight / ∑ j ∈ S, (p.voters.get j).weight = 1 from by
      simp only [div_eq_mul_inv]
      rw [← Finset.sum_mul, mul_inv_cancel₀ hpos.ne']]
  unfold total
  ring

/-- C41: in a round the elected candidate has a solvent supporter as soon as some unelected candidate has one. -/
theorem C41_supporter (p : Profile) (W : List ℕ) (b : VoterMap p) (c d : ℕ) (hc : ConsensusBest p W b c)
    (hd : d < p.numCand) (hdW : d ∉ W) (h : ∃ i ∈ backers p d, 0 < income p b i) :
    ∃ i ∈ backers p c, 0 < income p b i := by
  have h1 := hc.2.2 d hd hdW
  have h2 : 0 < support p (income p b) d := by
    obtain ⟨i, hi, hi2⟩ := h
    exact Finset.sum_pos (fun j hj => (Finset.mem_filter.1 hj).2) ⟨i, Finset.mem_filter.2 ⟨hi, hi2⟩⟩
  by_contra hno
  push Not at hno
  have : support p (income p b) c = 0 := by
    unfold support
    rw [Finset.filter_eq_empty_iff.2 (fun i hi => not_lt.2 (hno i hi))]
    rfl
  linarith

/-- Non-vacuity of C40, C41. -/
example : prologue exampleEnv "phragmen-enestroem" exampleProfile { committeesize := 2, resolute := false } = .ok "standard-fractions" ∧
    computeEnestroem exampleEnv (.ok []) exampleProfile { committeesize := 2, resolute := false } = .ok [[1, 2]] ∧
    prologue exampleEnv "consensus-rule" exampleProfile { committeesize := 2, resolute := false } = .ok "standard-fractions" ∧
    computeConsensus exampleEnv (.ok []) exampleProfile { committeesize := 2, resolute := false } = .ok [[1, 2]] ∧
    ExactAlg exampleEnv "standard-fractions" := by
  refine ⟨by decide +kernel, by decide +kernel, by decide +kernel, by decide +kernel, Or.inl rfl⟩

end Abc
