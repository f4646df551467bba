import Verif.Lemmas.VoterMaps
import Verif.Props.Axioms

/-!
# C33, C34: seq-Phragmén
-/

namespace Abc
open Spec

/-- Every candidate approved by somebody is approved by voters of total weight at least 1 (true for integer weights; needed:
see `C33_small_weights_fail`). -/
def ApproversAtLeastOne (p : Profile) : Prop := ∀ c, (backers p c).Nonempty → 1 ≤ wt p (backers p c)

theorem approversAtLeastOne_of_weights {p : Profile} (h : ∀ v ∈ p.voters, 1 ≤ v.weight) : ApproversAtLeastOne p := by
  rintro c ⟨i, hi⟩
  refine (h _ (List.get_mem _ i)).trans ?_
  exact Finset.single_le_sum (f := fun i => (p.voters.get i).weight)
    (fun j _ => (zero_le_one.trans (h _ (List.get_mem _ j)))) hi

theorem newLoad_le {p : Profile} (hp : p.WF) (hw : ApproversAtLeastOne p) (x : VoterMap p) (L : ℚ) (hx : ∀ i, x i ≤ L) (c : ℕ)
    (hc : (backers p c).Nonempty) : newLoad p x c ≤ L + 1 := by
  have h1 := hw c hc
  unfold newLoad
  rw [div_le_iff₀ (by linarith)]
  have h2 : ∑ i ∈ backers p c, (p.voters.get i).weight * x i ≤ ∑ i ∈ backers p c, (p.voters.get i).weight * L :=
    Finset.sum_le_sum (fun i _ => mul_le_mul_of_nonneg_left (hx i) (weight_pos hp i).le)
  rw [← Finset.sum_mul] at h2
  change _ ≤ wt p (backers p c) * L at h2
  nlinarith

/-- Abbreviation: the runs of seq-Phragmén from a given partial committee and given loads. -/
abbrev PRun (p : Profile) (W₀ : List ℕ) (x₀ : VoterMap p) := Run (PhragBest p) (phragUpd p) W₀ x₀

theorem prun_bound {p : Profile} (hp : p.WF) (hw : ApproversAtLeastOne p) {W₀ : List ℕ} {x₀ : VoterMap p}
    (h0 : ∀ i, x₀ i ≤ W₀.length) {W : List ℕ} {x : VoterMap p} (h : PRun p W₀ x₀ W x) : ∀ i, x i ≤ W.length := by
  induction h with
  | start => exact h0
  | @step W x c _ hc ih =>
    intro i
    unfold phragUpd
    have hl : ((W ++ [c]).length : ℚ) = (W.length : ℚ) + 1 := by simp
    rw [hl]
    split
    · rename_i hi
      exact newLoad_le hp hw x _ ih c ⟨i, hi⟩
    · have := ih i
      linarith

theorem newMaxload_getD {p : Profile} (hp : p.WF) (k : ℕ) (V : List ℕ) (x : VoterMap p) (c : ℕ) (hc : c < p.numCand) :
    (newMaxload p k V (List.ofFn x)).getD c 0 =
      if c ∈ V then (k : ℚ) + 2 else if 0 < wt p (backers p c) then newLoad p x c else (k : ℚ) + 1 := by
  unfold newMaxload
  rw [candidates_getD p _ c hc]
  simp only [approversWeight_eq, approversLoad_eq, gt_iff_lt]
  unfold newLoad
  rw [add_comm (1 : ℚ)]

theorem newMaxload_length (p : Profile) (k : ℕ) (V : List ℕ) (x : List ℚ) : (newMaxload p k V x).length = p.numCand :=
  candidates_map_length p _

theorem mem_tiedMin_newMaxload {p : Profile} (hp : p.WF) (hw : ApproversAtLeastOne p) (k : ℕ) (hk : k ≤ p.numCand)
    (V W : List ℕ) (hVW : V.Perm W) (hlen : W.length < k) (x : VoterMap p) (hx : ∀ i, x i ≤ W.length) (c : ℕ) :
    c ∈ tiedMin (newMaxload p k V (List.ofFn x)) ↔ PhragBest p W x c := by
  rw [mem_tiedMin, newMaxload_length]
  unfold PhragBest
  refine and_congr_right fun hc => ?_
  obtain ⟨d0, hd0, hd0W⟩ := exists_not_mem (p := p) (W := W) (by omega)
  have hlk : (W.length : ℚ) + 1 ≤ k := by exact_mod_cast hlen
  have hle : ∀ d, (backers p d).Nonempty → newLoad p x d ≤ k := fun d hd => (newLoad_le hp hw x _ hx d hd).trans hlk
  have val : ∀ d < p.numCand, (newMaxload p k V (List.ofFn x)).getD d 0 =
      if d ∈ W then (k : ℚ) + 2 else if (backers p d).Nonempty then newLoad p x d else (k : ℚ) + 1 := by
    intro d hd
    rw [newMaxload_getD hp k V x d hd]
    simp only [hVW.mem_iff, wt_backers_pos hp]
  have hup : ∀ d < p.numCand, d ∉ W → (newMaxload p k V (List.ofFn x)).getD d 0 ≤ (k : ℚ) + 1 := by
    intro d hd hdW
    rw [val d hd, if_neg hdW]
    split
    · rename_i h; have := hle d h; linarith
    · exact le_rfl
  constructor
  · intro h
    have hcW : c ∉ W := by
      intro hcW
      have h1 := h d0 hd0
      rw [val c hc, if_pos hcW] at h1
      have := hup d0 hd0 hd0W
      linarith
    refine ⟨hcW, ?_⟩
    by_cases hn : (backers p c).Nonempty
    · left
      refine ⟨hn, ?_⟩
      intro d hd hdW hdn
      have := h d hd
      rwa [val c hc, val d hd, if_neg hcW, if_neg hdW, if_pos hn, if_pos hdn] at this
    · right
      intro d hd hdW
      by_contra hdn
      rw [← ne_eq, ← Finset.nonempty_iff_ne_empty] at hdn
      have := h d hd
      rw [val c hc, val d hd, if_neg hcW, if_neg hdW, if_neg hn, if_pos hdn] at this
      have := hle d hdn
      linarith
  · rintro ⟨hcW, h⟩ d hd
    rw [val c hc, if_neg hcW]
    rcases h with ⟨hn, h⟩ | h
    · rw [if_pos hn, val d hd]
      have := hle c hn
      split
      · linarith
      split
      · rename_i h1 h2; exact h d hd h1 h2
      · linarith
    · have : ¬ (backers p c).Nonempty := by rw [h c hc hcW]; simp
      rw [if_neg this, val d hd]
      split
      · linarith
      · rename_i hdW
        rw [if_neg (by rw [h d hd hdW]; simp)]

theorem phragUpd_eq {p : Profile} (hp : p.WF) (k : ℕ) (V W : List ℕ) (hVW : V.Perm W) (x : VoterMap p) (c : ℕ)
    (h : PhragBest p W x c) :
    updateLoad p (List.ofFn x) c ((newMaxload p k V (List.ofFn x)).getD c 0) = List.ofFn (phragUpd p W x c) := by
  rw [updateLoad_eq]
  congr 1
  funext i
  unfold phragUpd
  split
  · rename_i hi
    rw [newMaxload_getD hp k V x c h.1, if_neg (by rw [hVW.mem_iff]; exact h.2.1), if_pos ((wt_backers_pos hp c).2 ⟨i, hi⟩)]
  · rfl

theorem newMaxload_ne_nil {p : Profile} (hp : p.WF) (k : ℕ) (V : List ℕ) (x : List ℚ) : newMaxload p k V x ≠ [] := by
  intro h
  have h1 := congrArg List.length h
  rw [newMaxload_length] at h1
  have := hp.pos
  simp at h1
  omega

theorem phragmen_succSpec {p : Profile} (hp : p.WF) (hw : ApproversAtLeastOne p) (k : ℕ) (hk : k ≤ p.numCand) (W₀ : List ℕ)
    (x₀ : VoterMap p) (h0 : ∀ i, x₀ i ≤ W₀.length) :
    SuccSpec (PhragBest p) (phragUpd p) W₀ x₀ p.numCand k (fun W x => (W, List.ofFn x)) (fun n => .ok (seqphragmenSuccs p k n)) := by
  intro W x hrun hlen
  have hb := prun_bound hp hw h0 hrun
  have hmem := mem_tiedMin_newMaxload hp hw k hk W W (List.Perm.refl _) hlen x hb
  refine ⟨tiedMin (newMaxload p k W (List.ofFn x)), ?_, tiedMin_lt _, tiedMin_ne_nil (newMaxload_ne_nil hp _ _ _), ?_, hmem⟩
  · have e : p.candidates.filter (fun c => decide ((newMaxload p k W (List.ofFn x)).getD c 0 ≤ listMin (newMaxload p k W (List.ofFn x))))
        = tiedMin (newMaxload p k W (List.ofFn x)) := by
      unfold tiedMin
      rw [newMaxload_length]
      refine List.filter_congr ?_
      intro c hc
      have hc' : c < (newMaxload p k W (List.ofFn x)).length := by
        rw [newMaxload_length]; simpa [Profile.candidates] using hc
      rw [decide_eq_decide]
      exact ⟨fun h => le_antisymm h (listMin_le_getD hc'), fun h => h.le⟩
    unfold seqphragmenSuccs
    simp only
    rw [e]
    congr 1
    refine List.map_congr_left (fun c hc => ?_)
    rw [phragUpd_eq hp k W W (List.Perm.refl _) x c ((hmem c).1 hc)]
  · intro c hc
    exact ((hmem c).1 hc).1

/-- the resolute loop -/
theorem seqphragmenLoop_spec {p : Profile} (hp : p.WF) (hw : ApproversAtLeastOne p) (k : ℕ) (hk : k ≤ p.numCand) (W₀ : List ℕ)
    (x₀ : VoterMap p) (h0 : ∀ i, x₀ i ≤ W₀.length) (n : ℕ) (V W : List ℕ) (hVW : V.Perm W) (x : VoterMap p) (info : List PhragInfo)
    (hrun : RunFirst (PhragBest p) (phragUpd p) W₀ x₀ W x) (hlen : W.length + n ≤ k) :
    ∃ V' W' x' info', seqphragmenLoop p k n V (List.ofFn x) info = .ok (V', List.ofFn x', info') ∧ V'.Perm W' ∧
      RunFirst (PhragBest p) (phragUpd p) W₀ x₀ W' x' ∧ W'.length = W.length + n := by
  induction n generalizing V W x info with
  | zero => exact ⟨V, W, x, info, rfl, hVW, hrun, rfl⟩
  | succ n ih =>
    have hb := prun_bound hp hw h0 hrun.run
    have hmem := mem_tiedMin_newMaxload hp hw k hk V W hVW (by omega) x hb
    obtain ⟨c, cs, hcs, hget⟩ := pyGet_zero_of_ne_nil (tiedMin_ne_nil (newMaxload_ne_nil hp k V (List.ofFn x)))
    obtain ⟨h1, h2⟩ := head_le_of_lt (tiedMin_lt _) hget
    have hc := (hmem c).1 h1
    have hstep : RunFirst (PhragBest p) (phragUpd p) W₀ x₀ (W ++ [c]) (phragUpd p W x c) := by
      refine .step hrun hc ?_
      intro d hd hbest
      have := h2 d ((hmem d).2 hbest)
      omega
    have hperm : (sortNat (V ++ [c])).Perm (W ++ [c]) := (sortNat_perm _).trans (hVW.append_right _)
    obtain ⟨V', W', x', info', g1, g2, g3, g4⟩ := ih (sortNat (V ++ [c])) (W ++ [c]) hperm (phragUpd p W x c)
      (info ++ [⟨c, tiedMin (newMaxload p k V (List.ofFn x)), List.ofFn (phragUpd p W x c), listMin (newMaxload p k V (List.ofFn x))⟩])
      hstep (by simp; omega)
    refine ⟨V', W', x', info', ?_, g2, g3, by simp at g4; omega⟩
    unfold seqphragmenLoop
    simp only [hget, bind, Except.bind]
    rw [phragUpd_eq hp k V W hVW x c hc]
    exact g1

theorem zeroLoad_eq (p : Profile) : zeroLoad p = List.ofFn (fun _ : Fin p.voters.length => (0 : ℚ)) := by
  unfold zeroLoad
  rw [List.ofFn_const]

/-- C33, resolute: the smallest-index run. -/
theorem C33_seqphragmen_resolute (env : Env) (float : Except Err (List (List ℕ))) (p : Profile) (hp : p.WF)
    (hw : ApproversAtLeastOne p) (a : Args) (alg : String) (hal : prologue env "seqphragmen" p a = .ok alg)
    (hex : ExactAlg env alg) (hr : a.resolute = true) :
    ∃ W x, RunFirst (PhragBest p) (phragUpd p) [] (fun _ => 0) W x ∧ W.length = a.k ∧
      computeSeqphragmen env float p a = .ok [sortNat W] := by
  have hv := validCall_of_prologue hal
  obtain ⟨V, W, x, info, g1, g2, g3, g4⟩ := seqphragmenLoop_spec hp hw a.k hv.le [] (fun _ => 0) (by simp) a.k [] [] (List.Perm.refl _)
    (fun _ => 0) [] .start (by simp)
  have hn : W.Nodup := (g3.run.nodup (m := p.numCand) (fun _ _ _ _ hb => ⟨hb.1, hb.2.1⟩) (by simp) (by simp)).1
  refine ⟨W, x, g3, by simpa using g4, ?_⟩
  unfold computeSeqphragmen
  rw [hal]
  simp only [bind, Except.bind]
  rw [withFractions_exact hex, hr, if_pos rfl]
  unfold seqphragmenResolute
  rw [zeroLoad_eq]
  simp only [List.length_nil, Nat.sub_zero, bind, Except.bind, g1]
  rw [sortedCommittees_one (g2.nodup_iff.2 hn), sortNat_eq_of_perm g2]

/-- C33: seq-Phragmén (exact fractions) returns exactly the committees obtained by `k` times electing a candidate whose
supporters' common new load is smallest; one of them if `resolute`. -/
theorem C33_seqphragmen (env : Env) (float : Except Err (List (List ℕ))) (p : Profile) (hp : p.WF)
    (hw : ApproversAtLeastOne p) (a : Args) (alg : String) (hal : prologue env "seqphragmen" p a = .ok alg)
    (hex : ExactAlg env alg) :
    Answers a (computeSeqphragmen env float p a) (RunWinner (PhragBest p) (phragUpd p) (fun _ => 0) a.k) := by
  have hv := validCall_of_prologue hal
  cases hr : a.resolute with
  | true =>
    obtain ⟨W, x, h1, h2, h3⟩ := C33_seqphragmen_resolute env float p hp hw a alg hal hex hr
    have hn : W.Nodup := (h1.run.nodup (m := p.numCand) (fun _ _ _ _ hb => ⟨hb.1, hb.2.1⟩) (by simp) (by simp)).1
    unfold Answers
    rw [hr]
    exact ⟨sortNat W, h3, sortNat_lt hn, W, x, h1.run, h2, (sortNat_toFinset W).symm⟩
  | false =>
    have e : computeSeqphragmen env float p a = seqphragmenIrresolute p a.k a.maxNum (zeroLoad p) [] >>= sortedCommittees := by
      unfold computeSeqphragmen
      rw [hal]
      simp only [bind, Except.bind]
      rw [withFractions_exact hex, hr]
      simp
    rw [e]
    refine resort_answers ?_
    refine run_answers (p := p) hv (phragmen_succSpec hp hw a.k hv.le [] (fun _ => 0) (by simp)) (fun _ _ _ _ hb => ⟨hb.1, hb.2.1⟩)
      (full := fun n => decide (n.1.length = a.k)) (out := fun n => sortNat n.1) (fun _ _ => rfl) (fun _ _ => rfl)
      (fun h => absurd h (by simp [hr])) ?_
    intro _
    unfold seqphragmenIrresolute
    rw [zeroLoad_eq]

/-- C33: in every run the total (weighted) load is the number of elected candidates that have supporters. -/
theorem C33_total_load (p : Profile) (hp : p.WF) (W : List ℕ) (x : VoterMap p)
    (h : Run (PhragBest p) (phragUpd p) [] (fun _ => 0) W x) :
    ∑ i, (p.voters.get i).weight * x i = ((W.filter (fun c => decide (backers p c).Nonempty)).length : ℚ) := by
  induction h with
  | start => simp
  | @step W x c _ hc ih =>
    rw [List.filter_append, List.length_append]
    by_cases hn : (backers p c).Nonempty
    · have hpos := (wt_backers_pos hp c).2 hn
      have : ∑ i, (p.voters.get i).weight * phragUpd p W x c i
          = ∑ i, ((p.voters.get i).weight * x i + if i ∈ backers p c then (p.voters.get i).weight * newLoad p x c
              - (p.voters.get i).weight * x i else 0) := by
        refine Finset.sum_congr rfl (fun i _ => ?_)
        unfold phragUpd
        split <;> ring
      rw [this, Finset.sum_add_distrib, ih, Finset.sum_ite_mem, Finset.univ_inter, Finset.sum_sub_distrib,
        ← Finset.sum_mul]
      change _ + (wt p (backers p c) * newLoad p x c - _) = _
      unfold newLoad
      rw [mul_div_cancel₀ _ hpos.ne']
      simp [hn]
    · have hu : phragUpd p W x c = x := by
        funext i
        unfold phragUpd
        rw [if_neg]
        rw [Finset.not_nonempty_iff_eq_empty] at hn
        rw [hn]; simp
      rw [hu, ih]
      simp [hn]

/-- C33 (finding): the code's "larger than any possible value" sentinel `committeesize + 2` is not: with weights below 1 a
committee member can be elected again and the call fails with ValueError. -/
theorem C33_small_weights_fail :
    let p : Profile := ⟨3, [⟨[0, 1], 1/10⟩], []⟩
    p.WF ∧ computeSeqphragmen exampleEnv (.ok []) p { committeesize := 3, algorithm := "standard-fractions", resolute := true }
      = .error .valueError := by
  refine ⟨⟨by decide, by decide, by decide, by decide +kernel⟩, by decide +kernel⟩

/-! ## C34: proportional justified representation -/

/-- the new load of a candidate balances: its supporters' load increases by exactly 1 -/
theorem newLoad_mul {p : Profile} (hp : p.WF) (x : VoterMap p) (c : ℕ) (hc : (backers p c).Nonempty) :
    ∑ i ∈ backers p c, (p.voters.get i).weight * (newLoad p x c - x i) = 1 := by
  have hpos := (wt_backers_pos hp c).2 hc
  have : ∑ i ∈ backers p c, (p.voters.get i).weight * (newLoad p x c - x i)
      = wt p (backers p c) * newLoad p x c - ∑ i ∈ backers p c, (p.voters.get i).weight * x i := by
    unfold wt
    rw [Finset.sum_mul, ← Finset.sum_sub_distrib]
    exact Finset.sum_congr rfl (fun i _ => by ring)
  rw [this]
  unfold newLoad
  rw [mul_div_cancel₀ _ hpos.ne']
  ring

theorem newLoad_mono {p : Profile} (hp : p.WF) {x y : VoterMap p} (h : ∀ i, x i ≤ y i) (c : ℕ) : newLoad p x c ≤ newLoad p y c := by
  unfold newLoad
  refine div_le_div_of_nonneg_right ?_ (wt_nonneg hp _)
  refine add_le_add le_rfl (Finset.sum_le_sum (fun i _ => mul_le_mul_of_nonneg_left (h i) (weight_pos hp i).le))

/-- No voter's load exceeds the load that the next election would produce. -/
theorem load_le_newLoad {p : Profile} (hp : p.WF) {W : List ℕ} {x : VoterMap p} (h : PRun p [] (fun _ => 0) W x) :
    ∀ d < p.numCand, d ∉ W → (backers p d).Nonempty → ∀ i, x i ≤ newLoad p x d := by
  induction h with
  | start =>
    intro d _ _ hd i
    unfold newLoad
    have := (wt_backers_pos hp d).2 hd
    simp
    positivity
  | @step W x c _ hc ih =>
    intro d hd hdW hdn i
    have hdW' : d ∉ W := fun h => hdW (by simp [h])
    have hxy : ∀ j, x j ≤ phragUpd p W x c j := by
      intro j
      unfold phragUpd
      split
      · rename_i hj
        exact ih c hc.1 hc.2.1 ⟨j, hj⟩ j
      · exact le_rfl
    have hm := newLoad_mono hp hxy d
    unfold phragUpd
    split
    · rename_i hi
      rcases hc.2.2 with ⟨_, h⟩ | h
      · exact (h d hd hdW' hdn).trans hm
      · rw [h d hd hdW'] at hdn; simp at hdn
    · exact (ih d hd hdW' hdn i).trans hm

/-- The load of a group is at most the number of elected candidates approved by its members. -/
theorem group_load_le {p : Profile} (hp : p.WF) (G : Group p) {W : List ℕ} {x : VoterMap p} (h : PRun p [] (fun _ => 0) W x) :
    ∑ i ∈ G, (p.voters.get i).weight * x i ≤ ((G.biUnion (appr p) ∩ W.toFinset).card : ℚ) := by
  induction h with
  | start => simp
  | @step W x c hrun hc ih =>
    have hmono := load_le_newLoad hp hrun c hc.1 hc.2.1
    by_cases hG : ∃ i ∈ G, i ∈ backers p c
    · obtain ⟨i0, hi0, hb0⟩ := hG
      have hcG : c ∈ G.biUnion (appr p) := by
        rw [Finset.mem_biUnion]
        exact ⟨i0, hi0, mem_appr.2 (mem_backers.1 hb0)⟩
      have hcard : (G.biUnion (appr p) ∩ (W ++ [c]).toFinset).card = (G.biUnion (appr p) ∩ W.toFinset).card + 1 := by
        have : (W ++ [c]).toFinset = insert c W.toFinset := by ext y; simp
        rw [this, Finset.inter_insert_of_mem hcG, Finset.card_insert_of_notMem]
        simp [hc.2.1]
      rw [hcard]
      push_cast
      have e : ∑ i ∈ G, (p.voters.get i).weight * phragUpd p W x c i
          = ∑ i ∈ G, (p.voters.get i).weight * x i
            + ∑ i ∈ G.filter (fun i => i ∈ backers p c), (p.voters.get i).weight * (newLoad p x c - x i) := by
        rw [Finset.sum_filter, ← Finset.sum_add_distrib]
        refine Finset.sum_congr rfl (fun i _ => ?_)
        unfold phragUpd
        split <;> ring
      have e2 : ∑ i ∈ G.filter (fun i => i ∈ backers p c), (p.voters.get i).weight * (newLoad p x c - x i) ≤ 1 := by
        rw [← newLoad_mul hp x c ⟨i0, hb0⟩]
        refine Finset.sum_le_sum_of_subset_of_nonneg (fun i hi => (Finset.mem_filter.1 hi).2) ?_
        intro i hi _
        exact mul_nonneg (weight_pos hp i).le (sub_nonneg.2 (hmono ⟨i0, hb0⟩ i))
      linarith
    · push Not at hG
      have e : ∑ i ∈ G, (p.voters.get i).weight * phragUpd p W x c i = ∑ i ∈ G, (p.voters.get i).weight * x i := by
        refine Finset.sum_congr rfl (fun i hi => ?_)
        unfold phragUpd
        rw [if_neg (hG i hi)]
      rw [e]
      refine ih.trans ?_
      exact_mod_cast Finset.card_le_card (Finset.inter_subset_inter_left (fun y hy => by simp at hy ⊢; exact Or.inr hy))

/-- While a candidate with supporters is left, only candidates with supporters are elected. -/
theorem elected_have_backers {p : Profile} {W : List ℕ} {x : VoterMap p} (h : PRun p [] (fun _ => 0) W x) (c : ℕ)
    (hc : c < p.numCand) (hcW : c ∉ W) (hn : (backers p c).Nonempty) : ∀ d ∈ W, (backers p d).Nonempty := by
  induction h with
  | start => simp
  | @step W x d _ hd ih =>
    have hcW' : c ∉ W := fun h => hcW (by simp [h])
    intro e he
    rcases List.mem_append.1 he with he | he
    · exact ih hcW' e he
    · obtain rfl : e = d := by simpa using he
      rcases hd.2.2 with ⟨h, _⟩ | h
      · exact h
      · rw [h c hc hcW'] at hn; simp at hn

theorem prun_PJR {p : Profile} (hp : p.WF) (hne : p.voters ≠ []) {W : List ℕ} {x : VoterMap p} (h : PRun p [] (fun _ => 0) W x)
    (hpos : 1 ≤ W.length) : PJR p W.toFinset (total p / W.length) := by
  intro ℓ G T hco
  obtain ⟨hl, hwt, hT, hap⟩ := hco
  by_contra hcon
  push Not at hcon
  have htot := total_pos hp hne
  have hk : (0 : ℚ) < (W.length : ℚ) := by exact_mod_cast hpos
  have hlq : (0 : ℚ) < (ℓ : ℚ) := by exact_mod_cast hl
  have hGne : G.Nonempty := nonempty_of_wt (x := (ℓ : ℚ) * (total p / W.length)) (by positivity) hwt
  obtain ⟨i0, hi0⟩ := hGne
  -- an unelected common candidate
  obtain ⟨c, hcT, hcW⟩ : ∃ c ∈ T, c ∉ W := by
    by_contra hall
    push Not at hall
    have : T ⊆ G.biUnion (appr p) ∩ W.toFinset := by
      intro c hc
      rw [Finset.mem_inter, Finset.mem_biUnion, List.mem_toFinset]
      exact ⟨⟨i0, hi0, hap i0 hi0 hc⟩, hall c hc⟩
    have := Finset.card_le_card this
    omega
  have hcm : c < p.numCand := appr_lt hp (hap i0 hi0 hcT)
  have hGb : G ⊆ backers p c := fun i hi => mem_backers.2 (mem_appr.1 (hap i hi hcT))
  have hbn : (backers p c).Nonempty := ⟨i0, hGb hi0⟩
  -- a voter of maximal load
  obtain ⟨j, -, hj⟩ := Finset.exists_max_image Finset.univ x ⟨i0, Finset.mem_univ _⟩
  have hmax : ∀ i, x i ≤ x j := fun i => hj i (Finset.mem_univ i)
  have hle := load_le_newLoad hp h c hcm hcW hbn j
  have hGload := group_load_le hp G h
  have hGl : ∑ i ∈ G, (p.voters.get i).weight * x i ≤ (ℓ : ℚ) - 1 := by
    have : ((G.biUnion (appr p) ∩ W.toFinset).card : ℚ) + 1 ≤ ℓ := by exact_mod_cast hcon
    linarith
  have hsumG : ∑ i ∈ G, (p.voters.get i).weight * (x j - x i) = wt p G * x j - ∑ i ∈ G, (p.voters.get i).weight * x i := by
    unfold wt
    rw [Finset.sum_mul, ← Finset.sum_sub_distrib]
    exact Finset.sum_congr rfl (fun i _ => by ring)
  have h1 : ∑ i ∈ G, (p.voters.get i).weight * (x j - x i) ≤ 1 := by
    rw [← newLoad_mul hp x c hbn]
    refine (Finset.sum_le_sum_of_subset_of_nonneg hGb ?_).trans ?_
    · intro i _ _
      exact mul_nonneg (weight_pos hp i).le (sub_nonneg.2 (hmax i))
    · refine Finset.sum_le_sum (fun i _ => mul_le_mul_of_nonneg_left ?_ (weight_pos hp i).le)
      linarith
  have htl := C33_total_load p hp W x h
  rw [List.filter_eq_self.2 (by
    intro d hd
    exact decide_eq_true (elected_have_backers h c hcm hcW hbn d hd))] at htl
  have hsumA : ∑ i, (p.voters.get i).weight * (x j - x i) = total p * x j - W.length := by
    unfold total
    rw [Finset.sum_mul, ← htl, ← Finset.sum_sub_distrib]
    exact Finset.sum_congr rfl (fun i _ => by ring)
  have hA0 : 0 ≤ total p * x j - W.length := by
    rw [← hsumA]
    exact Finset.sum_nonneg (fun i _ => mul_nonneg (weight_pos hp i).le (sub_nonneg.2 (hmax i)))
  have hGA : ∑ i ∈ G, (p.voters.get i).weight * (x j - x i) ≤ ∑ i, (p.voters.get i).weight * (x j - x i) :=
    Finset.sum_le_sum_of_subset_of_nonneg (Finset.subset_univ G)
      (fun i _ _ => mul_nonneg (weight_pos hp i).le (sub_nonneg.2 (hmax i)))
  -- `wt G * x j ≥ ℓ`
  have hxj : (W.length : ℚ) / total p ≤ x j := by
    rw [div_le_iff₀ htot]
    linarith
  have hxpos : 0 < x j := lt_of_lt_of_le (by positivity) hxj
  have h2 : (ℓ : ℚ) ≤ wt p G * x j := by
    calc (ℓ : ℚ) = (ℓ * (total p / W.length)) * ((W.length : ℚ) / total p) := by field_simp
      _ ≤ wt p G * x j := mul_le_mul hwt hxj (by positivity) (wt_nonneg hp G)
  have h3 : wt p G * x j ≤ ℓ := by rw [hsumG] at h1; linarith
  -- hence the load is at most `k / total`
  have h4 : total p * x j ≤ W.length := by
    have h5 : (ℓ * (total p / W.length)) * x j ≤ ℓ := (mul_le_mul_of_nonneg_right hwt hxpos.le).trans h3
    have h6 : (ℓ : ℚ) * (total p * x j) ≤ ℓ * W.length := by
      have : (ℓ * (total p / W.length)) * x j * W.length ≤ ℓ * W.length := mul_le_mul_of_nonneg_right h5 hk.le
      calc (ℓ : ℚ) * (total p * x j) = (ℓ * (total p / W.length)) * x j * W.length := by field_simp
        _ ≤ _ := this
    exact le_of_mul_le_mul_left h6 hlq
  rw [hsumG, hsumA] at hGA
  linarith

/-- C34: every committee returned by seq-Phragmén (exact fractions) satisfies PJR (Hare quota). -/
theorem C34_seqphragmen_PJR (env : Env) (float : Except Err (List (List ℕ))) (p : Profile) (hp : p.WF)
    (hw : ApproversAtLeastOne p) (a : Args) (alg : String) (hal : prologue env "seqphragmen" p a = .ok alg)
    (hex : ExactAlg env alg) (cs : List (List ℕ)) (hcs : computeSeqphragmen env float p a = .ok cs) :
    ∀ W ∈ cs, PJR p W.toFinset (total p / a.k) := by
  intro W hW
  have hv := validCall_of_prologue hal
  have hans := C33_seqphragmen env float p hp hw a alg hal hex
  obtain ⟨V, x, h1, h2, h3⟩ := answers_mem hans hcs hW
  rw [← h3, ← h2]
  exact prun_PJR hp hv.voters h1 (by have := hv.pos; omega)

/-- Non-vacuity of C33, C34: a profile with integer weights, ties, and both modes. -/
example : ApproversAtLeastOne ⟨3, [⟨[0, 1], 1⟩, ⟨[1, 2], 2⟩, ⟨[2], 1⟩], []⟩ ∧
    prologue exampleEnv "seqphragmen" ⟨3, [⟨[0, 1], 1⟩, ⟨[1, 2], 2⟩, ⟨[2], 1⟩], []⟩
      { committeesize := 2, algorithm := "standard-fractions", resolute := false } = .ok "standard-fractions" ∧
    computeSeqphragmen exampleEnv (.ok []) ⟨3, [⟨[0, 1], 1⟩, ⟨[1, 2], 2⟩, ⟨[2], 1⟩], []⟩
      { committeesize := 2, algorithm := "standard-fractions", resolute := false } = .ok [[1, 2]] := by
  exact ⟨approversAtLeastOne_of_weights (by decide +kernel), by decide +kernel, by decide +kernel⟩

end Abc
