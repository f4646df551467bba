import Verif.Model.FloatQuota
import Verif.Spec.FloatQuota
import Verif.Lemmas.PyNum
import Verif.Props.Check

/-!
# C100: checks with a quota given as a float
-/

namespace Abc
open Spec

/-! ## Thresholds

`t l` is the computed value of `l * quota`, `b` the computed bound on `l`. -/

/-- What is needed of the arithmetic: the thresholds are at least `l * lo`; a group that deserves `l` members with quota `hi` passes the
threshold, and the bound. -/
structure Thresholds (p : Profile) (t : ℕ → ℚ) (b : ℕ) (lo hi : ℚ) : Prop where
  lo_pos : 0 < lo
  hi_pos : 0 < hi
  low : ∀ l : ℕ, (l : ℚ) * lo ≤ t l
  high : ∀ (G : Group p) (l : ℕ), l ≤ p.numCand + 1 → (l : ℚ) * hi ≤ wt p G → t l ≤ wt p G ∧ l ≤ b

section
variable {p : Profile} (hp : p.WF) {t : ℕ → ℚ} {b : ℕ} {lo hi : ℚ} (H : Thresholds p t b lo hi)
include hp H

/-- The loop over `ell` of EJR and PJR. -/
theorem ellLoop_num (round : ℕ → Except Err (Option CohesiveInfo)) (bad : ℕ → Group p → Prop)
    (hround : ∀ l, 1 ≤ l → ∃ r, round l = .ok r ∧ (r = none ↔ ¬ Found p (t l / l) (bad l) l)) :
    ∃ r, firstSome (fun l => round (l + 1)) (List.range b) = .ok r ∧ (r = none → ∀ l, ¬ Found p hi (bad l) l) ∧
      (r ≠ none → ∃ l, Found p lo (bad l) l) := by
  rcases firstSome_spec (fun l => round (l + 1)) (List.range b) (fun l _ => by
      obtain ⟨r, h, -⟩ := hround (l + 1) (by omega); exact ⟨r, h⟩) with ⟨h1, h2⟩ | ⟨l, hl, w, h1, h2⟩
  · refine ⟨none, h1, fun _ => ?_, fun h => absurd rfl h⟩
    rintro l ⟨G, T, hG, hbad⟩
    have hl1 := hG.1
    have hl0 : (0 : ℚ) < l := by exact_mod_cast hl1
    obtain ⟨g1, g2⟩ := H.high G l ((cohesive_le_numCand hp H.hi_pos hG).trans (Nat.le_succ _)) hG.2.1
    obtain ⟨n, rfl⟩ : ∃ n, l = n + 1 := ⟨l - 1, by omega⟩
    obtain ⟨r, e1, e2⟩ := hround (n + 1) hl1
    have := h2 n (by simp; omega)
    simp only [e1] at this
    refine e2.1 (Except.ok.inj this) ⟨G, T, ⟨hl1, ?_, hG.2.2⟩, hbad⟩
    rw [mul_div_cancel₀ _ hl0.ne']
    exact g1
  · obtain ⟨r, e1, e2⟩ := hround (l + 1) (by omega)
    simp only [e1] at h1
    obtain rfl := Except.ok.inj h1
    refine ⟨some w, h2, fun h => by simp at h, fun _ => ⟨l + 1, ?_⟩⟩
    have : Found p (t (l + 1) / (l + 1 : ℕ)) (bad (l + 1)) (l + 1) := by
      by_contra hno
      exact absurd (e2.2 hno) (by simp)
    obtain ⟨G, T, hG, hbad⟩ := this
    have hl0 : ((l + 1 : ℕ) : ℚ) ≠ 0 := by positivity
    refine ⟨G, T, ⟨hG.1, ?_, hG.2.2⟩, hbad⟩
    have := hG.2.1
    rw [mul_div_cancel₀ _ hl0] at this
    exact (H.low _).trans this

end

section
variable {weight : ℚ → PyNum} {p : Profile} (hp : p.WF) {quota : PyNum} {b : ℕ} (hb : boundNum weight p quota = .ok b) {lo hi : ℚ}
  (H : Thresholds p (fun l => timesNum l quota) b lo hi)
include hp hb H

omit hp hb in
theorem timesNum_pos {l : ℕ} (hl : 1 ≤ l) : 0 < timesNum l quota / l := by
  have h1 : (0 : ℚ) < l := by exact_mod_cast hl
  exact div_pos ((mul_pos h1 H.lo_pos).trans_le (H.low l)) h1

theorem checkEJRNum_spec (hu : p.hasUnitWeights = true) (W : List ℕ) :
    ∃ r, checkEJRNum weight p W quota = .ok r ∧ (r = none → EJR p W.toFinset hi) ∧ (r ≠ none → ¬ EJR p W.toFinset lo) := by
  have hround : ∀ l, 1 ≤ l → ejrRoundNum p W quota l = ejrRound p W (timesNum l quota / l) l := by
    intro l hl
    have h1 : (l : ℚ) ≠ 0 := by positivity
    unfold ejrRoundNum ejrRound
    rw [mul_div_cancel₀ _ h1]
  obtain ⟨r, h1, h2, h3⟩ := ellLoop_num hp H (ejrRoundNum p W quota) (fun l G => ∀ i ∈ G, sat p W.toFinset i < l) (fun l hl => by
    rw [hround l hl]
    obtain ⟨r, g1, g2, -⟩ := ejrRound_spec p hp hu W _ (timesNum_pos H hl) l hl
    exact ⟨r, g1, g2⟩)
  refine ⟨r, by unfold checkEJRNum; rw [hb]; exact h1, fun hr => (EJR_iff_found ..).2 (h2 hr), fun hr h => ?_⟩
  obtain ⟨l, hl⟩ := h3 hr
  exact (EJR_iff_found ..).1 h l hl

theorem checkPJRNum_spec (hu : p.hasUnitWeights = true) (W : List ℕ) :
    ∃ r, checkPJRNum weight p W quota = .ok r ∧ (r = none → PJR p W.toFinset hi) ∧ (r ≠ none → ¬ PJR p W.toFinset lo) := by
  have hround : ∀ l, 1 ≤ l → pjrRoundNum p W quota l = pjrRound p W (timesNum l quota / l) l := by
    intro l hl
    have h1 : (l : ℚ) ≠ 0 := by positivity
    unfold pjrRoundNum pjrRound
    rw [mul_div_cancel₀ _ h1]
  obtain ⟨r, h1, h2, h3⟩ := ellLoop_num hp H (pjrRoundNum p W quota) (fun l G => (G.biUnion (appr p) ∩ W.toFinset).card < l) (fun l hl => by
    rw [hround l hl]
    obtain ⟨r, g1, g2, -⟩ := pjrRound_spec p hp hu W _ (timesNum_pos H hl) l hl
    exact ⟨r, g1, g2⟩)
  refine ⟨r, by unfold checkPJRNum; rw [hb]; exact h1, fun hr => (PJR_iff_found ..).2 (h2 hr), fun hr h => ?_⟩
  obtain ⟨l, hl⟩ := h3 hr
  exact (PJR_iff_found ..).1 h l hl

omit hp hb H in
theorem ejrPlusLoopNum_spec (W : List ℕ) (c n ell : ℕ) (g : List ℕ) (hg : g.Perm (supp p W c ell)) :
    (ejrPlusLoopNum p quota c (fun u => p.votersWith (fun v => decide (c ∈ v.approved) && decide ((inter v.approved W).length = u)))
        n ell g = none ∧
      ∀ l, ell < l → l ≤ ell + n → p.groupWeight (supp p W c l) < timesNum l quota) ∨
    (∃ g' l, ell < l ∧ timesNum l quota ≤ p.groupWeight (supp p W c l) ∧
      ejrPlusLoopNum p quota c (fun u => p.votersWith (fun v => decide (c ∈ v.approved) && decide ((inter v.approved W).length = u)))
        n ell g = some (g', c, l)) := by
  induction n generalizing ell g with
  | zero => exact Or.inl ⟨rfl, fun l h1 h2 => by omega⟩
  | succ n ih =>
    unfold ejrPlusLoopNum
    simp only
    have hg' : (g ++ p.votersWith (fun v => decide (c ∈ v.approved) && decide ((inter v.approved W).length = ell))).Perm
        (supp p W c (ell + 1)) := (hg.append_right _).trans (supp_succ p W c ell)
    split
    · rename_i h
      rw [groupWeight_perm p hg'] at h
      exact Or.inr ⟨_, ell + 1, by omega, h, rfl⟩
    · rename_i h
      rw [groupWeight_perm p hg'] at h
      rcases ih (ell + 1) _ hg' with ⟨h1, h2⟩ | ⟨g', l, h1, h4, h5⟩
      · refine Or.inl ⟨h1, ?_⟩
        intro l hl1 hl2
        by_cases he : l = ell + 1
        · subst he; exact not_le.1 h
        · exact h2 l (by omega) (by omega)
      · exact Or.inr ⟨g', l, by omega, h4, h5⟩

theorem checkEJRPlusNum_spec (W : List ℕ) (hsat : ∀ i, sat p W.toFinset i ≤ b) :
    ∃ r, checkEJRPlusNum weight p W quota = .ok r ∧ (r = none → EJRplus p W.toFinset hi) ∧ (r ≠ none → ¬ EJRplus p W.toFinset lo) := by
  unfold checkEJRPlusNum
  rw [hb]
  simp only [bind, Except.bind]
  have hnokey : ∀ c, p.voters.any (fun v => decide (c ∈ v.approved) && decide (b < (inter v.approved W).length)) = false := by
    intro c
    rw [List.any_eq_false]
    intro v hv
    simp only [Bool.and_eq_true, decide_eq_true_eq, not_and, not_lt]
    intro _
    obtain ⟨i, rfl⟩ := List.mem_iff_get.1 hv
    rw [sat_eq hp]
    exact hsat i
  have hcand : ∀ c, (ejrPlusCandNum p W quota b c = .ok none ∧ (c ∈ W ∨ ∀ l : ℕ, 0 < l → l ≤ b → p.groupWeight (supp p W c l) < timesNum l quota)) ∨
      (c ∉ W ∧ ∃ (g : List ℕ) (l : ℕ), 0 < l ∧ timesNum l quota ≤ p.groupWeight (supp p W c l) ∧
        ejrPlusCandNum p W quota b c = .ok (some (g, c, l))) := by
    intro c
    unfold ejrPlusCandNum
    by_cases hc : c ∈ W
    · exact Or.inl ⟨if_pos hc, Or.inl hc⟩
    · rw [if_neg hc, if_neg (by rw [hnokey c]; simp)]
      rcases ejrPlusLoopNum_spec (p := p) (quota := quota) W c b 0 [] (by
          have : supp p W c 0 = [] := by simp [supp, Profile.votersWith]
          rw [this]) with ⟨h1, h2⟩ | ⟨g, l, h1, h4, h5⟩
      · exact Or.inl ⟨by rw [h1], Or.inr (fun l hl1 hl2 => h2 l hl1 (by omega))⟩
      · exact Or.inr ⟨hc, g, l, h1, h4, by rw [h5]⟩
  rcases firstSome_spec (ejrPlusCandNum p W quota b) p.candidates (fun c _ => by
      rcases hcand c with h | ⟨-, g, l, -, -, h⟩
      · exact ⟨_, h.1⟩
      · exact ⟨_, h⟩) with ⟨h1, h2⟩ | ⟨c, hc, w, h1, h2⟩
  · refine ⟨none, h1, fun _ => ?_, fun h => absurd rfl h⟩
    intro l G c hl hG hcW hcG
    by_contra hno
    push Not at hno
    have hlq : 0 < (l : ℚ) * hi := mul_pos (by exact_mod_cast hl) H.hi_pos
    obtain ⟨i0, hi0⟩ := nonempty_of_wt hlq hG
    have hcm : c ∈ p.candidates := by simpa [Profile.candidates] using appr_lt hp (hcG i0 hi0)
    -- at most `numCand + 1` members have to be considered
    obtain ⟨l', hl', hl'0, hl'1, hG', hno'⟩ : ∃ l', l' ≤ p.numCand + 1 ∧ 0 < l' ∧ l' ≤ l ∧ (l' : ℚ) * hi ≤ wt p G ∧
        ∀ i ∈ G, sat p W.toFinset i < l' := by
      by_cases h : l ≤ p.numCand + 1
      · exact ⟨l, h, hl, le_rfl, hG, hno⟩
      · refine ⟨p.numCand + 1, le_rfl, by omega, by omega, le_trans (mul_le_mul_of_nonneg_right ?_ H.hi_pos.le) hG, fun i _ => ?_⟩
        · exact_mod_cast (not_le.1 h).le
        · have h1 : appr p i ∩ W.toFinset ⊆ Finset.range p.numCand := fun x hx =>
            Finset.mem_range.2 (appr_lt hp (Finset.mem_inter.1 hx).1)
          have := Finset.card_le_card h1
          rw [Finset.card_range] at this
          unfold sat
          omega
    obtain ⟨g1, g2⟩ := H.high G l' hl' hG'
    rcases hcand c with ⟨-, h | h⟩ | ⟨-, g, l'', -, -, h⟩
    · exact hcW (by simpa using h)
    · have h3 := h l' hl'0 g2
      have h4 : wt p G ≤ p.groupWeight (supp p W c l') := by
        unfold supp
        refine wt_le_votersWith hp _ G (fun i hi => ?_)
        simp only [Bool.and_eq_true, decide_eq_true_eq, sat_eq hp]
        exact ⟨mem_appr.1 (hcG i hi), hno' i hi⟩
      linarith
    · rw [h2 c hcm] at h
      simp at h
  · rcases hcand c with h | ⟨hcW, g, l, hl, hw, h⟩
    · rw [h.1] at h1
      simp at h1
    · refine ⟨_, h2, fun h => by simp at h, fun _ hE => ?_⟩
      have hw' : (l : ℚ) * lo ≤ wt p (grp p (supp p W c l)) := by
        refine (H.low l).trans ?_
        unfold supp at hw ⊢
        rwa [groupWeight_votersWith] at hw
      obtain ⟨i, hi, hle⟩ := hE l (grp p (supp p W c l)) c hl hw' (by simpa using hcW) (fun i hi => ((mem_grp_supp hp).1 hi).1)
      have := ((mem_grp_supp hp).1 hi).2
      omega

theorem checkFJRNum_spec (ap : List ℕ) (hap : ListsApproved p ap) (W : List ℕ) :
    ∃ r, checkFJRNum weight ap p W quota = .ok r ∧ (r = none → FJR p W.toFinset hi) ∧ (r ≠ none → ¬ FJR p W.toFinset lo) := by
  unfold checkFJRNum
  rw [hb]
  simp only [bind, Except.bind]
  set cond := fun (T : List ℕ) (β : ℕ) (v : Voter) => decide ((inter v.approved T).length ≥ β + 1)
        && decide ((inter v.approved W).length ≤ β) with hcond
  have hc : ∀ T β (i : Fin p.voters.length), cond T β (p.voters.get i) = true ↔
      β + 1 ≤ (appr p i ∩ T.toFinset).card ∧ sat p W.toFinset i < β + 1 := by
    intro T β i
    simp only [hcond, Bool.and_eq_true, decide_eq_true_eq, sat_eq hp, sat]
    omega
  set body := fun (T : List ℕ) (β : ℕ) => (if p.groupWeight (p.votersWith (cond T β)) ≥ timesNum T.length quota then
      (Except.ok (some (⟨β + 1, T, p.votersWith (cond T β)⟩ : FJRInfo)) : Except Err (Option FJRInfo)) else .ok none) with hbody
  have hok : ∀ T β, ∃ r, body T β = .ok r := by
    intro T β
    simp only [hbody]
    split
    · exact ⟨_, rfl⟩
    · exact ⟨_, rfl⟩
  have hok2 : ∀ T : List ℕ, ∃ r, firstSome (body T) (List.range T.length) = .ok r := by
    intro T
    rcases firstSome_spec (body T) (List.range T.length) (fun β _ => hok T β) with ⟨h1, -⟩ | ⟨_, _, b, -, h2⟩
    · exact ⟨_, h1⟩
    · exact ⟨_, h2⟩
  rcases firstSome_spec (fun T => firstSome (body T) (List.range T.length)) (powerset ap (some b)) (fun T _ => hok2 T) with
    ⟨h1, h2⟩ | ⟨T, hT, w, h1, h2⟩
  · refine ⟨none, h1, fun _ => ?_, fun h => absurd rfl h⟩
    intro G T₀ β hne hβ hw₀ hG₀
    by_contra hno
    push Not at hno
    obtain ⟨t1, hw, t3⟩ := restrict_cands hp H.hi_pos G T₀ hw₀
    generalize T₀ ∩ Finset.range p.numCand = T at t1 hw t3
    have hG : ∀ i ∈ G, β ≤ (appr p i ∩ T).card := fun i hi => by rw [t3]; exact hG₀ i hi
    have hTn : T.card ≤ p.numCand := by simpa using Finset.card_le_card t1
    have hTb : T.card ≤ b := (H.high G T.card (by omega) hw).2
    obtain ⟨l, hl, hn, hlen, hint⟩ := exists_powerset hap T b hTb
    obtain ⟨β', rfl⟩ : ∃ β', β = β' + 1 := ⟨β - 1, by omega⟩
    obtain ⟨i0, hi0⟩ := hne
    have hβlt : β' < l.length := by
      have := hG i0 hi0
      rw [hint] at this
      have h3 := Finset.card_le_card (Finset.inter_subset_right (s₁ := appr p i0) (s₂ := l.toFinset))
      rw [List.toFinset_card_of_nodup hn] at h3
      omega
    have h3 := h2 l hl
    rcases firstSome_spec (body l) (List.range l.length) (fun β _ => hok l β) with ⟨-, h5⟩ | ⟨_, _, b, -, h6⟩
    · have h6 := h5 β' (by simpa using hβlt)
      have hle : wt p G ≤ p.groupWeight (p.votersWith (cond l β')) := by
        refine wt_le_votersWith hp _ G (fun i hi => (hc l β' i).2 ⟨?_, hno i hi⟩)
        have := hG i hi
        rwa [hint] at this
      have hge : p.groupWeight (p.votersWith (cond l β')) ≥ timesNum l.length quota := by
        have h7 : (l.length : ℚ) * hi ≤ (T.card : ℚ) * hi := mul_le_mul_of_nonneg_right (by exact_mod_cast hlen) H.hi_pos.le
        exact (H.high G l.length (by omega) (h7.trans hw)).1.trans hle
      simp only [hbody, if_pos hge] at h6
      simp at h6
    · rw [h3] at h6
      simp at h6
  · rcases firstSome_spec (body T) (List.range T.length) (fun β _ => hok T β) with ⟨h3, -⟩ | ⟨β, hβ, w', h4, h5⟩
    · rw [h3] at h1; simp at h1
    · simp only [hbody] at h4
      split at h4
      · rename_i hge
        have hTn : T.Nodup := ((C10_mem_powerset _ _ _).1 hT).1.nodup hap.1
        have hw : (T.toFinset.card : ℚ) * lo ≤ wt p (grp p (p.votersWith (cond T β))) := by
          rw [List.toFinset_card_of_nodup hTn, ← groupWeight_votersWith]
          exact (H.low _).trans hge
        have hm : ∀ i ∈ grp p (p.votersWith (cond T β)), β + 1 ≤ (appr p i ∩ T.toFinset).card ∧ sat p W.toFinset i < β + 1 :=
          fun i hi => (hc T β i).1 (mem_grp_votersWith.1 hi)
        refine ⟨_, h2, fun h => by simp at h, fun _ hF => ?_⟩
        have hTpos : (0 : ℚ) < T.toFinset.card := by
          rw [List.toFinset_card_of_nodup hTn]
          have : β < T.length := by simpa using hβ
          exact_mod_cast (by omega : 0 < T.length)
        obtain ⟨i, hi, hle⟩ := hF _ T.toFinset (β + 1) (nonempty_of_wt (mul_pos hTpos H.lo_pos) hw) (by omega) hw (fun i hi => (hm i hi).1)
        have := (hm i hi).2
        omega
      · simp at h4

theorem checkCoreNum_spec (ap : List ℕ) (hap : ListsApproved p ap) (W : List ℕ) :
    ∃ r, checkCoreNum weight ap p W quota = .ok r ∧ (r = none → Core p W.toFinset hi) ∧ (r ≠ none → ¬ Core p W.toFinset lo) := by
  unfold checkCoreNum
  rw [hb]
  simp only [bind, Except.bind]
  set cond := fun (T : List ℕ) (v : Voter) => decide ((inter v.approved T).length > (inter v.approved W).length) with hcond
  have hc : ∀ T (i : Fin p.voters.length), cond T (p.voters.get i) = true ↔
      sat p W.toFinset i < (appr p i ∩ T.toFinset).card := by
    intro T i
    simp only [hcond, decide_eq_true_eq, sat_eq hp, gt_iff_lt, sat]
  set body := fun (T : List ℕ) => (if p.votersWith (cond T) = [] then (Except.ok none : Except Err (Option (List ℕ × List ℕ)))
    else if timesNum T.length quota ≤ p.groupWeight (p.votersWith (cond T)) then .ok (some (p.votersWith (cond T), T)) else .ok none)
    with hbody
  rcases firstSome_spec body (powerset ap (some b)) (fun T _ => by
      simp only [hbody]
      split
      · exact ⟨_, rfl⟩
      · split
        · exact ⟨_, rfl⟩
        · exact ⟨_, rfl⟩) with ⟨h1, h2⟩ | ⟨T, hT, w, h1, h2⟩
  · refine ⟨none, h1, fun _ => ?_, fun h => absurd rfl h⟩
    intro G T₀ hne hw₀
    by_contra hno₀
    push Not at hno₀
    obtain ⟨t1, hw, t3⟩ := restrict_cands hp H.hi_pos G T₀ hw₀
    generalize T₀ ∩ Finset.range p.numCand = T at t1 hw t3
    have hno : ∀ i ∈ G, sat p W.toFinset i < (appr p i ∩ T).card := fun i hi => by rw [t3]; exact hno₀ i hi
    have hTn : T.card ≤ p.numCand := by simpa using Finset.card_le_card t1
    have hTb : T.card ≤ b := (H.high G T.card (by omega) hw).2
    obtain ⟨l, hl, hn, hlen, hint⟩ := exists_powerset hap T b hTb
    have h3 := h2 l hl
    have hin : ∀ i ∈ G, cond l (p.voters.get i) = true := by
      intro i hi
      rw [hc, ← hint]
      exact hno i hi
    have hle : wt p G ≤ p.groupWeight (p.votersWith (cond l)) := wt_le_votersWith hp _ G hin
    obtain ⟨i0, hi0⟩ := hne
    have hnil : p.votersWith (cond l) ≠ [] :=
      List.ne_nil_of_mem (a := (i0 : ℕ)) (mem_grp.1 (mem_grp_votersWith.2 (hin i0 hi0)))
    have hge : timesNum l.length quota ≤ p.groupWeight (p.votersWith (cond l)) := by
      have h7 : (l.length : ℚ) * hi ≤ (T.card : ℚ) * hi := mul_le_mul_of_nonneg_right (by exact_mod_cast hlen) H.hi_pos.le
      exact (H.high G l.length (by omega) (h7.trans hw)).1.trans hle
    simp only [hbody, if_neg hnil, if_pos hge] at h3
    simp at h3
  · simp only [hbody] at h1
    split at h1
    · simp at h1
    · rename_i hnil
      split at h1
      · rename_i hge
        have hTn : T.Nodup := ((C10_mem_powerset _ _ _).1 hT).1.nodup hap.1
        have hne : (grp p (p.votersWith (cond T))).Nonempty := by
          obtain ⟨x, hx⟩ := List.exists_mem_of_ne_nil _ hnil
          exact ⟨⟨x, votersWith_lt x hx⟩, mem_grp.2 hx⟩
        have hw : (T.toFinset.card : ℚ) * lo ≤ wt p (grp p (p.votersWith (cond T))) := by
          rw [List.toFinset_card_of_nodup hTn, ← groupWeight_votersWith]
          exact (H.low _).trans hge
        have hm : ∀ i ∈ grp p (p.votersWith (cond T)), sat p W.toFinset i < (appr p i ∩ T.toFinset).card :=
          fun i hi => (hc T i).1 (mem_grp_votersWith.1 hi)
        refine ⟨_, h2, fun h => by simp at h, fun _ hC => ?_⟩
        obtain ⟨i, hi, hle⟩ := hC _ T.toFinset hne hw
        have := hm i hi
        omega
      · simp at h1

end

/-! ## Python's arithmetic -/

/-- The number `x` is an int or a Fraction of value `q`. -/
def ExactNum (x : PyNum) (q : ℚ) : Prop := (∃ z : ℤ, x = .int z ∧ (z : ℚ) = q) ∨ x = .frac q

theorem ExactNum.add {x y : PyNum} {a b : ℚ} (hx : ExactNum x a) (hy : ExactNum y b) :
    ExactNum (PyNum.arith (· + ·) (· + ·) x y) (a + b) := by
  rcases hx with ⟨z, rfl, rfl⟩ | rfl <;> rcases hy with ⟨u, rfl, rfl⟩ | rfl
  · exact Or.inl ⟨z + u, rfl, by push_cast; rfl⟩
  · exact Or.inr rfl
  · exact Or.inr rfl
  · exact Or.inr rfl

theorem totalNum_exact {weight : ℚ → PyNum} (hw : StoresExactly weight) (p : Profile) : ExactNum (totalNum weight p) (total p) := by
  rw [← totalWeight_eq]
  unfold totalNum Profile.totalWeight PyNum.runningSum
  have key : ∀ (l : List Voter) (x : PyNum) (a : ℚ), ExactNum x a →
      ExactNum ((l.map (fun v => weight v.weight)).foldl (PyNum.arith (· + ·) (· + ·)) x) (a + (l.map Voter.weight).sum) := by
    intro l
    induction l with
    | nil => intro x a h; simpa using h
    | cons v vs ih =>
      intro x a h
      rw [List.map_cons, List.foldl_cons, List.map_cons, List.sum_cons, ← add_assoc]
      exact ih _ _ (h.add (hw v.weight))
  simpa using key p.voters (.int 0) 0 (Or.inl ⟨0, rfl, by simp⟩)

theorem timesNum_cases (l : ℕ) (quota : PyNum) : timesNum l quota = l * quota.val ∨ timesNum l quota = rnd (rnd l * quota.val) := by
  cases quota with
  | int z => left; simp [timesNum, PyNum.arith, PyNum.val]
  | frac q => left; simp [timesNum, PyNum.arith, PyNum.val]
  | float q => right; simp [timesNum, PyNum.arith, PyNum.val, PyNum.toFloat]

theorem timesNum_low {quota : PyNum} (hq : 0 < quota.val) (l : ℕ) : (l : ℚ) * (quota.val * (1 - 1 / 2 ^ 52)) ≤ timesNum l quota := by
  have hl : (0 : ℚ) ≤ l := by positivity
  have hlq : 0 ≤ (l : ℚ) * quota.val := by positivity
  rcases timesNum_cases l quota with h | h <;> rw [h]
  · nlinarith
  · have e1 := abs_le.1 (rnd_error l)
    rw [abs_of_nonneg hl] at e1
    have h1 : (l : ℚ) * (1 - 1 / 2 ^ 53) ≤ rnd l := by linarith [e1.1]
    have h2 : 0 ≤ rnd (l : ℚ) := le_trans (mul_nonneg hl (by norm_num)) h1
    have h3 : 0 ≤ rnd (l : ℚ) * quota.val := by positivity
    have e2 := abs_le.1 (rnd_error (rnd l * quota.val))
    rw [abs_of_nonneg h3] at e2
    have h4 : rnd l * quota.val * (1 - 1 / 2 ^ 53) ≤ rnd (rnd l * quota.val) := by linarith [e2.1]
    have h5 : (l : ℚ) * (1 - 1 / 2 ^ 53) * quota.val ≤ rnd l * quota.val := mul_le_mul_of_nonneg_right h1 hq.le
    nlinarith

theorem rnd_nat {l : ℕ} (h : l ≤ 2 ^ 53) : rnd (l : ℚ) = l := by
  have : ((l : ℤ) : ℚ) = l := by norm_cast
  rw [← this]
  exact rnd_of_rep (rep_int (by rw [abs_of_nonneg (by positivity)]; exact_mod_cast h))

theorem pyInt_toNat_ge {x : ℚ} {l : ℕ} (h : (l : ℚ) ≤ x) : l ≤ (pyInt x).toNat := by
  have h0 : 0 ≤ x := le_trans (by positivity) h
  unfold pyInt
  rw [if_pos h0]
  have : (l : ℤ) ≤ ⌊x⌋ := Int.le_floor.2 (by exact_mod_cast h)
  omega

theorem nat_le_rnd {x : ℚ} {l : ℕ} (hl : l ≤ 2 ^ 53) (h : (l : ℚ) ≤ x) : (l : ℚ) ≤ rnd x := by
  have := int_le_rnd (q := x) (z := (l : ℤ)) (by rw [abs_of_nonneg (by positivity)]; exact_mod_cast hl) (by exact_mod_cast h)
  exact_mod_cast this

/-- The bound on `ell`. -/
theorem boundNum_spec {weight : ℚ → PyNum} (hw : StoresExactly weight) (p : Profile) {quota : PyNum} (hq : 0 < quota.val) {hi : ℚ}
    (hqi : quota.val ≤ hi) (h : (∀ q, quota ≠ .float q) ∨ rnd (total p) = total p ∨ quota.val * (1 + 1 / 2 ^ 51) ≤ hi) :
    ∃ b, boundNum weight p quota = .ok b ∧ ∀ l : ℕ, l ≤ 2 ^ 53 → (l : ℚ) * hi ≤ total p → l ≤ b := by
  unfold boundNum
  rw [if_neg hq.ne']
  refine ⟨_, rfl, fun l hl hle => pyInt_toNat_ge ?_⟩
  have hle' : (l : ℚ) * quota.val ≤ total p := (mul_le_mul_of_nonneg_left hqi (by positivity)).trans hle
  have hdiv : (l : ℚ) ≤ total p / quota.val := by rwa [le_div_iff₀ hq]
  have hx := totalNum_exact hw p
  have hfl : (∃ q, quota = .float q) → (l : ℚ) ≤ rnd (rnd (total p) / quota.val) := by
    rintro ⟨q, hfq⟩
    refine nat_le_rnd hl ?_
    rw [le_div_iff₀ hq]
    rcases h with h | h | h
    · exact absurd hfq (h q)
    · rw [h]; exact hle'
    · have h0 : 0 ≤ total p := le_trans (by have := hq.le; positivity) hle'
      have e1 := abs_le.1 (rnd_error (total p))
      rw [abs_of_nonneg h0] at e1
      have h1 : total p * (1 - 1 / 2 ^ 53) ≤ rnd (total p) := by linarith [e1.1]
      refine le_trans ?_ h1
      have h2 : (l : ℚ) * (quota.val * (1 + 1 / 2 ^ 51)) ≤ total p := (mul_le_mul_of_nonneg_left h (by positivity)).trans hle
      have h3 : 0 ≤ (l : ℚ) * quota.val := by positivity
      nlinarith
  cases quota with
  | int z =>
    rcases hx with ⟨u, e, e'⟩ | e <;> rw [e]
    · change (l : ℚ) ≤ rnd ((u : ℚ) / z)
      rw [e']
      exact nat_le_rnd hl hdiv
    · exact hdiv
  | frac q =>
    rcases hx with ⟨u, e, e'⟩ | e <;> rw [e]
    · change (l : ℚ) ≤ (u : ℚ) / q
      rw [e']
      exact hdiv
    · exact hdiv
  | float q =>
    rcases hx with ⟨u, e, e'⟩ | e <;> rw [e]
    · change (l : ℚ) ≤ rnd (rnd (u : ℚ) / rnd q)
      rw [e']
      exact hfl ⟨q, rfl⟩
    · exact hfl ⟨q, rfl⟩

/-- Integer weights: the thresholds are at most the exact ones. -/
theorem thresholds_int {weight : ℚ → PyNum} (hw : StoresExactly weight) {p : Profile} (hp : p.WF) (hi : IntegerWeights p) (ht : total p ≤ 2 ^ 53)
    (hn : p.numCand < 2 ^ 53) {quota : PyNum} (hq : 0 < quota.val) :
    ∃ b, boundNum weight p quota = .ok b ∧ (∀ l : ℕ, l ≤ 2 ^ 53 → (l : ℚ) * quota.val ≤ total p → l ≤ b) ∧
      Thresholds p (fun l => timesNum l quota) b (quota.val * (1 - 1 / 2 ^ 52)) quota.val := by
  have hint : ∀ G : Group p, ∃ z : ℤ, wt p G = z ∧ |z| ≤ 2 ^ 53 := by
    intro G
    have : ∀ i, ∃ z : ℤ, (p.voters.get i).weight = z := fun i => by
      obtain ⟨z, hz⟩ := hi _ (List.get_mem p.voters i)
      exact ⟨z, by exact_mod_cast hz⟩
    choose f hf using this
    have e : wt p G = ((∑ i ∈ G, f i : ℤ) : ℚ) := by
      unfold wt
      push_cast
      exact Finset.sum_congr rfl (fun i _ => hf i)
    refine ⟨_, e, ?_⟩
    have h0 := wt_nonneg hp G
    have h1 := (wt_le_total hp G).trans ht
    rw [e] at h0 h1
    rw [abs_of_nonneg (by exact_mod_cast h0)]
    exact_mod_cast h1
  have htot : rnd (total p) = total p := by
    obtain ⟨z, hz, hz'⟩ := hint Finset.univ
    have : total p = z := hz
    rw [this]
    exact rnd_of_rep (rep_int hz')
  obtain ⟨b, hb, hbl⟩ := boundNum_spec hw p hq le_rfl (Or.inr (Or.inl htot))
  refine ⟨b, hb, hbl, mul_pos hq (by norm_num), hq, timesNum_low hq, fun G l hl hle => ⟨?_, hbl l (by omega) (hle.trans (wt_le_total hp G))⟩⟩
  rcases timesNum_cases l quota with h | h <;> simp only [h]
  · exact hle
  · rw [rnd_nat (by omega)]
    obtain ⟨z, hz, hz'⟩ := hint G
    rw [hz] at hle ⊢
    exact rnd_int_le hz' hle

/-- All weights. -/
theorem thresholds_any {weight : ℚ → PyNum} (hw : StoresExactly weight) {p : Profile} (hp : p.WF) (hn : p.numCand < 2 ^ 53) {quota : PyNum}
    (hq : 0 < quota.val) :
    ∃ b, boundNum weight p quota = .ok b ∧ (∀ l : ℕ, l ≤ 2 ^ 53 → (l : ℚ) * (quota.val * (1 + 1 / 2 ^ 51)) ≤ total p → l ≤ b) ∧
      Thresholds p (fun l => timesNum l quota) b (quota.val * (1 - 1 / 2 ^ 52)) (quota.val * (1 + 1 / 2 ^ 51)) := by
  obtain ⟨b, hb, hbl⟩ := boundNum_spec hw p hq (hi := quota.val * (1 + 1 / 2 ^ 51)) (by nlinarith) (Or.inr (Or.inr le_rfl))
  refine ⟨b, hb, hbl, mul_pos hq (by norm_num), mul_pos hq (by norm_num), timesNum_low hq,
    fun G l hl hle => ⟨le_trans ?_ hle, hbl l (by omega) (hle.trans (wt_le_total hp G))⟩⟩
  have h3 : 0 ≤ (l : ℚ) * quota.val := by have := hq.le; positivity
  rcases timesNum_cases l quota with h | h <;> simp only [h]
  · nlinarith
  · rw [rnd_nat (by omega)]
    have e1 := abs_le.1 (rnd_error ((l : ℚ) * quota.val))
    rw [abs_of_nonneg h3] at e1
    nlinarith [e1.2]

/-- Exact quotas. -/
theorem thresholds_exact {weight : ℚ → PyNum} (hw : StoresExactly weight) {p : Profile} (hp : p.WF) (hn : p.numCand < 2 ^ 53) {quota : PyNum}
    (hq : 0 < quota.val) (hf : ∀ q, quota ≠ .float q) :
    ∃ b, boundNum weight p quota = .ok b ∧ (∀ l : ℕ, l ≤ 2 ^ 53 → (l : ℚ) * quota.val ≤ total p → l ≤ b) ∧
      Thresholds p (fun l => timesNum l quota) b quota.val quota.val := by
  obtain ⟨b, hb, hbl⟩ := boundNum_spec hw p hq le_rfl (Or.inl hf)
  have ht : ∀ l, timesNum l quota = l * quota.val := by
    intro l
    cases quota with
    | int z => simp [timesNum, PyNum.arith, PyNum.val]
    | frac q => simp [timesNum, PyNum.arith, PyNum.val]
    | float q => exact absurd rfl (hf q)
  refine ⟨b, hb, hbl, hq, hq, fun l => (ht l).ge, fun G l hl hle => ⟨?_, hbl l (by omega) (hle.trans (wt_le_total hp G))⟩⟩
  simp only [ht]
  exact hle

/-! ## The theorems -/

theorem checkWith_num {ω : Type} (chk : List ℕ → Except Err (Option ω)) (P : Finset ℕ → ℚ → Prop) {p : Profile}
    (hp : p.WF) {W : List ℕ} (hW : W.Nodup) (hlt : ∀ c ∈ W, c < p.numCand) {q lo hi : ℚ}
    (hchk : ∃ r, chk (sortNat W) = .ok r ∧ (r = none → P W.toFinset hi) ∧ (r ≠ none → ¬ P W.toFinset lo))
    (hemp : p.voters = [] → P W.toFinset lo) :
    ∃ b, checkWith (fun w _ => chk w) p (W.map Int.ofNat) (some q) = .ok b ∧ (b = true → P W.toFinset hi) ∧ (b = false → ¬ P W.toFinset lo) := by
  obtain ⟨r, h2, h3, h4⟩ := hchk
  unfold checkWith
  rw [candidateSet_ofNat hW hlt]
  simp only [quotaOf, bind, Except.bind, h2]
  cases r with
  | none => exact ⟨true, rfl, fun _ => h3 rfl, fun h => by simp at h⟩
  | some w =>
    have hP := h4 (by simp)
    have : p.totalWeight ≠ 0 := by
      rw [totalWeight_eq]
      exact (total_pos hp (fun h => hP (hemp h))).ne'
    exact ⟨false, by simp only [if_neg this], fun h => by simp at h, fun _ => hP⟩

theorem EJR_mono {p : Profile} {W : Finset ℕ} {lo q : ℚ} (h : lo ≤ q) (hE : EJR p W lo) : EJR p W q :=
  fun l G T hco => hE l G T (cohesive_mono h hco)
theorem PJR_mono {p : Profile} {W : Finset ℕ} {lo q : ℚ} (h : lo ≤ q) (hE : PJR p W lo) : PJR p W q :=
  fun l G T hco => hE l G T (cohesive_mono h hco)
theorem FJR_mono {p : Profile} {W : Finset ℕ} {lo q : ℚ} (h : lo ≤ q) (hE : FJR p W lo) : FJR p W q :=
  fun G T β h1 h2 h3 h4 => hE G T β h1 h2 ((mul_le_mul_of_nonneg_left h (by positivity)).trans h3) h4
theorem Core_mono {p : Profile} {W : Finset ℕ} {lo q : ℚ} (h : lo ≤ q) (hE : Core p W lo) : Core p W q :=
  fun G T h1 h3 => hE G T h1 ((mul_le_mul_of_nonneg_left h (by positivity)).trans h3)
theorem JR_mono {p : Profile} {W : Finset ℕ} {lo q : ℚ} (h : lo ≤ q) (hE : JR p W lo) : JR p W q :=
  fun G c h1 h2 => hE G c (h.trans h1) h2

section
variable {weight : ℚ → PyNum} (hw : StoresExactly weight) {solve : Program → SolveResult} (hs : ExactSolver solve) {p : Profile} (hp : p.WF)
  (hn : p.numCand < 2 ^ 53) {ap : List ℕ} (hap : ListsApproved p ap) {W : List ℕ} (hW : W.Nodup) (hlt : ∀ c ∈ W, c < p.numCand)
  {quota : PyNum} (hq : 0 < quota.val) {name algorithm : String}
  (hname : name ∈ ["jr", "pjr", "ejr", "ejr+", "fjr", "core"])
include hs hp hn hap hW hlt hq hname

theorem check_num (ha : algorithm ∈ ["brute-force", "fastest", "gurobi"])
    (hu : algorithm = "brute-force" → name = "pjr" ∨ name = "ejr" → p.hasUnitWeights = true) {b : ℕ} {lo hi : ℚ} (hlq : lo ≤ quota.val) (hqi : quota.val ≤ hi)
    (hsat : name = "ejr+" → ∀ i, (sat p W.toFinset i : ℚ) * hi ≤ total p)
    (hb : boundNum weight p quota = .ok b) (hbl : ∀ l : ℕ, l ≤ 2 ^ 53 → (l : ℚ) * hi ≤ total p → l ≤ b)
    (H : Thresholds p (fun l => timesNum l quota) b lo hi) :
    DecidesBetween name p W.toFinset lo hi
      (checkNum weight solve ap name p (W.map Int.ofNat) quota algorithm) := by
  have hempty : p.voters = [] → ∀ G : Group p, ¬ G.Nonempty := by
    rintro he G ⟨i, -⟩
    have h1 := i.2
    have h2 : p.voters.length = 0 := by rw [he]; rfl
    omega
  have hco : p.voters = [] → ∀ l G T, ¬ Cohesive p lo l G T := by
    intro he l G T hG
    have h1 := hG.2.1
    rw [wt_of_empty he] at h1
    have h2 : (0 : ℚ) < l := by exact_mod_cast hG.1
    have := mul_pos h2 H.lo_pos
    linarith
  have hSn : (sortNat W).Nodup := sortNat_nodup.2 hW
  have hSlt : ∀ c ∈ sortNat W, c < p.numCand := fun c hc => hlt c (mem_sortNat.1 hc)
  have hbl' : ∀ l : ℕ, l ≤ p.numCand → (l : ℚ) * hi ≤ total p → l ≤ b := fun l hl => hbl l (by omega)
  have halg : algorithm = "brute-force" ∨ (algorithm = "fastest" ∨ algorithm = "gurobi") := by
    simpa [or_assoc] using ha
  simp only [List.mem_cons, List.not_mem_nil, or_false] at hname
  rcases hname with rfl | rfl | rfl | rfl | rfl | rfl
  · obtain ⟨c, h1, h2⟩ := C51_check_JR p hp W hW hlt (some quota.val) hq
    exact ⟨c, h1, fun h => JR_mono hqi (h2.1 h), fun h hJ => by rw [h] at h2; simpa using h2.2 (JR_mono hlq hJ)⟩
  · refine checkWith_num (fun w => byAlgorithm algorithm (checkPJRNum weight p w quota) (checkPJRGurobiNum weight solve p w quota))
      (PJR p) hp hW hlt ?_ (fun he l G T h => absurd h (hco he l G T))
    rw [← sortNat_toFinset W]
    rcases halg with rfl | ha
    · rw [byAlgorithm_brute]
      exact checkPJRNum_spec hp hb H (hu rfl (Or.inl rfl)) _
    · rw [byAlgorithm_gurobi ha]
      obtain ⟨r, h1, h2, h3, -⟩ := pjr_program_bound hs p hp (sortNat W) hSn hSlt quota.val hq b hi hqi hbl'
      exact ⟨r, by unfold checkPJRGurobiNum; rw [hb]; exact h1, h2, fun h hP => h (h3 (PJR_mono hlq hP))⟩
  · refine checkWith_num (fun w => byAlgorithm algorithm (checkEJRNum weight p w quota) (checkEJRGurobiNum weight solve p w quota))
      (EJR p) hp hW hlt ?_ (fun he l G T h => absurd h (hco he l G T))
    rw [← sortNat_toFinset W]
    rcases halg with rfl | ha
    · rw [byAlgorithm_brute]
      exact checkEJRNum_spec hp hb H (hu rfl (Or.inr rfl)) _
    · rw [byAlgorithm_gurobi ha]
      obtain ⟨r, h1, h2, h3, -⟩ := ejr_program_bound hs p hp (sortNat W) quota.val hq b hi hqi hbl'
      exact ⟨r, by unfold checkEJRGurobiNum; rw [hb]; exact h1, h2, fun h hP => h (h3 (EJR_mono hlq hP))⟩
  · refine checkWith_num (fun w => checkEJRPlusNum weight p w quota) (EJRplus p) hp hW hlt ?_ (fun he l G c hl hG => ?_)
    · rw [← sortNat_toFinset W]
      refine checkEJRPlusNum_spec hp hb H _ (fun i => hbl' _ ?_ (by rw [sortNat_toFinset]; exact hsat rfl i))
      have h1 : appr p i ∩ (sortNat W).toFinset ⊆ Finset.range p.numCand := fun x hx =>
        Finset.mem_range.2 (appr_lt hp (Finset.mem_inter.1 hx).1)
      simpa [sat] using Finset.card_le_card h1
    · rw [wt_of_empty he] at hG
      have := mul_pos (show (0 : ℚ) < l by exact_mod_cast hl) H.lo_pos
      linarith
  · refine checkWith_num (fun w => byAlgorithm algorithm (checkFJRNum weight ap p w quota) (checkFJRGurobiNum weight solve p w quota))
      (FJR p) hp hW hlt ?_ (fun he G T β hG => absurd hG (hempty he G))
    rw [← sortNat_toFinset W]
    rcases halg with rfl | ha
    · rw [byAlgorithm_brute]
      exact checkFJRNum_spec hp hb H ap hap _
    · rw [byAlgorithm_gurobi ha]
      obtain ⟨r, h1, h2, h3, -⟩ := fjr_program_bound hs p hp (sortNat W) quota.val hq b hi hqi hbl'
      exact ⟨r, by unfold checkFJRGurobiNum; rw [hb]; exact h1, h2, fun h hP => h (h3 (FJR_mono hlq hP))⟩
  · refine checkWith_num (fun w => byAlgorithm algorithm (checkCoreNum weight ap p w quota) (checkCoreGurobi solve p w quota.val))
      (Core p) hp hW hlt ?_ (fun he G T hG => absurd hG (hempty he G))
    rw [← sortNat_toFinset W]
    rcases halg with rfl | ha
    · rw [byAlgorithm_brute]
      exact checkCoreNum_spec hp hb H ap hap _
    · rw [byAlgorithm_gurobi ha]
      obtain ⟨r, h1, h2, -⟩ := C60_core_program hs p hp (sortNat W) quota.val hq
      exact ⟨r, h1, fun h => Core_mono hqi (h2.1 h), fun h hP => h (h2.2 (Core_mono hlq hP))⟩

include hw

/-- **C100** Quotas of type int or Fraction: the answer is exactly right, for all weights that are ints or Fractions. -/
theorem C100_exact_quota (hf : ∀ q, quota ≠ .float q) (ha : algorithm ∈ ["brute-force", "fastest", "gurobi"])
    (hu : algorithm = "brute-force" → name = "pjr" ∨ name = "ejr" → p.hasUnitWeights = true)
    (hsat : name = "ejr+" → ∀ i, (sat p W.toFinset i : ℚ) * quota.val ≤ total p) :
    DecidesBetween name p W.toFinset quota.val quota.val (checkNum weight solve ap name p (W.map Int.ofNat) quota algorithm) := by
  obtain ⟨b, hb, hbl, H⟩ := thresholds_exact hw hp hn hq hf
  exact check_num hs hp hn hap hW hlt hq hname ha hu le_rfl le_rfl hsat hb hbl H

/-- **C100** Integer weights: `check` with a quota of any type of numbers never misses a violation (with respect to the exact value of the
quota), and a reported violation is one for a quota that is smaller by at most the factor 1 − 2⁻⁵². -/
theorem C100_integer_weights (ha : algorithm ∈ ["brute-force", "fastest", "gurobi"])
    (hu : algorithm = "brute-force" → name = "pjr" ∨ name = "ejr" → p.hasUnitWeights = true)
    (hi : IntegerWeights p) (ht : total p ≤ 2 ^ 53) (hsat : name = "ejr+" → ∀ i, (sat p W.toFinset i : ℚ) * quota.val ≤ total p) :
    DecidesBetween name p W.toFinset (quota.val * (1 - 1 / 2 ^ 52)) quota.val
      (checkNum weight solve ap name p (W.map Int.ofNat) quota algorithm) := by
  obtain ⟨b, hb, hbl, H⟩ := thresholds_int hw hp hi ht hn hq
  exact check_num hs hp hn hap hW hlt hq hname ha hu (by nlinarith) le_rfl hsat hb hbl H

/-- **C100** Integer and Fraction weights: the answer is correct up to the factors 1 − 2⁻⁵² and 1 + 2⁻⁵¹ of the quota. -/
theorem C100_any_weights (ha : algorithm ∈ ["brute-force", "fastest", "gurobi"])
    (hu : algorithm = "brute-force" → name = "pjr" ∨ name = "ejr" → p.hasUnitWeights = true)
    (hsat : name = "ejr+" → ∀ i, (sat p W.toFinset i : ℚ) * (quota.val * (1 + 1 / 2 ^ 51)) ≤ total p) :
    DecidesBetween name p W.toFinset (quota.val * (1 - 1 / 2 ^ 52)) (quota.val * (1 + 1 / 2 ^ 51))
      (checkNum weight solve ap name p (W.map Int.ofNat) quota algorithm) := by
  obtain ⟨b, hb, hbl, H⟩ := thresholds_any hw hp hn hq
  exact check_num hs hp hn hap hW hlt hq hname ha hu (by nlinarith) (by nlinarith) hsat hb hbl H

end

/-- **C100** Integer weights, `check_JR` and the algorithms "gurobi" and "fastest" (with an exact solver): the answer is exactly right for the
value of the quota, whatever the type of the quota. -/
theorem C100_exact {weight : ℚ → PyNum} (hw : StoresExactly weight) {solve : Program → SolveResult} (hs : ExactSolver solve) {p : Profile}
    (hp : p.WF) (hn : p.numCand < 2 ^ 53) (ap : List ℕ) {W : List ℕ} (hW : W.Nodup) (hlt : ∀ c ∈ W, c < p.numCand)
    {quota : PyNum} (hq : 0 < quota.val) {name algorithm : String} (hi : IntegerWeights p) (ht : total p ≤ 2 ^ 53)
    (h : name = "jr" ∨ name ∈ ["pjr", "ejr", "fjr", "core"] ∧ (algorithm = "fastest" ∨ algorithm = "gurobi")) :
    DecidesBetween name p W.toFinset quota.val quota.val (checkNum weight solve ap name p (W.map Int.ofNat) quota algorithm) := by
  obtain ⟨b, hb, hbl, -⟩ := thresholds_int hw hp hi ht hn hq
  have hempty : p.voters = [] → ∀ G : Group p, ¬ G.Nonempty := by
    rintro he G ⟨i, -⟩
    have h1 := i.2
    have h2 : p.voters.length = 0 := by rw [he]; rfl
    omega
  have hco : p.voters = [] → ∀ l G T, ¬ Cohesive p quota.val l G T := by
    intro he l G T hG
    have h1 := hG.2.1
    rw [wt_of_empty he] at h1
    have h2 : (0 : ℚ) < l := by exact_mod_cast hG.1
    have := mul_pos h2 hq
    linarith
  have hSn : (sortNat W).Nodup := sortNat_nodup.2 hW
  have hSlt : ∀ c ∈ sortNat W, c < p.numCand := fun c hc => hlt c (mem_sortNat.1 hc)
  have hbl' : ∀ l : ℕ, l ≤ p.numCand → (l : ℚ) * quota.val ≤ total p → l ≤ b := fun l hl => hbl l (by omega)
  rcases h with rfl | ⟨hname, ha⟩
  · obtain ⟨c, h1, h2⟩ := C51_check_JR p hp W hW hlt (some quota.val) hq
    exact ⟨c, h1, fun h => h2.1 h, fun h hJ => by rw [h] at h2; simpa using h2.2 hJ⟩
  simp only [List.mem_cons, List.not_mem_nil, or_false] at hname
  rcases hname with rfl | rfl | rfl | rfl
  · refine checkWith_num (fun w => byAlgorithm algorithm (checkPJRNum weight p w quota) (checkPJRGurobiNum weight solve p w quota))
      (PJR p) hp hW hlt ?_ (fun he l G T h => absurd h (hco he l G T))
    rw [← sortNat_toFinset W, byAlgorithm_gurobi ha]
    obtain ⟨r, h1, h2, h3, -⟩ := pjr_program_bound hs p hp (sortNat W) hSn hSlt quota.val hq b quota.val le_rfl hbl'
    exact ⟨r, by unfold checkPJRGurobiNum; rw [hb]; exact h1, h2, fun h hP => h (h3 hP)⟩
  · refine checkWith_num (fun w => byAlgorithm algorithm (checkEJRNum weight p w quota) (checkEJRGurobiNum weight solve p w quota))
      (EJR p) hp hW hlt ?_ (fun he l G T h => absurd h (hco he l G T))
    rw [← sortNat_toFinset W, byAlgorithm_gurobi ha]
    obtain ⟨r, h1, h2, h3, -⟩ := ejr_program_bound hs p hp (sortNat W) quota.val hq b quota.val le_rfl hbl'
    exact ⟨r, by unfold checkEJRGurobiNum; rw [hb]; exact h1, h2, fun h hP => h (h3 hP)⟩
  · refine checkWith_num (fun w => byAlgorithm algorithm (checkFJRNum weight ap p w quota) (checkFJRGurobiNum weight solve p w quota))
      (FJR p) hp hW hlt ?_ (fun he G T β hG => absurd hG (hempty he G))
    rw [← sortNat_toFinset W, byAlgorithm_gurobi ha]
    obtain ⟨r, h1, h2, h3, -⟩ := fjr_program_bound hs p hp (sortNat W) quota.val hq b quota.val le_rfl hbl'
    exact ⟨r, by unfold checkFJRGurobiNum; rw [hb]; exact h1, h2, fun h hP => h (h3 hP)⟩
  · refine checkWith_num (fun w => byAlgorithm algorithm (checkCoreNum weight ap p w quota) (checkCoreGurobi solve p w quota.val))
      (Core p) hp hW hlt ?_ (fun he G T hG => absurd hG (hempty he G))
    rw [← sortNat_toFinset W, byAlgorithm_gurobi ha]
    obtain ⟨r, h1, h2, -⟩ := C60_core_program hs p hp (sortNat W) quota.val hq
    exact ⟨r, h1, fun h => h2.1 h, fun h hP => h (h2.2 hP)⟩

theorem storesExactly_exactWeight : StoresExactly exactWeight := by
  intro x
  unfold exactWeight
  split
  · rename_i h
    exact Or.inl ⟨x.num, rfl, Rat.coe_int_num_of_den_eq_one h⟩
  · exact Or.inr rfl

/-- **C100** An exact quota (int or Fraction) with exactly stored weights behaves as in the model with rational numbers. -/
theorem C100_fraction {weight : ℚ → PyNum} (hw : StoresExactly weight) (solve : Program → SolveResult) (solveMax : MaxProgram → SolveResult)
    (ap : List ℕ) (p : Profile) (committee : List ℤ) (q : ℚ) {name : String}
    (hname : name ∈ ["jr", "pjr", "ejr", "ejr+", "fjr", "core"]) (algorithm : String) :
    checkNum weight solve ap name p committee (.frac q) algorithm = check solve solveMax ap name p committee (some q) algorithm := by
  have hb : boundNum weight p (.frac q) = (ellUpperBound p q) := by
    rcases totalNum_exact hw p with ⟨z, h1, h2⟩ | h1
    · unfold boundNum ellUpperBound
      rw [h1, totalWeight_eq, ← h2]
      rfl
    · unfold boundNum ellUpperBound
      rw [h1, totalWeight_eq]
      rfl
  have hl : ∀ B (c : ℕ) (bu : ℕ → List ℕ) (ell : ℕ) (g : List ℕ), ejrPlusLoopNum p (.frac q) c bu B ell g = ejrPlusLoop p q c bu B ell g := by
    intro B c bu
    induction B with
    | zero => intro ell g; rfl
    | succ n ih =>
      intro ell g
      have : timesNum (ell + 1) (.frac q) = ((ell : ℚ) + 1) * q := by simp [timesNum, PyNum.arith, PyNum.val]
      unfold ejrPlusLoopNum ejrPlusLoop
      simp only [ih, this]
  have hc : ∀ W B c, ejrPlusCandNum p W (.frac q) B c = ejrPlusCand p W q B c := by
    intro W B c
    unfold ejrPlusCandNum ejrPlusCand
    simp only [hl]
  have e1 : ∀ W, checkPJRNum weight p W (.frac q) = checkPJRInner p W q := fun W => by
    unfold checkPJRNum checkPJRInner; rw [hb]; rfl
  have e2 : ∀ W, checkEJRNum weight p W (.frac q) = checkEJRInner p W q := fun W => by
    unfold checkEJRNum checkEJRInner; rw [hb]; rfl
  have e3 : ∀ W, checkEJRPlusNum weight p W (.frac q) = checkEJRPlusInner p W q := fun W => by
    unfold checkEJRPlusNum checkEJRPlusInner; rw [hb]
    congr 1
    funext B
    congr 1
    funext c
    exact hc W B c
  have e4 : ∀ W, checkFJRNum weight ap p W (.frac q) = checkFJRInner ap p W q := fun W => by
    unfold checkFJRNum checkFJRInner; rw [hb]; rfl
  have e5 : ∀ W, checkCoreNum weight ap p W (.frac q) = checkCoreInner ap p W q := fun W => by
    unfold checkCoreNum checkCoreInner; rw [hb]; rfl
  have e6 : ∀ W, checkPJRGurobiNum weight solve p W (.frac q) = checkPJRGurobi solve p W q := fun W => by
    unfold checkPJRGurobiNum checkPJRGurobi; rw [hb]; rfl
  have e7 : ∀ W, checkEJRGurobiNum weight solve p W (.frac q) = checkEJRGurobi solve p W q := fun W => by
    unfold checkEJRGurobiNum checkEJRGurobi; rw [hb]; rfl
  have e8 : ∀ W, checkFJRGurobiNum weight solve p W (.frac q) = checkFJRGurobi solve p W q := fun W => by
    unfold checkFJRGurobiNum checkFJRGurobi; rw [hb]; rfl
  have hcw : ∀ {ω : Type} (f : List ℕ → Except Err (Option ω)) (g : List ℕ → ℚ → Except Err (Option ω)), (∀ W, f W = g W q) →
      checkWith (fun w _ => f w) p committee (some q) = checkWith g p committee (some q) := by
    intro ω f g h
    unfold checkWith
    simp only [quotaOf, bind, Except.bind, h]
  simp only [List.mem_cons, List.not_mem_nil, or_false] at hname
  rcases hname with rfl | rfl | rfl | rfl | rfl | rfl
  · rfl
  · exact hcw _ (fun w q => byAlgorithm algorithm (checkPJRInner p w q) (checkPJRGurobi solve p w q)) (fun W => by rw [e1, e6])
  · exact hcw _ (fun w q => byAlgorithm algorithm (checkEJRInner p w q) (checkEJRGurobi solve p w q)) (fun W => by rw [e2, e7])
  · exact hcw _ (checkEJRPlusInner p) e3
  · exact hcw _ (fun w q => byAlgorithm algorithm (checkFJRInner ap p w q) (checkFJRGurobi solve p w q)) (fun W => by rw [e4, e8])
  · exact hcw _ (fun w q => byAlgorithm algorithm (checkCoreInner ap p w q) (checkCoreGurobi solve p w q)) (fun W => by rw [e5]; rfl)

/-- Nine voters who approve the first `a` of eight candidates. -/
def nineVoters (a : ℕ) : Profile := { numCand := 8, voters := List.replicate 9 { approved := List.range a, weight := 1 } }

/-- **C100** The quota 9/7, computed as a float, for nine voters and the committee {1, …, 7}.  All voters approve 0, …, 6: they deserve seven
members and get six, so EJR is violated for the default quota, which is Fraction(9, 7); but the float is slightly larger than 9/7 and the
check with it does not report a violation.  With voters who approve all candidates `check_EJR_plus` works with the default quota and
raises KeyError with the float. -/
theorem C100_float_hare_quota (solve : Program → SolveResult) (solveMax : MaxProgram → SolveResult) :
    let quota := PyNum.div (.int 9) (.int 7)
    let W : List ℤ := [1, 2, 3, 4, 5, 6, 7]
    check solve solveMax (List.range 7) "ejr" (nineVoters 7) W none "brute-force" = .ok false ∧
    checkNum exactWeight solve (List.range 7) "ejr" (nineVoters 7) W quota "brute-force" = .ok true ∧
    check solve solveMax (List.range 8) "ejr+" (nineVoters 8) W none "brute-force" = .ok true ∧
    checkNum exactWeight solve (List.range 8) "ejr+" (nineVoters 8) W quota "brute-force" = .error .keyError := by
  refine ⟨?_, ?_, ?_, ?_⟩
  · exact (by decide +kernel : checkEJR (nineVoters 7) [1, 2, 3, 4, 5, 6, 7] none = .ok false)
  · exact (by decide +kernel : checkWith (fun w _ => checkEJRNum exactWeight (nineVoters 7) w (PyNum.div (.int 9) (.int 7))) (nineVoters 7)
      [1, 2, 3, 4, 5, 6, 7] (some (PyNum.div (.int 9) (.int 7)).val) = .ok true)
  · exact (by decide +kernel : checkEJRPlus (nineVoters 8) [1, 2, 3, 4, 5, 6, 7] none = .ok true)
  · exact (by decide +kernel : checkWith (fun w _ => checkEJRPlusNum exactWeight (nineVoters 8) w (PyNum.div (.int 9) (.int 7))) (nineVoters 8)
      [1, 2, 3, 4, 5, 6, 7] (some (PyNum.div (.int 9) (.int 7)).val) = .error .keyError)

/-- The hypotheses hold for the float quota 1.5 (and any other positive number), nine voters, all properties and algorithms. -/
example : ∃ solve : Program → SolveResult, ExactSolver solve ∧ ∀ name ∈ ["jr", "pjr", "ejr", "fjr", "core"],
    ∀ algorithm ∈ ["brute-force", "fastest", "gurobi"],
    DecidesBetween name (nineVoters 7) {1, 2, 3} (3 / 2 * (1 - 1 / 2 ^ 52)) (3 / 2)
      (checkNum exactWeight solve (nineVoters 7).approvedCandidates name (nineVoters 7) [1, 2, 3] (.float (3 / 2)) algorithm) := by
  obtain ⟨solve, hs⟩ := exists_exactSolver
  refine ⟨solve, hs, fun name hname algorithm ha => ?_⟩
  have hp : (nineVoters 7).WF := ⟨by decide, by decide, by decide, by decide +kernel⟩
  have hq : (PyNum.float (3 / 2)).val = 3 / 2 := by decide +kernel
  have := C100_integer_weights storesExactly_exactWeight hs hp (by decide) (ap := (nineVoters 7).approvedCandidates) (approvedCandidates_lists _) (W := [1, 2, 3]) (by decide) (by decide)
    (quota := .float (3 / 2)) (by rw [hq]; norm_num) (name := name) (algorithm := algorithm)
    (by simp only [List.mem_cons, List.not_mem_nil, or_false] at hname ⊢; tauto) ha (fun _ _ => by decide +kernel) (fun v hv => ⟨1, by rw [(List.mem_replicate.1 hv).2]; norm_num⟩) (by rw [← totalWeight_eq]; decide +kernel)
    (fun h => by subst h; simp at hname)
  rw [hq] at this
  exact this

end Abc
