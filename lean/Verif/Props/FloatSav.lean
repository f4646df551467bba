import Verif.Model.FloatSav
import Verif.Props.Separable
import Verif.Props.FloatAccuracyEph

/-!
# C96: AV and SAV with Python's numbers
-/

namespace Abc
open Spec

/-! ### The scores -/

section
variable {F : Type} (A : Arith F)

theorem foldl_modify_length (l : List ℕ) (g : F → F) (m : List F) : (l.foldl (fun m c => m.modify c g) m).length = m.length := by
  induction l generalizing m with
  | nil => rfl
  | cons a l ih => simp only [List.foldl_cons, ih, List.length_modify]

theorem foldl_modify_getElem? (l : List ℕ) (hl : l.Nodup) (g : F → F) (m : List F) (c : ℕ) :
    (l.foldl (fun m c => m.modify c g) m)[c]? = if c ∈ l then m[c]?.map g else m[c]? := by
  induction l generalizing m with
  | nil => simp
  | cons a l ih =>
    rw [List.nodup_cons] at hl
    rw [List.foldl_cons, ih hl.2, List.getElem?_modify]
    by_cases h : a = c
    · subst h; simp [hl.1]
    · have h' : ¬ c = a := fun e => h e.symm
      simp [h, h']

/-- The computed score of a candidate: a running total over its approvers, in the order of the profile. -/
def candTotal (r : SepRule) (p : Profile) (c : ℕ) : F :=
  ((p.voters.filter (fun v => decide (c ∈ v.approved))).map (fSepAmount A r)).foldl A.add (A.int 0)

theorem fSeparableScores_length (r : SepRule) (p : Profile) : (fSeparableScores A r p).length = p.numCand := by
  unfold fSeparableScores
  have : ∀ (vs : List Voter) (m : List F),
      (vs.foldl (fun s v => v.approved.foldl (fun s c => s.modify c (fun x => A.add x (fSepAmount A r v))) s) m).length = m.length := by
    intro vs
    induction vs with
    | nil => exact fun m => rfl
    | cons v vs ih => intro m; rw [List.foldl_cons, ih, foldl_modify_length]
  rw [this, List.length_replicate]

theorem fSeparableScores_get (r : SepRule) (p : Profile) (hp : p.WF) (c : ℕ) (hc : c < p.numCand) :
    (fSeparableScores A r p)[c]? = some (candTotal A r p c) := by
  unfold fSeparableScores candTotal
  have : ∀ (vs : List Voter), (∀ v ∈ vs, v.approved.Nodup) → ∀ (m : List F) (x : F), m[c]? = some x →
      (vs.foldl (fun s v => v.approved.foldl (fun s c => s.modify c (fun x => A.add x (fSepAmount A r v))) s) m)[c]? =
        some (((vs.filter (fun v => decide (c ∈ v.approved))).map (fSepAmount A r)).foldl A.add x) := by
    intro vs
    induction vs with
    | nil => exact fun _ m x h => h
    | cons v vs ih =>
      intro hvs m x h
      rw [List.foldl_cons]
      by_cases hcv : c ∈ v.approved
      · rw [ih (fun w hw => hvs w (by simp [hw])) _ (A.add x (fSepAmount A r v)) (by
          rw [foldl_modify_getElem? _ (hvs v (by simp)), if_pos hcv, h]; rfl)]
        rw [List.filter_cons_of_pos (by simpa using hcv)]
        rfl
      · rw [ih (fun w hw => hvs w (by simp [hw])) _ x (by rw [foldl_modify_getElem? _ (hvs v (by simp)), if_neg hcv, h])]
        rw [List.filter_cons_of_neg (by simpa using hcv)]
  exact this p.voters hp.nodup _ _ (by simp [hc])

theorem val_fSeparableScores (r : SepRule) (p : Profile) (hp : p.WF) (c : ℕ) (hc : c < p.numCand) :
    ((fSeparableScores A r p).map A.val).getD c 0 = A.val (candTotal A r p c) := by
  rw [List.getD_eq_getElem?_getD, List.getElem?_map, fSeparableScores_get A r p hp c hc]
  rfl

/-- Scores that are computed exactly give the result of exact arithmetic. -/
theorem fSeparableAlgorithm_exact (r : SepRule) (p : Profile) (hp : p.WF)
    (h : ∀ c < p.numCand, A.val (candTotal A r p c) = candScore r p c) (k : ℕ) (resolute : Bool) (max : Option ℕ) :
    fSeparableAlgorithm A r p k resolute max = separableAlgorithm r p k resolute max := by
  unfold fSeparableAlgorithm separableAlgorithm
  congr 1
  apply List.ext_getElem
  · rw [List.length_map, fSeparableScores_length, separableScores_length]
  · intro c h1 h2
    rw [separableScores_length] at h2
    have e1 := val_fSeparableScores A r p hp c h2
    have e2 := separableScores_getD r p hp c h2
    rw [h c h2, ← e2] at e1
    rw [List.getD_eq_getElem?_getD, List.getD_eq_getElem?_getD, List.getElem?_eq_getElem h1,
      List.getElem?_eq_getElem (by rw [separableScores_length]; exact h2)] at e1
    exact e1

end

/-! ### Exact weights -/

/-- The number is an int or a Fraction. -/
def Spec.NotFloat : PyNum → Prop
  | .float _ => False
  | _ => True

theorem add_notFloat {x y : PyNum} (hx : NotFloat x) (hy : NotFloat y) :
    NotFloat (PyNum.arith (· + ·) (· + ·) x y) ∧ (PyNum.arith (· + ·) (· + ·) x y).val = x.val + y.val := by
  cases x <;> cases y <;> simp_all [NotFloat, PyNum.arith, PyNum.val]

theorem foldl_add_notFloat (l : List PyNum) (hl : ∀ x ∈ l, NotFloat x) (a : PyNum) (ha : NotFloat a) :
    (l.foldl (PyNum.arith (· + ·) (· + ·)) a).val = a.val + (l.map PyNum.val).sum := by
  induction l generalizing a with
  | nil => simp
  | cons x l ih =>
    obtain ⟨h1, h2⟩ := add_notFloat ha (hl x (by simp))
    rw [List.foldl_cons, ih (fun y hy => hl y (by simp [hy])) _ h1, h2, List.map_cons, List.sum_cons, add_assoc]

theorem candScore_filter (r : SepRule) (p : Profile) (hp : p.WF) (c : ℕ) :
    candScore r p c = ((p.voters.filter (fun v => decide (c ∈ v.approved))).map r.amount).sum := by
  have : ∀ vs : List Voter, (∀ v ∈ vs, v.approved.Nodup) →
      (vs.map (fun v => if c ∈ v.A then (match r with
        | .av => v.weight
        | .sav => v.weight / (v.A.card : ℚ)) else 0)).sum = ((vs.filter (fun v => decide (c ∈ v.approved))).map r.amount).sum := by
    intro vs hvs
    induction vs with
    | nil => rfl
    | cons v vs ih =>
      have hcard : v.A.card = v.approved.length := List.toFinset_card_of_nodup (hvs v (by simp))
      rw [List.map_cons, List.sum_cons, ih (fun w hw => hvs w (by simp [hw]))]
      by_cases hcv : c ∈ v.approved
      · rw [List.filter_cons_of_pos (by simpa using hcv), List.map_cons, List.sum_cons, if_pos (show c ∈ v.A from List.mem_toFinset.2 hcv), hcard]
        cases r <;> rfl
      · rw [List.filter_cons_of_neg (by simpa using hcv), if_neg (show ¬ c ∈ v.A from fun h => hcv (List.mem_toFinset.1 h)), zero_add]
  exact this p.voters hp.nodup

/-- C96: if all weights are stored as Fractions, AV and SAV are computed exactly. -/
theorem C96_fraction_weights (env : Env) (r : SepRule) (p : Profile) (hp : p.WF) (a : Args) (sum : List PyNum → PyNum) :
    fComputeSeparable (pyArith PyNum.frac sum) env r p a = computeSeparable env r p a := by
  unfold fComputeSeparable computeSeparable
  congr 1
  funext alg
  congr 1
  refine fSeparableAlgorithm_exact _ r p hp (fun c _ => ?_) _ _ _
  rw [candScore_filter r p hp c]
  unfold candTotal
  set vs := p.voters.filter (fun v => decide (c ∈ v.approved)) with hvs
  have h1 : ∀ v, ∃ q, fSepAmount (pyArith PyNum.frac sum) r v = PyNum.frac q ∧ q = r.amount v := by
    intro v
    cases r
    · exact ⟨_, rfl, rfl⟩
    · exact ⟨_, rfl, by simp [SepRule.amount]⟩
  have := foldl_add_notFloat (vs.map (fSepAmount (pyArith PyNum.frac sum) r)) (by
    intro x hx
    obtain ⟨v, -, rfl⟩ := List.mem_map.1 hx
    obtain ⟨q, hq, -⟩ := h1 v
    rw [hq]; trivial) (.int 0) trivial
  change (List.foldl (PyNum.arith (· + ·) (· + ·)) (PyNum.int 0) _).val = _
  rw [this, List.map_map]
  have h2 : vs.map (PyNum.val ∘ fSepAmount (pyArith PyNum.frac sum) r) = vs.map r.amount := by
    refine List.map_congr_left (fun v _ => ?_)
    obtain ⟨q, hq, hq'⟩ := h1 v
    simp only [Function.comp, hq, PyNum.val, hq']
  rw [h2]
  simp [PyNum.val]

/-- C96: AV is computed exactly if the weights are stored as ints or Fractions. -/
theorem C96_av_exact (env : Env) (p : Profile) (hp : p.WF) (a : Args) (weight : ℚ → PyNum) (sum : List PyNum → PyNum)
    (hw : ∀ v ∈ p.voters, NotFloat (weight v.weight) ∧ (weight v.weight).val = v.weight) :
    fComputeSeparable (pyArith weight sum) env .av p a = computeSeparable env .av p a := by
  unfold fComputeSeparable computeSeparable
  congr 1
  funext alg
  congr 1
  refine fSeparableAlgorithm_exact _ .av p hp (fun c _ => ?_) _ _ _
  rw [candScore_filter .av p hp c]
  unfold candTotal
  set vs := p.voters.filter (fun v => decide (c ∈ v.approved)) with hvs
  have hv : ∀ v ∈ vs, NotFloat (weight v.weight) ∧ (weight v.weight).val = v.weight := fun v h => hw v (List.mem_filter.1 h).1
  have := foldl_add_notFloat (vs.map (fSepAmount (pyArith weight sum) .av)) (by
    intro x hx
    obtain ⟨v, h, rfl⟩ := List.mem_map.1 hx
    exact (hv v h).1) (.int 0) trivial
  change (List.foldl (PyNum.arith (· + ·) (· + ·)) (PyNum.int 0) _).val = _
  rw [this, List.map_map]
  have h2 : vs.map (PyNum.val ∘ fSepAmount (pyArith weight sum) .av) = vs.map (SepRule.av).amount :=
    List.map_congr_left (fun v h => (hv v h).2)
  rw [h2]
  simp [PyNum.val]

/-! ### Rounding does not swap scores -/

section
variable {F : Type} {A : Arith F}

/-- Maximal committees: no candidate outside has a larger score than a candidate inside. -/
theorem topCommittee_iff (p : Profile) (s : ℕ → ℚ) (k : ℕ) (W : Finset ℕ) :
    TopCommittee p s k W ↔ IsCommittee p k W ∧ ∀ c ∈ W, ∀ d, d < p.numCand → d ∉ W → s d ≤ s c := by
  unfold TopCommittee
  refine and_congr_right fun hW => ⟨fun h c hc d hd hdW => ?_, fun h B hB => ?_⟩
  · have hdc : d ∉ W.erase c := fun h => hdW (Finset.mem_of_mem_erase h)
    have := h (insert d (W.erase c)) ⟨by
      intro x hx
      rcases Finset.mem_insert.1 hx with rfl | hx
      · exact Finset.mem_range.2 hd
      · exact hW.1 (Finset.mem_of_mem_erase hx), by
      rw [Finset.card_insert_of_notMem hdc, Finset.card_erase_of_mem hc, hW.2]
      have := Finset.card_pos.2 ⟨c, hc⟩
      rw [hW.2] at this
      omega⟩
    rw [Finset.sum_insert hdc, ← Finset.add_sum_erase W s hc] at this
    linarith
  · have hcard : (B \ W).card = (W \ B).card := by
      have h1 := Finset.card_sdiff_add_card_inter B W
      have h2 := Finset.card_sdiff_add_card_inter W B
      rw [Finset.inter_comm] at h2
      rw [hB.2] at h1; rw [hW.2] at h2
      omega
    have e1 := Finset.sum_inter_add_sum_sdiff B W s
    have e2 := Finset.sum_inter_add_sum_sdiff W B s
    rw [Finset.inter_comm] at e2
    have key : ∑ c ∈ B \ W, s c ≤ ∑ c ∈ W \ B, s c := by
      rcases (W \ B).eq_empty_or_nonempty with he | hne
      · rw [he, Finset.card_empty, Finset.card_eq_zero] at hcard
        rw [he, hcard]
      · obtain ⟨m, hm, hmin⟩ := Finset.exists_min_image (W \ B) s hne
        have u1 : ∑ c ∈ B \ W, s c ≤ (B \ W).card • s m := Finset.sum_le_card_nsmul _ _ _ (fun d hd => by
          obtain ⟨hd1, hd2⟩ := Finset.mem_sdiff.1 hd
          exact h m (Finset.mem_sdiff.1 hm).1 d (Finset.mem_range.1 (hB.1 hd1)) hd2)
        have u2 : (W \ B).card • s m ≤ ∑ c ∈ W \ B, s c := Finset.card_nsmul_le_sum _ _ _ hmin
        rw [hcard] at u1
        exact u1.trans u2
    linarith

/-- Scores that respect the strict order of other scores lead to committees that are maximal for both. -/
theorem topCommittee_refine {p : Profile} {s t : ℕ → ℚ} (h : ∀ c d, c < p.numCand → d < p.numCand → t c < t d → s c < s d) {k : ℕ}
    {W : Finset ℕ} (hW : TopCommittee p s k W) : TopCommittee p t k W := by
  rw [topCommittee_iff] at hW ⊢
  refine ⟨hW.1, fun c hc d hd hdW => ?_⟩
  by_contra hlt
  rw [not_le] at hlt
  have := h c d (Finset.mem_range.1 (hW.1.1 hc)) hd hlt
  have := hW.2 c hc d hd hdW
  linarith

theorem exists_topCommittee (p : Profile) (s : ℕ → ℚ) {k : ℕ} (hk : k ≤ p.numCand) : ∃ W, TopCommittee p s k W := by
  obtain ⟨W, hW, hmax⟩ := Finset.exists_max_image ((Finset.range p.numCand).powersetCard k) (fun W => ∑ c ∈ W, s c)
    (Finset.powersetCard_nonempty.2 (by simpa using hk))
  have hW' := Finset.mem_powersetCard.1 hW
  exact ⟨W, hW', fun B hB => hmax B (Finset.mem_powersetCard.2 hB)⟩

/-- Two different scores differ by more than the error of adding up the scores: `9 + 6n` units of relative rounding error for `n` voters. -/
def Spec.ScoresSeparated (r : SepRule) (p : Profile) : Prop :=
  ∀ c d, c < p.numCand → d < p.numCand → candScore r p c < candScore r p d →
    candScore r p c + (9 + 6 * p.voters.length) * total p / 2 ^ 53 < candScore r p d

theorem amount_bounds (r : SepRule) {p : Profile} (hp : p.WF) {v : Voter} (hv : v ∈ p.voters) {c : ℕ} (hc : c ∈ v.approved) :
    0 ≤ r.amount v ∧ r.amount v ≤ v.weight ∧ (1 : ℚ) ≤ v.approved.length := by
  have hw := hp.weight v hv
  have hl : (1 : ℚ) ≤ v.approved.length := by
    have := List.length_pos_of_mem hc
    exact_mod_cast this
  cases r
  · exact ⟨hw.le, le_rfl, hl⟩
  · exact ⟨div_nonneg hw.le (by linarith), div_le_self hw.le hl, hl⟩

/-- The computed score is accurate. -/
theorem near_candTotal (hA : Sound A) (hAc : Accurate A) (r : SepRule) {p : Profile} (hp : p.WF) (c : ℕ) :
    Near (3 + 2 * p.voters.length) (A.val (candTotal A r p c)) (candScore r p c) ∧ 0 ≤ candScore r p c ∧ candScore r p c ≤ total p := by
  set vs := p.voters.filter (fun v => decide (c ∈ v.approved)) with hvs
  have hmem : ∀ v ∈ vs, v ∈ p.voters ∧ c ∈ v.approved := fun v hv => by simpa using List.mem_filter.1 hv
  have hb : ∀ v ∈ vs, 0 ≤ r.amount v ∧ r.amount v ≤ v.weight ∧ (1 : ℚ) ≤ v.approved.length :=
    fun v hv => amount_bounds r hp (hmem v hv).1 (hmem v hv).2
  have hs : candScore r p c = (vs.map r.amount).sum := candScore_filter r p hp c
  have hnn : 0 ≤ candScore r p c := by
    rw [hs]
    refine List.sum_nonneg ?_
    intro x hx
    obtain ⟨v, hv, rfl⟩ := List.mem_map.1 hx
    exact (hb v hv).1
  refine ⟨?_, hnn, ?_⟩
  · have := foldl_add_near hAc 3 (vs.map (fun v => (fSepAmount A r v, r.amount v))) 3 (A.int 0) 0 le_rfl le_rfl
      (by rw [hA.val_int, Int.cast_zero]; exact near_refl 3 le_rfl) (by
      intro e he
      obtain ⟨v, hv, rfl⟩ := List.mem_map.1 he
      obtain ⟨b1, b2, b3⟩ := hb v hv
      refine ⟨b1, ?_⟩
      have hw := hp.weight v (hmem v hv).1
      cases r
      · change Near 3 (A.val (A.weight v.weight)) v.weight
        rw [hA.val_weight]
        exact near_refl 3 hw.le
      · have := hAc.div (A.weight v.weight) (A.int v.approved.length) (by rw [hA.val_weight]; exact hw.le)
          (by rw [hA.val_int]; push_cast; linarith)
        rw [hA.val_weight, hA.val_int, Int.cast_natCast] at this
        exact this)
    rw [List.map_map, List.map_map, zero_add, List.length_map] at this
    have hlen : vs.length ≤ p.voters.length := List.length_filter_le _ _
    rw [hs] at hnn ⊢
    exact Near.mono this (by omega) hnn
  · rw [hs]
    have h1 : (vs.map r.amount).sum ≤ (vs.map Voter.weight).sum := List.sum_le_sum (fun v hv => (hb v hv).2.1)
    refine h1.trans ?_
    rw [← totalWeight_eq]
    refine List.Sublist.sum_le_sum (List.filter_sublist.map _) ?_
    intro x hx
    obtain ⟨v, hv, rfl⟩ := List.mem_map.1 hx
    exact (hp.weight v hv).le

/-- Different scores stay in the same order. -/
theorem candTotal_lt (hA : Sound A) (hAc : Accurate A) (r : SepRule) {p : Profile} (hp : p.WF) (hsep : ScoresSeparated r p)
    (hfew : p.voters.length + 2 ≤ 2 ^ 51) {c d : ℕ} (hc : c < p.numCand) (hd : d < p.numCand) (h : candScore r p c < candScore r p d) :
    A.val (candTotal A r p c) < A.val (candTotal A r p d) := by
  obtain ⟨n1, c1, c2⟩ := near_candTotal hA hAc r hp c
  obtain ⟨n2, d1, d2⟩ := near_candTotal hA hAc r hp d
  have hm : 2 * (3 + 2 * p.voters.length) ≤ 2 ^ 53 := by
    have : (2 : ℕ) ^ 53 = 4 * 2 ^ 51 := by norm_num
    omega
  have b1 := (n1.bounds c1 hm).2
  have b2 := (n2.bounds d1 hm).1
  have hg := hsep c d hc hd h
  push_cast at b1 b2
  obtain ⟨n, hn⟩ : ∃ n : ℚ, n = (p.voters.length : ℚ) := ⟨_, rfl⟩
  have hn0 : 0 ≤ n := by rw [hn]; positivity
  rw [← hn] at b1 b2 hg
  have e1 : 2 * (3 + 2 * n) / 2 ^ 53 * candScore r p c ≤ 2 * (3 + 2 * n) / 2 ^ 53 * total p :=
    mul_le_mul_of_nonneg_left c2 (by positivity)
  have e2 : (3 + 2 * n) / 2 ^ 53 * candScore r p d ≤ (3 + 2 * n) / 2 ^ 53 * total p :=
    mul_le_mul_of_nonneg_left d2 (by positivity)
  have e3 : (9 + 6 * n) * total p / 2 ^ 53 = 2 * (3 + 2 * n) / 2 ^ 53 * total p + (3 + 2 * n) / 2 ^ 53 * total p := by ring
  linarith

/-- C96: if different scores are not too close to each other, AV and SAV return winning committees only.  For every committee size there
is a non-empty set of winning committees, and all calls answer with (one of, all of, some of) these. -/
theorem C96_separated (hA : Sound A) (hAc : Accurate A) (env : Env) (r : SepRule) (p : Profile) (hp : p.WF) (hsep : ScoresSeparated r p)
    (hfew : p.voters.length + 2 ≤ 2 ^ 51) (k : ℕ) (hk : k ≤ p.numCand) :
    ∃ Q : Finset ℕ → Prop, (∃ W, Q W) ∧ (∀ W, Q W → SepOpt r p k W) ∧
      ∀ a : Args, a.k = k → prologue env r.id p a = .ok "standard" → Answers a (fComputeSeparable A env r p a) Q := by
  refine ⟨TopCommittee p (fun c => ((fSeparableScores A r p).map A.val).getD c 0) k, exists_topCommittee p _ hk, ?_, ?_⟩
  · intro W hW
    have := topCommittee_refine (t := candScore r p) (fun c d hc hd h => by
      rw [val_fSeparableScores A r p hp c hc, val_fSeparableScores A r p hp d hd]
      exact candTotal_lt hA hAc r hp hsep hfew hc hd h) hW
    exact this
  · intro a ha hal
    have hcomp : fComputeSeparable A env r p a = separableCommittees ((fSeparableScores A r p).map A.val) p a.k a.resolute a.maxNum := by
      unfold fComputeSeparable
      rw [hal]
      simp [bind, Except.bind, fSeparableAlgorithm]
    rw [hcomp, ← ha]
    exact separableCommittees_answers p _ (by rw [List.length_map, fSeparableScores_length]) a (validCall_of_prologue hal)

/-! ### Integer weights -/

/-- Integer weights; all sizes of ballots divide a number `D` such that `D` times the total weight times the number of voters is moderate
(less than 2⁵³ ≈ 9 · 10¹⁵). -/
structure Spec.SmallSav (p : Profile) : Prop where
  integer : IntegerWeights p
  sizes : ∃ D : ℕ, 0 < D ∧ (∀ v ∈ p.voters, v.A ≠ ∅ → v.A.card ∣ D) ∧ (9 + 6 * p.voters.length) * total p * D < 2 ^ 53

theorem candScore_fraction {p : Profile} (hp : p.WF) (hw : IntegerWeights p) (r : SepRule) {D : ℕ} (hD : 0 < D)
    (hdvd : ∀ v ∈ p.voters, v.A ≠ ∅ → v.A.card ∣ D) (c : ℕ) : ∃ z : ℤ, candScore r p c = z / D := by
  have hDq : (D : ℚ) ≠ 0 := by positivity
  rw [candScore_filter r p hp c]
  have : ∀ vs : List Voter, (∀ v ∈ vs, v ∈ p.voters ∧ c ∈ v.approved) → ∃ z : ℤ, (vs.map r.amount).sum = z / D := by
    intro vs
    induction vs with
    | nil => exact fun _ => ⟨0, by simp⟩
    | cons v vs ih =>
      intro h
      obtain ⟨z, hz⟩ := ih (fun w hw => h w (by simp [hw]))
      obtain ⟨hv, hcv⟩ := h v (by simp)
      obtain ⟨n, hn⟩ := hw v hv
      rw [List.map_cons, List.sum_cons, hz]
      cases r
      · refine ⟨n * D + z, ?_⟩
        change v.weight + _ = _
        rw [hn]; push_cast; field_simp
      · have hcard : v.A.card = v.approved.length := List.toFinset_card_of_nodup (hp.nodup v hv)
        obtain ⟨m, hm⟩ := hdvd v hv (Finset.ne_empty_of_mem (a := c) (List.mem_toFinset.2 hcv))
        rw [hcard] at hm
        refine ⟨n * m + z, ?_⟩
        change v.weight / (v.approved.length : ℚ) + _ = _
        have hmq : (D : ℚ) = (v.approved.length : ℚ) * m := by exact_mod_cast hm
        have hj : (v.approved.length : ℚ) ≠ 0 := by intro h0; rw [h0, zero_mul] at hmq; exact hDq hmq
        have hm0 : (m : ℚ) ≠ 0 := by intro h0; rw [h0, mul_zero] at hmq; exact hDq hmq
        rw [hn, hmq]
        push_cast
        field_simp
  exact this _ (fun v hv => by simpa using List.mem_filter.1 hv)

theorem Spec.SmallSav.separated {p : Profile} (h : SmallSav p) (hp : p.WF) (r : SepRule) : ScoresSeparated r p := by
  obtain ⟨D, hD, hdvd, hsmall⟩ := h.sizes
  intro c d _ _ hlt
  obtain ⟨z, hz⟩ := candScore_fraction hp h.integer r hD hdvd c
  obtain ⟨z', hz'⟩ := candScore_fraction hp h.integer r hD hdvd d
  have hDq : (0 : ℚ) < D := by exact_mod_cast hD
  rw [hz, hz'] at hlt ⊢
  have hlt' : z < z' := by
    have := (div_lt_div_iff_of_pos_right hDq).1 hlt
    exact_mod_cast this
  have h1 : (z : ℚ) + 1 ≤ z' := by exact_mod_cast hlt'
  have h2 : (z : ℚ) / D + 1 / D ≤ z' / D := by
    rw [← add_div]; exact div_le_div_of_nonneg_right h1 hDq.le
  have h3 : (9 + 6 * (p.voters.length : ℚ)) * total p / 2 ^ 53 < 1 / D := by
    rw [div_lt_div_iff₀ (by norm_num) hDq, one_mul]
    exact hsmall
  linarith

theorem Spec.SmallSav.few {p : Profile} (h : SmallSav p) (hp : p.WF) : p.voters.length + 2 ≤ 2 ^ 51 := by
  obtain ⟨D, hD, -, hsmall⟩ := h.sizes
  rcases Nat.eq_zero_or_pos p.voters.length with h0 | h0
  · rw [h0]; norm_num
  · have hT : (1 : ℚ) ≤ total p := by
      obtain ⟨n, hn⟩ := wt_integer h.integer (Finset.univ : Group p)
      have hn' : total p = n := hn
      obtain ⟨v, hv⟩ := List.exists_mem_of_length_pos h0
      have : 0 < total p := by
        rw [← totalWeight_eq]
        refine lt_of_lt_of_le (hp.weight v hv) (List.single_le_sum ?_ _ (List.mem_map_of_mem hv))
        intro x hx
        obtain ⟨w, hw, rfl⟩ := List.mem_map.1 hx
        exact (hp.weight w hw).le
      rw [hn'] at this ⊢
      have : 0 < n := by exact_mod_cast this
      exact_mod_cast this
    have hD1 : (1 : ℚ) ≤ D := by exact_mod_cast hD
    have h1 : (9 + 6 * (p.voters.length : ℚ)) * 1 ≤ (9 + 6 * (p.voters.length : ℚ)) * (total p * D) :=
      mul_le_mul_of_nonneg_left (by nlinarith) (by positivity)
    have h2 : (9 + 6 * (p.voters.length : ℚ)) < 2 ^ 53 := by linarith
    have h3 : 9 + 6 * p.voters.length < 2 ^ 53 := by exact_mod_cast h2
    have : (2 : ℕ) ^ 53 = 4 * 2 ^ 51 := by norm_num
    omega

/-- C96: with integer weights of moderate size, SAV (and AV) return winning committees only. -/
theorem C96_winning_committees (hA : Sound A) (hAc : Accurate A) (env : Env) (r : SepRule) (p : Profile) (hp : p.WF) (hs : SmallSav p)
    (k : ℕ) (hk : k ≤ p.numCand) :
    ∃ Q : Finset ℕ → Prop, (∃ W, Q W) ∧ (∀ W, Q W → SepOpt r p k W) ∧
      ∀ a : Args, a.k = k → prologue env r.id p a = .ok "standard" → Answers a (fComputeSeparable A env r p a) Q :=
  C96_separated hA hAc env r p hp (hs.separated hp r) (hs.few hp) k hk

/-- An answer of a rule with a single winning committee. -/
theorem answers_unique {p : Profile} {a : Args} (hv : ValidCall p a) {x : Except Err (List (List ℕ))} {S : Finset ℕ → Prop}
    {W : Finset ℕ} (hS : ∀ B, S B ↔ B = W) (h : Answers a x S) : x = .ok [W.sort (· ≤ ·)] := by
  have key : ∀ L : List ℕ, L.Pairwise (· < ·) → L.toFinset = W → L = W.sort (· ≤ ·) := by
    intro L hL he
    rw [← he]
    exact eq_of_lt_toFinset hL (Finset.sortedLT_sort _).pairwise (by simp)
  have single : ∀ (cs : List (List ℕ)), cs ≠ [] → cs.Nodup → (∀ M ∈ cs, M = W.sort (· ≤ ·)) → cs = [W.sort (· ≤ ·)] := by
    intro cs hne hnd hall
    match cs, hne, hnd, hall with
    | [M], _, _, hall => rw [hall M (by simp)]
    | M :: M' :: _, _, hnd, hall =>
      have e : M = M' := (hall M (by simp)).trans (hall M' (by simp)).symm
      simp [e] at hnd
  unfold Answers at h
  split at h
  · obtain ⟨L, h1, h2, h3⟩ := h
    rw [h1, key L h2 ((hS _).1 h3)]
  · obtain ⟨cs, h1, h2, h3⟩ := h
    obtain ⟨L, hL, hLW⟩ := (h3 W).2 ((hS W).2 rfl)
    have hall : ∀ M ∈ cs, M = W.sort (· ≤ ·) := fun M hM => key M (h2.asc M hM) ((hS _).1 ((h3 _).1 ⟨M, hM, rfl⟩))
    rw [h1, single cs (List.ne_nil_of_mem hL) h2.nodup hall]
  · rename_i n _ hn
    obtain ⟨cs, h1, h2, h3, S', h4, h5⟩ := h
    have hS' : S' = {W} := by ext B; rw [h4, hS, Finset.mem_singleton]
    have hpos := hv.max n hn
    rw [hS', Finset.card_singleton, min_eq_right (by omega)] at h5
    have hall : ∀ M ∈ cs, M = W.sort (· ≤ ·) := fun M hM => key M (h2.asc M hM) ((hS _).1 (h3 M hM))
    rw [h1, single cs (by rintro rfl; simp at h5) h2.nodup hall]

/-- C96: with integer weights of moderate size, a unique winning committee is the result of every call. -/
theorem C96_unique_winner (hA : Sound A) (hAc : Accurate A) (env : Env) (r : SepRule) (p : Profile) (hp : p.WF) (hs : SmallSav p) (a : Args)
    (hal : prologue env r.id p a = .ok "standard") (W : Finset ℕ) (hW : ∀ B, SepOpt r p a.k B ↔ B = W) :
    fComputeSeparable A env r p a = .ok [W.sort (· ≤ ·)] := by
  have hv := validCall_of_prologue hal
  obtain ⟨Q, ⟨B, hB⟩, h2, h3⟩ := C96_winning_committees hA hAc env r p hp hs a.k hv.le
  refine answers_unique hv (S := Q) (fun B' => ⟨fun h => (hW B').1 (h2 B' h), ?_⟩) (h3 a rfl hal)
  rintro rfl
  have := (hW B).1 (h2 B hB)
  rwa [← this]

end

/-! ### Python's numbers -/

/-- C96 for Python's numbers, however the weights are stored. -/
theorem C96_python (weight : ℚ → PyNum) (hw : ∀ q, (weight q).val = q) (env : Env) (p : Profile) (hp : p.WF) (hs : SmallSav p) (k : ℕ)
    (hk : k ≤ p.numCand) :
    ∃ Q : Finset ℕ → Prop, (∃ W, Q W) ∧ (∀ W, Q W → SepOpt .sav p k W) ∧ ∀ a : Args, a.k = k →
      prologue env "sav" p a = .ok "standard" → Answers a (fComputeSeparable (pyArith weight PyNum.runningSum) env .sav p a) Q :=
  C96_winning_committees (pyArith_sound weight hw _ runningSum_sound) (pyArith_accurate weight _ PyNum.runningSum_accurate) env .sav p hp hs
    k hk

/-- Five voters with the weights as given by default (the int 1); `b` before or after the voter approving everything. -/
def savVoters : List Voter := [⟨[0], 1⟩, ⟨[0], 1⟩, ⟨[1], 1⟩, ⟨[1], 1⟩, ⟨[0, 1, 2], 1⟩]

def savOrder1 : List Voter := [⟨[0], 1⟩, ⟨[0], 1⟩, ⟨[1], 1⟩, ⟨[0, 1, 2], 1⟩, ⟨[1], 1⟩]

def savOrder2 : List Voter := [⟨[0], 1⟩, ⟨[1], 1⟩, ⟨[1], 1⟩, ⟨[0, 1, 2], 1⟩, ⟨[0], 1⟩]

/-- Python's numbers, integer weights stored as ints. -/
def savArith : Arith PyNum := pyArith exactWeight PyNum.runningSum

/-- C96, finding: the order of the voters decides.  Candidates 0 and 1 have the same SAV score 2 + 1/3, but the sums 1 + 1 + 1/3 and
1 + 1/3 + 1 are rounded differently. -/
theorem C96_order_of_voters :
    savOrder1.Perm savVoters ∧ savOrder2.Perm savVoters ∧
    fComputeSeparable savArith exampleEnv .sav ⟨3, savVoters, []⟩ { committeesize := 1, resolute := false } = .ok [[0], [1]] ∧
    fComputeSeparable savArith exampleEnv .sav ⟨3, savOrder1, []⟩ { committeesize := 1, resolute := false } = .ok [[0]] ∧
    fComputeSeparable savArith exampleEnv .sav ⟨3, savOrder2, []⟩ { committeesize := 1, resolute := false } = .ok [[1]] ∧
    computeSeparable exampleEnv .sav ⟨3, savOrder2, []⟩ { committeesize := 1, resolute := false } = .ok [[0], [1]] := by
  decide +kernel

/-- C96, finding: adding up 1/6 six times gives less than 1, so that a tied candidate with one singleton ballot wins alone. -/
theorem C96_lost_tie :
    fComputeSeparable savArith exampleEnv .sav ⟨7, List.replicate 6 ⟨[1, 2, 3, 4, 5, 6], 1⟩ ++ [⟨[0], 1⟩], []⟩
      { committeesize := 1, resolute := false } = .ok [[0]] ∧
    computeSeparable exampleEnv .sav ⟨7, List.replicate 6 ⟨[1, 2, 3, 4, 5, 6], 1⟩ ++ [⟨[0], 1⟩], []⟩
      { committeesize := 1, resolute := false } = .ok [[0], [1], [2], [3], [4], [5], [6]] := by
  decide +kernel

/-- the hypotheses of `C96_winning_committees` and `C96_unique_winner` -/
theorem smallSav_example : SmallSav ⟨3, savVoters, []⟩ where
  integer := by
    intro v hv
    simp only [savVoters, List.mem_cons, List.not_mem_nil, or_false] at hv
    rcases hv with rfl | rfl | rfl | rfl | rfl <;> exact ⟨1, by norm_num⟩
  sizes := by
    refine ⟨3, by norm_num, ?_, ?_⟩
    · decide
    · rw [← totalWeight_eq]
      norm_num [savVoters, Profile.totalWeight]

example : prologue exampleEnv "sav" ⟨3, savVoters, []⟩ { committeesize := 2, resolute := false } = .ok "standard" := by decide +kernel

example : fComputeSeparable savArith exampleEnv .sav ⟨3, savVoters, []⟩ { committeesize := 2, resolute := false } = .ok [[0, 1]] := by
  decide +kernel

end Abc
