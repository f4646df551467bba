import Verif.Props.Float
import Verif.Lemmas.Near

/-!
# C76: when "float-fractions" gives the exact result
-/

namespace Abc
open Spec

/-! ## Two computations that elect the same candidates -/

section
variable {σ τ : Type} {Best : List ℕ → σ → ℕ → Prop} {upd : List ℕ → σ → ℕ → σ} {Best' : List ℕ → τ → ℕ → Prop}
  {upd' : List ℕ → τ → ℕ → τ} {s₀ : σ} {t₀ : τ} {k : ℕ} (R : List ℕ → σ → τ → Prop)

theorem run_simulation (h0 : R [] s₀ t₀)
    (hs : ∀ W s t c, R W s t → W.length < k → Best W s c → Best' W t c ∧ R (W ++ [c]) (upd W s c) (upd' W t c))
    {W : List ℕ} {s : σ} (h : Run Best upd [] s₀ W s) (hW : W.length ≤ k) : ∃ t, Run Best' upd' [] t₀ W t ∧ R W s t := by
  induction h with
  | start => exact ⟨t₀, .start, h0⟩
  | @step W s c _ hc ih =>
    simp only [List.length_append, List.length_singleton] at hW
    obtain ⟨t, h1, h2⟩ := ih (by omega)
    obtain ⟨h3, h4⟩ := hs W s t c h2 (by omega) hc
    exact ⟨_, .step h1 h3, h4⟩

theorem runFirst_simulation (h0 : R [] s₀ t₀)
    (hb : ∀ W s t c, R W s t → W.length < k → (Best W s c ↔ Best' W t c))
    (hs : ∀ W s t c, R W s t → W.length < k → Best W s c → R (W ++ [c]) (upd W s c) (upd' W t c))
    {W : List ℕ} {s : σ} (h : RunFirst Best upd [] s₀ W s) (hW : W.length ≤ k) : ∃ t, RunFirst Best' upd' [] t₀ W t ∧ R W s t := by
  induction h with
  | start => exact ⟨t₀, .start, h0⟩
  | @step W s c _ hc hd ih =>
    simp only [List.length_append, List.length_singleton] at hW
    obtain ⟨t, h1, h2⟩ := ih (by omega)
    exact ⟨_, .step h1 ((hb W s t c h2 (by omega)).1 hc) (fun d hd' h => hd d hd' ((hb W s t d h2 (by omega)).2 h)),
      hs W s t c h2 (by omega) hc⟩

theorem runWinner_simulation (h0 : R [] s₀ t₀)
    (hb : ∀ W s t c, R W s t → W.length < k → (Best W s c ↔ Best' W t c))
    (hs : ∀ W s t c, R W s t → W.length < k → Best W s c → R (W ++ [c]) (upd W s c) (upd' W t c)) :
    RunWinner Best upd s₀ k = RunWinner Best' upd' t₀ k := by
  funext X
  apply propext
  constructor
  · rintro ⟨W, s, h1, h2, h3⟩
    obtain ⟨t, h4, -⟩ := run_simulation R h0 (fun W s t c h hW hc => ⟨(hb W s t c h hW).1 hc, hs W s t c h hW hc⟩) h1 h2.le
    exact ⟨W, t, h4, h2, h3⟩
  · rintro ⟨W, t, h1, h2, h3⟩
    obtain ⟨s, h4, -⟩ := run_simulation (fun W t s => R W s t) h0 (fun W t s c h hW hc =>
      ⟨(hb W s t c h hW).2 hc, hs W s t c h hW ((hb W s t c h hW).2 hc)⟩) h1 h2.le
    exact ⟨W, s, h4, h2, h3⟩

theorem expandLoop_simulation {N N' : Type} (Q : N → N' → Prop) {full : N → Bool} {full' : N' → Bool} {out : N → List ℕ}
    {out' : N' → List ℕ} (hfull : ∀ n n', Q n n' → full n = full' n') (hout : ∀ n n', Q n n' → out n = out' n') (max : Option ℕ)
    {ns : List N} {ns' : List N'} (h : List.Forall₂ Q ns ns') {np : List N} {np' : List N'} (hnp : List.Forall₂ Q np np')
    (hf : ∀ n ∈ np, full n = false) (win : List (List ℕ)) :
    (∃ w, expandLoop full out max ns np win = .inl w ∧ expandLoop full' out' max ns' np' win = .inl w) ∨
    (∃ w l l', expandLoop full out max ns np win = .inr (l, w) ∧ expandLoop full' out' max ns' np' win = .inr (l', w) ∧
      List.Forall₂ Q l l' ∧ ∀ n ∈ l, full n = false) := by
  induction h generalizing np np' win with
  | nil => exact Or.inr ⟨win, np, np', rfl, rfl, hnp, hf⟩
  | @cons n n' ns ns' hn _ ih =>
    unfold expandLoop
    rw [← hfull n n' hn, ← hout n n' hn]
    cases hfn : full n with
    | true =>
      simp only [if_true]
      split
      · exact Or.inl ⟨_, rfl, rfl⟩
      · exact ih hnp hf _
    | false =>
      simp only [Bool.false_eq_true, if_false]
      refine ih (List.rel_append hnp (List.Forall₂.cons hn .nil)) ?_ win
      intro m hm
      rcases List.mem_append.1 hm with hm | hm
      · exact hf m hm
      · rw [List.mem_singleton] at hm; rw [hm]; exact hfn

theorem universes_simulation {N N' : Type} (Q : N → N' → Prop) {full : N → Bool} {full' : N' → Bool} {out : N → List ℕ}
    {out' : N' → List ℕ} {succs : N → Except Err (List N)} {succs' : N' → Except Err (List N')}
    (hfull : ∀ n n', Q n n' → full n = full' n') (hout : ∀ n n', Q n n' → out n = out' n')
    (hsucc : ∀ n n', Q n n' → full n = false → ∃ ns ns', succs n = .ok ns ∧ succs' n' = .ok ns' ∧ List.Forall₂ Q ns ns')
    (max : Option ℕ) (fuel : ℕ) {st : List N} {st' : List N'} (h : List.Forall₂ Q st st') (hf : ∀ n ∈ st, full n = false)
    (win : List (List ℕ)) : universes full out succs max fuel st win = universes full' out' succs' max fuel st' win := by
  induction fuel generalizing st st' win with
  | zero => cases h <;> rfl
  | succ fuel ih =>
    cases h with
    | nil => rfl
    | @cons n n' st st' hn hst =>
      obtain ⟨ns, ns', e1, e2, hns⟩ := hsucc n n' hn (hf n (by simp))
      unfold universes
      simp only [e1, e2, bind, Except.bind]
      rcases expandLoop_simulation Q hfull hout max hns (np := []) (np' := []) .nil (by simp) win with
        ⟨w, g1, g2⟩ | ⟨w, l, l', g1, g2, g3, g4⟩
      · rw [g1, g2]
      · rw [g1, g2]
        refine ih (List.rel_append g3 hst) ?_ w
        intro m hm
        rcases List.mem_append.1 hm with hm | hm
        · exact g4 m hm
        · exact hf m (by simp [hm])

end

section
variable {F : Type} {A : Arith F}

/-! ## seq-Phragmén -/

/-- In every round of the rule, different loads differ by at least `2k · 10⁻¹²`. -/
def Spec.PhragSeparated (p : Profile) (k : ℕ) : Prop :=
  ∀ W x, Run (PhragBest p) (phragUpd p) [] (fun _ => 0) W x → W.length < k →
    ∀ c < p.numCand, ∀ d < p.numCand, c ∉ W → d ∉ W → (backers p c).Nonempty → (backers p d).Nonempty →
      newLoad p x c < newLoad p x d → newLoad p x c + 2 * k / 10 ^ 12 ≤ newLoad p x d

theorem val_fApproversWeight (hA : Sound A) {p : Profile} {k : ℕ} (hm : Moderate p k) (c : ℕ) :
    A.val (fApproversWeight A p c) = wt p (backers p c) := by
  obtain ⟨h1, -, -⟩ := sum_weights_exact hA hm (p.voters.filter (fun v => decide (c ∈ v.approved))) List.filter_sublist
  have h2 := (num_sum hm (p.voters.filter (fun v => decide (c ∈ v.approved))) List.filter_sublist).1
  unfold fApproversWeight
  rw [h1, h2, ← approversWeight_eq]
  rfl

/-- The computed new load is accurate. -/
theorem near_newLoad (hA : Sound A) (hAc : Accurate A) {p : Profile} (hp : p.WF) {k : ℕ} (hm : Moderate p k) (m : ℕ)
    (y : Fin p.voters.length → F) (x : VoterMap p) (h0 : ∀ i, 0 ≤ x i) (h : ∀ i, Near m (A.val (y i)) (x i)) (c : ℕ)
    (hc : (backers p c).Nonempty) :
    Near (m + (2 * p.voters.length + 8)) (A.val (A.div (A.add (fApproversLoad A p (List.ofFn y) c) (A.int 1)) (fApproversWeight A p c)))
      (newLoad p x c) := by
  have hW := val_fApproversWeight hA hm c
  have hpos := (wt_backers_pos hp c).2 hc
  set es := (List.ofFn (fun i : Fin p.voters.length => (p.voters.get i, i))).filter (fun e => decide (c ∈ e.1.approved)) with hes
  have hterm : ∀ e ∈ es, 0 ≤ e.1.weight * x e.2 ∧ Near (m + 3) (A.val (A.mul (A.weight e.1.weight) (y e.2))) (e.1.weight * x e.2) := by
    intro e he
    obtain ⟨i, hi⟩ := (List.mem_ofFn' _ _).1 (List.mem_filter.1 he).1
    have hw : 0 < e.1.weight := by rw [← hi]; exact weight_pos hp i
    have hy := (h e.2).nonneg (h0 e.2)
    refine ⟨mul_nonneg hw.le (h0 _), ?_⟩
    have h1 := hAc.mul (A.weight e.1.weight) (y e.2) (by rw [hA.val_weight]; exact hw.le) hy
    rw [hA.val_weight] at h1
    have h2 := h1.trans ((near_refl 0 hw.le).mul (h e.2) hw.le (h0 e.2))
    rw [show m + 3 = 3 + (0 + m) by ring]
    exact h2
  have hload : Near (m + 3 + 2 * p.voters.length) (A.val (fApproversLoad A p (List.ofFn y) c))
      (∑ i ∈ backers p c, (p.voters.get i).weight * x i) := by
    have e1 : fApproversLoad A p (List.ofFn y) c = A.sum ((es.map (fun e => (A.mul (A.weight e.1.weight) (y e.2),
        e.1.weight * x e.2))).map Prod.fst) := by
      unfold fApproversLoad
      rw [zip_ofFn, hes, List.map_map]
      have : List.ofFn (fun i => (p.voters.get i, y i)) = (List.ofFn (fun i : Fin p.voters.length => (p.voters.get i, i))).map
          (fun e => (e.1, y e.2)) := by rw [List.map_ofFn]; rfl
      rw [this, List.filter_map, List.map_map]
      rfl
    have e2 : ∑ i ∈ backers p c, (p.voters.get i).weight * x i = ((es.map (fun e => (A.mul (A.weight e.1.weight) (y e.2),
        e.1.weight * x e.2))).map Prod.snd).sum := by
      rw [hes, List.map_map, sum_filter_map, List.map_ofFn, List.sum_ofFn]
      unfold backers
      rw [Finset.sum_filter]
      refine Finset.sum_congr rfl (fun i _ => ?_)
      simp only [decide_eq_true_eq, mem_appr, Function.comp]
    have hnn : 0 ≤ ∑ i ∈ backers p c, (p.voters.get i).weight * x i :=
      Finset.sum_nonneg (fun i _ => mul_nonneg (weight_pos hp i).le (h0 i))
    have hlen : es.length ≤ p.voters.length := by
      refine (List.length_filter_le _ _).trans ?_
      simp
    have := hAc.sum (m + 3) (es.map (fun e => (A.mul (A.weight e.1.weight) (y e.2), e.1.weight * x e.2))) (by
      intro e he
      obtain ⟨e', he', rfl⟩ := List.mem_map.1 he
      exact hterm e' he')
    rw [← e1, ← e2, List.length_map] at this
    exact this.mono (by omega) hnn
  have hnn : 0 ≤ ∑ i ∈ backers p c, (p.voters.get i).weight * x i :=
    Finset.sum_nonneg (fun i _ => mul_nonneg (weight_pos hp i).le (h0 i))
  have hadd : Near (2 + (m + 3 + 2 * p.voters.length)) (A.val (A.add (fApproversLoad A p (List.ofFn y) c) (A.int 1)))
      (∑ i ∈ backers p c, (p.voters.get i).weight * x i + 1) := by
    have h1 := hAc.add (fApproversLoad A p (List.ofFn y) c) (A.int 1) (hload.nonneg hnn) (by rw [hA.val_int]; norm_num)
    rw [hA.val_int, Int.cast_one] at h1
    exact h1.trans (hload.add (near_refl _ zero_le_one))
  have hdiv := hAc.div (A.add (fApproversLoad A p (List.ofFn y) c) (A.int 1)) (fApproversWeight A p c) (hadd.nonneg (by linarith))
    (by rw [hW]; exact hpos)
  rw [hW] at hdiv
  have := hdiv.trans (hadd.div (near_refl 0 hpos.le) (by linarith) hpos)
  unfold newLoad
  rw [add_comm (1 : ℚ), show m + (2 * p.voters.length + 8) = 3 + (2 + (m + 3 + 2 * p.voters.length) + 0) by ring]
  exact this

theorem newLoad_nonneg {p : Profile} (hp : p.WF) (x : VoterMap p) (h0 : ∀ i, 0 ≤ x i) (c : ℕ) (hc : (backers p c).Nonempty) :
    0 ≤ newLoad p x c := by
  have hpos := (wt_backers_pos hp c).2 hc
  have hnn : 0 ≤ ∑ i ∈ backers p c, (p.voters.get i).weight * x i :=
    Finset.sum_nonneg (fun i _ => mul_nonneg (weight_pos hp i).le (h0 i))
  exact div_nonneg (by linarith) hpos.le

/-- What floats and exact loads have to do with each other after electing `W`. -/
structure PhragRel (A : Arith F) (p : Profile) (W : List ℕ) (load : List F) (x : VoterMap p) : Prop where
  run : Run (PhragBest p) (phragUpd p) [] (fun _ => 0) W x
  nonneg : ∀ i, 0 ≤ x i
  near : ∃ y : Fin p.voters.length → F, load = List.ofFn y ∧ (∀ i, A.val (y i) ≤ W.length) ∧
    ∀ i, Near (W.length * (2 * p.voters.length + 8)) (A.val (y i)) (x i)

/-- The sizes for which the accumulated relative error is below the tolerance of `isclose`. -/
def Spec.FewRoundings (p : Profile) (k : ℕ) : Prop := k * (2 * p.voters.length + 8) ≤ 2000

theorem approversAtLeastOne_of_moderate {p : Profile} (hp : p.WF) {k : ℕ} (hm : Moderate p k) : ApproversAtLeastOne p := by
  apply approversAtLeastOne_of_weights
  intro v hv
  obtain ⟨n, hn⟩ := hm.integer v hv
  have := hp.weight v hv
  rw [hn] at this ⊢
  have h1 : 0 < n := by exact_mod_cast this
  exact_mod_cast h1

/-- Floats and fractions elect the same candidates next. -/
theorem fPhragBest_iff (hA : Sound A) (hAc : Accurate A) {p : Profile} (hp : p.WF) {k : ℕ} (hm : Moderate p k) (hk : k ≤ p.numCand)
    (hfew : FewRoundings p k) (hsep : PhragSeparated p k) {W : List ℕ} {load : List F} {x : VoterMap p}
    (hR : PhragRel A p W load x) (hW : W.length < k) (c : ℕ) : fPhragBest A p k W load c ↔ PhragBest p W x c := by
  obtain ⟨hrun, h0, y, rfl, hyW, hy⟩ := hR
  have hw := approversAtLeastOne_of_moderate hp hm
  have hlk : (W.length : ℚ) + 1 ≤ k := by exact_mod_cast hW
  have hlen : (List.ofFn y).length = p.voters.length := by simp
  have hxl : ∀ z ∈ List.ofFn y, A.val z ≤ W.length := by
    intro z hz
    obtain ⟨i, rfl⟩ := (List.mem_ofFn' _ _).1 hz
    exact hyW i
  have hpos : ∀ d, 0 < A.val (fApproversWeight A p d) ↔ (backers p d).Nonempty := by
    intro d; rw [val_fApproversWeight hA hm d]; exact wt_backers_pos hp d
  set g : ℕ → F := fun d => A.div (A.add (fApproversLoad A p (List.ofFn y) d) (A.int 1)) (fApproversWeight A p d) with hg
  have hgetD : ∀ d < p.numCand, (fNewMaxload A p k W (List.ofFn y)).getD d (A.int 0) =
      if d ∈ W then A.int (k + 2) else if (backers p d).Nonempty then g d else A.int (k + 1) := by
    intro d hd
    rw [fNewMaxload_getD p k W _ d hd]
    simp only [gt_iff_lt, hpos]
    rfl
  -- accuracy of the new loads
  have hm' : (W.length * (2 * p.voters.length + 8) + (2 * p.voters.length + 8)) ≤ 2000 := by
    have h1 : (W.length + 1) * (2 * p.voters.length + 8) ≤ k * (2 * p.voters.length + 8) := Nat.mul_le_mul_right _ hW
    have h2 : k * (2 * p.voters.length + 8) ≤ 2000 := hfew
    rw [← Nat.succ_mul]
    exact h1.trans h2
  have hgle : ∀ d, (backers p d).Nonempty → A.val (g d) ≤ k := fun d hd =>
    (fNewLoad_le hA hm _ hlen W.length (by omega) hxl d ((hpos d).2 hd)).trans hlk
  have hle : ∀ d, (backers p d).Nonempty → newLoad p x d ≤ k := fun d hd =>
    (newLoad_le hp hw x _ (prun_bound hp hw (by simp) hrun) d hd).trans hlk
  have hacc : ∀ d, (backers p d).Nonempty → newLoad p x d - 222 / 10 ^ 15 * newLoad p x d - 1 / 10 ^ 15 * newLoad p x d ≤ A.val (g d) ∧
      A.val (g d) ≤ newLoad p x d + 446 / 10 ^ 15 * newLoad p x d ∧ 0 ≤ A.val (g d) ∧ 0 ≤ newLoad p x d := by
    intro d hd
    have hn := near_newLoad hA hAc hp hm _ y x h0 hy d hd
    have hnn := newLoad_nonneg hp x h0 d hd
    have hn' := (hn.mono hm' hnn).bounds hnn (by norm_num)
    refine ⟨?_, ?_, hn.nonneg hnn, hnn⟩
    · refine le_trans ?_ hn'.1
      have : ((2000 : ℕ) : ℚ) / 2 ^ 53 ≤ 223 / 10 ^ 15 := by norm_num
      have := mul_le_mul_of_nonneg_right this hnn
      linarith
    · refine hn'.2.trans ?_
      have : 2 * ((2000 : ℕ) : ℚ) / 2 ^ 53 ≤ 446 / 10 ^ 15 := by norm_num
      have := mul_le_mul_of_nonneg_right this hnn
      linarith
  -- the minimum of the float loads
  have hlen' : (fNewMaxload A p k W (List.ofFn y)).length = p.numCand := by simp [fNewMaxload, Profile.candidates]
  obtain ⟨d0, hd0, hd0W⟩ := exists_not_mem (p := p) (W := W) (by omega)
  have hne : fNewMaxload A p k W (List.ofFn y) ≠ [] := by
    intro h; rw [h] at hlen'; simp at hlen'; omega
  obtain ⟨opt, o1, o2, o3⟩ := minOf_spec (A := A) hne
  have hmem : ∀ d < p.numCand, (fNewMaxload A p k W (List.ofFn y)).getD d (A.int 0) ∈ fNewMaxload A p k W (List.ofFn y) := by
    intro d hd
    rw [List.getD_eq_getElem?_getD, List.getElem?_eq_getElem (by omega), Option.getD_some]
    exact List.getElem_mem _
  obtain ⟨e, he, heq⟩ : ∃ e < p.numCand, (fNewMaxload A p k W (List.ofFn y)).getD e (A.int 0) = opt := by
    obtain ⟨i, hi, he⟩ := List.mem_iff_getElem.1 o2
    refine ⟨i, by omega, ?_⟩
    rw [List.getD_eq_getElem?_getD, List.getElem?_eq_getElem hi, Option.getD_some, he]
  have hbest : fPhragBest A p k W (List.ofFn y) c ↔
      c < p.numCand ∧ A.isclose ((fNewMaxload A p k W (List.ofFn y)).getD c (A.int 0)) opt = true := by
    unfold fPhragBest fPhragTied
    rw [o1]
    constructor
    · rintro ⟨-, tied, h1, h2⟩
      obtain rfl := Except.ok.inj h1
      have := List.mem_filter.1 h2
      exact ⟨by simpa [Profile.candidates] using this.1, this.2⟩
    · rintro ⟨h1, h2⟩
      exact ⟨hW, _, rfl, List.mem_filter.2 ⟨by simpa [Profile.candidates] using h1, h2⟩⟩
  obtain ⟨tied, t1, -, -, t4⟩ := fPhragTied_spec hA hp hm hk W hW (List.ofFn y) hlen hxl
  have hnotW : fPhragBest A p k W (List.ofFn y) c → c ∉ W := by
    rintro ⟨-, t, h1, h2⟩
    rw [t1] at h1
    obtain rfl := Except.ok.inj h1
    exact (t4 c h2).2.1
  have hks : (k : ℚ) ≤ 10 ^ 10 := by exact_mod_cast hm.seats
  have vint : ∀ z : ℤ, A.val (A.int z) = z := hA.val_int
  by_cases hsup : ∃ d < p.numCand, d ∉ W ∧ (backers p d).Nonempty
  · -- some candidate with supporters is left
    obtain ⟨d1, hd1, hd1W, hd1n⟩ := hsup
    have hopt_le : ∀ d < p.numCand, d ∉ W → (backers p d).Nonempty → A.val opt ≤ A.val (g d) := by
      intro d hd hdW hdn
      have := o3 _ (hmem d hd)
      rwa [hgetD d hd, if_neg hdW, if_pos hdn] at this
    have hoptk : A.val opt ≤ k := (hopt_le d1 hd1 hd1W hd1n).trans (hgle d1 hd1n)
    -- the minimum is attained by such a candidate
    have heW : e ∉ W := by
      intro h
      rw [hgetD e he, if_pos h] at heq
      rw [← heq, vint] at hoptk
      push_cast at hoptk
      linarith
    have hen : (backers p e).Nonempty := by
      by_contra h
      rw [hgetD e he, if_neg heW, if_neg h] at heq
      rw [← heq, vint] at hoptk
      push_cast at hoptk
      linarith
    have hopt : opt = g e := by rw [← heq, hgetD e he, if_neg heW, if_pos hen]
    obtain ⟨e1, e2, e3, e4⟩ := hacc e hen
    rw [hbest]
    constructor
    · rintro ⟨hc, hclose⟩
      have hcW := hnotW (hbest.2 ⟨hc, hclose⟩)
      have hcn : (backers p c).Nonempty := by
        by_contra h
        rw [hgetD c hc, if_neg hcW, if_neg h,
          hA.isclose_far opt (A.int (k + 1)) (by rw [vint]; push_cast; linarith) (by rw [vint]; positivity)
            (by rw [vint]; push_cast; linarith)] at hclose
        exact absurd hclose (by simp)
      refine ⟨hc, hcW, Or.inl ⟨hcn, ?_⟩⟩
      intro d hd hdW hdn
      by_contra hlt
      rw [not_le] at hlt
      have hgap := hsep W x hrun hW d hd c hc hdW hcW hdn hcn hlt
      obtain ⟨c1, c2, c3, c4⟩ := hacc c hcn
      obtain ⟨f1, f2, f3, f4⟩ := hacc d hdn
      have hoptd := hopt_le d hd hdW hdn
      rw [hgetD c hc, if_neg hcW, if_pos hcn] at hclose
      have hk1 : (1 : ℚ) ≤ k := by
        have : 0 < k := by omega
        exact_mod_cast this
      have hgc := hgle c hcn
      have hlc := hle c hcn
      have hmax : max 1 (max (A.val (g c)) (A.val opt)) ≤ k := max_le hk1 (max_le hgc hoptk)
      have hfar : 11 / 10 ^ 13 * max 1 (max (A.val (g c)) (A.val opt)) < |A.val (g c) - A.val opt| := by
        refine lt_of_lt_of_le ?_ (le_abs_self _)
        have h1 : 11 / 10 ^ 13 * max 1 (max (A.val (g c)) (A.val opt)) ≤ 11 / 10 ^ 13 * (k : ℚ) :=
          mul_le_mul_of_nonneg_left hmax (by norm_num)
        refine lt_of_le_of_lt h1 ?_
        have h2 : newLoad p x d ≤ k := by linarith
        norm_num at hgap c1 f2 ⊢
        linarith
      rw [hAc.isclose_false _ _ c3 (by rw [hopt]; exact e3) hfar] at hclose
      exact absurd hclose (by simp)
    · rintro ⟨hc, hcW, h⟩
      rcases h with ⟨hcn, hmin⟩ | h
      · refine ⟨hc, ?_⟩
        rw [hgetD c hc, if_neg hcW, if_pos hcn]
        obtain ⟨c1, c2, c3, c4⟩ := hacc c hcn
        have hce := hmin e he heW hen
        have hoc := hopt_le c hc hcW hcn
        rw [hopt] at hoc ⊢
        apply hAc.isclose_true _ _ c3 e3
        rw [abs_of_nonneg (by linarith)]
        have h1 : A.val (g c) ≤ max 1 (max (A.val (g c)) (A.val (g e))) := (le_max_left _ _).trans (le_max_right _ _)
        norm_num at c1 c2 e1 ⊢
        linarith
      · rw [h d1 hd1 hd1W] at hd1n
        exact absurd hd1n (by simp)
  · -- nobody supports the remaining candidates
    have hno : ∀ d < p.numCand, d ∉ W → ¬ (backers p d).Nonempty := fun d hd hdW hdn => hsup ⟨d, hd, hdW, hdn⟩
    have hopt_le : A.val opt ≤ k + 1 := by
      have := o3 _ (hmem d0 hd0)
      rw [hgetD d0 hd0, if_neg hd0W, if_neg (hno d0 hd0 hd0W), vint] at this
      push_cast at this
      exact this
    have heW : e ∉ W := by
      intro h
      rw [hgetD e he, if_pos h] at heq
      rw [← heq, vint] at hopt_le
      push_cast at hopt_le
      linarith
    have hopt : opt = A.int (k + 1) := by rw [← heq, hgetD e he, if_neg heW, if_neg (hno e he heW)]
    constructor
    · intro h
      have hc := (hbest.1 h).1
      exact ⟨hc, hnotW h, Or.inr (fun d hd hdW => Finset.not_nonempty_iff_eq_empty.1 (hno d hd hdW))⟩
    · rintro ⟨hc, hcW, -⟩
      rw [hbest]
      refine ⟨hc, ?_⟩
      rw [hgetD c hc, if_neg hcW, if_neg (hno c hc hcW), hopt]
      exact hA.isclose_refl _

theorem phragRel_start (hA : Sound A) (p : Profile) : PhragRel A p [] (fZero A p) (fun _ => 0) := by
  refine ⟨.start, fun _ => le_rfl, fun _ => A.int 0, ?_, ?_, ?_⟩
  · unfold fZero; rw [List.ofFn_const]
  · intro i; simp [hA.val_int]
  · intro i
    simp only [List.length_nil, Nat.zero_mul, hA.val_int, Int.cast_zero]
    exact near_refl 0 le_rfl

theorem phragRel_step (hA : Sound A) (hAc : Accurate A) {p : Profile} (hp : p.WF) {k : ℕ} (hm : Moderate p k) (hk : k ≤ p.numCand)
    {W : List ℕ} {load : List F} {x : VoterMap p} (hR : PhragRel A p W load x) (hW : W.length < k) (c : ℕ)
    (hc : PhragBest p W x c) : PhragRel A p (W ++ [c]) (fPhragUpd A p k W load c) (phragUpd p W x c) := by
  obtain ⟨hrun, h0, y, rfl, hyW, hy⟩ := hR
  have hlen : (List.ofFn y).length = p.voters.length := by simp
  have hxl : ∀ z ∈ List.ofFn y, A.val z ≤ W.length := by
    intro z hz
    obtain ⟨i, rfl⟩ := (List.mem_ofFn' _ _).1 hz
    exact hyW i
  have hpos : ∀ d, 0 < A.val (fApproversWeight A p d) ↔ (backers p d).Nonempty := by
    intro d; rw [val_fApproversWeight hA hm d]; exact wt_backers_pos hp d
  refine ⟨.step hrun hc, ?_, fun i => if i ∈ backers p c then (fNewMaxload A p k W (List.ofFn y)).getD c (A.int 0) else y i, ?_, ?_, ?_⟩
  · intro i
    unfold phragUpd
    split
    · rename_i hi; exact newLoad_nonneg hp x h0 c ⟨i, hi⟩
    · exact h0 i
  · unfold fPhragUpd fUpdateLoad
    rw [zipWith_ofFn]
    congr 1
    funext i
    simp only [mem_backers]
  · intro i
    push_cast [List.length_append, List.length_singleton]
    split
    · rename_i hi
      rw [fNewMaxload_getD p k W _ c hc.1, if_neg hc.2.1, if_pos ((hpos c).2 ⟨i, hi⟩)]
      exact fNewLoad_le hA hm _ hlen W.length (by omega) hxl c ((hpos c).2 ⟨i, hi⟩)
    · have := hyW i; linarith
  · intro i
    have e : (W ++ [c]).length * (2 * p.voters.length + 8) = W.length * (2 * p.voters.length + 8) + (2 * p.voters.length + 8) := by
      rw [List.length_append, List.length_singleton]; ring
    rw [e]
    unfold phragUpd
    by_cases hi : i ∈ backers p c
    · simp only [if_pos hi]
      rw [fNewMaxload_getD p k W _ c hc.1, if_neg hc.2.1, if_pos ((hpos c).2 ⟨i, hi⟩)]
      exact near_newLoad hA hAc hp hm _ y x h0 hy c ⟨i, hi⟩
    · simp only [if_neg hi]
      exact (hy i).mono (Nat.le_add_right _ _) (h0 i)

/-- C76: seq-Phragmén with floats elects exactly the committees of seq-Phragmén if different loads are not too close to each other. -/
theorem C76_seqphragmen_separated (hA : Sound A) (hAc : Accurate A) (p : Profile) (hp : p.WF) (k : ℕ) (hm : Moderate p k)
    (hk : k ≤ p.numCand) (hfew : FewRoundings p k) (hsep : PhragSeparated p k) (env : Env) (a : Args) (hak : a.k = k)
    (hal : prologue env "seqphragmen" p a = .ok "float-fractions") :
    Answers a (computeSeqphragmen env (floatSeqphragmen A p a) p a) (RunWinner (PhragBest p) (phragUpd p) (fun _ => 0) k) := by
  have := float_seqphragmen_answers hA p hp k hm hk env a hak hal
  rwa [runWinner_simulation (PhragRel A p) (phragRel_start hA p)
    (fun W s t c hR hW => fPhragBest_iff hA hAc hp hm hk hfew hsep hR hW c)
    (fun W s t c hR hW hc => phragRel_step hA hAc hp hm hk hR hW c ((fPhragBest_iff hA hAc hp hm hk hfew hsep hR hW c).1 hc))] at this

/-- C76: … and every call returns the same list as with fractions. -/
theorem C76_seqphragmen_same (hA : Sound A) (hAc : Accurate A) (p : Profile) (hp : p.WF) (k : ℕ) (hm : Moderate p k)
    (hk : k ≤ p.numCand) (hfew : FewRoundings p k) (hsep : PhragSeparated p k) (env : Env) (float : Except Err (List (List ℕ)))
    (a a' : Args) (hak : a.k = k) (hak' : a'.k = k) (alg : String) (hex : ExactAlg env alg)
    (hal : prologue env "seqphragmen" p a = .ok "float-fractions") (hal' : prologue env "seqphragmen" p a' = .ok alg)
    (hr : a'.resolute = a.resolute) (hmax : a'.max = a.max) :
    computeSeqphragmen env (floatSeqphragmen A p a) p a = computeSeqphragmen env float p a' := by
  have hw := approversAtLeastOne_of_moderate hp hm
  obtain ⟨z1, z2⟩ := fZero_spec hA p
  cases hra : a.resolute with
  | true =>
    obtain ⟨W, y, h1, h2, h3⟩ := float_seqphragmen_resolute hA p hp k hm hk env a hak hal hra
    obtain ⟨W', x', g1, g2, g3⟩ := C33_seqphragmen_resolute env float p hp hw a' alg hal' hex (hr.trans hra)
    obtain ⟨x, h4, -⟩ := runFirst_simulation (PhragRel A p) (phragRel_start hA p)
      (fun W s t c hR hW => fPhragBest_iff hA hAc hp hm hk hfew hsep hR hW c)
      (fun W s t c hR hW hc => phragRel_step hA hAc hp hm hk hR hW c ((fPhragBest_iff hA hAc hp hm hk hfew hsep hR hW c).1 hc)) h1 h2.le
    obtain ⟨rfl, -⟩ := h4.unique g1 (by rw [h2, g2, hak'])
    rw [h3, g3]
  | false =>
    subst hak
    have e : computeSeqphragmen env (floatSeqphragmen A p a) p a =
        fSeqphragmenIrresolute A p a.k a.maxNum (fZero A p) [] >>= sortedCommittees := by
      unfold computeSeqphragmen floatSeqphragmen
      rw [hal, hra]
      rfl
    have e' : computeSeqphragmen env float p a' = seqphragmenIrresolute p a.k a.maxNum (zeroLoad p) [] >>= sortedCommittees := by
      unfold computeSeqphragmen
      rw [hal']
      simp only [bind, Except.bind]
      rw [withFractions_exact hex, hr, hra, hak', show a'.maxNum = a.maxNum by unfold Args.maxNum; rw [hmax]]
      rfl
    rw [e, e']
    congr 1
    unfold fSeqphragmenIrresolute seqphragmenIrresolute
    congr 1
    have hss := fPhrag_succSpec hA hp hm hk [] (fZero A p) z1 z2
    have hss' := phragmen_succSpec hp hw a.k hk [] (fun _ => 0) (by simp)
    have hv := validCall_of_prologue hal
    refine universes_simulation (fun (n : List ℕ × List F) (n' : List ℕ × List ℚ) => ∃ W load x, n = (W, load) ∧ n' = (W, List.ofFn x) ∧
      PhragRel A p W load x ∧ Run (fPhragBest A p a.k) (fPhragUpd A p a.k) [] (fZero A p) W load ∧ W.length ≤ a.k) ?_ ?_ ?_ _ _ ?_ ?_ _
    · rintro n n' ⟨W, load, x, rfl, rfl, -⟩; rfl
    · rintro n n' ⟨W, load, x, rfl, rfl, -⟩; rfl
    · rintro n n' ⟨W, load, x, rfl, rfl, hR, hrun, hWk⟩ hf
      have hW : W.length < a.k := by
        simp only [decide_eq_false_iff_not] at hf
        omega
      obtain ⟨cs, g1, g2, -, -, g5⟩ := hss W load hrun hW
      obtain ⟨cs', g1', g2', -, -, g5'⟩ := hss' W x hR.run hW
      have hcs : cs = cs' := by
        refine eq_of_lt_toFinset g2 g2' ?_
        ext c
        rw [List.mem_toFinset, List.mem_toFinset, g5, g5']
        exact fPhragBest_iff hA hAc hp hm hk hfew hsep hR hW c
      subst hcs
      refine ⟨_, _, g1, g1', ?_⟩
      rw [List.forall₂_map_left_iff, List.forall₂_map_right_iff, List.forall₂_same]
      intro c hc
      refine ⟨W ++ [c], _, _, rfl, rfl, phragRel_step hA hAc hp hm hk hR hW c ((g5' c).1 hc), .step hrun ((g5 c).1 hc), ?_⟩
      rw [List.length_append, List.length_singleton]
      omega
    · refine List.Forall₂.cons ⟨[], fZero A p, fun _ => 0, rfl, ?_, phragRel_start hA p, .start, by simp⟩ .nil
      rw [zeroLoad_eq]
    · intro n hn
      simp only [List.mem_singleton] at hn
      rw [hn]
      have := hv.pos
      simp only [List.length_nil, decide_eq_false_iff_not]
      omega

/-! ### Small instances are separated -/

theorem int_combination {p : Profile} (hw : IntegerWeights p) {D : ℕ} (hD : 0 < D) {x : VoterMap p}
    (hx : ∀ i, ∃ z : ℤ, x i = z / D) (G : Group p) : ∃ z : ℤ, ∑ i ∈ G, (p.voters.get i).weight * x i = z / D := by
  classical
  induction G using Finset.induction_on with
  | empty => exact ⟨0, by simp⟩
  | insert i G hi ih =>
    obtain ⟨z, hz⟩ := ih
    obtain ⟨y, hy⟩ := hx i
    obtain ⟨n, hn⟩ := hw _ (List.get_mem p.voters i)
    refine ⟨n * y + z, ?_⟩
    rw [Finset.sum_insert hi, hz, hy, hn]
    push_cast
    field_simp

/-- A load is a fraction whose denominator is the product of the denominator so far and the weight of the supporters. -/
theorem newLoad_fraction {p : Profile} (hw : IntegerWeights p) {D : ℕ} (hD : 0 < D) {x : VoterMap p}
    (hx : ∀ i, ∃ z : ℤ, x i = z / D) (c : ℕ) (hc : 0 < wt p (backers p c)) :
    ∃ (z : ℤ) (n : ℕ), wt p (backers p c) = n ∧ newLoad p x c = z / (D * n) := by
  obtain ⟨n, hn⟩ := wt_integer hw (backers p c)
  obtain ⟨z, hz⟩ := int_combination hw hD hx (backers p c)
  refine ⟨D + z, n, hn, ?_⟩
  have hD' : (D : ℚ) ≠ 0 := by positivity
  have hn' : (n : ℚ) ≠ 0 := by rw [← hn]; exact hc.ne'
  unfold newLoad
  rw [hz, hn]
  push_cast
  field_simp

theorem run_denominator {p : Profile} (hp : p.WF) (hw : IntegerWeights p) (T : ℕ) (hT : total p = T) (hT1 : 1 ≤ T) {W : List ℕ}
    {x : VoterMap p} (h : Run (PhragBest p) (phragUpd p) [] (fun _ => 0) W x) :
    ∃ D : ℕ, 0 < D ∧ D ≤ T ^ W.length ∧ ∀ i, ∃ z : ℤ, x i = z / D := by
  induction h with
  | start => exact ⟨1, one_pos, by simp, fun i => ⟨0, by simp⟩⟩
  | @step W x c _ hc ih =>
    obtain ⟨D, h1, h2, h3⟩ := ih
    have hlen : T ^ (W ++ [c]).length = T ^ W.length * T := by rw [List.length_append, List.length_singleton, pow_succ]
    by_cases hn : (backers p c).Nonempty
    · have hpos := (wt_backers_pos hp c).2 hn
      obtain ⟨z, n, g1, g2⟩ := newLoad_fraction hw h1 h3 c hpos
      have hn0 : 0 < n := by rw [g1] at hpos; exact_mod_cast hpos
      have hnT : n ≤ T := by
        have : (n : ℚ) ≤ T := by
          rw [← g1, ← hT]
          exact Finset.sum_le_univ_sum_of_nonneg (fun i => (weight_pos hp i).le)
        exact_mod_cast this
      refine ⟨D * n, Nat.mul_pos h1 hn0, by rw [hlen]; exact Nat.mul_le_mul h2 hnT, ?_⟩
      intro i
      unfold phragUpd
      split
      · exact ⟨z, by rw [g2]; push_cast; rfl⟩
      · obtain ⟨y, hy⟩ := h3 i
        refine ⟨y * n, ?_⟩
        have hn' : (n : ℚ) ≠ 0 := by positivity
        have hD' : (D : ℚ) ≠ 0 := by positivity
        rw [hy]
        push_cast
        field_simp
    · refine ⟨D, h1, by rw [hlen]; exact h2.trans (Nat.le_mul_of_pos_right _ hT1), ?_⟩
      intro i
      unfold phragUpd
      rw [if_neg (fun hi => hn ⟨i, hi⟩)]
      exact h3 i

/-- Different loads differ by at least `T ^ -(k+1)` if the weights are integers of total `T`. -/
theorem phragSeparated_of_small {p : Profile} (hp : p.WF) (hw : IntegerWeights p) (k : ℕ) (h : 2 * k * total p ^ (k + 1) ≤ 10 ^ 12) :
    PhragSeparated p k := by
  intro W x hrun hW c _ d _ _ _ hcn hdn hlt
  obtain ⟨T, hT⟩ : ∃ T : ℕ, total p = T := by
    obtain ⟨n, hn⟩ := wt_integer hw Finset.univ
    exact ⟨n, hn⟩
  have hcp := (wt_backers_pos hp c).2 hcn
  have hdp := (wt_backers_pos hp d).2 hdn
  have le_T : ∀ (e n : ℕ), wt p (backers p e) = n → n ≤ T := by
    intro e n hn
    have : (n : ℚ) ≤ T := by
      rw [← hn, ← hT]
      exact Finset.sum_le_univ_sum_of_nonneg (fun i => (weight_pos hp i).le)
    exact_mod_cast this
  have hT1 : 1 ≤ T := by
    obtain ⟨n, hn⟩ := wt_integer hw (backers p c)
    have := le_T c n hn
    have h0 : 0 < n := by rw [hn] at hcp; exact_mod_cast hcp
    omega
  obtain ⟨D, h1, h2, h3⟩ := run_denominator hp hw T hT hT1 hrun
  obtain ⟨z, n, g1, g2⟩ := newLoad_fraction hw h1 h3 c hcp
  obtain ⟨z', n', g1', g2'⟩ := newLoad_fraction hw h1 h3 d hdp
  have hn0 : 0 < n := by rw [g1] at hcp; exact_mod_cast hcp
  have hn0' : 0 < n' := by rw [g1'] at hdp; exact_mod_cast hdp
  have hDq : (0 : ℚ) < D := by exact_mod_cast h1
  have hnq : (0 : ℚ) < n := by exact_mod_cast hn0
  have hnq' : (0 : ℚ) < n' := by exact_mod_cast hn0'
  have ediff : newLoad p x d - newLoad p x c = ((z' * n - z * n' : ℤ) : ℚ) / (D * n * n' : ℕ) := by
    rw [g2, g2']
    push_cast
    field_simp
  have hq : (0 : ℚ) < (D * n * n' : ℕ) := by exact_mod_cast Nat.mul_pos (Nat.mul_pos h1 hn0) hn0'
  have hz1 : (1 : ℤ) ≤ z' * n - z * n' := by
    have h4 : 0 < ((z' * n - z * n' : ℤ) : ℚ) / (D * n * n' : ℕ) := by rw [← ediff]; linarith
    have h5 := (div_pos_iff_of_pos_right hq).1 h4
    have h6 : (0 : ℤ) < z' * n - z * n' := by exact_mod_cast h5
    omega
  have hden : D * n * n' ≤ T ^ (k + 1) := by
    calc D * n * n' ≤ T ^ W.length * T * T := Nat.mul_le_mul (Nat.mul_le_mul h2 (le_T c n g1)) (le_T d n' g1')
      _ = T ^ (W.length + 2) := by ring
      _ ≤ T ^ (k + 1) := Nat.pow_le_pow_right hT1 (by omega)
  have hdenq : ((D * n * n' : ℕ) : ℚ) ≤ (T : ℚ) ^ (k + 1) := by exact_mod_cast hden
  have hfin : 2 * (k : ℚ) / 10 ^ 12 ≤ ((z' * n - z * n' : ℤ) : ℚ) / (D * n * n' : ℕ) := by
    rw [div_le_div_iff₀ (by norm_num) hq]
    have h7 : (1 : ℚ) ≤ ((z' * n - z * n' : ℤ) : ℚ) := by exact_mod_cast hz1
    calc 2 * (k : ℚ) * (D * n * n' : ℕ) ≤ 2 * k * (T : ℚ) ^ (k + 1) := by gcongr
      _ ≤ 10 ^ 12 := by rw [← hT]; exact h
      _ ≤ _ := by linarith
  linarith [ediff]

/-- Integer weights whose total is so small that rounding errors do not matter. -/
structure Spec.SmallElection (p : Profile) (k : ℕ) : Prop where
  integer : IntegerWeights p
  loads : 2 * k * total p ^ (k + 1) ≤ 10 ^ 12
  roundings : k * (2 * p.voters.length + 8) ≤ 2000

theorem Spec.SmallElection.moderate {p : Profile} {k : ℕ} (hk : 1 ≤ k) (h : SmallElection p k) : Moderate p k := by
  refine ⟨h.integer, ?_, ?_⟩
  · have hk' : (1 : ℚ) ≤ k := by exact_mod_cast hk
    obtain ⟨T, hT⟩ : ∃ T : ℕ, total p = T := by
      obtain ⟨n, hn⟩ := wt_integer h.integer Finset.univ
      exact ⟨n, hn⟩
    have hl := h.loads
    rw [hT] at hl ⊢
    have h1 : (T : ℚ) ≤ (T : ℚ) ^ (k + 1) := by
      have : T ≤ T ^ (k + 1) := Nat.le_self_pow (by omega) T
      exact_mod_cast this
    have h2 : ((k : ℚ) + 1) * T ≤ 2 * k * (T : ℚ) ^ (k + 1) := by
      have : (k : ℚ) + 1 ≤ 2 * k := by linarith
      exact mul_le_mul this h1 (by positivity) (by positivity)
    refine h2.trans (hl.trans (by norm_num))
  · have := h.roundings
    nlinarith

/-- C76: for integer weights of small total, seq-Phragmén with floats elects exactly the committees of seq-Phragmén. -/
theorem C76_seqphragmen (hA : Sound A) (hAc : Accurate A) (p : Profile) (hp : p.WF) (k : ℕ) (hs : SmallElection p k)
    (hk1 : 1 ≤ k) (hk : k ≤ p.numCand) (env : Env) (a : Args) (hak : a.k = k)
    (hal : prologue env "seqphragmen" p a = .ok "float-fractions") :
    Answers a (computeSeqphragmen env (floatSeqphragmen A p a) p a) (RunWinner (PhragBest p) (phragUpd p) (fun _ => 0) k) :=
  C76_seqphragmen_separated hA hAc p hp k (hs.moderate hk1) hk hs.roundings (phragSeparated_of_small hp hs.integer k hs.loads)
    env a hak hal

end

end Abc
