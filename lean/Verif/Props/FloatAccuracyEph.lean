import Verif.Props.FloatAccuracy
import Verif.Props.Float

/-!
# C76: E Pluribus Hugo with "float-fractions" and with fractions
-/

namespace Abc
open Spec

section
variable {F : Type} {A : Arith F}

theorem foldl_add_near (hAc : Accurate A) (m : ℕ) (l : List (F × ℚ)) (n : ℕ) (acc : F) (q : ℚ) (hn : m ≤ n) (hq : 0 ≤ q)
    (hacc : Near n (A.val acc) q) (hl : ∀ e ∈ l, 0 ≤ e.2 ∧ Near m (A.val e.1) e.2) :
    Near (n + 2 * l.length) (A.val ((l.map Prod.fst).foldl A.add acc)) (q + (l.map Prod.snd).sum) := by
  induction l generalizing n acc q with
  | nil => simpa using hacc
  | cons e l ih =>
    obtain ⟨he0, he⟩ := hl e (by simp)
    have he' := he.mono hn he0
    have h1 := (hAc.add acc e.1 (hacc.nonneg hq) (he.nonneg he0)).trans (hacc.add he')
    have := ih (2 + n) (A.add acc e.1) (q + e.2) (by omega) (by linarith) h1 (fun x hx => hl x (by simp [hx]))
    simp only [List.map_cons, List.sum_cons, List.foldl_cons, List.length_cons]
    rw [← add_assoc, show n + 2 * (l.length + 1) = 2 + n + 2 * l.length by ring]
    exact this

/-- Adding integers is exact. -/
theorem foldl_add_exact (hA : Sound A) (l : List (F × ℤ)) (acc : F) (a : ℤ) (ha : 0 ≤ a) (hacc : A.val acc = a)
    (hl : ∀ e ∈ l, 0 ≤ e.2 ∧ A.val e.1 = e.2) (hs : a + (l.map Prod.snd).sum ≤ 2 ^ 53) :
    A.val ((l.map Prod.fst).foldl A.add acc) = ((a + (l.map Prod.snd).sum : ℤ) : ℚ) := by
  induction l generalizing acc a with
  | nil => simpa using hacc
  | cons e l ih =>
    obtain ⟨he0, he⟩ := hl e (by simp)
    simp only [List.map_cons, List.sum_cons, List.foldl_cons] at hs ⊢
    have hnn : 0 ≤ (l.map Prod.snd).sum := by
      refine List.sum_nonneg ?_
      intro x hx
      obtain ⟨e, he, rfl⟩ := List.mem_map.1 hx
      exact (hl e (by simp [he])).1
    have h1 : A.val (A.add acc e.1) = ((a + e.2 : ℤ) : ℚ) := by
      push_cast
      exact le_antisymm (hA.add_le acc e.1 a e.2 ha he0 (by omega) hacc.le he.le) (hA.add_ge acc e.1 a e.2 ha he0 (by omega) hacc.ge he.ge)
    rw [ih (A.add acc e.1) (a + e.2) (by omega) h1 (fun x hx => hl x (by simp [hx])) (by omega), add_assoc]

/-- The approval scores are exact for integer weights. -/
theorem val_fEphAv (hA : Sound A) {p : Profile} {k : ℕ} (hm : Moderate p k) (c : ℕ) : A.val (fEphAv A p c) = approversWeight p c := by
  set vs := p.voters.filter (fun v => decide (c ∈ v.approved)) with hvs
  obtain ⟨-, h2, h3⟩ := sum_weights_exact hA hm vs List.filter_sublist
  obtain ⟨h4, -⟩ := num_sum hm vs List.filter_sublist
  have e1 : (vs.map (fun v => (A.weight v.weight, v.weight.num))).map Prod.fst = vs.map (fun v => A.weight v.weight) := by
    rw [List.map_map]; rfl
  have e2 : (vs.map (fun v => (A.weight v.weight, v.weight.num))).map Prod.snd = vs.map (fun v => v.weight.num) := by
    rw [List.map_map]; rfl
  have := foldl_add_exact hA (vs.map (fun v => (A.weight v.weight, v.weight.num))) (A.int 0) 0 le_rfl (by rw [hA.val_int]) (by
    intro e he
    obtain ⟨v, hv, rfl⟩ := List.mem_map.1 he
    have := hm.num (List.filter_sublist.subset hv)
    exact ⟨this.2, by simp only; rw [hA.val_weight, this.1]⟩) (by rw [e2, zero_add]; nlinarith)
  rw [e1, e2, zero_add, h4] at this
  exact this

/-- The computed single divisible vote score is accurate. -/
theorem near_fEphSdv (hA : Sound A) (hAc : Accurate A) {p : Profile} (hp : p.WF) (R : List ℕ) (c : ℕ) (hc : c ∈ R) :
    Near (3 + 2 * p.voters.length) (A.val (fEphSdv A p R c)) (ephSdv p R c) ∧ 0 ≤ ephSdv p R c ∧ ephSdv p R c ≤ total p := by
  set vs := p.voters.filter (fun v => decide (c ∈ v.approved)) with hvs
  have hcount : ∀ v ∈ vs, (1 : ℚ) ≤ ((R.filter (fun d => decide (d ∈ v.approved))).length : ℚ) := by
    intro v hv
    have hcv : c ∈ v.approved := by simpa using (List.mem_filter.1 hv).2
    have : 0 < (R.filter (fun d => decide (d ∈ v.approved))).length :=
      List.length_pos_iff.2 (List.ne_nil_of_mem (a := c) (List.mem_filter.2 ⟨hc, by simpa using hcv⟩))
    exact_mod_cast this
  have hw : ∀ v ∈ vs, 0 < v.weight := fun v hv => hp.weight v (List.mem_filter.1 hv).1
  have hnn : 0 ≤ ephSdv p R c := by
    refine List.sum_nonneg ?_
    intro x hx
    obtain ⟨v, hv, rfl⟩ := List.mem_map.1 hx
    exact div_nonneg (hw v hv).le (by have := hcount v hv; linarith)
  refine ⟨?_, hnn, ?_⟩
  · set g : Voter → F × ℚ := fun v => (A.div (A.weight v.weight) (A.int (R.filter (fun d => decide (d ∈ v.approved))).length),
      v.weight / ((R.filter (fun d => decide (d ∈ v.approved))).length : ℚ)) with hg
    have := foldl_add_near hAc 3 (vs.map g) 3 (A.int 0) 0 le_rfl le_rfl (by rw [hA.val_int, Int.cast_zero]; exact near_refl 3 le_rfl) (by
      intro e he
      obtain ⟨v, hv, rfl⟩ := List.mem_map.1 he
      have h1 := hcount v hv
      refine ⟨div_nonneg (hw v hv).le (by linarith), ?_⟩
      have := hAc.div (A.weight v.weight) (A.int (R.filter (fun d => decide (d ∈ v.approved))).length)
        (by rw [hA.val_weight]; exact (hw v hv).le) (by rw [hA.val_int]; push_cast; linarith)
      rw [hA.val_weight, hA.val_int, Int.cast_natCast] at this
      exact this)
    rw [List.map_map, List.map_map, zero_add, List.length_map] at this
    have hlen : vs.length ≤ p.voters.length := List.length_filter_le _ _
    exact Near.mono this (by omega) hnn
  · have h1 : ephSdv p R c ≤ (vs.map Voter.weight).sum := by
      refine List.sum_le_sum ?_
      intro v hv
      exact div_le_self (hw v hv).le (hcount v hv)
    refine h1.trans ?_
    rw [← totalWeight_eq]
    refine List.Sublist.sum_le_sum (List.filter_sublist.map _) ?_
    intro x hx
    obtain ⟨v, hv, rfl⟩ := List.mem_map.1 hx
    exact (hp.weight v hv).le

/-- Different single divisible vote scores differ by at least `2 · 10⁻¹²` times the total weight. -/
def Spec.SdvSeparated (p : Profile) : Prop :=
  ∀ R ⊆ Finset.range p.numCand, ∀ c ∈ R, ∀ d ∈ R, sdv p R c < sdv p R d → sdv p R c + 2 * total p / 10 ^ 12 ≤ sdv p R d

/-- The second smallest number. -/
theorem le_second_val_iff (l : List F) (hl : 2 ≤ l.length) :
    ∃ y, pyGet (l.mergeSort (fun a b => decide (A.val a ≤ A.val b))) 1 = .ok y ∧
      ∀ q, q ≤ A.val y ↔ l.countP (fun z => decide (A.val z < q)) ≤ 1 := by
  set s := l.mergeSort (fun a b => decide (A.val a ≤ A.val b)) with hs
  have hperm : s.Perm l := List.mergeSort_perm _ _
  have hsort : s.Pairwise (fun a b => A.val a ≤ A.val b) := by
    have := List.pairwise_mergeSort (le := fun a b : F => decide (A.val a ≤ A.val b))
      (by intro a b c h1 h2; simp only [decide_eq_true_eq] at h1 h2 ⊢; linarith)
      (by intro a b; simp only [Bool.or_eq_true, decide_eq_true_eq]; exact le_total _ _) l
    simpa using this
  rcases he : s with _ | ⟨a, _ | ⟨b, t⟩⟩
  · rw [he] at hperm; have := hperm.length_eq; simp at this; omega
  · rw [he] at hperm; have := hperm.length_eq; simp at this; omega
  · rw [he] at hperm hsort
    refine ⟨b, rfl, fun q => ?_⟩
    rw [← hperm.countP_eq]
    simp only [List.pairwise_cons, List.mem_cons, forall_eq_or_imp] at hsort
    constructor
    · intro hx
      have ht : t.countP (fun z => decide (A.val z < q)) = 0 := by
        rw [List.countP_eq_zero]
        intro z hz
        have := hsort.2.1 z hz
        simp only [decide_eq_true_eq, not_lt]
        linarith
      rw [List.countP_cons, List.countP_cons, ht]
      have : ¬ A.val b < q := by linarith
      simp only [decide_eq_true_eq, this, if_false]
      split <;> simp
    · intro h
      by_contra hlt
      rw [not_le] at hlt
      have h1 : A.val a < q := by have := hsort.1.1; linarith
      rw [List.countP_cons, List.countP_cons] at h
      simp only [decide_eq_true_eq, h1, hlt, if_true] at h
      omega

theorem countP_map_card {R : List ℕ} (hR : R.Nodup) (f : ℕ → F) (q : ℚ) :
    (R.map f).countP (fun z => decide (A.val z < q)) = (R.toFinset.filter (fun d => A.val (f d) < q)).card := by
  rw [List.countP_map, List.countP_eq_length_filter, ← List.toFinset_card_of_nodup (hR.filter _), List.toFinset_filter]
  congr 1
  refine Finset.filter_congr (fun d _ => ?_)
  simp

/-- Floats and fractions eliminate the same candidates. -/
theorem fEphElim_eq (hA : Sound A) (hAc : Accurate A) {p : Profile} (hp : p.WF) {k : ℕ} (hm : Moderate p k)
    (hfew : p.voters.length ≤ 998) (hsep : SdvSeparated p) (R : List ℕ) (hR : R.Nodup) (hRn : ∀ c ∈ R, c < p.numCand)
    (h2 : 2 ≤ R.length) : fEphElim A p R = ephElim p R := by
  obtain ⟨E, hE, hEsub, -, hEmem⟩ := ephElim_spec p R hR h2
  rw [hE]
  obtain ⟨y, hy, hyi⟩ := le_second_val_iff (A := A) (R.map (fEphSdv A p R)) (by simpa using h2)
  have hRsub : R.toFinset ⊆ Finset.range p.numCand := fun c hc => Finset.mem_range.2 (hRn c (List.mem_toFinset.1 hc))
  set g := fEphSdv A p R with hg
  set s := sdv p R.toFinset with hs
  have hsv : ∀ c, ephSdv p R c = s c := fun c => ephSdv_eq p R hR c
  have hacc : ∀ c ∈ R, s c - 223 / 10 ^ 15 * s c ≤ A.val (g c) ∧ A.val (g c) ≤ s c + 446 / 10 ^ 15 * s c ∧ 0 ≤ A.val (g c) ∧
      0 ≤ s c ∧ s c ≤ total p := by
    intro c hc
    obtain ⟨n1, n2, n3⟩ := near_fEphSdv hA hAc hp R c hc
    rw [hsv] at n1 n2 n3
    have hn' := (n1.mono (n := 2000) (by omega) n2).bounds n2 (by norm_num)
    refine ⟨?_, ?_, n1.nonneg n2, n2, n3⟩
    · refine le_trans ?_ hn'.1
      have : ((2000 : ℕ) : ℚ) / 2 ^ 53 ≤ 223 / 10 ^ 15 := by norm_num
      have := mul_le_mul_of_nonneg_right this n2
      linarith
    · refine hn'.2.trans ?_
      have : 2 * ((2000 : ℕ) : ℚ) / 2 ^ 53 ≤ 446 / 10 ^ 15 := by norm_num
      have := mul_le_mul_of_nonneg_right this n2
      linarith
  have hygt : ∀ q, A.val y < q ↔ 2 ≤ (R.toFinset.filter (fun d => A.val (g d) < q)).card := by
    intro q
    rw [← not_le, hyi q, countP_map_card hR]
    omega
  have hy0 : 0 ≤ A.val y := by
    by_contra h
    rw [not_le, hygt] at h
    obtain ⟨d, hd⟩ := Finset.card_pos.1 (lt_of_lt_of_le (by norm_num) h)
    obtain ⟨h1, h3⟩ := Finset.mem_filter.1 hd
    have := (hacc d (List.mem_toFinset.1 h1)).2.2.1
    linarith
  have hlow : ∀ c ∈ R, (decide (A.val (g c) ≤ A.val y) || A.isclose (g c) y) = true ↔ SdvLow p R.toFinset c := by
    intro c hc
    obtain ⟨c1, c2, c3, c4, c5⟩ := hacc c hc
    rw [Bool.or_eq_true, decide_eq_true_eq]
    constructor
    · intro h
      by_contra hnl
      unfold SdvLow at hnl
      rw [not_le] at hnl
      -- two candidates have a clearly smaller score
      have hT : (1 : ℚ) ≤ total p := by
        obtain ⟨d, hd⟩ := Finset.card_pos.1 (lt_trans one_pos hnl)
        obtain ⟨h1, h3⟩ := Finset.mem_filter.1 hd
        have hpos : 0 < total p := lt_of_lt_of_le (lt_of_le_of_lt (hacc d (List.mem_toFinset.1 h1)).2.2.2.1 h3) c5
        obtain ⟨n, hn⟩ := wt_integer hm.integer (Finset.univ : Group p)
        have hn' : total p = n := hn
        rw [hn'] at hpos ⊢
        have : 0 < n := by exact_mod_cast hpos
        exact_mod_cast this
      have hM : max 1 (A.val (g c)) ≤ total p + 446 / 10 ^ 15 * total p := by
        refine max_le (by linarith) (c2.trans ?_)
        norm_num
        linarith
      have hfar : A.val y < A.val (g c) - 12 / 10 ^ 13 * max 1 (A.val (g c)) := by
        rw [hygt]
        refine le_trans hnl (Finset.card_le_card ?_)
        intro d hd
        obtain ⟨h1, h3⟩ := Finset.mem_filter.1 hd
        have hdR := List.mem_toFinset.1 h1
        obtain ⟨d1, d2, d3, d4, d5⟩ := hacc d hdR
        have hgap := hsep R.toFinset hRsub d h1 c (List.mem_toFinset.2 hc) h3
        refine Finset.mem_filter.2 ⟨h1, ?_⟩
        have hgap' : s d + 2 * total p / 10 ^ 12 ≤ s c := hgap
        clear hd hgap h3
        generalize max 1 (A.val (g c)) = M at hM ⊢
        norm_num at hgap' d2 c1 hM ⊢
        linarith
      have hM1 : 1 ≤ max 1 (A.val (g c)) := le_max_left _ _
      rcases h with h | h
      · norm_num at hfar; linarith
      · have hyc : A.val y ≤ A.val (g c) := by norm_num at hfar; linarith
        rw [hAc.isclose_false (g c) y c3 hy0 ?_] at h
        · exact absurd h (by simp)
        · rw [max_eq_left hyc]
          refine lt_of_lt_of_le ?_ (le_abs_self _)
          norm_num at hfar ⊢
          linarith
    · intro hl
      by_contra hno
      rw [not_or, not_le] at hno
      obtain ⟨h1, h3⟩ := hno
      have hbig : 9 / 10 ^ 13 * A.val (g c) < A.val (g c) - A.val y := by
        by_contra hle
        rw [not_lt] at hle
        apply h3
        apply hAc.isclose_true _ _ c3 hy0
        rw [abs_of_nonneg (by linarith)]
        refine hle.trans (mul_le_mul_of_nonneg_left ?_ (by norm_num))
        exact (le_max_left _ _).trans (le_max_right _ _)
      have hq : A.val y < A.val (g c) - 9 / 10 ^ 13 * A.val (g c) := by linarith
      rw [hygt] at hq
      unfold SdvLow at hl
      have : (R.toFinset.filter (fun d => A.val (g d) < A.val (g c) - 9 / 10 ^ 13 * A.val (g c))).card ≤
          (R.toFinset.filter (fun d => sdv p R.toFinset d < sdv p R.toFinset c)).card := by
        refine Finset.card_le_card ?_
        intro d hd
        obtain ⟨h4, h5⟩ := Finset.mem_filter.1 hd
        obtain ⟨d1, d2, d3, d4, d5⟩ := hacc d (List.mem_toFinset.1 h4)
        refine Finset.mem_filter.2 ⟨h4, ?_⟩
        by_contra hdc
        rw [not_lt] at hdc
        have hdc' : s c ≤ s d := hdc
        norm_num at h5 d1 c2
        nlinarith
      omega
  set low := R.filter (fun c => decide (A.val (g c) ≤ A.val y) || A.isclose (g c) y) with hlowd
  have hlmem : ∀ c, c ∈ low ↔ c ∈ R ∧ SdvLow p R.toFinset c := by
    intro c
    rw [hlowd, List.mem_filter]
    exact and_congr_right (fun hc => hlow c hc)
  have hne : low ≠ [] := by
    have : R ≠ [] := by rintro rfl; simp at h2
    obtain ⟨m, hm, hmin⟩ := Finset.exists_min_image R.toFinset (sdv p R.toFinset)
      (by rwa [List.toFinset_nonempty_iff])
    refine List.ne_nil_of_mem ((hlmem m).2 ⟨List.mem_toFinset.1 hm, ?_⟩)
    unfold SdvLow
    rw [Finset.filter_eq_empty_iff.2]
    · simp
    · intro d hd
      exact not_lt.2 (hmin d hd)
  obtain ⟨m, m1, m2, m3⟩ := minOf_spec (A := A) (l := low.map (fEphAv A p)) (by simpa using hne)
  obtain ⟨e, he, hem⟩ := List.mem_map.1 m2
  have hres : fEphElim A p R = .ok (low.filter (fun c => decide (A.val (fEphAv A p c) ≤ A.val m))) := by
    unfold fEphElim
    rw [← hg, hy]
    simp only [bind, Except.bind, ← hlowd, m1]
  rw [hres]
  congr 1
  have hsub : (low.filter (fun c => decide (A.val (fEphAv A p c) ≤ A.val m))).Sublist R :=
    List.filter_sublist.trans (by rw [hlowd]; exact List.filter_sublist)
  rw [eq_filter_of_sublist hsub hR, eq_filter_of_sublist hEsub hR]
  refine List.filter_congr (fun c _ => ?_)
  rw [decide_eq_decide, hEmem, List.mem_filter, hlmem, decide_eq_true_eq]
  unfold EPHElim
  rw [List.mem_toFinset, and_assoc]
  refine and_congr_right (fun hc => and_congr_right (fun hl => ?_))
  rw [val_fEphAv hA hm]
  constructor
  · intro h d hd hld
    rw [← approversWeight_eq, ← approversWeight_eq]
    have := m3 _ (List.mem_map_of_mem (f := fEphAv A p) ((hlmem d).2 ⟨List.mem_toFinset.1 hd, hld⟩))
    rw [val_fEphAv hA hm] at this
    linarith
  · intro h
    rw [← hem, val_fEphAv hA hm, approversWeight_eq, approversWeight_eq]
    exact h e (List.mem_toFinset.2 ((hlmem e).1 he).1) ((hlmem e).1 he).2

theorem fEphLoop_eq (hA : Sound A) (hAc : Accurate A) {p : Profile} (hp : p.WF) {k : ℕ} (hk : 1 ≤ k) {k' : ℕ} (hm : Moderate p k')
    (hfew : p.voters.length ≤ 998) (hsep : SdvSeparated p) (max : Option ℕ) (fuel : ℕ) (R : List ℕ) (hR : R.Nodup)
    (hRn : ∀ c ∈ R, c < p.numCand) (h2 : 2 ≤ R.length) : fEphLoop A p k max fuel R = ephLoop p k max fuel R := by
  induction fuel generalizing R with
  | zero => rfl
  | succ fuel ih =>
    unfold fEphLoop ephLoop
    rw [fEphElim_eq hA hAc hp hm hfew hsep R hR hRn h2]
    obtain ⟨E, hE, hEsub, -, -⟩ := ephElim_spec p R hR h2
    simp only [hE, bind, Except.bind]
    split
    · rfl
    · rename_i hstop
      apply ih _ (hR.filter _) (fun c hc => hRn c (List.mem_filter.1 hc).1)
      have h1 : (R.filter (fun c => decide (c ∈ E))).length + (R.filter (fun c => decide (c ∉ E))).length = R.length := by
        have := List.length_eq_length_filter_add (l := R) (fun c => decide (c ∈ E))
        simp only [← decide_not] at this
        omega
      rw [← eq_filter_of_sublist hEsub hR] at h1
      omega

/-- C76: E Pluribus Hugo with floats returns the same list as with fractions, whenever different single divisible vote scores are not too
close to each other. -/
theorem C76_eph_separated (hA : Sound A) (hAc : Accurate A) (p : Profile) (hp : p.WF) (iter : List ℕ) (hiter : iter.Perm p.candidates)
    (h2 : 2 ≤ p.numCand) (hm : Moderate p 0) (hfew : p.voters.length ≤ 998) (hsep : SdvSeparated p) (env : Env)
    (float : Except Err (List (List ℕ))) (a a' : Args) (hk : a'.k = a.k) (alg : String) (hex : ExactAlg env alg)
    (hal : prologue env "eph" p a = .ok "float-fractions") (hal' : prologue env "eph" p a' = .ok alg)
    (hr : a'.resolute = a.resolute) (hmax : a'.max = a.max) :
    computeEph env (floatEph A iter p a) iter p a = computeEph env float iter p a' := by
  have hv := validCall_of_prologue hal
  have hlen : iter.length = p.numCand := by rw [hiter.length_eq]; simp [Profile.candidates]
  unfold computeEph floatEph
  rw [hal, hal']
  simp only [bind, Except.bind]
  rw [withFractions_exact hex, withFractions_float, hk,
    show a'.effMax = a.effMax by unfold Args.effMax Args.maxNum; rw [hr, hmax],
    fEphLoop_eq hA hAc hp hv.pos hm hfew hsep]
  · exact hiter.nodup_iff.2 List.nodup_range
  · intro c hc
    have := hiter.mem_iff.1 hc
    simpa [Profile.candidates] using this
  · omega

end

/-! ### Integer weights of small total -/

/-- Integer weights; all numbers up to the number of candidates divide a number `D` such that `D` times the total weight is small. -/
structure Spec.SmallEph (p : Profile) : Prop where
  integer : IntegerWeights p
  scores : ∃ D : ℕ, 0 < D ∧ (∀ j, 1 ≤ j → j ≤ p.numCand → j ∣ D) ∧ 2 * total p * D ≤ 10 ^ 12
  voters : p.voters.length ≤ 998

theorem sdv_fraction {p : Profile} (hw : IntegerWeights p) {D : ℕ} (hD : 0 < D) (hdvd : ∀ j, 1 ≤ j → j ≤ p.numCand → j ∣ D)
    (R : Finset ℕ) (hR : R ⊆ Finset.range p.numCand) (c : ℕ) : ∃ z : ℤ, sdv p R c = z / D := by
  classical
  unfold sdv
  induction backers p c using Finset.induction_on with
  | empty => exact ⟨0, by simp⟩
  | insert i G hi ih =>
    obtain ⟨z, hz⟩ := ih
    obtain ⟨n, hn⟩ := hw _ (List.get_mem p.voters i)
    rw [Finset.sum_insert hi, hz, hn]
    have hcard : (appr p i ∩ R).card ≤ p.numCand := by
      have := Finset.card_le_card ((Finset.inter_subset_right (s₁ := appr p i)).trans hR)
      simpa using this
    have hD' : (D : ℚ) ≠ 0 := by positivity
    rcases Nat.eq_zero_or_pos (appr p i ∩ R).card with h0 | h1
    · exact ⟨z, by rw [h0]; simp⟩
    · obtain ⟨m, hm⟩ := hdvd _ h1 hcard
      refine ⟨n * m + z, ?_⟩
      have hj : (((appr p i ∩ R).card : ℕ) : ℚ) ≠ 0 := by positivity
      have hmq : (D : ℚ) = ((appr p i ∩ R).card : ℚ) * m := by exact_mod_cast hm
      have hm0 : (m : ℚ) ≠ 0 := by
        rintro h
        rw [h, mul_zero] at hmq
        exact hD' hmq
      rw [hmq]
      push_cast
      field_simp

theorem Spec.SmallEph.separated {p : Profile} (h : SmallEph p) : SdvSeparated p := by
  obtain ⟨D, hD, hdvd, hsmall⟩ := h.scores
  intro R hR c _ d _ hlt
  obtain ⟨z, hz⟩ := sdv_fraction h.integer hD hdvd R hR c
  obtain ⟨z', hz'⟩ := sdv_fraction h.integer hD hdvd R hR d
  have hDq : (0 : ℚ) < D := by exact_mod_cast hD
  rw [hz, hz'] at hlt ⊢
  have hlt' : z < z' := by
    have := (div_lt_div_iff_of_pos_right hDq).1 hlt
    exact_mod_cast this
  have h1 : (z : ℚ) + 1 ≤ z' := by exact_mod_cast hlt'
  rw [← sub_nonneg]
  have : 2 * total p / 10 ^ 12 ≤ 1 / D := by
    rw [div_le_div_iff₀ (by norm_num) hDq]
    linarith
  have h2 : (1 : ℚ) / D ≤ z' / D - z / D := by
    rw [← sub_div, div_le_div_iff_of_pos_right hDq]
    linarith
  linarith

theorem Spec.SmallEph.moderate {p : Profile} (hp : p.WF) (h : SmallEph p) : Moderate p 0 := by
  obtain ⟨D, hD, -, hsmall⟩ := h.scores
  refine ⟨h.integer, ?_, by norm_num⟩
  have h0 : 0 ≤ total p := Finset.sum_nonneg (fun i _ => (weight_pos hp i).le)
  have h1 : (1 : ℚ) ≤ D := by exact_mod_cast hD
  norm_num at hsmall ⊢
  nlinarith

/-- C76: for integer weights of small total, E Pluribus Hugo returns the same list with floats and with fractions. -/
theorem C76_eph {F : Type} {A : Arith F} (hA : Sound A) (hAc : Accurate A) (p : Profile) (hp : p.WF) (iter : List ℕ)
    (hiter : iter.Perm p.candidates) (h2 : 2 ≤ p.numCand) (hs : SmallEph p) (env : Env)
    (float : Except Err (List (List ℕ))) (a a' : Args) (hk : a'.k = a.k) (alg : String) (hex : ExactAlg env alg)
    (hal : prologue env "eph" p a = .ok "float-fractions") (hal' : prologue env "eph" p a' = .ok alg)
    (hr : a'.resolute = a.resolute) (hmax : a'.max = a.max) :
    computeEph env (floatEph A iter p a) iter p a = computeEph env float iter p a' :=
  C76_eph_separated hA hAc p hp iter hiter h2 (hs.moderate hp) hs.voters hs.separated env float a a' hk alg hex hal hal' hr hmax

/-! ### `compute` -/

/-- C76: for integer weights of small total, `compute` returns the same list with "float-fractions" and with exact fractions. -/
theorem C76_compute {F : Type} {A : Arith F} (hA : Sound A) (hAc : Accurate A) (ord : List (Voter × F) → List (Voter × F))
    (w : World) (hiter : ∀ l, (w.iter l).Perm l) (hfl : w.float = floatFractions A ord w.iter)
    (p : Profile) (hp : p.WF) (k : ℕ) (ruleId : String)
    (hid : (ruleId = "seqphragmen" ∧ SmallElection p k) ∨ (ruleId = "eph" ∧ SmallEph p ∧ 2 ≤ p.numCand))
    (a a' : Args) (hak : a.k = k) (hak' : a'.k = k) (hr : a'.resolute = a.resolute) (hmax : a'.max = a.max)
    (hal : prologue w.env ruleId p a = .ok "float-fractions") (alg : String) (hal' : prologue w.env ruleId p a' = .ok alg)
    (hex : ExactAlg w.env alg) :
    compute w ruleId p a.committeesize none a.kw = compute w ruleId p a'.committeesize none a'.kw := by
  have hv := validCall_of_prologue hal
  rw [compute_none hal, compute_none hal']
  rcases hid with ⟨rfl, hs⟩ | ⟨rfl, hs, h2⟩
  · change computeSeqphragmen w.env (w.float "seqphragmen" p a) p a = computeSeqphragmen w.env (w.float "seqphragmen" p a') p a'
    rw [hfl]
    have hk1 : 1 ≤ k := hak ▸ hv.pos
    have hk : k ≤ p.numCand := hak ▸ hv.le
    exact C76_seqphragmen_same hA hAc p hp k (hs.moderate hk1) hk hs.roundings (phragSeparated_of_small hp hs.integer k hs.loads)
      w.env _ a a' hak hak' alg hex hal hal' hr hmax
  · change computeEph w.env (w.float "eph" p a) (w.iter p.candidates) p a = computeEph w.env (w.float "eph" p a') (w.iter p.candidates) p a'
    rw [hfl]
    exact C76_eph hA hAc p hp (w.iter p.candidates) (hiter _) h2 hs w.env _ a a' (hak'.trans hak.symm) alg hex hal hal' hr hmax

/-- C76 for Python's arithmetic. -/
theorem C76_python (weight : ℚ → PyNum) (hw : ∀ q, (weight q).val = q) (sum : List PyNum → PyNum)
    (hs : SumSound PyNum.val sum) (hsa : SumAccurate PyNum.val sum) (ord : List (Voter × PyNum) → List (Voter × PyNum))
    (w : World) (hiter : ∀ l, (w.iter l).Perm l) (hfl : w.float = floatFractions (pyArith weight sum) ord w.iter)
    (p : Profile) (hp : p.WF) (k : ℕ) (ruleId : String)
    (hid : (ruleId = "seqphragmen" ∧ SmallElection p k) ∨ (ruleId = "eph" ∧ SmallEph p ∧ 2 ≤ p.numCand))
    (a a' : Args) (hak : a.k = k) (hak' : a'.k = k) (hr : a'.resolute = a.resolute) (hmax : a'.max = a.max)
    (hal : prologue w.env ruleId p a = .ok "float-fractions") (alg : String) (hal' : prologue w.env ruleId p a' = .ok alg)
    (hex : ExactAlg w.env alg) :
    compute w ruleId p a.committeesize none a.kw = compute w ruleId p a'.committeesize none a'.kw :=
  C76_compute (pyArith_sound weight hw sum hs) (pyArith_accurate weight sum hsa) ord w hiter hfl p hp k ruleId hid a a' hak hak' hr hmax
    hal alg hal' hex

/-! ## The tolerance matters -/

/-- A system with floats and exact fractions. -/
def bothEnv : Env := ⟨["float-fractions", "standard-fractions"], fun _ => none, fun _ => none⟩

def bothWorld : World := { floatWorld with env := bothEnv }

/-- Two blocks of voters with very large weights. -/
def bigProfile : Profile := ⟨2, [⟨[0], 2 * 10 ^ 12⟩, ⟨[1], 4 * 10 ^ 12⟩], []⟩

/-- C76 (finding): without a bound on the weights the two algorithms disagree: the loads are closer than the absolute tolerance of
`isclose`, so that candidate 0 is elected although candidate 1 has twice as many voters. -/
theorem C76_large_weights : bigProfile.WF ∧ Moderate bigProfile 1 ∧
    compute bothWorld "seqphragmen" bigProfile 1 none { algorithm := some "float-fractions", resolute := some true } = .ok [[0]] ∧
    compute bothWorld "seqphragmen" bigProfile 1 none { algorithm := some "standard-fractions", resolute := some true } = .ok [[1]] := by
  refine ⟨⟨by decide, by decide, by decide, ?_⟩, ⟨?_, ?_, by norm_num⟩, by decide +kernel, by decide +kernel⟩
  · intro v hv; simp [bigProfile] at hv; rcases hv with rfl | rfl <;> norm_num
  · intro v hv
    simp only [bigProfile, List.mem_cons, List.not_mem_nil, or_false] at hv
    rcases hv with rfl | rfl
    · exact ⟨2 * 10 ^ 12, by norm_num⟩
    · exact ⟨4 * 10 ^ 12, by norm_num⟩
  · rw [← totalWeight_eq]; norm_num [bigProfile, Profile.totalWeight]

/-! ## The hypotheses of C76 are satisfiable -/

theorem smallElection_example : SmallElection exampleProfile 2 :=
  ⟨moderate_example.integer, by rw [← totalWeight_eq]; norm_num [exampleProfile, Profile.totalWeight], by decide⟩

theorem smallEph_example : SmallEph exampleProfile :=
  ⟨moderate_example.integer, ⟨6, by norm_num, by
    intro j h1 h3
    change j ≤ 3 at h3
    interval_cases j <;> decide, by rw [← totalWeight_eq]; norm_num [exampleProfile, Profile.totalWeight]⟩, by decide⟩

example (ruleId : String) (hid : ruleId = "seqphragmen" ∨ ruleId = "eph") :
    compute bothWorld ruleId exampleProfile 2 none { algorithm := some "float-fractions", resolute := some true, max := none } =
      compute bothWorld ruleId exampleProfile 2 none { algorithm := some "standard-fractions", resolute := some true, max := none } := by
  have := C76_python exactWeight exactWeight_val PyNum.runningSum runningSum_sound PyNum.runningSum_accurate id
    bothWorld (fun l => List.Perm.refl l) rfl exampleProfile
    ⟨by decide, by decide, by decide, by intro v hv; simp [exampleProfile] at hv; rcases hv with rfl | rfl <;> norm_num⟩
    2 ruleId (hid.imp (fun h => ⟨h, smallElection_example⟩) (fun h => ⟨h, smallEph_example, by decide⟩))
    { committeesize := 2, algorithm := "float-fractions", resolute := true }
    { committeesize := 2, algorithm := "standard-fractions", resolute := true } (by decide) (by decide) rfl rfl
  exact this (by rcases hid with rfl | rfl <;> decide +kernel) "standard-fractions" (by rcases hid with rfl | rfl <;> decide +kernel) (Or.inl rfl)

end Abc
