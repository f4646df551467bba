import Verif.Props.FloatAccuracyRule

/-!
# C94: completion by seq-Phragmén with "float-fractions"
-/

namespace Abc
open Spec

/-! ## Exact loads -/

section exact
variable {p : Profile}

/-- the loads with which the completion by seq-Phragmén starts -/
def Spec.initialLoads (p : Profile) (x : VoterMap p) : VoterMap p := fun i => - x i / (p.voters.get i).weight

theorem weight_startLoads (hp : p.WF) (x : VoterMap p) (i : Fin p.voters.length) :
    (p.voters.get i).weight * initialLoads p x i = - x i := by
  unfold initialLoads
  rw [mul_div_cancel₀ _ (weight_pos hp i).ne']

theorem startLoads_nonpos (hp : p.WF) {x : VoterMap p} (hx : ∀ i, 0 ≤ x i) (i : Fin p.voters.length) : initialLoads p x i ≤ 0 :=
  div_nonpos_of_nonpos_of_nonneg (by have := hx i; linarith) (weight_pos hp i).le

/-- Nobody can pay for the candidate alone, so the load is positive. -/
theorem phase_newLoad_pos (hp : p.WF) {W₀ : List ℕ} {x s : VoterMap p} (hdone : MESDone p W₀ x) (hs : ∀ i, initialLoads p x i ≤ s i) {c : ℕ}
    (hc : c < p.numCand) (hcW : c ∉ W₀) (hn : (backers p c).Nonempty) : 0 < newLoad p s c := by
  have h1 := not_le.1 (hdone c hc hcW)
  have h2 : ∑ i ∈ backers p c, (p.voters.get i).weight * initialLoads p x i ≤ ∑ i ∈ backers p c, (p.voters.get i).weight * s i :=
    Finset.sum_le_sum (fun i _ => mul_le_mul_of_nonneg_left (hs i) (weight_pos hp i).le)
  have h3 : ∑ i ∈ backers p c, (p.voters.get i).weight * initialLoads p x i = - ∑ i ∈ backers p c, x i := by
    rw [← Finset.sum_neg_distrib]
    exact Finset.sum_congr rfl (fun i _ => weight_startLoads hp x i)
  unfold newLoad
  exact div_pos (by linarith) ((wt_backers_pos hp c).2 hn)

/-- The loads never fall below the start loads, and each candidate adds at most 1 to their sum. -/
theorem phase_exact (hp : p.WF) {W₀ : List ℕ} {x : VoterMap p} (hx : ∀ i, 0 ≤ x i) (hdone : MESDone p W₀ x) {V : List ℕ} {s : VoterMap p}
    (h : Run (PhragBest p) (phragUpd p) W₀ (initialLoads p x) V s) :
    (∀ c ∈ W₀, c ∈ V) ∧ (∀ i, initialLoads p x i ≤ s i) ∧
    ∑ i, (p.voters.get i).weight * s i ≤ - ∑ i, x i + ((V.length : ℚ) - W₀.length) := by
  induction h with
  | start =>
    refine ⟨fun c hc => hc, fun _ => le_rfl, ?_⟩
    rw [← Finset.sum_neg_distrib, sub_self, add_zero]
    exact le_of_eq (Finset.sum_congr rfl (fun i _ => weight_startLoads hp x i))
  | @step V s c _ hc ih =>
    obtain ⟨h1, h2, h3⟩ := ih
    obtain ⟨hc1, hc2, -⟩ := hc
    have hcW : c ∉ W₀ := fun h => hc2 (h1 c h)
    refine ⟨fun d hd => by simp [h1 d hd], ?_, ?_⟩
    · intro i
      unfold phragUpd
      split
      · rename_i hi
        exact (startLoads_nonpos hp hx i).trans (phase_newLoad_pos hp hdone h2 hc1 hcW ⟨i, hi⟩).le
      · exact h2 i
    · have hsum : ∑ i, (p.voters.get i).weight * phragUpd p V s c i ≤ ∑ i, (p.voters.get i).weight * s i + 1 := by
        rw [← Finset.sum_add_sum_compl (backers p c), ← Finset.sum_add_sum_compl (backers p c) (fun i => (p.voters.get i).weight * s i)]
        have e1 : ∑ i ∈ (backers p c)ᶜ, (p.voters.get i).weight * phragUpd p V s c i = ∑ i ∈ (backers p c)ᶜ, (p.voters.get i).weight * s i := by
          refine Finset.sum_congr rfl (fun i hi => ?_)
          unfold phragUpd
          rw [if_neg (by simpa using hi)]
        have e2 : ∑ i ∈ backers p c, (p.voters.get i).weight * phragUpd p V s c i ≤ ∑ i ∈ backers p c, (p.voters.get i).weight * s i + 1 := by
          by_cases hn : (backers p c).Nonempty
          · have e3 : ∑ i ∈ backers p c, (p.voters.get i).weight * phragUpd p V s c i = wt p (backers p c) * newLoad p s c := by
              unfold wt
              rw [Finset.sum_mul]
              refine Finset.sum_congr rfl (fun i hi => ?_)
              unfold phragUpd
              rw [if_pos hi]
            rw [e3]
            unfold newLoad
            rw [mul_div_cancel₀ _ ((wt_backers_pos hp c).2 hn).ne']
            linarith
          · rw [Finset.not_nonempty_iff_eq_empty] at hn
            rw [hn]
            simp
        rw [e1]
        linarith
      rw [List.length_append, List.length_singleton]
      push_cast
      linarith

/-- The absolute values of the loads. -/
theorem phase_abs (hp : p.WF) {W₀ : List ℕ} {x : VoterMap p} (hx : ∀ i, 0 ≤ x i) (hdone : MESDone p W₀ x) {V : List ℕ} {s : VoterMap p}
    (h : Run (PhragBest p) (phragUpd p) W₀ (initialLoads p x) V s) :
    ∑ i, (p.voters.get i).weight * |s i| ≤ ∑ i, x i + ((V.length : ℚ) - W₀.length) := by
  obtain ⟨-, h2, h3⟩ := phase_exact hp hx hdone h
  have h4 : ∀ i, (p.voters.get i).weight * |s i| ≤ (p.voters.get i).weight * s i + 2 * x i := by
    intro i
    have e1 := weight_startLoads hp x i
    have e2 := startLoads_nonpos hp hx i
    have e3 : |s i| ≤ s i - 2 * initialLoads p x i := by
      rw [abs_le]
      have := h2 i
      constructor <;> linarith
    have e4 := mul_le_mul_of_nonneg_left e3 (weight_pos hp i).le
    linarith
  have h5 := Finset.sum_le_sum (fun i (_ : i ∈ Finset.univ) => h4 i)
  rw [Finset.sum_add_distrib, ← Finset.mul_sum] at h5
  linarith

end exact

/-! ## The computed loads -/

section
variable {F : Type} {A : Arith F} {p : Profile}

/-- the error of the loads -/
def loadError (A : Arith F) (p : Profile) (y : Fin p.voters.length → F) (s : VoterMap p) (G : Group p) : ℚ :=
  ∑ i ∈ G, (p.voters.get i).weight * |A.val (y i) - s i|

theorem loadError_nonneg (hp : p.WF) (y : Fin p.voters.length → F) (s : VoterMap p) (G : Group p) : 0 ≤ loadError A p y s G :=
  Finset.sum_nonneg (fun i _ => mul_nonneg (weight_pos hp i).le (abs_nonneg _))

theorem loadError_le (hp : p.WF) (y : Fin p.voters.length → F) (s : VoterMap p) (G : Group p) :
    loadError A p y s G ≤ loadError A p y s Finset.univ :=
  Finset.sum_le_univ_sum_of_nonneg (fun i => mul_nonneg (weight_pos hp i).le (abs_nonneg _))

/-- the load computed by the program -/
def fLoad (A : Arith F) (p : Profile) (y : Fin p.voters.length → F) (c : ℕ) : F :=
  A.div (A.add (fApproversLoad A p (List.ofFn y) c) (A.int 1)) (fApproversWeight A p c)

theorem fLoad_close (hA : Sound A) (hS : SignedAccurate A) (hp : p.WF) {k : ℕ} (hm : Moderate p k) (hn : p.voters.length ≤ 10 ^ 6)
    (y : Fin p.voters.length → F) (s : VoterMap p) (Q : ℚ) (hQ : ∑ i, (p.voters.get i).weight * |A.val (y i)| ≤ Q) (c : ℕ)
    (hc : (backers p c).Nonempty) :
    |A.val (fLoad A p y c) - newLoad p s c| * wt p (backers p c) ≤
      loadError A p y s (backers p c) + ((5 * p.voters.length + 14) * Q + 9) / 2 ^ 53 := by
  have hW := val_fApproversWeight hA hm c
  have hpos := (wt_backers_pos hp c).2 hc
  set n : ℚ := (p.voters.length : ℚ) with hnd
  set T := wt p (backers p c) with hT
  -- the products
  set L : List (Fin p.voters.length) := (List.finRange p.voters.length).filter (fun i => decide (c ∈ (p.voters.get i).approved)) with hL
  have hLn : L.Nodup := (List.nodup_finRange _).filter _
  have hLb : L.toFinset = backers p c := by
    ext i
    simp [hL, mem_backers]
  have hLl : L.length ≤ p.voters.length := by
    refine (List.length_filter_le _ _).trans ?_
    rw [List.length_finRange]
  have e1 : fApproversLoad A p (List.ofFn y) c = A.sum (L.map (fun i => A.mul (A.weight (p.voters.get i).weight) (y i))) := by
    unfold fApproversLoad
    rw [zip_ofFn, List.ofFn_eq_map, List.filter_map, List.map_map]
    rfl
  have hterm : ∀ i, |A.val (A.mul (A.weight (p.voters.get i).weight) (y i)) - (p.voters.get i).weight * A.val (y i)| ≤
      4 / 2 ^ 53 * ((p.voters.get i).weight * |A.val (y i)|) := by
    intro i
    have := hS.mul (A.weight (p.voters.get i).weight) (y i)
    rw [hA.val_weight, abs_mul _ (A.val (y i)), abs_of_pos (weight_pos hp i)] at this
    exact this
  set q := ∑ i ∈ backers p c, (p.voters.get i).weight * |A.val (y i)| with hq
  have hqQ : q ≤ Q := le_trans (Finset.sum_le_univ_sum_of_nonneg (fun i => mul_nonneg (weight_pos hp i).le (abs_nonneg _))) hQ
  have hq0 : 0 ≤ q := Finset.sum_nonneg (fun i _ => mul_nonneg (weight_pos hp i).le (abs_nonneg _))
  set P := ∑ i ∈ backers p c, A.val (A.mul (A.weight (p.voters.get i).weight) (y i)) with hP
  set Y := ∑ i ∈ backers p c, (p.voters.get i).weight * A.val (y i) with hY
  set Z := ∑ i ∈ backers p c, (p.voters.get i).weight * s i with hZ
  have hPY : |P - Y| ≤ 4 / 2 ^ 53 * q := by
    rw [hP, hY, ← Finset.sum_sub_distrib, hq, Finset.mul_sum]
    exact (Finset.abs_sum_le_sum_abs _ _).trans (Finset.sum_le_sum (fun i _ => hterm i))
  have hYZ : |Y - Z| ≤ loadError A p y s (backers p c) := by
    rw [hY, hZ, ← Finset.sum_sub_distrib]
    refine (Finset.abs_sum_le_sum_abs _ _).trans (Finset.sum_le_sum (fun i _ => ?_))
    rw [← mul_sub, abs_mul, abs_of_pos (weight_pos hp i)]
  have hYq : |Y| ≤ q := by
    refine (Finset.abs_sum_le_sum_abs _ _).trans (Finset.sum_le_sum (fun i _ => ?_))
    rw [abs_mul, abs_of_pos (weight_pos hp i)]
  have habsP : ∑ i ∈ backers p c, |A.val (A.mul (A.weight (p.voters.get i).weight) (y i))| ≤ (1 + 4 / 2 ^ 53) * q := by
    have : ∀ i ∈ backers p c, |A.val (A.mul (A.weight (p.voters.get i).weight) (y i))| ≤
        (1 + 4 / 2 ^ 53) * ((p.voters.get i).weight * |A.val (y i)|) := by
      intro i _
      have h1 := hterm i
      have h2 := abs_sub_abs_le_abs_sub (A.val (A.mul (A.weight (p.voters.get i).weight) (y i))) ((p.voters.get i).weight * A.val (y i))
      rw [abs_mul _ (A.val (y i)), abs_of_pos (weight_pos hp i)] at h2
      linarith
    rw [hq, Finset.mul_sum]
    exact Finset.sum_le_sum this
  set S := A.val (fApproversLoad A p (List.ofFn y) c) with hSd
  have hnn : (0 : ℚ) ≤ n := by rw [hnd]; positivity
  have hn6 : n ≤ 10 ^ 6 := by rw [hnd]; exact_mod_cast hn
  have hSP : |S - P| ≤ 5 * n / 2 ^ 53 * ((1 + 4 / 2 ^ 53) * q) := by
    have h1 := hS.sum (L.map (fun i => A.mul (A.weight (p.voters.get i).weight) (y i))) (by rw [List.length_map]; omega)
    rw [List.map_map, List.map_map, List.length_map, ← e1, ← List.sum_toFinset _ hLn, ← List.sum_toFinset _ hLn, hLb] at h1
    change |S - P| ≤ _ at h1
    refine h1.trans ?_
    refine mul_le_mul ?_ habsP (Finset.sum_nonneg (fun _ _ => abs_nonneg _)) (by positivity)
    have : (L.length : ℚ) ≤ n := by rw [hnd]; exact_mod_cast hLl
    gcongr
  have hSY : |S - Y| ≤ (5 * n + 5) / 2 ^ 53 * q := by
    have h1 := abs_sub_le S P Y
    have h2 : 5 * (n : ℚ) / 2 ^ 53 * ((1 + 4 / 2 ^ 53) * q) + 4 / 2 ^ 53 * q ≤ (5 * n + 5) / 2 ^ 53 * q := by
      have h3 : 5 * (n : ℚ) * (1 + 4 / 2 ^ 53) + 4 ≤ 5 * n + 5 := by norm_num at hn6 ⊢; linarith
      have h4 := mul_le_mul_of_nonneg_right h3 (show (0 : ℚ) ≤ q / 2 ^ 53 by positivity)
      calc 5 * (n : ℚ) / 2 ^ 53 * ((1 + 4 / 2 ^ 53) * q) + 4 / 2 ^ 53 * q = (5 * (n : ℚ) * (1 + 4 / 2 ^ 53) + 4) * (q / 2 ^ 53) := by ring
        _ ≤ (5 * n + 5) * (q / 2 ^ 53) := h4
        _ = _ := by ring
    linarith
  have hSabs : |S| ≤ 101 / 100 * q := by
    have h1 : |S| ≤ |S - Y| + |Y| := by
      have := abs_add_le (S - Y) Y
      rwa [sub_add_cancel] at this
    have h2 : (5 * (n : ℚ) + 5) / 2 ^ 53 ≤ 1 / 100 := by
      rw [div_le_div_iff₀ (by norm_num) (by norm_num)]
      norm_num at hn6 ⊢
      linarith
    have h3 := mul_le_mul_of_nonneg_right h2 hq0
    linarith
  -- adding 1
  have hadd := hS.add (fApproversLoad A p (List.ofFn y) c) (A.int 1)
  rw [hA.val_int, ← hSd] at hadd
  set X := A.val (A.add (fApproversLoad A p (List.ofFn y) c) (A.int 1)) with hX
  have hX1 : |X - (S + 1)| ≤ 4 / 2 ^ 53 * (101 / 100 * q + 1) := by
    push_cast at hadd
    rw [abs_one] at hadd
    refine hadd.trans ?_
    gcongr
  have hXabs : |X| ≤ 102 / 100 * q + 101 / 100 := by
    have h1 : |X| ≤ |X - (S + 1)| + (|S| + 1) := by
      have := abs_add_le (X - (S + 1)) (S + 1)
      rw [sub_add_cancel] at this
      have h2 := abs_add_le S 1
      rw [abs_one] at h2
      linarith
    norm_num at hX1 ⊢
    linarith
  -- the division
  have hdiv := hS.div (A.add (fApproversLoad A p (List.ofFn y) c) (A.int 1)) (fApproversWeight A p c) (by rw [hW]; exact hpos.ne')
  rw [hW, ← hX] at hdiv
  change |A.val (fLoad A p y c) - X / T| ≤ _ at hdiv
  set g := A.val (fLoad A p y c) with hg
  have hgX : |g * T - X| ≤ 4 / 2 ^ 53 * |X| := by
    have := mul_le_mul_of_nonneg_right hdiv hpos.le
    rw [← abs_of_pos hpos, ← abs_mul, abs_of_pos hpos, sub_mul, div_mul_cancel₀ _ hpos.ne', mul_assoc, abs_div, abs_of_pos hpos,
      div_mul_cancel₀ _ hpos.ne'] at this
    exact this
  have hnew : newLoad p s c * T = 1 + Z := by
    unfold newLoad
    rw [div_mul_cancel₀ _ hpos.ne']
  have e0 : |g - newLoad p s c| * T = |g * T - (1 + Z)| := by
    rw [← hnew, ← sub_mul, abs_mul, abs_of_pos hpos]
  rw [e0]
  have e2 : g * T - (1 + Z) = (g * T - X) + (X - (S + 1)) + (S - Y) + (Y - Z) := by ring
  rw [e2]
  have t1 := abs_add_le ((g * T - X) + (X - (S + 1)) + (S - Y)) (Y - Z)
  have t2 := abs_add_le ((g * T - X) + (X - (S + 1))) (S - Y)
  have t3 := abs_add_le (g * T - X) (X - (S + 1))
  have t4 : 4 / 2 ^ 53 * |X| ≤ 4 / 2 ^ 53 * (102 / 100 * q + 101 / 100) := by gcongr
  have t5 : 4 / 2 ^ 53 * (102 / 100 * q + 101 / 100) + 4 / 2 ^ 53 * (101 / 100 * q + 1) + (5 * n + 5) / 2 ^ 53 * q ≤
      ((5 * n + 14) * q + 9) / 2 ^ 53 := by
    rw [le_div_iff₀ (by norm_num)]
    have : (4 / 2 ^ 53 * (102 / 100 * q + 101 / 100) + 4 / 2 ^ 53 * (101 / 100 * q + 1) + (5 * n + 5) / 2 ^ 53 * q) * 2 ^ 53 =
      4 * (102 / 100 * q + 101 / 100) + 4 * (101 / 100 * q + 1) + (5 * n + 5) * q := by ring
    rw [this]
    linarith
  have t6 : ((5 * (n : ℚ) + 14) * q + 9) / 2 ^ 53 ≤ ((5 * n + 14) * Q + 9) / 2 ^ 53 := by gcongr
  linarith


/-! ## The next candidate -/

/-- Floats and fractions elect the same candidates next if the computed loads are close to the exact ones and the exact ones are well
separated. -/
theorem fPhragBest_iff_close (hA : Sound A) (hAc : Accurate A) (hp : p.WF) {k : ℕ} (hm : Moderate p k) (hk : k ≤ p.numCand)
    {W : List ℕ} {y : Fin p.voters.length → F} {s : VoterMap p} (hW : W.length < k) (hyW : ∀ i, A.val (y i) ≤ W.length)
    (hle : ∀ d < p.numCand, d ∉ W → (backers p d).Nonempty → newLoad p s d ≤ k)
    (hclose : ∀ d < p.numCand, d ∉ W → (backers p d).Nonempty → |A.val (fLoad A p y d) - newLoad p s d| ≤ 4 / 10 ^ 13)
    (hpos' : ∀ d < p.numCand, d ∉ W → (backers p d).Nonempty → 2 / 10 ^ 12 ≤ newLoad p s d)
    (hsep : ∀ c < p.numCand, ∀ d < p.numCand, c ∉ W → d ∉ W → (backers p c).Nonempty → (backers p d).Nonempty →
      newLoad p s c < newLoad p s d → newLoad p s c + 2 * k / 10 ^ 12 ≤ newLoad p s d) (c : ℕ) :
    fPhragBest A p k W (List.ofFn y) c ↔ PhragBest p W s c := by
  have hlk : (W.length : ℚ) + 1 ≤ k := by exact_mod_cast hW
  have hlen : (List.ofFn y).length = p.voters.length := by simp
  have hxl : ∀ z ∈ List.ofFn y, A.val z ≤ W.length := by
    intro z hz
    obtain ⟨i, rfl⟩ := (List.mem_ofFn' _ _).1 hz
    exact hyW i
  have hpos : ∀ d, 0 < A.val (fApproversWeight A p d) ↔ (backers p d).Nonempty := by
    intro d; rw [val_fApproversWeight hA hm d]; exact wt_backers_pos hp d
  set g : ℕ → F := fLoad A p y with hg
  have hgetD : ∀ d < p.numCand, (fNewMaxload A p k W (List.ofFn y)).getD d (A.int 0) =
      if d ∈ W then A.int (k + 2) else if (backers p d).Nonempty then g d else A.int (k + 1) := by
    intro d hd
    rw [fNewMaxload_getD p k W _ d hd]
    simp only [gt_iff_lt, hpos]
    rfl
  have hgle : ∀ d, (backers p d).Nonempty → A.val (g d) ≤ k := fun d hd =>
    (fNewLoad_le hA hm _ hlen W.length (by omega) hxl d ((hpos d).2 hd)).trans hlk
  have hacc : ∀ d < p.numCand, d ∉ W → (backers p d).Nonempty →
      newLoad p s d - 4 / 10 ^ 13 ≤ A.val (g d) ∧ A.val (g d) ≤ newLoad p s d + 4 / 10 ^ 13 ∧ 0 ≤ A.val (g d) := by
    intro d hd hdW hdn
    have h1 := abs_le.1 (hclose d hd hdW hdn)
    have h2 := hpos' d hd hdW hdn
    refine ⟨by linarith [h1.1], by linarith [h1.2], ?_⟩
    norm_num at h1 h2
    linarith [h1.1]
  -- the minimum of the float loads
  have hlen' : (fNewMaxload A p k W (List.ofFn y)).length = p.numCand := by simp [fNewMaxload, Profile.candidates]
  obtain ⟨d0, hd0, hd0W⟩ := exists_not_mem (p := p) (W := W) (by omega)
  have hne : fNewMaxload A p k W (List.ofFn y) ≠ [] := by
    intro h; rw [h] at hlen'; simp at hlen'; omega
  obtain ⟨opt, o1, o2, o3⟩ := minOf_spec (A := A) hne
  have hmem : ∀ d < p.numCand, (fNewMaxload A p k W (List.ofFn y)).getD d (A.int 0) ∈ fNewMaxload A p k W (List.ofFn y) := by
    intro d hd
    rw [List.getD_eq_getElem?_getD, List.getElem?_eq_getElem (by omega), Option.getD_some]
    exact List.getElem_mem _
  obtain ⟨e, he, heq⟩ : ∃ e < p.numCand, (fNewMaxload A p k W (List.ofFn y)).getD e (A.int 0) = opt := by
    obtain ⟨i, hi, he⟩ := List.mem_iff_getElem.1 o2
    refine ⟨i, by omega, ?_⟩
    rw [List.getD_eq_getElem?_getD, List.getElem?_eq_getElem hi, Option.getD_some, he]
  have hbest : fPhragBest A p k W (List.ofFn y) c ↔
      c < p.numCand ∧ A.isclose ((fNewMaxload A p k W (List.ofFn y)).getD c (A.int 0)) opt = true := by
    unfold fPhragBest fPhragTied
    rw [o1]
    constructor
    · rintro ⟨-, tied, h1, h2⟩
      obtain rfl := Except.ok.inj h1
      have := List.mem_filter.1 h2
      exact ⟨by simpa [Profile.candidates] using this.1, this.2⟩
    · rintro ⟨h1, h2⟩
      exact ⟨hW, _, rfl, List.mem_filter.2 ⟨by simpa [Profile.candidates] using h1, h2⟩⟩
  obtain ⟨tied, t1, -, -, t4⟩ := fPhragTied_spec hA hp hm hk W hW (List.ofFn y) hlen hxl
  have hnotW : fPhragBest A p k W (List.ofFn y) c → c ∉ W := by
    rintro ⟨-, t, h1, h2⟩
    rw [t1] at h1
    obtain rfl := Except.ok.inj h1
    exact (t4 c h2).2.1
  have hks : (k : ℚ) ≤ 10 ^ 10 := by exact_mod_cast hm.seats
  have vint : ∀ z : ℤ, A.val (A.int z) = z := hA.val_int
  have hk1 : (1 : ℚ) ≤ k := by
    have : 0 < k := by omega
    exact_mod_cast this
  by_cases hsup : ∃ d < p.numCand, d ∉ W ∧ (backers p d).Nonempty
  · -- some candidate with supporters is left
    obtain ⟨d1, hd1, hd1W, hd1n⟩ := hsup
    have hopt_le : ∀ d < p.numCand, d ∉ W → (backers p d).Nonempty → A.val opt ≤ A.val (g d) := by
      intro d hd hdW hdn
      have := o3 _ (hmem d hd)
      rwa [hgetD d hd, if_neg hdW, if_pos hdn] at this
    have hoptk : A.val opt ≤ k := (hopt_le d1 hd1 hd1W hd1n).trans (hgle d1 hd1n)
    have heW : e ∉ W := by
      intro h
      rw [hgetD e he, if_pos h] at heq
      rw [← heq, vint] at hoptk
      push_cast at hoptk
      linarith
    have hen : (backers p e).Nonempty := by
      by_contra h
      rw [hgetD e he, if_neg heW, if_neg h] at heq
      rw [← heq, vint] at hoptk
      push_cast at hoptk
      linarith
    have hopt : opt = g e := by rw [← heq, hgetD e he, if_neg heW, if_pos hen]
    obtain ⟨e1, e2, e3⟩ := hacc e he heW hen
    rw [hbest]
    constructor
    · rintro ⟨hc, hcl⟩
      have hcW := hnotW (hbest.2 ⟨hc, hcl⟩)
      have hcn : (backers p c).Nonempty := by
        by_contra h
        rw [hgetD c hc, if_neg hcW, if_neg h,
          hA.isclose_far opt (A.int (k + 1)) (by rw [vint]; push_cast; linarith) (by rw [vint]; positivity)
            (by rw [vint]; push_cast; linarith)] at hcl
        exact absurd hcl (by simp)
      refine ⟨hc, hcW, Or.inl ⟨hcn, ?_⟩⟩
      intro d hd hdW hdn
      by_contra hlt
      rw [not_le] at hlt
      have hgap := hsep d hd c hc hdW hcW hdn hcn hlt
      obtain ⟨c1, c2, c3⟩ := hacc c hc hcW hcn
      obtain ⟨f1, f2, f3⟩ := hacc d hd hdW hdn
      have hoptd := hopt_le d hd hdW hdn
      rw [hgetD c hc, if_neg hcW, if_pos hcn] at hcl
      have hmax : max 1 (max (A.val (g c)) (A.val opt)) ≤ k := max_le hk1 (max_le (hgle c hcn) hoptk)
      have hfar : 11 / 10 ^ 13 * max 1 (max (A.val (g c)) (A.val opt)) < |A.val (g c) - A.val opt| := by
        refine lt_of_lt_of_le ?_ (le_abs_self _)
        have h1 : 11 / 10 ^ 13 * max 1 (max (A.val (g c)) (A.val opt)) ≤ 11 / 10 ^ 13 * (k : ℚ) :=
          mul_le_mul_of_nonneg_left hmax (by norm_num)
        refine lt_of_le_of_lt h1 ?_
        norm_num at hgap c1 f2 ⊢
        linarith
      rw [hAc.isclose_false _ _ c3 (by rw [hopt]; exact e3) hfar] at hcl
      exact absurd hcl (by simp)
    · rintro ⟨hc, hcW, h⟩
      rcases h with ⟨hcn, hmin⟩ | h
      · refine ⟨hc, ?_⟩
        rw [hgetD c hc, if_neg hcW, if_pos hcn]
        obtain ⟨c1, c2, c3⟩ := hacc c hc hcW hcn
        have hce := hmin e he heW hen
        have hoc := hopt_le c hc hcW hcn
        rw [hopt] at hoc ⊢
        apply hAc.isclose_true _ _ c3 e3
        rw [abs_of_nonneg (by linarith)]
        have h1 : (1 : ℚ) ≤ max 1 (max (A.val (g c)) (A.val (g e))) := le_max_left _ _
        norm_num at c1 c2 e1 ⊢
        linarith
      · rw [h d1 hd1 hd1W] at hd1n
        exact absurd hd1n (by simp)
  · -- nobody supports the remaining candidates
    have hno : ∀ d < p.numCand, d ∉ W → ¬ (backers p d).Nonempty := fun d hd hdW hdn => hsup ⟨d, hd, hdW, hdn⟩
    have hopt_le : A.val opt ≤ k + 1 := by
      have := o3 _ (hmem d0 hd0)
      rw [hgetD d0 hd0, if_neg hd0W, if_neg (hno d0 hd0 hd0W), vint] at this
      push_cast at this
      exact this
    have heW : e ∉ W := by
      intro h
      rw [hgetD e he, if_pos h] at heq
      rw [← heq, vint] at hopt_le
      push_cast at hopt_le
      linarith
    have hopt : opt = A.int (k + 1) := by rw [← heq, hgetD e he, if_neg heW, if_neg (hno e he heW)]
    constructor
    · intro h
      have hc := (hbest.1 h).1
      exact ⟨hc, hnotW h, Or.inr (fun d hd hdW => Finset.not_nonempty_iff_eq_empty.1 (hno d hd hdW))⟩
    · rintro ⟨hc, hcW, -⟩
      rw [hbest]
      refine ⟨hc, ?_⟩
      rw [hgetD c hc, if_neg hcW, if_neg (hno c hc hcW), hopt]
      exact hA.isclose_refl _

/-! ## The invariant of the completion -/

/-- The error after `j` candidates bought with the budgets and `m` candidates elected by the completion (times 2⁵³). -/
def phaseErrorNat (p : Profile) (k j m : ℕ) : ℕ :=
  j * (10 * p.voters.length + 8 * k + 36) + 13 * k + 4 + m * ((10 * p.voters.length + 28) * (k - j) + 10)

/-- The sizes for which the accumulated error of the completion is below the tolerance of `isclose`. -/
def Spec.FewRoundingsPhase (p : Profile) (k : ℕ) : Prop := k * k * (p.voters.length + 8) ≤ 360

theorem phaseError_small {k : ℕ} (h : FewRoundingsPhase p k) {j m : ℕ} (hjk : j < k) (hm : m ≤ k - j) :
    (phaseErrorNat p k j m : ℚ) / 2 ^ 53 ≤ 4 / 10 ^ 13 := by
  have h1 : phaseErrorNat p k j m ≤ 3600 := by
    unfold phaseErrorNat
    unfold FewRoundingsPhase at h
    set n := p.voters.length
    obtain ⟨d, rfl⟩ : ∃ d, k = j + d := ⟨k - j, by omega⟩
    rw [Nat.add_sub_cancel_left] at hm ⊢
    have hd : 1 ≤ d := by omega
    have h2 := Nat.mul_le_mul_right ((10 * n + 28) * d + 10) hm
    have h3 : j * (10 * n + 8 * (j + d) + 36) + 13 * (j + d) + 4 + d * ((10 * n + 28) * d + 10) ≤ 10 * ((j + d) * (j + d) * (n + 8)) := by
      rcases Nat.eq_zero_or_pos j with rfl | hj
      · nlinarith
      · have e1 : j ≤ j * j := Nat.le_mul_of_pos_right _ hj
        have e2 : j ≤ j * d := Nat.le_mul_of_pos_right _ hd
        have e3 : d ≤ d * d := Nat.le_mul_of_pos_right _ hd
        have e4 : n * j ≤ n * (j * j) := Nat.mul_le_mul_left _ e1
        have e5 : 0 ≤ n * (j * d) := Nat.zero_le _
        nlinarith
    omega
  have h2 : (phaseErrorNat p k j m : ℚ) ≤ 3600 := by exact_mod_cast h1
  rw [div_le_div_iff₀ (by norm_num) (by norm_num)]
  norm_num
  linarith

/-- What floats and exact loads have to do with each other in the completion. -/
structure PhaseRel (A : Arith F) (p : Profile) (k : ℕ) (W₀ : List ℕ) (x : VoterMap p) (V : List ℕ) (load : List F) (s : VoterMap p) :
    Prop where
  run : Run (PhragBest p) (phragUpd p) W₀ (initialLoads p x) V s
  close : ∃ y : Fin p.voters.length → F, load = List.ofFn y ∧ (∀ i, A.val (y i) ≤ V.length) ∧
    loadError A p y s Finset.univ ≤ (phaseErrorNat p k W₀.length (V.length - W₀.length) : ℕ) / 2 ^ 53

/-- The loads of the completion are well separated. -/
structure Spec.LoadsApart (p : Profile) (k : ℕ) (W₀ : List ℕ) (x : VoterMap p) : Prop where
  loads : ∀ V s, Run (PhragBest p) (phragUpd p) W₀ (initialLoads p x) V s → V.length < k →
    ∀ c < p.numCand, ∀ d < p.numCand, c ∉ V → d ∉ V → (backers p c).Nonempty → (backers p d).Nonempty →
      newLoad p s c < newLoad p s d → newLoad p s c + 2 * k / 10 ^ 12 ≤ newLoad p s d
  positive : ∀ V s, Run (PhragBest p) (phragUpd p) W₀ (initialLoads p x) V s → V.length < k →
    ∀ c < p.numCand, c ∉ V → (backers p c).Nonempty → 2 / 10 ^ 12 ≤ newLoad p s c

/-- the assumptions about the start of the completion -/
structure PhaseStart (p : Profile) (k : ℕ) (W₀ : List ℕ) (x : VoterMap p) : Prop where
  nonneg : ∀ i, 0 ≤ x i
  done : MESDone p W₀ x
  sum : ∑ i, x i ≤ (k : ℚ) - W₀.length
  short : W₀.length < k
  few : FewRoundingsPhase p k
  apart : LoadsApart p k W₀ x

theorem prun_length {W₀ : List ℕ} {s₀ : VoterMap p} {V : List ℕ} {s : VoterMap p} (h : Run (PhragBest p) (phragUpd p) W₀ s₀ V s) :
    W₀.length ≤ V.length := by
  induction h with
  | start => exact le_rfl
  | step _ _ ih => rw [List.length_append]; omega

theorem few_voters {k : ℕ} (hk : 1 ≤ k) (h : FewRoundingsPhase p k) : p.voters.length ≤ 352 := by
  unfold FewRoundingsPhase at h
  nlinarith

/-- Every computed load is close to the exact one. -/
theorem phase_load (hA : Sound A) (hS : SignedAccurate A) (hp : p.WF) {k : ℕ} (hm : Moderate p k) {W₀ : List ℕ} {x : VoterMap p}
    (hst : PhaseStart p k W₀ x) {V : List ℕ} {y : Fin p.voters.length → F} {s : VoterMap p}
    (hrun : Run (PhragBest p) (phragUpd p) W₀ (initialLoads p x) V s) (hV : V.length < k)
    (hy : loadError A p y s Finset.univ ≤ (phaseErrorNat p k W₀.length (V.length - W₀.length) : ℕ) / 2 ^ 53) {c : ℕ}
    (hc : (backers p c).Nonempty) :
    |A.val (fLoad A p y c) - newLoad p s c| * wt p (backers p c) ≤
      loadError A p y s (backers p c) + ((10 * p.voters.length + 28) * (k - W₀.length : ℕ) + 10) / 2 ^ 53 := by
  have hlen := prun_length hrun
  have hn := few_voters (p := p) (by have := hst.short; omega) hst.few
  have herr := hy.trans (phaseError_small hst.few hst.short (by omega))
  have habs := phase_abs hp hst.nonneg hst.done hrun
  have hsum := hst.sum
  have hQ : ∑ i, (p.voters.get i).weight * |A.val (y i)| ≤ 2 * ((k : ℚ) - W₀.length) + 4 / 10 ^ 13 := by
    have h1 : ∀ i, (p.voters.get i).weight * |A.val (y i)| ≤ (p.voters.get i).weight * |s i| + (p.voters.get i).weight * |A.val (y i) - s i| := by
      intro i
      rw [← mul_add]
      refine mul_le_mul_of_nonneg_left ?_ (weight_pos hp i).le
      have := abs_add_le (s i) (A.val (y i) - s i)
      rwa [add_sub_cancel] at this
    have h2 := Finset.sum_le_sum (fun i (_ : i ∈ Finset.univ) => h1 i)
    rw [Finset.sum_add_distrib] at h2
    change _ ≤ _ + loadError A p y s Finset.univ at h2
    have h3 : (V.length : ℚ) ≤ k := by exact_mod_cast hV.le
    linarith
  refine (fLoad_close hA hS hp hm (by omega) y s _ hQ c hc).trans ?_
  have hcast : ((k - W₀.length : ℕ) : ℚ) = (k : ℚ) - W₀.length := by
    rw [Nat.cast_sub hst.short.le]
  rw [hcast]
  have hnq : (p.voters.length : ℚ) ≤ 352 := by exact_mod_cast hn
  have : (5 * (p.voters.length : ℚ) + 14) * (2 * ((k : ℚ) - W₀.length) + 4 / 10 ^ 13) + 9 ≤
      (10 * p.voters.length + 28) * ((k : ℚ) - W₀.length) + 10 := by
    have e : (5 * (p.voters.length : ℚ) + 14) * (2 * ((k : ℚ) - W₀.length) + 4 / 10 ^ 13) =
      (10 * p.voters.length + 28) * ((k : ℚ) - W₀.length) + (5 * (p.voters.length : ℚ) + 14) * (4 / 10 ^ 13) := by ring
    rw [e]
    norm_num
    linarith
  gcongr

theorem phase_wt (hp : p.WF) {k : ℕ} (hm : Moderate p k) {c : ℕ} (hc : (backers p c).Nonempty) : 1 ≤ wt p (backers p c) := by
  obtain ⟨i, hi⟩ := hc
  exact (weight_ge_one hp hm i).trans (weight_le_wt hp hi)

theorem phaseError_succ {k j V : ℕ} (hj : j ≤ V) :
    (phaseErrorNat p k j (V - j) : ℚ) / 2 ^ 53 + ((10 * p.voters.length + 28) * (k - j : ℕ) + 10) / 2 ^ 53 =
      (phaseErrorNat p k j (V + 1 - j) : ℚ) / 2 ^ 53 := by
  rw [← add_div]
  congr 1
  have : V + 1 - j = V - j + 1 := by omega
  rw [this]
  unfold phaseErrorNat
  push_cast
  ring

theorem phaseBest_iff (hA : Sound A) (hS : SignedAccurate A) (hAc : Accurate A) (hp : p.WF) {k : ℕ} (hm : Moderate p k)
    (hk : k ≤ p.numCand) {W₀ : List ℕ} {x : VoterMap p} (hst : PhaseStart p k W₀ x) {V : List ℕ} {load : List F} {s : VoterMap p}
    (hR : PhaseRel A p k W₀ x V load s) (hV : V.length < k) (c : ℕ) : fPhragBest A p k V load c ↔ PhragBest p V s c := by
  obtain ⟨hrun, y, rfl, hyV, hy⟩ := hR
  have hlen := prun_length hrun
  have hw := approversAtLeastOne_of_moderate hp hm
  have hlk : (V.length : ℚ) + 1 ≤ k := by exact_mod_cast hV
  refine fPhragBest_iff_close hA hAc hp hm hk hV hyV ?_ ?_ ?_ ?_ c
  · intro d _ _ hdn
    refine (newLoad_le hp hw s V.length (prun_bound hp hw ?_ hrun) d hdn).trans hlk
    intro i
    exact (startLoads_nonpos hp hst.nonneg i).trans (by positivity)
  · intro d _ _ hdn
    have h1 := phase_load hA hS hp hm hst hrun hV hy hdn
    have h2 := loadError_le hp y s (backers p d) (A := A)
    have h3 : |A.val (fLoad A p y d) - newLoad p s d| ≤ |A.val (fLoad A p y d) - newLoad p s d| * wt p (backers p d) :=
      le_mul_of_one_le_right (abs_nonneg _) (phase_wt hp hm hdn)
    have h4 := phaseError_succ (p := p) (k := k) hlen
    have h5 := phaseError_small (m := V.length + 1 - W₀.length) hst.few hst.short (by omega)
    linarith
  · exact fun d hd hdV hdn => hst.apart.positive V s hrun hV d hd hdV hdn
  · exact fun c hc d hd hcV hdV hcn hdn hlt => hst.apart.loads V s hrun hV c hc d hd hcV hdV hcn hdn hlt

theorem phaseRel_step (hA : Sound A) (hS : SignedAccurate A) (hp : p.WF) {k : ℕ} (hm : Moderate p k)
    {W₀ : List ℕ} {x : VoterMap p} (hst : PhaseStart p k W₀ x) {V : List ℕ} {load : List F} {s : VoterMap p}
    (hR : PhaseRel A p k W₀ x V load s) (hV : V.length < k) (c : ℕ) (hc : PhragBest p V s c) :
    PhaseRel A p k W₀ x (V ++ [c]) (fPhragUpd A p k V load c) (phragUpd p V s c) := by
  obtain ⟨hrun, y, rfl, hyV, hy⟩ := hR
  have hlen := prun_length hrun
  have hlen' : (List.ofFn y).length = p.voters.length := by simp
  have hxl : ∀ z ∈ List.ofFn y, A.val z ≤ V.length := by
    intro z hz
    obtain ⟨i, rfl⟩ := (List.mem_ofFn' _ _).1 hz
    exact hyV i
  have hpos : ∀ d, 0 < A.val (fApproversWeight A p d) ↔ (backers p d).Nonempty := by
    intro d; rw [val_fApproversWeight hA hm d]; exact wt_backers_pos hp d
  have hg : (backers p c).Nonempty → (fNewMaxload A p k V (List.ofFn y)).getD c (A.int 0) = fLoad A p y c := by
    intro hn
    rw [fNewMaxload_getD p k V _ c hc.1, if_neg hc.2.1, if_pos ((hpos c).2 hn)]
    rfl
  refine ⟨.step hrun hc, fun i => if i ∈ backers p c then (fNewMaxload A p k V (List.ofFn y)).getD c (A.int 0) else y i, ?_, ?_, ?_⟩
  · unfold fPhragUpd fUpdateLoad
    rw [zipWith_ofFn]
    congr 1
    funext i
    simp only [mem_backers]
  · intro i
    push_cast [List.length_append, List.length_singleton]
    split
    · rename_i hi
      rw [hg ⟨i, hi⟩]
      exact fNewLoad_le hA hm _ hlen' V.length (by omega) hxl c ((hpos c).2 ⟨i, hi⟩)
    · have := hyV i; linarith
  · rw [List.length_append, List.length_singleton, ← phaseError_succ hlen]
    set y' : Fin p.voters.length → F := fun i => if i ∈ backers p c then (fNewMaxload A p k V (List.ofFn y)).getD c (A.int 0) else y i
      with hy'
    have hsplit : ∀ (y : Fin p.voters.length → F) (s : VoterMap p), loadError A p y s Finset.univ =
        loadError A p y s (backers p c) + loadError A p y s (backers p c)ᶜ := by
      intro y s
      unfold loadError
      rw [Finset.sum_add_sum_compl]
    have hout : loadError A p y' (phragUpd p V s c) (backers p c)ᶜ = loadError A p y s (backers p c)ᶜ := by
      unfold loadError
      refine Finset.sum_congr rfl (fun i hi => ?_)
      have hi' : i ∉ backers p c := by simpa using hi
      simp only [hy', phragUpd, if_neg hi']
    by_cases hn : (backers p c).Nonempty
    · have hin : loadError A p y' (phragUpd p V s c) (backers p c) = |A.val (fLoad A p y c) - newLoad p s c| * wt p (backers p c) := by
        unfold loadError wt
        rw [mul_comm, Finset.sum_mul]
        refine Finset.sum_congr rfl (fun i hi => ?_)
        simp only [hy', phragUpd, if_pos hi, hg hn]
      rw [hsplit, hout, hin]
      have h1 := phase_load hA hS hp hm hst hrun hV hy hn
      rw [hsplit] at hy
      linarith
    · rw [Finset.not_nonempty_iff_eq_empty] at hn
      have hin : loadError A p y' (phragUpd p V s c) (backers p c) = loadError A p y s (backers p c) := by
        unfold loadError
        rw [hn]
        simp
      rw [hsplit, hout, hin, ← hsplit]
      have : (0 : ℚ) ≤ ((10 * p.voters.length + 28) * (k - W₀.length : ℕ) + 10) / 2 ^ 53 := by positivity
      linarith

/-- The start of the completion. -/
theorem phaseRel_start (hA : Sound A) (hS : SignedAccurate A) (hp : p.WF) {k : ℕ} (hm : Moderate p k) {W₀ : List ℕ}
    {y : Fin p.voters.length → F} {x : VoterMap p} (hR : MesRel A p k W₀ y x) (hsmall : budgetError p k W₀.length ≤ 4 / 10 ^ 13)
    (hsum : ∑ i, x i ≤ (k : ℚ) - W₀.length) :
    PhaseRel A p k W₀ x W₀ (List.zipWith (fun (v : Voter) b => A.div (A.neg b) (A.weight v.weight)) p.voters (List.ofFn y))
      (initialLoads p x) := by
  refine ⟨.start, fun i => A.div (A.neg (y i)) (A.weight (p.voters.get i).weight), ?_, ?_, ?_⟩
  · rw [zipWith_ofFn]
  · intro i
    have hw := weight_pos hp i
    have h1 := hS.div (A.neg (y i)) (A.weight (p.voters.get i).weight) (by rw [hA.val_weight]; exact hw.ne')
    rw [hA.val_weight, hA.val_neg, neg_div, abs_neg, abs_of_nonneg (div_nonneg (hR.float0 i) hw.le)] at h1
    have h2 := (abs_le.1 h1).2
    have h3 : 0 ≤ A.val (y i) / (p.voters.get i).weight := div_nonneg (hR.float0 i) hw.le
    have h4 : (0 : ℚ) ≤ W₀.length := by positivity
    set d := A.val (y i) / (p.voters.get i).weight with hd
    change A.val (A.div (A.neg (y i)) (A.weight (p.voters.get i).weight)) ≤ _
    set g := A.val (A.div (A.neg (y i)) (A.weight (p.voters.get i).weight)) with hg
    norm_num at h2
    linarith
  · have hterm : ∀ i, (p.voters.get i).weight * |A.val (A.div (A.neg (y i)) (A.weight (p.voters.get i).weight)) - initialLoads p x i| ≤
        4 / 2 ^ 53 * A.val (y i) + |A.val (y i) - x i| := by
      intro i
      have hw := weight_pos hp i
      have h1 := hS.div (A.neg (y i)) (A.weight (p.voters.get i).weight) (by rw [hA.val_weight]; exact hw.ne')
      rw [hA.val_weight, hA.val_neg, neg_div, abs_neg, abs_of_nonneg (div_nonneg (hR.float0 i) hw.le)] at h1
      set w := (p.voters.get i).weight with hwd
      set g := A.val (A.div (A.neg (y i)) (A.weight w)) with hg
      have h2 : w * |g - initialLoads p x i| = |(w * g + A.val (y i)) - (A.val (y i) - x i)| := by
        rw [← abs_of_pos hw, ← abs_mul, abs_of_pos hw, mul_sub, hwd, weight_startLoads hp]
        congr 1
        ring
      have h3 : |w * g + A.val (y i)| ≤ 4 / 2 ^ 53 * A.val (y i) := by
        have e : w * g + A.val (y i) = w * (g - -(A.val (y i) / w)) := by field_simp; ring
        rw [e, abs_mul, abs_of_pos hw]
        refine (mul_le_mul_of_nonneg_left h1 hw.le).trans (le_of_eq ?_)
        field_simp
      rw [h2]
      exact (abs_sub _ _).trans (add_le_add_left h3 _)
    unfold loadError
    refine (Finset.sum_le_sum (fun i _ => hterm i)).trans ?_
    rw [Finset.sum_add_distrib, ← Finset.mul_sum]
    have hy : ∑ i, A.val (y i) ≤ (k : ℚ) + 1 := by
      have h4 : ∑ i, A.val (y i) - ∑ i, x i ≤ ∑ i, |A.val (y i) - x i| := by
        rw [← Finset.sum_sub_distrib]
        exact Finset.sum_le_sum (fun i _ => le_abs_self _)
      have h5 := hR.error
      have h6 : (0 : ℚ) ≤ W₀.length := by positivity
      norm_num at hsmall
      linarith
    have h7 := mul_le_mul_of_nonneg_left hy (show (0 : ℚ) ≤ 4 / 2 ^ 53 by norm_num)
    have h8 := hR.error
    refine (add_le_add h7 h8).trans (le_of_eq ?_)
    unfold budgetError phaseErrorNat
    rw [Nat.sub_self]
    push_cast
    ring

/-! ## The completion -/

theorem runFirst_simulation_from {σ τ : Type} {Best : List ℕ → σ → ℕ → Prop} {upd : List ℕ → σ → ℕ → σ} {Best' : List ℕ → τ → ℕ → Prop}
    {upd' : List ℕ → τ → ℕ → τ} {k : ℕ} {W₀ : List ℕ} {s₀ : σ} {t₀ : τ} (R : List ℕ → σ → τ → Prop) (h0 : R W₀ s₀ t₀)
    (hb : ∀ W s t c, R W s t → W.length < k → (Best W s c ↔ Best' W t c))
    (hs : ∀ W s t c, R W s t → W.length < k → Best W s c → R (W ++ [c]) (upd W s c) (upd' W t c))
    {W : List ℕ} {s : σ} (h : RunFirst Best upd W₀ s₀ W s) (hW : W.length ≤ k) : ∃ t, RunFirst Best' upd' W₀ t₀ W t ∧ R W s t := by
  induction h with
  | start => exact ⟨t₀, .start, h0⟩
  | @step W s c _ hc hd ih =>
    simp only [List.length_append, List.length_singleton] at hW
    obtain ⟨t, h1, h2⟩ := ih (by omega)
    exact ⟨_, .step h1 ((hb W s t c h2 (by omega)).1 hc) (fun d hd' h => hd d hd' ((hb W s t d h2 (by omega)).2 h)),
      hs W s t c h2 (by omega) hc⟩

/-- Floats and fractions complete a committee in the same way. -/
theorem fPhragmenPhase_eq (hA : Sound A) (hS : SignedAccurate A) (hAc : Accurate A) (hp : p.WF) {k : ℕ} (hm : Moderate p k)
    (hk : k ≤ p.numCand) {W₀ : List ℕ} {y : Fin p.voters.length → F} {x : VoterMap p} (hst : PhaseStart p k W₀ x)
    (hR : MesRel A p k W₀ y x) (hsmall : budgetError p k W₀.length ≤ 4 / 10 ^ 13) (r : Bool) :
    fPhragmenPhase A p k r W₀ (List.ofFn y) = phragmenPhase p k r W₀ (List.ofFn x) := by
  have hw := approversAtLeastOne_of_moderate hp hm
  have hR0 := phaseRel_start hA hS hp hm hR hsmall hst.sum
  set l₀ := List.zipWith (fun (v : Voter) b => A.div (A.neg b) (A.weight v.weight)) p.voters (List.ofFn y) with hl₀
  obtain ⟨y₀, hy₀, hy₀W, -⟩ := hR0.close
  have hl : l₀.length = p.voters.length := by rw [hy₀]; simp
  have h0 : ∀ z ∈ l₀, A.val z ≤ W₀.length := by
    intro z hz
    rw [hy₀] at hz
    obtain ⟨i, rfl⟩ := (List.mem_ofFn' _ _).1 hz
    exact hy₀W i
  have h0' : ∀ i, initialLoads p x i ≤ W₀.length := phragmen_start_le hp hst.nonneg W₀.length
  have hbest := fun V load s c (h : PhaseRel A p k W₀ x V load s) (hV : V.length < k) => phaseBest_iff hA hS hAc hp hm hk hst h hV c
  cases r with
  | true =>
    obtain ⟨V', V, z, g1, g2, g3, g4⟩ := fSeqphragmenLoop_spec hA hp hm hk W₀ l₀ hl h0 (k - W₀.length) W₀ W₀ (List.Perm.refl _) l₀
      .start (by have := hst.short; omega)
    obtain ⟨U, s, f1, f2, f3⟩ := phragmenPhase_resolute hp hw k hk W₀ hst.short x hst.nonneg
    have hVk : V.length = k := by have := hst.short; omega
    obtain ⟨t, h4, -⟩ := runFirst_simulation_from (PhaseRel A p k W₀ x) hR0 hbest
      (fun V load s c h hV hc => phaseRel_step hA hS hp hm hst h hV c ((hbest V load s c h hV).1 hc)) g3 hVk.le
    obtain ⟨rfl, -⟩ := h4.unique f1 (by rw [hVk, f2])
    rw [f3]
    unfold fPhragmenPhase
    simp only [if_true]
    unfold fSeqphragmenResolute
    rw [← hl₀, g1]
    simp only [bind, Except.bind, List.map_cons, List.map_nil]
    rw [sortNat_eq_of_perm g2]
  | false =>
    unfold fPhragmenPhase phragmenPhase
    simp only [Bool.false_eq_true, if_false]
    rw [← hl₀, startLoad_eq]
    congr 1
    unfold fSeqphragmenIrresolute seqphragmenIrresolute
    congr 1
    have hss := fPhrag_succSpec hA hp hm hk W₀ l₀ hl h0
    have hss' := phragmen_succSpec hp hw k hk W₀ (initialLoads p x) h0'
    refine universes_simulation (fun (n : List ℕ × List F) (n' : List ℕ × List ℚ) => ∃ V load s, n = (V, load) ∧ n' = (V, List.ofFn s) ∧
      PhaseRel A p k W₀ x V load s ∧ Run (fPhragBest A p k) (fPhragUpd A p k) W₀ l₀ V load ∧ V.length ≤ k) ?_ ?_ ?_ _ _ ?_ ?_ _
    · rintro n n' ⟨V, load, s, rfl, rfl, -⟩; rfl
    · rintro n n' ⟨V, load, s, rfl, rfl, -⟩; rfl
    · rintro n n' ⟨V, load, s, rfl, rfl, hR, hrun, hVk⟩ hf
      have hV : V.length < k := by
        simp only [decide_eq_false_iff_not] at hf
        omega
      obtain ⟨cs, g1, g2, -, -, g5⟩ := hss V load hrun hV
      obtain ⟨cs', g1', g2', -, -, g5'⟩ := hss' V s hR.run hV
      have hcs : cs = cs' := by
        refine eq_of_lt_toFinset g2 g2' ?_
        ext c
        rw [List.mem_toFinset, List.mem_toFinset, g5, g5']
        exact hbest V load s c hR hV
      subst hcs
      refine ⟨_, _, g1, g1', ?_⟩
      rw [List.forall₂_map_left_iff, List.forall₂_map_right_iff, List.forall₂_same]
      intro c hc
      refine ⟨V ++ [c], _, _, rfl, rfl, phaseRel_step hA hS hp hm hst hR hV c ((g5' c).1 hc), .step hrun ((g5 c).1 hc), ?_⟩
      rw [List.length_append, List.length_singleton]
      omega
    · exact List.Forall₂.cons ⟨W₀, l₀, initialLoads p x, rfl, rfl, hR0, .start, hst.short.le⟩ .nil
    · intro n hn
      simp only [List.mem_singleton] at hn
      rw [hn]
      have := hst.short
      simp only [decide_eq_false_iff_not]
      omega

end

/-! ## Small instances are separated -/

section exact
variable {p : Profile}

/-- A load is a fraction; here the loads times the weights have a common denominator. -/
theorem newLoad_fraction_weighted (hw : IntegerWeights p) {D : ℕ} (hD : 0 < D) {s : VoterMap p}
    (hs : ∀ i, ∃ z : ℤ, (p.voters.get i).weight * s i = z / D) (c : ℕ) (hc : 0 < wt p (backers p c)) :
    ∃ (z : ℤ) (n : ℕ), 0 < n ∧ wt p (backers p c) = n ∧ newLoad p s c = z / (D * n) := by
  obtain ⟨n, hn⟩ := wt_integer hw (backers p c)
  obtain ⟨z, hz⟩ := int_sum (x := fun i => (p.voters.get i).weight * s i) hs (backers p c)
  have hn0 : 0 < n := by rw [hn] at hc; exact_mod_cast hc
  refine ⟨D + z, n, hn0, hn, ?_⟩
  have hD' : (D : ℚ) ≠ 0 := by positivity
  have hn' : (n : ℚ) ≠ 0 := by positivity
  unfold newLoad
  rw [hz, hn]
  push_cast
  field_simp

theorem phaseRun_denominator (hp : p.WF) (hw : IntegerWeights p) (T : ℕ) (hT : total p = T) (hT1 : 1 ≤ T) {W₀ : List ℕ}
    {x : VoterMap p} {D₀ : ℕ} (hD0 : 0 < D₀) (hD0T : D₀ ≤ T ^ (W₀.length + 1)) (hx : ∀ i, ∃ z : ℤ, x i = z / D₀) {V : List ℕ} {s : VoterMap p}
    (h : Run (PhragBest p) (phragUpd p) W₀ (initialLoads p x) V s) :
    ∃ D : ℕ, 0 < D ∧ D ≤ T ^ (V.length + 1) ∧ ∀ i, ∃ z : ℤ, (p.voters.get i).weight * s i = z / D := by
  induction h with
  | start =>
    refine ⟨D₀, hD0, hD0T, ?_⟩
    intro i
    obtain ⟨z, hz⟩ := hx i
    refine ⟨-z, ?_⟩
    rw [weight_startLoads hp, hz]
    push_cast
    ring
  | @step V s c _ hc ih =>
    obtain ⟨D, h1, h2, h3⟩ := ih
    have hlen : T ^ ((V ++ [c]).length + 1) = T ^ (V.length + 1) * T := by rw [List.length_append, List.length_singleton, pow_succ]
    by_cases hn : (backers p c).Nonempty
    · have hpos := (wt_backers_pos hp c).2 hn
      obtain ⟨z, n, hn0, g1, g2⟩ := newLoad_fraction_weighted hw h1 h3 c hpos
      have hnT : n ≤ T := by
        have : (n : ℚ) ≤ T := by rw [← g1, ← hT]; exact wt_le_total hp _
        exact_mod_cast this
      refine ⟨D * n, Nat.mul_pos h1 hn0, by rw [hlen]; exact Nat.mul_le_mul h2 hnT, ?_⟩
      intro i
      have hn' : (n : ℚ) ≠ 0 := by positivity
      have hD' : (D : ℚ) ≠ 0 := by positivity
      unfold phragUpd
      split
      · obtain ⟨m, hm⟩ := hw _ (List.get_mem p.voters i)
        refine ⟨m * z, ?_⟩
        rw [g2, hm]
        push_cast
        ring
      · obtain ⟨y, hy⟩ := h3 i
        refine ⟨y * n, ?_⟩
        rw [hy]
        push_cast
        field_simp
    · refine ⟨D, h1, by rw [hlen]; exact h2.trans (Nat.le_mul_of_pos_right _ hT1), ?_⟩
      intro i
      unfold phragUpd
      rw [if_neg (fun hi => hn ⟨i, hi⟩)]
      exact h3 i

theorem loadsApart_of_small (hp : p.WF) (hw : IntegerWeights p) {k : ℕ} (h : 2 * k * total p ^ (k + 2) ≤ 10 ^ 12) {W₀ : List ℕ}
    {x : VoterMap p} (hrun₀ : Run (MESBest p) (mesUpd p) [] (budgetOf p (k / total p)) W₀ x) (hx : ∀ i, 0 ≤ x i)
    (hdone : MESDone p W₀ x) : LoadsApart p k W₀ x := by
  obtain ⟨T, hT⟩ : ∃ T : ℕ, total p = T := wt_integer hw Finset.univ
  have leT : ∀ (L : Group p) (n : ℕ), wt p L = n → n ≤ T := by
    intro L n hn
    have : (n : ℚ) ≤ T := by rw [← hn, ← hT]; exact wt_le_total hp L
    exact_mod_cast this
  rw [hT] at h
  have main : ∀ N : ℕ, 0 < N → N ≤ T ^ (k + 2) → 2 * (k : ℚ) / 10 ^ 12 ≤ 1 / N := by
    intro N h0 hN
    have hq : (0 : ℚ) < N := by exact_mod_cast h0
    rw [div_le_div_iff₀ (by norm_num) hq]
    have h1 : (N : ℚ) ≤ (T : ℚ) ^ (k + 2) := by exact_mod_cast hN
    have h2 := mul_le_mul_of_nonneg_left h1 (show (0 : ℚ) ≤ 2 * k by positivity)
    linarith
  have hT1 : ∀ c, (backers p c).Nonempty → 1 ≤ T := by
    intro c hc
    have hpos := (wt_backers_pos hp c).2 hc
    obtain ⟨n, hn⟩ := wt_integer hw (backers p c)
    have h0 : 0 < n := by rw [hn] at hpos; exact_mod_cast hpos
    have := leT _ n hn
    omega
  constructor
  · intro V s hrun hV c _ d _ _ _ hcn hdn hlt
    obtain ⟨D₀, a1, a2, a3⟩ := mesRun_denominator hp hw T hT (hT1 c hcn) hrun₀
    obtain ⟨D, h1, h2, h3⟩ := phaseRun_denominator hp hw T hT (hT1 c hcn) a1 a2 a3 hrun
    have hDT : D ≤ T ^ k := h2.trans (Nat.pow_le_pow_right (hT1 c hcn) (by omega))
    obtain ⟨z, n, hn0, hn, hz⟩ := newLoad_fraction_weighted hw h1 h3 c ((wt_backers_pos hp c).2 hcn)
    obtain ⟨z', n', hn0', hn', hz'⟩ := newLoad_fraction_weighted hw h1 h3 d ((wt_backers_pos hp d).2 hdn)
    have hnq : (n : ℚ) ≠ 0 := by positivity
    have hnq' : (n' : ℚ) ≠ 0 := by positivity
    have hDq : (D : ℚ) ≠ 0 := by positivity
    have hgap := pos_fraction_gap (a := newLoad p s d - newLoad p s c) (by linarith) (z := z' * n - z * n') (N := D * n * n')
      (Nat.mul_pos (Nat.mul_pos h1 hn0) hn0') (by
        rw [hz, hz']
        push_cast
        field_simp)
    have := main (D * n * n') (Nat.mul_pos (Nat.mul_pos h1 hn0) hn0') (by
      calc D * n * n' ≤ T ^ k * T * T := Nat.mul_le_mul (Nat.mul_le_mul hDT (leT _ n hn)) (leT _ n' hn')
        _ = T ^ (k + 2) := by ring)
    linarith
  · intro V s hrun hV c hc hcV hcn
    obtain ⟨D₀, a1, a2, a3⟩ := mesRun_denominator hp hw T hT (hT1 c hcn) hrun₀
    obtain ⟨D, h1, h2, h3⟩ := phaseRun_denominator hp hw T hT (hT1 c hcn) a1 a2 a3 hrun
    have hDT : D ≤ T ^ k := h2.trans (Nat.pow_le_pow_right (hT1 c hcn) (by omega))
    obtain ⟨z, n, hn0, hn, hz⟩ := newLoad_fraction_weighted hw h1 h3 c ((wt_backers_pos hp c).2 hcn)
    obtain ⟨e1, e2, -⟩ := phase_exact hp hx hdone hrun
    have hpos := phase_newLoad_pos hp hdone e2 hc (fun h => hcV (e1 c h)) hcn
    have hgap := pos_fraction_gap hpos (z := z) (N := D * n) (Nat.mul_pos h1 hn0) (by rw [hz]; push_cast; rfl)
    have h4 := main (D * n) (Nat.mul_pos h1 hn0) (by
      calc D * n ≤ T ^ k * T := Nat.mul_le_mul hDT (leT _ n hn)
        _ = T ^ (k + 1) := by ring
        _ ≤ T ^ (k + 2) := Nat.pow_le_pow_right (hT1 c hcn) (by omega))
    have hk1 : (1 : ℚ) ≤ k := by
      have : 1 ≤ k := by omega
      exact_mod_cast this
    have h5 : (2 : ℚ) / 10 ^ 12 ≤ 2 * (k : ℚ) / 10 ^ 12 := by
      gcongr
      linarith
    linarith

end exact

end Abc
