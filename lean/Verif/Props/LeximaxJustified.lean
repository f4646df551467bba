import Verif.Props.Leximax
import Verif.Lemmas.Groups
import Mathlib.Data.Fintype.Pigeonhole

/-!
# leximax-Phragmén satisfies PJR, also with the tolerances of the code
-/

namespace Abc

open Spec

section
variable {p : Profile} {k : ℕ}

/-- A group can share the load of an additional candidate such that nobody exceeds the average load of the group (or the own load). -/
theorem exists_share (hp : p.WF) (G : Group p) (hG : 0 < wt p G) (z : Fin p.voters.length → ℚ) :
    ∃ e : Fin p.voters.length → ℚ, (∀ i, 0 ≤ e i) ∧ (∀ i, e i ≠ 0 → i ∈ G) ∧ ∑ i, (p.voters.get i).weight * e i = 1 ∧
      ∀ i, z i + e i ≤ max (z i) ((∑ i ∈ G, (p.voters.get i).weight * z i + 1) / wt p G) := by
  set t := (∑ i ∈ G, (p.voters.get i).weight * z i + 1) / wt p G with ht
  set f : Fin p.voters.length → ℚ := fun i => if i ∈ G then max 0 (t - z i) else 0 with hf
  have hf0 : ∀ i, 0 ≤ f i := fun i => by
    rw [hf]; dsimp only; split
    · exact le_max_left _ _
    · exact le_rfl
  set F := ∑ i, (p.voters.get i).weight * f i with hF
  have hF1 : 1 ≤ F := by
    have h1 : ∑ i ∈ G, (p.voters.get i).weight * (t - z i) ≤ F := by
      rw [hF, ← Finset.sum_subset (Finset.subset_univ G) (fun i _ hi => by rw [hf]; simp [hi])]
      refine Finset.sum_le_sum fun i hi => mul_le_mul_of_nonneg_left ?_ (weight_pos hp i).le
      rw [hf]; dsimp only
      rw [if_pos hi]
      exact le_max_right _ _
    have h2 : ∑ i ∈ G, (p.voters.get i).weight * (t - z i) = 1 := by
      simp only [mul_sub]
      rw [Finset.sum_sub_distrib, ← Finset.sum_mul]
      change wt p G * t - _ = 1
      rw [ht, mul_div_cancel₀ _ hG.ne']
      ring
    linarith
  have hFpos : 0 < F := by linarith
  refine ⟨fun i => f i / F, fun i => div_nonneg (hf0 i) hFpos.le, fun i hi => ?_, ?_, fun i => ?_⟩
  · by_contra hcon
    exact hi (by dsimp only; rw [hf]; simp [hcon])
  · simp only [← mul_div_assoc]
    rw [← Finset.sum_div, ← hF, div_self hFpos.ne']
  · have h1 : f i / F ≤ f i := div_le_self (hf0 i) hF1
    have h2 : f i ≤ max 0 (t - z i) := by
      rw [hf]; dsimp only; split
      · exact le_rfl
      · exact le_max_left _ _
    have h3 : z i + max 0 (t - z i) = max (z i) t := by
      rw [← max_add_add_left]; congr 1 <;> ring
    dsimp only
    linarith

theorem load_total {A : Finset ℕ} {x : Fin p.voters.length → ℕ → ℚ} (hx : IsLoadDistribution p A x) :
    ∑ i, (p.voters.get i).weight * loadOf p A x i = A.card := by
  unfold loadOf
  simp only [Finset.mul_sum]
  rw [Finset.sum_comm, Finset.sum_congr rfl (fun c hc => hx.one c hc)]
  simp

/-- The load of a group is at most the number of committee members approved by its voters. -/
theorem load_group (hp : p.WF) {A : Finset ℕ} {x : Fin p.voters.length → ℕ → ℚ} (hx : IsLoadDistribution p A x) (G : Group p) :
    ∑ i ∈ G, (p.voters.get i).weight * loadOf p A x i ≤ (G.biUnion (appr p) ∩ A).card := by
  unfold loadOf
  simp only [Finset.mul_sum]
  rw [Finset.sum_comm]
  have h1 : ∀ c ∈ A, ∑ i ∈ G, (p.voters.get i).weight * x i c ≤ if c ∈ G.biUnion (appr p) then 1 else 0 := by
    intro c hc
    split
    · rw [← hx.one c hc]
      exact Finset.sum_le_sum_of_subset_of_nonneg (Finset.subset_univ _)
        (fun i _ _ => mul_nonneg (weight_pos hp i).le (hx.nonneg i c))
    · next h =>
      refine (Finset.sum_eq_zero fun i hi => ?_).le
      by_contra hne
      exact h (Finset.mem_biUnion.2 ⟨i, hi, (hx.approved i c (right_ne_zero_of_mul hne)).1⟩)
  refine (Finset.sum_le_sum h1).trans ?_
  rw [Finset.sum_ite_mem, Finset.sum_const, nsmul_eq_mul, mul_one, Finset.inter_comm]

/-- If a committee violates PJR then exchanging one member relieves a most loaded voter, and nobody else gets a load above the average. -/
theorem exists_relief (hp : p.WF) (hn : p.voters ≠ []) (hk : 0 < k) {A : Finset ℕ} (hA : IsCommittee p k A)
    {x : Fin p.voters.length → ℕ → ℚ} (hx : IsLoadDistribution p A x) {ℓ : ℕ} {G : Group p} {c : ℕ}
    (hℓ : 1 ≤ ℓ) (hwt : (ℓ : ℚ) * (total p / k) ≤ wt p G) (hcA : c ∉ A) (hjoint : ∀ i ∈ G, c ∈ appr p i) (hlt : (G.biUnion (appr p) ∩ A).card < ℓ) :
    ∃ j B y, IsCommittee p k B ∧ IsLoadDistribution p B y ∧ k / total p ≤ loadOf p A x j - 1 / total p ∧
      loadOf p B y j ≤ loadOf p A x j - 1 / total p ∧ ∀ i, loadOf p B y i ≤ max (loadOf p A x i) (k / total p) := by
  have ht := total_pos hp hn
  have hkq : (0 : ℚ) < k := by exact_mod_cast hk
  have hℓq : (1 : ℚ) ≤ ℓ := by exact_mod_cast hℓ
  have hGw : 0 < wt p G := lt_of_lt_of_le (by positivity) hwt
  have hGload : ∑ i ∈ G, (p.voters.get i).weight * loadOf p A x i ≤ ℓ - 1 := by
    have h1 := load_group hp hx G
    have h2 : ((G.biUnion (appr p) ∩ A).card : ℚ) + 1 ≤ ℓ := by exact_mod_cast hlt
    linarith
  have hcn : c < p.numCand := by
    obtain ⟨i, hi⟩ := nonempty_of_wt hGw le_rfl
    exact appr_lt hp (hjoint i hi)
  -- a most loaded voter
  have hne : (Finset.univ : Finset (Fin p.voters.length)).Nonempty := by
    obtain ⟨i, hi⟩ := nonempty_of_wt hGw le_rfl
    exact ⟨i, Finset.mem_univ _⟩
  obtain ⟨j, -, hj⟩ := Finset.exists_max_image Finset.univ (loadOf p A x) hne
  set L := loadOf p A x j with hL
  have hLbig : (k + 1 : ℚ) ≤ L * total p := by
    have h1 := load_total hx
    rw [hA.2, ← Finset.sum_add_sum_compl G] at h1
    have h2 : ∑ i ∈ Gᶜ, (p.voters.get i).weight * loadOf p A x i ≤ (total p - wt p G) * L := by
      have : total p - wt p G = ∑ i ∈ Gᶜ, (p.voters.get i).weight := by
        unfold total wt
        rw [← Finset.sum_add_sum_compl G]; ring
      rw [this, Finset.sum_mul]
      exact Finset.sum_le_sum fun i _ => mul_le_mul_of_nonneg_left (hj i (Finset.mem_univ _)) (weight_pos hp i).le
    have hL0 : 0 ≤ L := hx.load_nonneg j
    have h3 : (total p - wt p G) * L ≤ (total p - ℓ * (total p / k)) * L := mul_le_mul_of_nonneg_right (by linarith) hL0
    have h4 : (k - ℓ + 1 : ℚ) ≤ (total p - ℓ * (total p / k)) * L := by linarith
    have h5 : (total p - ℓ * (total p / k)) * L = (k - ℓ) * (L * total p) / k := by field_simp
    rw [h5, le_div_iff₀ hkq] at h4
    have hX : 0 ≤ L * total p := mul_nonneg hL0 ht.le
    rcases lt_or_ge (ℓ : ℚ) k with hs | hs
    · have hs' : (0 : ℚ) < k - ℓ := by linarith
      have : (k - ℓ : ℚ) * (k + 1) ≤ (k - ℓ) * (L * total p) := by nlinarith
      exact le_of_mul_le_mul_left this hs'
    · exfalso
      have hle : wt p G ≤ total p := wt_le_total hp G
      have : (ℓ : ℚ) * total p ≤ k * total p := by
        have := hwt.trans hle
        rw [← mul_div_assoc, div_le_iff₀ hkq] at this
        linarith
      have h6 : (ℓ : ℚ) ≤ k := le_of_mul_le_mul_right this ht
      have h7 : (ℓ : ℚ) = k := le_antisymm h6 hs
      rw [h7] at h4
      nlinarith
  -- a member causing a large load
  obtain ⟨d, hdA, hd⟩ : ∃ d ∈ A, 1 / total p ≤ x j d := by
    by_contra hcon
    push Not at hcon
    have hAne : A.Nonempty := by rw [← Finset.card_pos, hA.2]; exact hk
    have h1 : L < ∑ d ∈ A, 1 / total p := Finset.sum_lt_sum_of_nonempty hAne hcon
    rw [Finset.sum_const, hA.2, nsmul_eq_mul, mul_one_div, lt_div_iff₀ ht] at h1
    linarith
  set z : Fin p.voters.length → ℚ := fun i => loadOf p A x i - x i d with hz
  obtain ⟨e, he0, heG, he1, hele⟩ := exists_share hp G hGw z
  have hzle : ∀ i, z i ≤ loadOf p A x i := fun i => by
    have := hx.nonneg i d
    rw [hz]; dsimp only; linarith
  have havg : (∑ i ∈ G, (p.voters.get i).weight * z i + 1) / wt p G ≤ k / total p := by
    rw [div_le_div_iff₀ hGw ht]
    have h1 : ∑ i ∈ G, (p.voters.get i).weight * z i + 1 ≤ ℓ := by
      have : ∑ i ∈ G, (p.voters.get i).weight * z i ≤ ∑ i ∈ G, (p.voters.get i).weight * loadOf p A x i :=
        Finset.sum_le_sum fun i _ => mul_le_mul_of_nonneg_left (hzle i) (weight_pos hp i).le
      linarith
    have h2 : (ℓ : ℚ) * total p ≤ k * wt p G := by
      rw [← mul_div_assoc, div_le_iff₀ hkq] at hwt
      linarith
    exact (mul_le_mul_of_nonneg_right h1 ht.le).trans h2
  set y : Fin p.voters.length → ℕ → ℚ := fun i c' => if c' = c then e i else if c' = d then 0 else x i c' with hy
  have hcd : c ≠ d := fun h => hcA (h ▸ hdA)
  have hload : ∀ i, loadOf p (insert c (A.erase d)) y i = z i + e i := by
    intro i
    unfold loadOf
    rw [Finset.sum_insert (fun h => hcA (Finset.mem_of_mem_erase h))]
    have h1 : ∑ c' ∈ A.erase d, y i c' = ∑ c' ∈ A.erase d, x i c' := by
      refine Finset.sum_congr rfl fun c' hc' => ?_
      rw [hy]; dsimp only
      rw [if_neg (fun h : c' = c => hcA (h ▸ Finset.mem_of_mem_erase hc')), if_neg (Finset.ne_of_mem_erase hc')]
    have h2 := Finset.add_sum_erase A (x i) hdA
    have h3 : y i c = e i := by rw [hy]; simp
    have h4 : z i = ∑ c' ∈ A, x i c' - x i d := rfl
    rw [h1, h3, h4]
    linarith
  have hfin : ∀ i, loadOf p (insert c (A.erase d)) y i ≤ max (z i) (k / total p) := fun i => by
    rw [hload i]
    exact (hele i).trans (max_le_max le_rfl havg)
  have hLk : k / total p ≤ L - 1 / total p := by
    rw [← sub_nonneg, show L - 1 / total p - k / total p = (L * total p - (k + 1)) / total p by field_simp; ring]
    exact div_nonneg (by linarith) ht.le
  refine ⟨j, insert c (A.erase d), y, ⟨?_, ?_⟩, ⟨fun i c' => ?_, fun i c' h => ?_, fun c' hc' => ?_⟩, hLk, ?_, fun i => ?_⟩
  · intro c' hc'
    rcases Finset.mem_insert.1 hc' with rfl | h
    · exact Finset.mem_range.2 hcn
    · exact hA.1 (Finset.mem_of_mem_erase h)
  · rw [Finset.card_insert_of_notMem (fun h => hcA (Finset.mem_of_mem_erase h)), Finset.card_erase_of_mem hdA, hA.2]
    omega
  · rw [hy]; dsimp only
    split
    · exact he0 i
    · split
      · exact le_rfl
      · exact hx.nonneg i c'
  · rw [hy] at h; dsimp only at h
    split at h
    · next hc => subst hc; exact ⟨hjoint i (heG i h), Finset.mem_insert_self _ _⟩
    · split at h
      · exact absurd rfl h
      · next h1 h2 =>
        have := hx.approved i c' h
        exact ⟨this.1, Finset.mem_insert_of_mem (Finset.mem_erase.2 ⟨h2, this.2⟩)⟩
  · rcases Finset.mem_insert.1 hc' with rfl | h
    · rw [← he1]
      exact Finset.sum_congr rfl fun i _ => by rw [hy]; simp
    · rw [← hx.one c' (Finset.mem_of_mem_erase h)]
      refine Finset.sum_congr rfl fun i _ => ?_
      rw [hy]; dsimp only
      rw [if_neg (fun h' : c' = c => hcA (h' ▸ Finset.mem_of_mem_erase h)), if_neg (Finset.ne_of_mem_erase h)]
  · refine (hfin j).trans (max_le ?_ hLk)
    rw [hz]; dsimp only
    linarith
  · exact (hfin i).trans (max_le_max (hzle i) le_rfl)

/-- Among `n + 1` intervals of length `τ` there is one which contains none of `n` numbers. -/
theorem exists_gap {n : ℕ} (β : Fin n → ℚ) (a : ℚ) {τ : ℚ} (hτ : 0 ≤ τ) :
    ∃ s : ℕ, s ≤ n ∧ ∀ i, ¬ (a + s * τ < β i ∧ β i ≤ a + s * τ + τ) := by
  by_contra hcon
  push Not at hcon
  choose g hg using fun s : Fin (n + 1) => hcon s.1 (by omega)
  obtain ⟨s, s', hne, heq⟩ := Fintype.exists_ne_map_eq_of_card_lt g (by simp only [Fintype.card_fin]; omega)
  have key : ∀ s s' : Fin (n + 1), (s : ℕ) < s' → g s = g s' → False := by
    intro s s' hlt heq
    have h1 := (hg s).2
    have h2 := (hg s').1
    rw [heq] at h1
    have h3 : ((s : ℕ) : ℚ) + 1 ≤ ((s' : ℕ) : ℚ) := by exact_mod_cast hlt
    have h4 : (((s : ℕ) : ℚ) + 1) * τ ≤ ((s' : ℕ) : ℚ) * τ := mul_le_mul_of_nonneg_right h3 hτ
    linarith
  rcases lt_trichotomy (s : ℕ) s' with h | h | h
  · exact key s s' h heq
  · exact hne (Fin.ext h)
  · exact key s' s h heq.symm

/-- In the last level the bound is at most the average load. -/
theorem last_le_average (hp : p.WF) (hn : p.voters ≠ []) {ε δ : ℚ} (hε : 0 ≤ ε) {bounds : List ℚ} {v : ℚ} (hb : LevelBounds ε δ p k bounds)
    (hnx : IsNextBound ε p k bounds v) (hlen : bounds.length + 1 = p.voters.length) : v ≤ k / total p := by
  have ht := total_pos hp hn
  obtain ⟨⟨B, hB, x, hx, σ, hσ⟩, hmin⟩ := hnx
  -- a voter with at most average load
  obtain ⟨i0, hi0⟩ : ∃ i, loadOf p B x i ≤ k / total p := by
    by_contra hcon
    push Not at hcon
    have h1 := load_total hx
    have hne : (Finset.univ : Finset (Fin p.voters.length)).Nonempty := ⟨⟨0, List.length_pos_of_ne_nil hn⟩, Finset.mem_univ _⟩
    have h2 : ∑ i, (p.voters.get i).weight * (k / total p) < ∑ i, (p.voters.get i).weight * loadOf p B x i :=
      Finset.sum_lt_sum_of_nonempty hne fun i _ => mul_lt_mul_of_pos_left (hcon i) (weight_pos hp i)
    rw [← Finset.sum_mul, h1, hB.2] at h2
    change total p * _ < _ at h2
    rw [mul_div_cancel₀ _ ht.ne'] at h2
    exact lt_irrefl _ h2
  have hant := fun {i j : ℕ} (h : i ≤ j) => levelBounds_antitone hε hb ⟨⟨B, hB, x, hx, σ, hσ⟩, hmin⟩ h
  by_contra hv
  push Not at hv
  set last : Fin p.voters.length := ⟨bounds.length, by omega⟩ with hlast
  have hlastv : loadOf p B x (σ last) ≤ v := by
    have := hσ last
    rwa [List.getD_eq_default _ _ (by simp [hlast])] at this
  refine absurd (hmin B _ hB ⟨x, hx, (Equiv.swap (σ.symm i0) last).trans σ, fun i => ?_⟩) (not_le.2 hv)
  rw [Equiv.trans_apply]
  by_cases hi : i = last
  · subst hi
    rw [Equiv.swap_apply_right, Equiv.apply_symm_apply, List.getD_eq_default _ _ (by simp [hlast])]
    exact hi0
  · have hib : (i : ℕ) < bounds.length := by
      have h1 : (i : ℕ) ≠ bounds.length := fun h => hi (Fin.ext h)
      have h2 := i.2
      omega
    have h0 := hσ i
    rw [List.getD_eq_getElem _ _ (by simpa using hib), List.getElem_map] at h0 ⊢
    by_cases hr : i = σ.symm i0
    · rw [← hr, Equiv.swap_apply_left]
      have := hant hib.le
      rw [List.getD_eq_default _ _ le_rfl, List.getD_eq_getElem _ _ hib] at this
      linarith
    · rw [Equiv.swap_apply_of_ne_of_ne hr hi]
      exact h0

/-- A group that agrees on an unelected candidate has as many representatives as it deserves, if the tolerance is small. -/
theorem levelWinner_joint (hp : p.WF) (hn : p.voters ≠ []) (hk : 0 < k) {ε δ τ : ℚ} (hε : 0 ≤ ε) (hετ : ε ≤ τ)
    (hδ : δ * total p ≤ 1) (hτ : (p.voters.length + 1) * total p * τ < 1) {A : Finset ℕ} (h : LevelWinner ε δ τ p k A) {ℓ : ℕ} {G : Group p} {c : ℕ}
    (hℓ : 1 ≤ ℓ) (hwt : (ℓ : ℚ) * (total p / k) ≤ wt p G) (hcA : c ∉ A) (hjoint : ∀ i ∈ G, c ∈ appr p i) :
    ℓ ≤ (G.biUnion (appr p) ∩ A).card := by
  obtain ⟨bounds, v, hb, hnx, hlen, hlast, hA, x, hx, σ, hσ⟩ := h
  by_contra hlt
  push Not at hlt
  have ht := total_pos hp hn
  have hkq : (1 : ℚ) ≤ k := by exact_mod_cast hk
  have hτ0 : 0 ≤ τ := hε.trans hετ
  obtain ⟨j, B, y, hB, hy, hjk, hyj, hyi⟩ := exists_relief hp hn hk hA hx hℓ hwt hcA hjoint hlt
  set L := loadOf p A x j with hL
  have hant := fun {i j : ℕ} (h : i ≤ j) => levelBounds_antitone hε hb hnx h
  obtain ⟨s, hs, hgap⟩ := exists_gap (fun i : Fin p.voters.length => bounds.getD i v) (L - 1 / total p) hτ0
  set θ := L - 1 / total p + s * τ with hθ
  have hsτ : 0 ≤ s * τ := by positivity
  have hθk : k / total p ≤ θ := by linarith
  have hδθ : δ ≤ θ := by
    have : δ ≤ 1 / total p := by rwa [le_div_iff₀ ht]
    have h2 : 1 / total p ≤ k / total p := div_le_div_of_nonneg_right hkq ht.le
    linarith
  have hLθ : θ + τ < L := by
    have h1 : (s : ℚ) * τ ≤ p.voters.length * τ := mul_le_mul_of_nonneg_right (by exact_mod_cast hs) hτ0
    have h2 : (p.voters.length + 1 : ℚ) * τ < 1 / total p := by
      rw [lt_div_iff₀ ht]
      linarith
    rw [hθ]
    linarith
  have hup : ∀ i : Fin p.voters.length, loadOf p A x (σ i) ≤ bounds.getD i v + τ := by
    intro i
    refine (hσ i).trans ?_
    by_cases hi : (i : ℕ) < bounds.length
    · rw [List.getD_eq_getElem _ _ (by simpa using hi), List.getElem_map, List.getD_eq_getElem _ _ hi]
      linarith
    · rw [List.getD_eq_default _ _ (by simpa using hi), List.getD_eq_default _ _ (by omega)]
  -- the last position with a bound above `θ`
  set S := Finset.univ.filter (fun i : Fin p.voters.length => θ < bounds.getD i v) with hS
  have hrS : σ.symm j ∈ S := by
    rw [hS, Finset.mem_filter]
    refine ⟨Finset.mem_univ _, ?_⟩
    have := hup (σ.symm j)
    rw [Equiv.apply_symm_apply] at this
    linarith
  set q := S.max' ⟨_, hrS⟩ with hq
  have hqθ : θ < bounds.getD q v := (Finset.mem_filter.1 (S.max'_mem ⟨_, hrS⟩)).2
  have hrq : σ.symm j ≤ q := S.le_max' _ hrS
  have hafter : ∀ i : Fin p.voters.length, q < i → bounds.getD i v ≤ θ := by
    intro i hi
    by_contra hcon
    exact absurd (S.le_max' i (Finset.mem_filter.2 ⟨Finset.mem_univ _, not_le.1 hcon⟩)) (not_le.2 hi)
  have hqlen : (q : ℕ) < bounds.length := by
    by_contra hge
    push Not at hge
    rw [List.getD_eq_default _ _ hge] at hqθ
    rcases hlast with h1 | h1
    · exact absurd (last_le_average hp hn hε hb hnx h1) (not_le.2 (by linarith))
    · linarith
  have hlow : ∀ i : Fin p.voters.length, (i : ℕ) < bounds.length → loadOf p A x (σ i) ≤ bounds.getD i v + ε := by
    intro i hi
    have := hσ i
    rwa [List.getD_eq_getElem _ _ (by simpa using hi), List.getElem_map, ← List.getD_eq_getElem _ v hi] at this
  have hqn := (hb.get q hqlen).1
  have hwithin : LoadsWithin p ε (bounds.take q) B (θ + τ) := by
    refine ⟨y, hy, (Equiv.swap (σ.symm j) q).trans σ, fun i => ?_⟩
    rw [Equiv.trans_apply]
    by_cases hiq : (i : ℕ) < q
    · have hib : (i : ℕ) < bounds.length := by omega
      have hget : ((bounds.take q).map (· + ε)).getD i (θ + τ) = bounds.getD i v + ε := by
        rw [List.getD_eq_getElem _ _ (by simp; omega), List.getElem_map, List.getElem_take, List.getD_eq_getElem _ _ hib]
      rw [hget]
      have hiθ : θ < bounds.getD i v := lt_of_lt_of_le hqθ (hant hiq.le)
      by_cases hr : i = σ.symm j
      · rw [← hr, Equiv.swap_apply_left]
        refine (hyi _).trans (max_le ((hlow q hqlen).trans ?_) (by linarith))
        have := hant hiq.le
        linarith
      · rw [Equiv.swap_apply_of_ne_of_ne hr (fun h => by rw [h] at hiq; exact lt_irrefl _ hiq)]
        exact (hyi _).trans (max_le (hlow i hib) (by linarith))
    · have hget : ((bounds.take q).map (· + ε)).getD i (θ + τ) = θ + τ :=
        List.getD_eq_default _ _ (by simp; omega)
      rw [hget]
      by_cases hi : i = q
      · rw [hi, Equiv.swap_apply_right, Equiv.apply_symm_apply]
        linarith
      · have hqi : q < i := lt_of_le_of_ne (by simpa using hiq) (fun h => hi h.symm)
        have hr : i ≠ σ.symm j := fun h => absurd (h ▸ hrq) (not_le.2 hqi)
        rw [Equiv.swap_apply_of_ne_of_ne hr hi]
        have h1 := hup i
        have h2 := hafter i hqi
        exact (hyi _).trans (max_le (by linarith) (by linarith))
  have := hqn.2 B _ hB hwithin
  refine hgap q ⟨hqθ, ?_⟩
  rw [List.getD_eq_getElem _ _ hqlen]
  exact this

/-- leximax-Phragmén computed level by level satisfies PJR if the tolerance is small compared to the size of the electorate. -/
theorem levelWinner_PJR (hp : p.WF) (hn : p.voters ≠ []) (hk : 0 < k) {ε δ τ : ℚ} (hε : 0 ≤ ε) (hετ : ε ≤ τ)
    (hδ : δ * total p ≤ 1) (hτ : (p.voters.length + 1) * total p * τ < 1) {A : Finset ℕ} (h : LevelWinner ε δ τ p k A) :
    PJR p A (total p / k) := by
  intro ℓ G T hco
  obtain ⟨h1, h2, h3, h4⟩ := hco
  have ht := total_pos hp hn
  have hkq : (0 : ℚ) < k := by exact_mod_cast hk
  by_cases hTA : T ⊆ A
  · obtain ⟨i, hi⟩ := nonempty_of_wt (mul_pos (by exact_mod_cast h1) (div_pos ht hkq)) h2
    exact h3.trans (Finset.card_le_card fun c hc => Finset.mem_inter.2 ⟨Finset.mem_biUnion.2 ⟨i, hi, h4 i hi hc⟩, hTA hc⟩)
  · obtain ⟨c, hcT, hcA⟩ := Finset.not_subset.1 hTA
    exact levelWinner_joint hp hn hk hε hετ hδ hτ h h1 h2 hcA fun i hi => h4 i hi hcT

end

end Abc
