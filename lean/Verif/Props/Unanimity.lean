import Verif.Spec.Unanimity
import Verif.Props.Dominance
import Verif.Props.Budgets
import Verif.Props.MoreAxioms
import Verif.Props.Leximax
import Mathlib.Combinatorics.Hall.Basic
import Mathlib.Tactic.FinCases

/-!
# C107 Unanimity and perfect representation
-/

namespace Abc

open Spec

/-- Runs that elect only members of `S` as long as there are any left. -/
theorem run_unanimous {σ : Type} {Best : List ℕ → σ → ℕ → Prop} {upd : List ℕ → σ → ℕ → σ} {s₀ : σ} {k : ℕ} (S : Finset ℕ)
    (Inv : ℕ → σ → Prop) (h0 : Inv 0 s₀)
    (hstep : ∀ W s c, W.length < k → Inv W.length s → Best W s c → (∃ d ∈ S, d ∉ W) → c ∈ S ∧ Inv (W.length + 1) (upd W s c))
    {W : List ℕ} {s : σ} (h : Run Best upd [] s₀ W s) :
    W.length ≤ k → ((∀ c ∈ W, c ∈ S) ∧ Inv W.length s) ∨ ∀ c ∈ S, c ∈ W := by
  induction h with
  | start => exact fun _ => Or.inl ⟨by simp, h0⟩
  | @step W s c _ hc ih =>
    intro hk
    rw [List.length_append, List.length_singleton] at hk
    rcases ih (by omega) with ⟨h1, h2⟩ | h
    · by_cases hS : ∃ d ∈ S, d ∉ W
      · obtain ⟨g1, g2⟩ := hstep W s c (by omega) h2 hc hS
        refine Or.inl ⟨fun d hd => ?_, by rwa [List.length_append, List.length_singleton]⟩
        rcases List.mem_append.1 hd with hd | hd
        · exact h1 d hd
        · rw [List.mem_singleton.1 hd]; exact g1
      · push Not at hS
        exact Or.inr fun d hd => List.mem_append_left _ (hS d hd)
    · exact Or.inr fun d hd => List.mem_append_left _ (h d hd)

section
variable {p : Profile} {S : Finset ℕ}

theorem Spec.Unanimous.appr (h : Unanimous p S) (i : Fin p.voters.length) : appr p i = S := h _ (List.get_mem _ _)

theorem Spec.Unanimous.backers (h : Unanimous p S) {c : ℕ} (hc : c ∈ S) : backers p c = Finset.univ := by
  ext i
  simp [Spec.backers, h.appr i, hc]

theorem Spec.Unanimous.backers_not (h : Unanimous p S) {c : ℕ} (hc : c ∉ S) : Spec.backers p c = ∅ := by
  ext i
  simp [Spec.backers, h.appr i, hc]

theorem Spec.Unanimous.lt (h : Unanimous p S) (hp : p.WF) (hn : p.voters ≠ []) {c : ℕ} (hc : c ∈ S) : c < p.numCand := by
  have i : Fin p.voters.length := ⟨0, List.length_pos_of_ne_nil hn⟩
  rw [← h.appr i] at hc
  exact appr_lt hp hc

theorem unanimous_enestroem (hp : p.WF) (hn : p.voters ≠ []) (hS : Unanimous p S) {k : ℕ} (hk : 1 ≤ k) {A : Finset ℕ}
    (h : EnestroemWinner p k A) : A ⊆ S ∨ S ⊆ A := by
  obtain ⟨W, b, hrun, hlen, rfl⟩ := h
  have hkq : (0 : ℚ) < k := by exact_mod_cast hk
  have ht := total_pos hp hn
  refine Or.elim (run_unanimous (k := k) S (fun t b => ∀ i, b i = (p.voters.get i).weight * (1 - t / k)) (by simp) ?_ hrun hlen.le)
    (fun h => Or.inl fun c hc => h.1 c (List.mem_toFinset.1 hc))
    (fun h => Or.inr fun c hc => List.mem_toFinset.2 (h c hc))
  · rintro W b c hW hb hc ⟨d, hdS, hdW⟩
    have htk : (0 : ℚ) < 1 - W.length / k := by
      rw [sub_pos, div_lt_one hkq]
      exact_mod_cast hW
    have hb0 : ∀ i, 0 < b i := fun i => by rw [hb i]; exact mul_pos (weight_pos hp i) htk
    have hsup : ∀ e ∈ S, support p b e = total p * (1 - W.length / k) := by
      intro e he
      unfold support total
      rw [hS.backers he, Finset.filter_true_of_mem (fun i _ => hb0 i), Finset.sum_mul]
      exact Finset.sum_congr rfl fun i _ => hb i
    have hcS : c ∈ S := by
      by_contra hcS
      have h1 := hc.2.2 d (hS.lt hp hn hdS) hdW
      rw [hsup d hdS] at h1
      have h2 : support p b c = 0 := by unfold support; rw [hS.backers_not hcS]; simp
      have := mul_pos ht htk
      linarith
    refine ⟨hcS, fun i => ?_⟩
    unfold enestroemUpd
    rw [hsup c hcS, hS.backers hcS, if_pos (Finset.mem_univ i), hb i]
    split
    · have e : (1 : ℚ) - ((W.length + 1 : ℕ) : ℚ) / k = (1 - W.length / k) - 1 / k := by push_cast; ring
      rw [e]
      generalize (1 : ℚ) - W.length / k = x at htk
      have hx := htk.ne'
      have hT := ht.ne'
      field_simp
    · rename_i hle
      push Not at hle
      have h1 : 1 - (W.length : ℚ) / k ≤ 1 / k := by
        by_contra hcon
        push Not at hcon
        have := mul_lt_mul_of_pos_left hcon ht
        rw [mul_one_div] at this
        linarith
      have h2 : (W.length : ℚ) + 1 ≤ k := by exact_mod_cast hW
      have h3 : (1 : ℚ) - ((W.length + 1 : ℕ) : ℚ) / k = 0 := by
        push_cast
        have e : 1 - (W.length : ℚ) / k = (k - W.length) / k := by field_simp
        rw [e, div_le_div_iff_of_pos_right hkq] at h1
        rw [sub_eq_zero, eq_comm, div_eq_one_iff_eq hkq.ne']
        linarith
      rw [h3, mul_zero]

theorem unanimous_consensus (hp : p.WF) (hn : p.voters ≠ []) (hS : Unanimous p S) {k : ℕ} {A : Finset ℕ}
    (h : ConsensusWinner p k A) : A ⊆ S ∨ S ⊆ A := by
  obtain ⟨W, b, hrun, hlen, rfl⟩ := h
  have ht := total_pos hp hn
  refine Or.elim (run_unanimous (k := k) S (fun _ b => ∀ i, b i = 0) (by simp) ?_ hrun hlen.le)
    (fun h => Or.inl fun c hc => h.1 c (List.mem_toFinset.1 hc))
    (fun h => Or.inr fun c hc => List.mem_toFinset.2 (h c hc))
  · rintro W b c hW hb hc ⟨d, hdS, hdW⟩
    have hin : ∀ i, income p b i = (p.voters.get i).weight := fun i => by unfold income; rw [hb i, zero_add]
    have hb0 : ∀ i, 0 < income p b i := fun i => by rw [hin i]; exact weight_pos hp i
    have hsup : ∀ e ∈ S, support p (income p b) e = total p := by
      intro e he
      unfold support total
      rw [hS.backers he, Finset.filter_true_of_mem (fun i _ => hb0 i)]
      exact Finset.sum_congr rfl fun i _ => hin i
    have hcS : c ∈ S := by
      by_contra hcS
      have h1 := hc.2.2 d (hS.lt hp hn hdS) hdW
      rw [hsup d hdS] at h1
      have h2 : support p (income p b) c = 0 := by unfold support; rw [hS.backers_not hcS]; simp
      linarith
    refine ⟨hcS, fun i => ?_⟩
    unfold consensusUpd
    rw [hS.backers hcS, if_pos ⟨Finset.mem_univ i, hb0 i⟩, Finset.filter_true_of_mem (fun i _ => hb0 i), hin i]
    have : ∑ j, (p.voters.get j).weight = total p := rfl
    rw [this]
    field_simp
    ring

theorem sum_districtSize_lt {n k : ℕ} (hk : k ≤ n) {t : ℕ} (ht : t < k) :
    ((List.range t).map (districtSize n k)).sum < n := by
  have h1 : 1 ≤ districtSize n k t := by
    have : 1 ≤ n / k := (Nat.one_le_div_iff (by omega)).2 hk
    unfold districtSize
    split <;> omega
  have h2 : ∀ s, t + 1 ≤ s → ((List.range (t + 1)).map (districtSize n k)).sum ≤ ((List.range s).map (districtSize n k)).sum := by
    intro s hs
    induction s, hs using Nat.le_induction with
    | base => exact le_rfl
    | succ s _ ih =>
      rw [List.range_succ (n := s), List.map_append, List.sum_append]
      omega
  have h3 := h2 k ht
  rw [sum_districtSize _ _ (by omega), List.range_succ, List.map_append, List.sum_append] at h3
  simp only [List.map_cons, List.map_nil, List.sum_cons, List.sum_nil] at h3
  omega

theorem unanimous_greedyMonroe (hp : p.WF) (hn : p.voters ≠ []) (hS : Unanimous p S) {k : ℕ} (hk : k ≤ p.voters.length) {A : Finset ℕ}
    (h : RunWinner (GMBest p) (gmUpd p k) [] k A) : A ⊆ S ∨ S ⊆ A := by
  obtain ⟨W, Ds, hrun, hlen, rfl⟩ := h
  refine Or.elim (run_unanimous (k := k) S (fun t Ds => p.voters.length ≤
      (unassigned p Ds).card + ((List.range t).map (districtSize p.voters.length k)).sum) (by simp [unassigned]) ?_ hrun hlen.le)
    (fun h => Or.inl fun c hc => h.1 c (List.mem_toFinset.1 hc))
    (fun h => Or.inr fun c hc => List.mem_toFinset.2 (h c hc))
  · rintro W Ds c hW hb hc ⟨d, hdS, hdW⟩
    have hlt := sum_districtSize_lt hk hW
    have hcS : c ∈ S := by
      by_contra hcS
      have h1 := hc.2.2 d (hS.lt hp hn hdS) hdW
      rw [hS.backers hdS, hS.backers_not hcS] at h1
      simp only [Finset.inter_univ, Finset.inter_empty, Finset.card_empty] at h1
      omega
    refine ⟨hcS, ?_⟩
    unfold gmUpd
    rw [hS.backers hcS, unassigned_append, Finset.inter_univ, List.range_succ, List.map_append, List.sum_append,
      Finset.card_sdiff_of_subset (firstVoters_subset _ _)]
    simp only [List.map_cons, List.map_nil, List.sum_cons, List.sum_nil]
    by_cases hle : districtSize p.voters.length k W.length ≤ (unassigned p Ds).card
    · rw [firstVoters_card _ _ hle]
      omega
    · have := Finset.card_le_card (firstVoters_subset (unassigned p Ds) (districtSize p.voters.length k W.length))
      omega

/-- A committee that is neither part of `S` nor contains it has a member outside `S` and misses a candidate of `S`. -/
theorem exists_swap {A : Finset ℕ} (h : ¬ (A ⊆ S ∨ S ⊆ A)) : ∃ c ∈ S, c ∉ A ∧ ∃ d ∈ A, d ∉ S := by
  push Not at h
  obtain ⟨d, hd, hd'⟩ := Finset.not_subset.1 h.1
  obtain ⟨c, hc, hc'⟩ := Finset.not_subset.1 h.2
  exact ⟨c, hc, hc', d, hd, hd'⟩

theorem swap_committee {A : Finset ℕ} {k c d : ℕ} (hA : IsCommittee p k A) (hc : c < p.numCand) (hcA : c ∉ A) (hd : d ∈ A) :
    IsCommittee p k (insert c (A.erase d)) := by
  refine ⟨fun x hx => ?_, ?_⟩
  · rcases Finset.mem_insert.1 hx with rfl | hx
    · exact Finset.mem_range.2 hc
    · exact hA.1 (Finset.mem_of_mem_erase hx)
  · rw [Finset.card_insert_of_notMem (fun h => hcA (Finset.mem_of_mem_erase h)), Finset.card_erase_of_mem hd, hA.2]
    have := Finset.card_pos.2 ⟨d, hd⟩
    have := hA.2
    omega

theorem unanimous_minimaxav (hp : p.WF) (hn : p.voters ≠ []) (hS : Unanimous p S) {k : ℕ} {A : Finset ℕ}
    (h : MinimaxavOpt p k A) : A ⊆ S ∨ S ⊆ A := by
  by_contra hno
  obtain ⟨c, hcS, hcA, d, hdA, hdS⟩ := exists_swap hno
  have hB := swap_committee h.1 (hS.lt hp hn hcS) hcA hdA
  obtain ⟨v, hv⟩ := List.exists_mem_of_ne_nil _ hn
  have h1 := h.2 _ hB (symmDiff S (insert c (A.erase d))).card (fun u hu => by unfold dist; rw [hS u hu]) v hv
  unfold dist at h1
  rw [hS v hv] at h1
  have h2 : symmDiff S (insert c (A.erase d)) ⊂ symmDiff S A := by
    rw [Finset.ssubset_iff_of_subset]
    · exact ⟨c, by simp [Finset.mem_symmDiff, hcS, hcA], by simp [Finset.mem_symmDiff, hcS]⟩
    · intro x
      simp only [Finset.mem_symmDiff, Finset.mem_insert, Finset.mem_erase]
      rintro (⟨g1, g2⟩ | ⟨g1, g2⟩)
      · left
        refine ⟨g1, fun hx => g2 (Or.inr ⟨?_, hx⟩)⟩
        rintro rfl
        exact hdS g1
      · right
        rcases g1 with rfl | g1
        · exact absurd hcS g2
        · exact ⟨g1.2, g2⟩
  have := Finset.card_lt_card h2
  omega

theorem unanimous_monroe (hp : p.WF) (hn : p.voters ≠ []) (hS : Unanimous p S) {k : ℕ} (hk : k ≤ p.voters.length) {A : Finset ℕ}
    (h : MonroeOpt p k A) : A ⊆ S ∨ S ⊆ A := by
  classical
  by_contra hno
  obtain ⟨c, hcS, hcA, d, hdA, hdS⟩ := exists_swap hno
  obtain ⟨hA, φ, hφ, hmax⟩ := h
  have hB := swap_committee hA (hS.lt hp hn hcS) hcA hdA
  set φ' : Fin p.voters.length → ℕ := fun i => if φ i = d then c else φ i with hφ'
  have hcd : c ≠ d := fun h => hdS (h ▸ hcS)
  have hpre : ∀ x, (Finset.univ.filter (fun i => φ' i = x)) =
      if x = c then Finset.univ.filter (fun i => φ i = d) else if x = d then ∅ else Finset.univ.filter (fun i => φ i = x) := by
    intro x
    have hne : ∀ i, φ i ≠ c := fun i h => hcA (h ▸ hφ.1 i)
    split_ifs with h1 h2
    · ext i
      simp only [hφ', Finset.mem_filter, Finset.mem_univ, true_and, h1]
      split_ifs with h
      · simp [h]
      · simp [h, hne i]
    · ext i
      simp only [hφ', Finset.mem_filter, Finset.mem_univ, true_and, h2, Finset.notMem_empty, iff_false]
      split_ifs with h
      · exact hcd
      · exact h
    · ext i
      simp only [hφ', Finset.mem_filter, Finset.mem_univ, true_and]
      split_ifs with h
      · simp only [h]
        constructor
        · exact fun e => absurd e.symm h1
        · exact fun e => absurd e.symm h2
      · rfl
  have hcard : (insert c (A.erase d)).card = A.card := by rw [hB.2, hA.2]
  have hbal : Balanced p (insert c (A.erase d)) φ' := by
    refine ⟨fun i => ?_, fun x hx => ?_⟩
    · simp only [hφ']
      split_ifs with h
      · exact Finset.mem_insert_self _ _
      · exact Finset.mem_insert_of_mem (Finset.mem_erase.2 ⟨h, hφ.1 i⟩)
    · rw [hcard, hpre x]
      rcases Finset.mem_insert.1 hx with rfl | hx
      · rw [if_pos rfl]
        exact hφ.2 d hdA
      · rw [if_neg (fun h : x = c => hcA (h ▸ Finset.mem_of_mem_erase hx)), if_neg (Finset.ne_of_mem_erase hx)]
        exact hφ.2 x (Finset.mem_of_mem_erase hx)
  have h1 := hmax _ _ hB hbal
  have h2 : represented p φ < represented p φ' := by
    unfold represented
    refine Finset.card_lt_card ((Finset.ssubset_iff_of_subset ?_).2 ?_)
    · intro i hi
      simp only [Finset.mem_filter, Finset.mem_univ, true_and, hφ', hS.appr i] at hi ⊢
      rw [if_neg (fun h : φ i = d => hdS (h ▸ hi))]
      exact hi
    · have h3 := (hφ.2 d hdA).1
      rw [hA.2] at h3
      have h4 : 0 < k := by rw [← hA.2]; exact Finset.card_pos.2 ⟨d, hdA⟩
      have h5 : 1 ≤ p.voters.length / k := (Nat.one_le_div_iff h4).2 hk
      obtain ⟨i, hi⟩ := Finset.card_pos.1 (Nat.lt_of_lt_of_le h5 h3)
      rw [Finset.mem_filter] at hi
      refine ⟨i, ?_, ?_⟩
      · simp [hφ', hS.appr i, hi.2, hcS]
      · simp [hS.appr i, hi.2, hdS]
  omega

theorem unanimous_first (hn : p.voters ≠ []) (hp : p.WF) (hS : Unanimous p S) {A : Finset ℕ} (h : FirstSet p A) : A ⊆ S ∨ S ⊆ A := by
  by_contra hno
  obtain ⟨c, hcS, hcA, d, hdA, hdS⟩ := exists_swap hno
  refine hcA (h d hdA (fun v hv => by rw [hS v hv]; exact hdS) c (hS.lt hp hn hcS) (fun hu => ?_))
  obtain ⟨v, hv⟩ := List.exists_mem_of_ne_nil _ hn
  exact hu v hv (by rw [hS v hv]; exact hcS)

end

theorem elects_unanimous {w : World} {p : Profile} (hp : p.WF) (hn : p.voters ≠ []) {k : ℕ} (hk : 1 ≤ k) {alg ruleId : String}
    {S : Finset ℕ} (hS : Unanimous p S) (h : UnanimityRule w p k alg ruleId) :
    ∃ T, Elects w p k alg ruleId T ∧ ∀ A, T A → A ⊆ S ∨ S ⊆ A := by
  cases h with
  | approvedFirst h =>
    obtain ⟨T, h1, h2⟩ := elects_approved_first hp h
    exact ⟨T, h1, fun A hA => unanimous_first hn hp hS (h2 A hA)⟩
  | minimaxav => exact ⟨_, .minimaxav, fun A hA => unanimous_minimaxav hp hn hS hA⟩
  | monroe h1 h2 => exact ⟨_, .monroe h1, fun A hA => unanimous_monroe hp hn hS h2 hA⟩
  | greedyMonroe h1 h2 => exact ⟨_, .greedyMonroe h1, fun A hA => unanimous_greedyMonroe hp hn hS h2 hA⟩
  | enestroem h1 => exact ⟨_, .enestroem h1, fun A hA => unanimous_enestroem hp hn hS hk hA⟩
  | consensus h1 => exact ⟨_, .consensus h1, fun A hA => unanimous_consensus hp hn hS hA⟩

/-- **C107** Unanimity: if all voters approve exactly the same candidates, then only these are elected as long as there are any left. -/
theorem C107_unanimity (w : World) (hw : w.Exact) (p : Profile) (hp : p.WF) (S : Finset ℕ) (hS : Unanimous p S) (a : Args)
    {ruleId alg : String} (hal : prologue w.env ruleId p a = .ok alg) (h : UnanimityRule w p a.k alg ruleId) :
    ∃ cs, compute w ruleId p a.committeesize none a.kw = .ok cs ∧ cs ≠ [] ∧ ∀ W ∈ cs, RespectsUnanimity S W := by
  have hv := validCall_of_prologue hal
  obtain ⟨T, hT, hun⟩ := elects_unanimous hp hv.voters hv.pos hS h
  obtain ⟨cs, h1, h2, -⟩ := C31_valid w hw p hp a ruleId alg hal hT
  refine ⟨cs, h1, h2, fun W hW => ?_⟩
  rcases hun _ (answers_mem (C31_compute w hw p hp a ruleId alg hal hT) h1 hW) with h | h
  · exact Or.inl fun c hc => h (List.mem_toFinset.2 hc)
  · exact Or.inr fun c hc => List.mem_toFinset.1 (h hc)

/-- **C107** In particular, if everybody approves exactly the same `committeesize` candidates, then these are the only winning committee
(rules that fill all seats). -/
theorem C107_common_committee (w : World) (hw : w.Exact) (p : Profile) (hp : p.WF) (S : Finset ℕ) (hS : Unanimous p S) (a : Args)
    (hcard : (S.card : ℤ) = a.committeesize) {ruleId alg : String} (hal : prologue w.env ruleId p a = .ok alg)
    (h : UnanimityRule w p a.k alg ruleId) (hfull : ruleId ∉ withoutCompletion) :
    ∃ W, compute w ruleId p a.committeesize none a.kw = .ok [W] ∧ ∀ c, c ∈ W ↔ c ∈ S := by
  have hv := validCall_of_prologue hal
  obtain ⟨T, hT, hun⟩ := elects_unanimous hp hv.voters hv.pos hS h
  obtain ⟨cs, h1, h2, h3, h4, -⟩ := C31_valid w hw p hp a ruleId alg hal hT
  have key : ∀ W ∈ cs, W.toFinset = S := by
    intro W hW
    obtain ⟨-, g2, -, g4⟩ := h4 W hW
    have hc : W.toFinset.card = S.card := by
      rw [List.toFinset_card_of_nodup g2]
      exact_mod_cast (g4 hfull).trans hcard.symm
    rcases hun _ (answers_mem (C31_compute w hw p hp a ruleId alg hal hT) h1 hW) with h | h
    · exact Finset.eq_of_subset_of_card_le h hc.ge
    · exact (Finset.eq_of_subset_of_card_le h hc.le).symm
  obtain ⟨W, hW⟩ := List.exists_mem_of_ne_nil _ h2
  refine ⟨W, ?_, fun c => by rw [← List.mem_toFinset, key W hW]⟩
  rw [h1]
  congr 1
  refine canonical_ext h3 (canonical_singleton (h3.asc W hW)) (fun A => ⟨?_, ?_⟩)
  · rintro ⟨V, hV, rfl⟩
    exact ⟨W, by simp, (key W hW).trans (key V hV).symm⟩
  · rintro ⟨V, hV, rfl⟩
    rw [List.mem_singleton.1 hV]
    exact ⟨W, hW, rfl⟩

/-! ## Perfect representation -/

section
variable {p : Profile}

theorem perfect_size {A : Finset ℕ} {φ : Fin p.voters.length → ℕ} {k : ℕ} (hk : 1 ≤ k) (hA : A.card = k)
    (h : ∀ c ∈ A, A.card * (Finset.univ.filter (fun i => φ i = c)).card = p.voters.length) :
    k ∣ p.voters.length ∧ ∀ c ∈ A, (Finset.univ.filter (fun i => φ i = c)).card = p.voters.length / k := by
  have hne : A.Nonempty := Finset.card_pos.1 (by omega)
  obtain ⟨c, hc⟩ := hne
  rw [hA] at h
  refine ⟨⟨_, (h c hc).symm⟩, fun d hd => ?_⟩
  exact (Nat.div_eq_of_eq_mul_right hk (h d hd).symm).symm

theorem perfect_monroe {k : ℕ} (hk : 1 ≤ k) {A B : Finset ℕ} (hB : IsCommittee p k B) (hPR : PerfectRepresentation p B)
    (h : MonroeOpt p k A) : PerfectRepresentation p A := by
  obtain ⟨φ, hφ, hc⟩ := hPR
  obtain ⟨hdvd, hsize⟩ := perfect_size hk hB.2 hc
  have hup : (p.voters.length + k - 1) / k = p.voters.length / k := by
    obtain ⟨m, hm⟩ := hdvd
    rw [hm, Nat.mul_div_cancel_left _ hk, Nat.div_eq_of_lt_le]
    · rw [mul_comm]; omega
    · rw [Nat.succ_mul, mul_comm]; omega
  have hbal : Balanced p B φ := by
    refine ⟨fun i => (hφ i).1, fun c hcB => ?_⟩
    rw [hB.2, hup, hsize c hcB]
    exact ⟨le_rfl, le_rfl⟩
  obtain ⟨hA, ψ, hψ, hmax⟩ := h
  have h1 := hmax B φ hB hbal
  have h2 : represented p φ = p.voters.length := by
    unfold represented
    rw [Finset.filter_true_of_mem (fun i _ => (hφ i).2)]
    simp
  have h3 : Finset.univ.filter (fun i => ψ i ∈ appr p i) = Finset.univ := by
    refine Finset.eq_univ_of_card _ (le_antisymm (Finset.card_le_univ _) ?_)
    rw [h2] at h1
    simpa [represented] using h1
  refine ⟨ψ, fun i => ⟨hψ.1 i, ?_⟩, fun c hcA => ?_⟩
  · have := Finset.mem_univ i
    rw [← h3, Finset.mem_filter] at this
    exact this.2
  · have := hψ.2 c hcA
    rw [hA.2, hup] at this
    rw [hA.2, le_antisymm this.2 this.1]
    exact Nat.mul_div_cancel' hdvd

theorem perfect_load (hu : ∀ v ∈ p.voters, v.weight = 1) (hn : p.voters ≠ []) {k : ℕ} (hk : 1 ≤ k) {B : Finset ℕ} (hB : IsCommittee p k B)
    (hPR : PerfectRepresentation p B) : LoadWithin p B ((k : ℚ) / p.voters.length) := by
  classical
  obtain ⟨φ, hφ, hc⟩ := hPR
  have hnq : (0 : ℚ) < p.voters.length := by exact_mod_cast List.length_pos_of_ne_nil hn
  have hkq : (0 : ℚ) < k := by exact_mod_cast hk
  refine ⟨fun i c => if φ i = c then (k : ℚ) / p.voters.length else 0, ⟨fun i c => ?_, fun i c h => ?_, fun c hcB => ?_⟩, fun i => ?_⟩
  · split <;> positivity
  · have : φ i = c := by
      by_contra hne
      exact h (if_neg hne)
    rw [← this]
    exact ⟨(hφ i).2, (hφ i).1⟩
  · have h1 := hc c hcB
    rw [hB.2] at h1
    have h2 : (k : ℚ) * (Finset.univ.filter (fun i => φ i = c)).card = p.voters.length := by exact_mod_cast h1
    rw [Finset.sum_congr rfl fun i _ => by rw [hu _ (List.get_mem _ _), one_mul], ← Finset.sum_filter, Finset.sum_const, nsmul_eq_mul,
      ← mul_div_assoc, mul_comm, h2, div_self hnq.ne']
  · rw [Finset.sum_ite_eq]
    split
    · exact le_rfl
    · positivity

theorem perfect_of_load (hp : p.WF) (hu : ∀ v ∈ p.voters, v.weight = 1) (hn : p.voters ≠ []) {k : ℕ} (hk : 1 ≤ k)
    (hdvd : k ∣ p.voters.length) {A : Finset ℕ} (hA : IsCommittee p k A) (h : LoadWithin p A ((k : ℚ) / p.voters.length)) :
    PerfectRepresentation p A := by
  classical
  obtain ⟨s, hs⟩ := hdvd
  have hnq : (0 : ℚ) < p.voters.length := by exact_mod_cast List.length_pos_of_ne_nil hn
  have hkq : (0 : ℚ) < k := by exact_mod_cast hk
  have hsq : (p.voters.length : ℚ) = k * s := by exact_mod_cast hs
  have hs0 : (0 : ℚ) < s := by
    rw [hsq] at hnq
    exact pos_of_mul_pos_right hnq hkq.le
  rw [C67_load_iff hp hn] at h
  have hhall : ∀ C ⊆ A, C.card * s ≤ (backersOf p C).card := by
    intro C hC
    have h1 := h.2 C hC
    rw [unit_wt hu, hsq] at h1
    have e : (k : ℚ) / (k * s) = 1 / s := by field_simp
    rw [e, one_div, inv_mul_eq_div, le_div_iff₀ hs0] at h1
    exact_mod_cast h1
  obtain ⟨f, hinj, hf⟩ := (Finset.all_card_le_biUnion_card_iff_exists_injective
    (fun x : {c // c ∈ A} × Fin s => backers p x.1.1)).1 (fun X => by
      have h1 : X.card ≤ ((X.image Prod.fst).card) * s := by
        calc X.card ≤ ((X.image Prod.fst) ×ˢ (Finset.univ : Finset (Fin s))).card :=
              Finset.card_le_card (fun x hx => Finset.mem_product.2 ⟨Finset.mem_image_of_mem _ hx, Finset.mem_univ _⟩)
          _ = _ := by rw [Finset.card_product]; simp
      have h2 := hhall ((X.image Prod.fst).map ⟨Subtype.val, Subtype.val_injective⟩) (fun c hc => by
        obtain ⟨x, -, rfl⟩ := Finset.mem_map.1 hc
        exact x.2)
      rw [Finset.card_map] at h2
      refine h1.trans (h2.trans (Finset.card_le_card fun i hi => ?_))
      simp only [backersOf, Finset.mem_filter, Finset.mem_univ, true_and, Finset.mem_map, Finset.mem_image, Finset.mem_biUnion, backers] at hi ⊢
      obtain ⟨c, ⟨y, ⟨x, hx, rfl⟩, rfl⟩, hc⟩ := hi
      exact ⟨x, hx, hc⟩)
  have hbij : Function.Bijective f := by
    rw [Fintype.bijective_iff_injective_and_card]
    refine ⟨hinj, ?_⟩
    rw [Fintype.card_prod, Fintype.card_coe, Fintype.card_fin, Fintype.card_fin, hA.2, hs]
  set e := Equiv.ofBijective f hbij with he
  refine ⟨fun i => (e.symm i).1.1, fun i => ⟨(e.symm i).1.2, ?_⟩, fun c hc => ?_⟩
  · have h1 := hf (e.symm i)
    have h2 : f (e.symm i) = i := e.apply_symm_apply i
    rw [h2] at h1
    simpa [backers] using h1
  · have h1 : (Finset.univ.filter (fun i => (e.symm i).1.1 = c)).card = (Finset.univ : Finset (Fin s)).card := by
      symm
      refine Finset.card_bij (fun j _ => e (⟨c, hc⟩, j)) (fun j _ => ?_) (fun a _ b _ hab => ?_) (fun i hi => ?_)
      · simp
      · have := e.injective hab
        simpa using this
      · have hi := (Finset.mem_filter.1 hi).2
        refine ⟨(e.symm i).2, Finset.mem_univ _, ?_⟩
        rw [← e.apply_symm_apply i]
        congr 1
        simp only [Equiv.apply_symm_apply]
        exact Prod.ext (Subtype.ext hi.symm) rfl
    rw [h1, hA.2, Finset.card_univ, Fintype.card_fin, hs]

end

theorem elects_perfect {w : World} {p : Profile} (hp : p.WF) (hn : p.voters ≠ []) (hu : ∀ v ∈ p.voters, v.weight = 1) {k : ℕ} (hk : 1 ≤ k)
    {alg ruleId : String} {B : Finset ℕ} (hB : IsCommittee p k B) (hPR : PerfectRepresentation p B) (h : PerfectRule w p k alg ruleId) :
    ∃ T, Elects w p k alg ruleId T ∧ ∀ A, T A → PerfectRepresentation p A := by
  have hload := perfect_load hu hn hk hB hPR
  have hdvd : k ∣ p.voters.length := by
    obtain ⟨φ, -, hc⟩ := hPR
    exact (perfect_size hk hB.2 hc).1
  have happ : k ≤ (approvedSet p).card := by
    rw [← hB.2]
    refine Finset.card_le_card fun c hc => ?_
    obtain ⟨φ, hφ, hcard⟩ := hPR
    have h1 := (perfect_size hk hB.2 hcard).2 c hc
    have h2 : 0 < p.voters.length / k := Nat.div_pos (Nat.le_of_dvd (List.length_pos_of_ne_nil hn) hdvd) hk
    rw [← h1] at h2
    obtain ⟨i, hi⟩ := Finset.card_pos.1 h2
    have := (hφ i).2
    rw [(Finset.mem_filter.1 hi).2] at this
    exact Finset.mem_biUnion.2 ⟨i, Finset.mem_univ _, this⟩
  have hint : IntegerWeights p := fun v hv => ⟨1, by simp [hu v hv]⟩
  have hone : ∀ v ∈ p.voters, 1 ≤ v.weight := fun v hv => (hu v hv).ge
  have key : ∀ A, MinimaxPhragmenOpt 0 p k A → PerfectRepresentation p A := by
    intro A hA
    have := hA.2 B _ hB hload
    rw [add_zero] at this
    exact perfect_of_load hp hu hn hk hdvd hA.1.1 this
  cases h with
  | monroe => exact ⟨_, .monroe hu, fun A hA => perfect_monroe hk hB hPR hA⟩
  | minimaxphragmen h =>
    exact ⟨_, .minimaxphragmen hint (by rw [unit_total hu]; exact_mod_cast h) happ, key⟩
  | leximaxphragmen h =>
    exact ⟨_, .leximaxphragmen hone happ, fun A hA =>
      key A ((C70_winner_minimax hp hn hk hA).2 hint (by rw [unit_total hu]; exact_mod_cast h))⟩

/-- **C107** Perfect representation: with unit weights, if there is a committee with perfect representation then Monroe, minimax-Phragmén and
leximax-Phragmén return only such committees. -/
theorem C107_perfect_representation (w : World) (hw : w.Exact) (p : Profile) (hp : p.WF) (hu : ∀ v ∈ p.voters, v.weight = 1) (a : Args)
    {ruleId alg : String} (hal : prologue w.env ruleId p a = .ok alg) (h : PerfectRule w p a.k alg ruleId)
    (hex : ∃ B, IsCommittee p a.k B ∧ PerfectRepresentation p B) :
    ∃ cs, compute w ruleId p a.committeesize none a.kw = .ok cs ∧ cs ≠ [] ∧ ∀ W ∈ cs, PerfectRepresentation p W.toFinset := by
  have hv := validCall_of_prologue hal
  obtain ⟨B, hB, hPR⟩ := hex
  obtain ⟨T, hT, hper⟩ := elects_perfect hp hv.voters hu hv.pos hB hPR h
  obtain ⟨cs, h1, h2, -⟩ := C31_valid w hw p hp a ruleId alg hal hT
  exact ⟨cs, h1, h2, fun W hW => hper _ (answers_mem (C31_compute w hw p hp a ruleId alg hal hT) h1 hW)⟩

/-! ## Examples -/

/-- Three voters approving the same two of four candidates. -/
def unanimousExample : Profile := ⟨4, [⟨[3, 1], 1⟩, ⟨[1, 3], 1⟩, ⟨[3, 1], 1⟩], []⟩

example : unanimousExample.WF ∧ Unanimous unanimousExample {1, 3} ∧
    prologue exampleEnv "consensus-rule" unanimousExample { committeesize := 2, resolute := false } = .ok "standard-fractions" ∧
    ExactAlg exampleEnv "standard-fractions" := by
  refine ⟨⟨by decide, by decide, by decide, by decide⟩, ?_, by decide +kernel, by unfold ExactAlg; decide +kernel⟩
  unfold Unanimous
  decide

/-- Four voters, of whom candidates 0 and 1 represent two each. -/
def perfectExample : Profile := ⟨4, [⟨[0, 2, 3], 1⟩, ⟨[0, 2, 3], 1⟩, ⟨[1, 2, 3], 1⟩, ⟨[1], 1⟩], []⟩

example : perfectExample.WF ∧ (∀ v ∈ perfectExample.voters, v.weight = 1) ∧
    ∃ B, IsCommittee perfectExample 2 B ∧ PerfectRepresentation perfectExample B := by
  refine ⟨⟨by decide, by decide, by decide, by decide⟩, by decide, {0, 1}, ⟨by decide, by decide⟩, ![0, 0, 1, 1], ?_, by decide⟩
  intro i
  fin_cases i <;> decide

/-- **C107** Contrast: CC respects unanimity only for the first seat; Greedy Monroe does not if there are more seats than voters; PAV does
not guarantee perfect representation (`{2, 3}` leaves the last voter without representative). -/
theorem C107_contrast :
    computeThieleMethod exampleEnv "cc" (fun _ => .error .importError) unanimousExample
      { committeesize := 2, algorithm := "brute-force", resolute := false } = .ok [[0, 1], [0, 3], [1, 2], [1, 3], [2, 3]] ∧
    greedyMonroeAlgorithm ⟨3, [⟨[1, 2], 1⟩], []⟩ 2 [0, 1, 2] = .ok ([[0, 1]], [(1, [0]), (0, [])], []) ∧
    computeThieleMethod exampleEnv "pav" (fun _ => .error .importError) perfectExample
      { committeesize := 2, algorithm := "brute-force", resolute := false } = .ok [[1, 2], [1, 3], [2, 3]] ∧
    ¬ PerfectRepresentation perfectExample {2, 3} := by
  refine ⟨by decide +kernel, by decide +kernel, by decide +kernel, ?_⟩
  rintro ⟨φ, h, -⟩
  have := h ⟨3, by decide⟩
  have h1 : appr perfectExample ⟨3, by decide⟩ = {1} := by decide
  rw [h1] at this
  simp only [Finset.mem_insert, Finset.mem_singleton] at this
  omega

end Abc
