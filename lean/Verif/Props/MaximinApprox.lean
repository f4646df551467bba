import Verif.Props.Loads
import Verif.Props.MaximinPriceable
import Verif.Props.Welfare

/-!
# C130: maximin support approximates the best possible smallest support
-/

namespace Abc

open Spec

section
variable {p : Profile} (hp : p.WF)
include hp

theorem backersOf_submodular (X Y : Finset ℕ) :
    wt p (backersOf p (X ∪ Y)) + wt p (backersOf p (X ∩ Y)) ≤ wt p (backersOf p X) + wt p (backersOf p Y) := by
  classical
  have h1 : backersOf p (X ∪ Y) = backersOf p X ∪ backersOf p Y := by
    ext i
    simp only [backersOf, Finset.mem_filter, Finset.mem_univ, true_and, Finset.mem_union]
    constructor
    · rintro ⟨c, h | h, hc⟩
      · exact Or.inl ⟨c, h, hc⟩
      · exact Or.inr ⟨c, h, hc⟩
    · rintro (⟨c, h, hc⟩ | ⟨c, h, hc⟩)
      · exact ⟨c, Or.inl h, hc⟩
      · exact ⟨c, Or.inr h, hc⟩
  have h2 : backersOf p (X ∩ Y) ⊆ backersOf p X ∩ backersOf p Y :=
    Finset.subset_inter (backersOf_mono Finset.inter_subset_left) (backersOf_mono Finset.inter_subset_right)
  have h3 : wt p (backersOf p (X ∩ Y)) ≤ wt p (backersOf p X ∩ backersOf p Y) :=
    Finset.sum_le_sum_of_subset_of_nonneg h2 fun i _ _ => (weight_pos hp i).le
  have h4 : wt p (backersOf p X ∪ backersOf p Y) + wt p (backersOf p X ∩ backersOf p Y) = wt p (backersOf p X) + wt p (backersOf p Y) :=
    Finset.sum_union_inter
  rw [h1]
  linarith

/-- Every committee whose members have support `s` can be extended by a member of every larger committee with twice this support. -/
theorem support_extend {W B : Finset ℕ} (hlt : W.card < B.card) {s : ℚ} (hW : SupportAtLeast p W s) (hB : SupportAtLeast p B (2 * s)) :
    ∃ c ∈ B, c ∉ W ∧ SupportAtLeast p (insert c W) s := by
  classical
  rw [C67_support_iff hp] at hW hB
  have hcards : (W \ B).card < (B \ W).card := by
    have h1 := Finset.card_sdiff_add_card_inter W B
    have h2 := Finset.card_sdiff_add_card_inter B W
    rw [Finset.inter_comm] at h2
    omega
  rcases lt_or_ge s 0 with hs | hs
  · obtain ⟨c, hc⟩ : (B \ W).Nonempty := Finset.card_pos.1 (by omega)
    obtain ⟨h1, h2⟩ := Finset.mem_sdiff.1 hc
    refine ⟨c, h1, h2, (C67_support_iff hp _ _).2 fun C _ => ?_⟩
    exact (mul_nonpos_of_nonneg_of_nonpos (Nat.cast_nonneg _) hs.le).trans (wt_nonneg hp _)
  · by_contra hno
    push Not at hno
    have hbad : ∀ c ∈ B \ W, ∃ S, S ⊆ insert c W ∧ c ∈ S ∧ wt p (backersOf p S) < S.card * s := by
      intro c hc
      obtain ⟨h1, h2⟩ := Finset.mem_sdiff.1 hc
      have := hno c h1 h2
      rw [C67_support_iff hp] at this
      push Not at this
      obtain ⟨S, hS, hlt⟩ := this
      refine ⟨S, hS, ?_, hlt⟩
      by_contra hcS
      have : S ⊆ W := fun x hx => by
        rcases Finset.mem_insert.1 (hS hx) with rfl | h
        · exact absurd hx hcS
        · exact h
      exact absurd (hW S this) (not_le.2 hlt)
    have key : ∀ D : Finset ℕ, D.Nonempty → D ⊆ B \ W → ∃ X, D ⊆ X ∧ X ⊆ D ∪ W ∧ wt p (backersOf p X) < X.card * s := by
      intro D hD
      induction hD using Finset.Nonempty.cons_induction with
      | singleton c =>
        intro hsub
        obtain ⟨S, h1, h2, h3⟩ := hbad c (hsub (by simp))
        exact ⟨S, Finset.singleton_subset_iff.2 h2, by rwa [← Finset.insert_eq], h3⟩
      | cons c D hcD hD ih =>
        intro hsub
        obtain ⟨X, x1, x2, x3⟩ := ih fun y hy => hsub (Finset.mem_cons_of_mem hy)
        obtain ⟨S, h1, h2, h3⟩ := hbad c (hsub (Finset.mem_cons_self c D))
        have hcW : c ∉ W := (Finset.mem_sdiff.1 (hsub (Finset.mem_cons_self c D))).2
        have hint : X ∩ S ⊆ W := by
          intro y hy
          obtain ⟨hyX, hyS⟩ := Finset.mem_inter.1 hy
          rcases Finset.mem_insert.1 (h1 hyS) with rfl | h
          · rcases Finset.mem_union.1 (x2 hyX) with h | h
            · exact absurd h hcD
            · exact h
          · exact h
        have g1 := hW _ hint
        have g2 := backersOf_submodular hp X S
        have g3 : ((X ∪ S).card : ℚ) + (X ∩ S).card = X.card + S.card := by exact_mod_cast Finset.card_union_add_card_inter X S
        refine ⟨X ∪ S, ?_, ?_, ?_⟩
        · intro y hy
          rcases Finset.mem_cons.1 hy with rfl | hy
          · exact Finset.mem_union_right _ h2
          · exact Finset.mem_union_left _ (x1 hy)
        · intro y hy
          rw [Finset.mem_union, Finset.mem_cons]
          rcases Finset.mem_union.1 hy with hy | hy
          · rcases Finset.mem_union.1 (x2 hy) with h | h
            · exact Or.inl (Or.inr h)
            · exact Or.inr h
          · rcases Finset.mem_insert.1 (h1 hy) with h | h
            · exact Or.inl (Or.inl h)
            · exact Or.inr h
        · have : ((X ∪ S).card : ℚ) * s = X.card * s + S.card * s - (X ∩ S).card * s := by rw [← add_mul, ← g3]; ring
          linarith
    obtain ⟨X, x1, x2, x3⟩ := key (B \ W) (Finset.card_pos.1 (by omega)) le_rfl
    have g1 := hB (X ∩ B) Finset.inter_subset_right
    have g2 : wt p (backersOf p (X ∩ B)) ≤ wt p (backersOf p X) :=
      Finset.sum_le_sum_of_subset_of_nonneg (backersOf_mono Finset.inter_subset_left) fun i _ _ => (weight_pos hp i).le
    have g3 : (X \ B).card ≤ (W \ B).card := by
      refine Finset.card_le_card fun y hy => ?_
      obtain ⟨h1, h2⟩ := Finset.mem_sdiff.1 hy
      refine Finset.mem_sdiff.2 ⟨?_, h2⟩
      rcases Finset.mem_union.1 (x2 h1) with h | h
      · exact absurd (Finset.mem_sdiff.1 h).1 h2
      · exact h
    have g4 : (B \ W).card ≤ (X ∩ B).card :=
      Finset.card_le_card fun y hy => Finset.mem_inter.2 ⟨x1 hy, (Finset.mem_sdiff.1 hy).1⟩
    have g5 := Finset.card_sdiff_add_card_inter X B
    have g6 : (X.card : ℚ) ≤ (X ∩ B).card * 2 := by
      have : X.card ≤ (X ∩ B).card * 2 := by omega
      exact_mod_cast this
    have := mul_le_mul_of_nonneg_right g6 hs
    linarith

omit hp in
theorem support_mono {W : Finset ℕ} {s t : ℚ} (h : SupportAtLeast p W t) (hs : s ≤ t) : SupportAtLeast p W s := by
  obtain ⟨f, f1, f2, f3, f4⟩ := h
  exact ⟨f, f1, f2, f3, fun c hc => hs.trans (f4 c hc)⟩

/-- Maximin support, with tolerance `ε` in every round. -/
theorem maximin_half {ε : ℚ} (hε : 0 ≤ ε) {B : Finset ℕ} (hB : B ⊆ Finset.range p.numCand) {t : ℚ} (ht : SupportAtLeast p B t)
    {W : List ℕ} {u : Unit} (hr : Run (fun W (_ : Unit) c => MaximinBest ε p W c) (fun _ _ _ => ()) [] () W u) (hle : W.length ≤ B.card) :
    SupportAtLeast p W.toFinset (t / 2 - W.length * ε) := by
  induction hr with
  | start =>
    exact (C67_support_iff hp _ _).2 fun C hC => by
      have hC0 : C = ∅ := Finset.subset_empty.1 hC
      subst hC0
      simpa using wt_nonneg hp _
  | @step W s c hrun hbest ih =>
    rw [List.length_append, List.length_singleton] at hle
    have h1 := ih (by omega)
    have hcard : W.toFinset.card < B.card := (List.toFinset_card_le W).trans_lt (by omega)
    have hlen : (0 : ℚ) ≤ W.length * ε := by positivity
    obtain ⟨d, hd, hdW, hsup⟩ := support_extend hp hcard h1 (support_mono ht (by linarith))
    have := hbest.2.2 d (Finset.mem_range.1 (hB hd)) (fun h => hdW (List.mem_toFinset.2 h)) _ hsup
    have e : (W ++ [c]).toFinset = insert c W.toFinset := by ext x; simp
    rw [e, List.length_append, List.length_singleton]
    refine support_mono this ?_
    push_cast
    linarith

end

/-- **C130** If the weight of the voters can be distributed among the approved members of some committee such that each of them is supported
by at least `t`, then it can be distributed among the members of every committee returned by `maximin-support` such that each of them is
supported by at least `t/2`. -/
theorem C130_maximin_support (w : World) (hw : w.Exact) (p : Profile) (hp : p.WF) (a : Args) {alg : String}
    (hal : prologue w.env "maximin-support" p a = .ok alg) (hint : IntegerWeights p) (hk : a.k ≤ 3162) :
    ∃ cs, compute w "maximin-support" p a.committeesize none a.kw = .ok cs ∧ cs ≠ [] ∧ ∀ W ∈ cs, ∀ B t, IsCommittee p a.k B →
      SupportAtLeast p B t → SupportAtLeast p W.toFinset (t / 2) := by
  have hE : Elects w p a.k alg "maximin-support" _ := .maximinSupport hint hk
  obtain ⟨cs, h1, h2, -⟩ := C31_valid w hw p hp a _ alg hal hE
  refine ⟨cs, h1, h2, fun W hW B t hB ht => ?_⟩
  obtain ⟨V, u, hr, hl, e⟩ := answers_mem (C31_compute w hw p hp a _ alg hal hE) h1 hW
  have := maximin_half hp le_rfl hB.1 ht hr (by rw [hl, hB.2])
  rw [e] at this
  simpa using this

/-- **C130** For arbitrary weights and committee sizes up to the tolerance of the code. -/
theorem C130_maximin_support_tolerance (w : World) (hw : w.Exact) (p : Profile) (hp : p.WF) (a : Args) {alg : String}
    (hal : prologue w.env "maximin-support" p a = .ok alg) :
    ∃ cs, compute w "maximin-support" p a.committeesize none a.kw = .ok cs ∧ cs ≠ [] ∧ ∀ W ∈ cs, ∀ B t, IsCommittee p a.k B →
      SupportAtLeast p B t → SupportAtLeast p W.toFinset (t / 2 - a.k / 10 ^ 7) := by
  have hE : Elects w p a.k alg "maximin-support" _ := .maximinSupportTol
  obtain ⟨cs, h1, h2, -⟩ := C31_valid w hw p hp a _ alg hal hE
  refine ⟨cs, h1, h2, fun W hW B t hB ht => ?_⟩
  obtain ⟨V, u, hr, hl, e⟩ := answers_mem (C31_compute w hw p hp a _ alg hal hE) h1 hW
  have := maximin_half hp (by norm_num) hB.1 ht hr (by rw [hl, hB.2])
  rw [e, hl, mul_one_div] at this
  exact this

/-- Non-vacuity: the hypotheses of C130 hold for a concrete call and a concrete committee. -/
example : bigAndSmall.WF ∧ IntegerWeights bigAndSmall ∧
    prologue exampleEnv "maximin-support" bigAndSmall { committeesize := 3, resolute := false, algorithm := "gurobi" } = .ok "gurobi" ∧
    IsCommittee bigAndSmall 3 {0, 3, 4} ∧ SupportAtLeast bigAndSmall {0, 3, 4} 4 := by
  have hwf : bigAndSmall.WF := ⟨by decide, by decide, by decide, by decide⟩
  refine ⟨hwf, fun v hv => ⟨v.weight.num.toNat, by revert v; decide +kernel⟩, by decide +kernel, ⟨by decide, by decide⟩, (C67_support_iff hwf _ _).2 ?_⟩
  decide +kernel

/-- **C130** Contrast: AV is not that good. -/
theorem C130_contrast : thieleBruteforce (marginalFct .av) bigAndSmall 3 false none = .ok [[0, 1, 2]] ∧
    SupportAtLeast bigAndSmall {0, 3, 4} 4 ∧ ¬ SupportAtLeast bigAndSmall {0, 1, 2} 2 := by
  have hwf : bigAndSmall.WF := ⟨by decide, by decide, by decide, by decide⟩
  refine ⟨by decide +kernel, (C67_support_iff hwf _ _).2 (by decide +kernel), fun h => ?_⟩
  have := (C67_support_iff hwf _ _).1 h {0, 1, 2} le_rfl
  revert this
  decide +kernel

end Abc
