import Verif.Spec.Sincerity
import Verif.Props.TieBreaking

/-!
# C106: approval voting is strategyproof
-/

namespace Abc
open Spec

variable {p p' : Profile} {v v' : Voter}

theorem Spec.OtherBallot.score (h : OtherBallot p p' v v') (c : ℕ) :
    candScore .av p' c + (if c ∈ v.A then v.weight else 0) = candScore .av p c + (if c ∈ v'.A then v.weight else 0) := by
  obtain ⟨l₁, l₂, e1, e2⟩ := h.voters
  unfold candScore
  rw [e1, e2]
  simp only [List.map_append, List.map_cons, List.sum_append, List.sum_cons, h.weight]
  ring

theorem Spec.OtherBallot.weight_pos (h : OtherBallot p p' v v') (hp : p.WF) : 0 < v.weight := by
  obtain ⟨l₁, l₂, e1, -⟩ := h.voters
  exact hp.weight v (by rw [e1]; simp)

theorem exists_max_image_list {α : Type} (l : List α) (f : α → ℕ) (h : l ≠ []) : ∃ x ∈ l, ∀ y ∈ l, f y ≤ f x := by
  induction l with
  | nil => exact absurd rfl h
  | cons a l ih =>
    by_cases hl : l = []
    · subst hl
      exact ⟨a, by simp, by simp⟩
    · obtain ⟨x, hx, hmax⟩ := ih hl
      rcases le_total (f x) (f a) with hc | hc
      · exact ⟨a, by simp, by rintro y hy; rcases List.mem_cons.1 hy with rfl | hy; exacts [le_rfl, (hmax y hy).trans hc]⟩
      · exact ⟨x, by simp [hx], by rintro y hy; rcases List.mem_cons.1 hy with rfl | hy; exacts [hc, hmax y hy]⟩

theorem exists_min_image_list {α : Type} (l : List α) (f : α → ℕ) (h : l ≠ []) : ∃ x ∈ l, ∀ y ∈ l, f x ≤ f y := by
  induction l with
  | nil => exact absurd rfl h
  | cons a l ih =>
    by_cases hl : l = []
    · subst hl
      exact ⟨a, by simp, by simp⟩
    · obtain ⟨x, hx, hmin⟩ := ih hl
      rcases le_total (f a) (f x) with hc | hc
      · exact ⟨a, by simp, by rintro y hy; rcases List.mem_cons.1 hy with rfl | hy; exacts [le_rfl, hc.trans (hmin y hy)]⟩
      · exact ⟨x, by simp [hx], by rintro y hy; rcases List.mem_cons.1 hy with rfl | hy; exacts [hc, hmin y hy]⟩

/-- A candidate approved by `v` does not gain, and a candidate not approved by `v` does not lose, when `v` votes differently. -/
theorem Spec.OtherBallot.loses (h : OtherBallot p p' v v') (hp : p.WF) {c : ℕ} (hc : c ∈ v.A) : candScore .av p' c ≤ candScore .av p c := by
  have := h.score c
  have hw := h.weight_pos hp
  rw [if_pos hc] at this
  split at this <;> linarith

theorem Spec.OtherBallot.gains (h : OtherBallot p p' v v') (hp : p.WF) {c : ℕ} (hc : c ∉ v.A) : candScore .av p c ≤ candScore .av p' c := by
  have := h.score c
  have hw := h.weight_pos hp
  rw [if_neg hc] at this
  split at this <;> linarith

/-- If `v` likes `W'` better than `W`, then `W'` has an additional member that `v` approves and lacks one that `v` does not approve. -/
theorem better_swap {k : ℕ} {W W' : Finset ℕ} (hW : W.card = k) (hW' : W'.card = k) (h : util v W < util v W') :
    ∃ x y, x ∈ W' ∧ x ∉ W ∧ x ∈ v.A ∧ y ∈ W ∧ y ∉ W' ∧ y ∉ v.A := by
  unfold util at h
  have hx : ∃ x ∈ v.A ∩ W', x ∉ v.A ∩ W := by
    by_contra hn
    push Not at hn
    exact absurd (Finset.card_le_card hn) (by omega)
  obtain ⟨x, hx1, hx2⟩ := hx
  have c1 : (W ∩ v.A).card + (W \ v.A).card = W.card := Finset.card_inter_add_card_sdiff W v.A
  have c2 : (W' ∩ v.A).card + (W' \ v.A).card = W'.card := Finset.card_inter_add_card_sdiff W' v.A
  rw [Finset.inter_comm] at c1 c2
  have hy : ∃ y ∈ W \ v.A, y ∉ W' \ v.A := by
    by_contra hn
    push Not at hn
    exact absurd (Finset.card_le_card hn) (by omega)
  obtain ⟨y, hy1, hy2⟩ := hy
  rw [Finset.mem_inter] at hx1
  rw [Finset.mem_sdiff] at hy1
  refine ⟨x, y, hx1.2, fun hc => hx2 (Finset.mem_inter.2 ⟨hx1.1, hc⟩), hx1.1, hy1.1, fun hc => hy2 (Finset.mem_sdiff.2 ⟨hc, hy1.2⟩), hy1.2⟩

/-- **C106** Approval voting with `resolute=True` (ties are broken in favour of smaller indices) is strategyproof: by casting another
ballot, a voter cannot increase the number of elected candidates that she approves. -/
theorem C106_strategyproof (w w' : World) (hp : p.WF) (hp' : p'.WF) (h : OtherBallot p p' v v') (a : Args) (alg alg' : String)
    (hr : a.resolute = true) (hal : prologue w.env "av" p a = .ok alg) (hal' : prologue w'.env "av" p' a = .ok alg') :
    ∃ W W', compute w "av" p a.committeesize none a.kw = .ok [W] ∧ compute w' "av" p' a.committeesize none a.kw = .ok [W'] ∧
      util v W'.toFinset ≤ util v W.toFinset := by
  obtain ⟨W, h1, h2, h3⟩ := C105_priority w .av p hp a alg hal hr
  obtain ⟨W', h1', h2', h3'⟩ := C105_priority w' .av p' hp' a alg' hal' hr
  refine ⟨W, W', h1, h1', ?_⟩
  by_contra hlt
  obtain ⟨x, y, hx1, hx2, hx3, hy1, hy2, hy3⟩ := better_swap h2.2 h2'.2 (not_le.1 hlt)
  rw [List.mem_toFinset] at hx1 hx2 hy1 hy2
  have e1 := h3 y hy1 x (by
    have := Finset.mem_range.1 (h2'.1 (List.mem_toFinset.2 hx1))
    rwa [h.numCand] at this) hx2
  have e2 := h3' x hx1 y (by
    have := Finset.mem_range.1 (h2.1 (List.mem_toFinset.2 hy1))
    rwa [h.numCand]) hy2
  have g1 := h.loses hp hx3
  have g2 := h.gains hp hy3
  rcases e1 with e1 | ⟨e1, e1'⟩ <;> rcases e2 with e2 | ⟨e2, e2'⟩
  · linarith
  · linarith
  · linarith
  · omega

theorem exchange_opt {r : SepRule} {q : Profile} {k : ℕ} {W : Finset ℕ} (h : SepOpt r q k W) {x y : ℕ} (hy : y ∈ W) (hx : x ∉ W)
    (hxm : x < q.numCand) :
    candScore r q x ≤ candScore r q y ∧ (candScore r q x = candScore r q y → SepOpt r q k (insert x (W.erase y))) := by
  have hxe : x ∉ W.erase y := fun h => hx (Finset.mem_of_mem_erase h)
  have hB : IsCommittee q k (insert x (W.erase y)) := by
    refine ⟨?_, ?_⟩
    · intro z hz
      rcases Finset.mem_insert.1 hz with rfl | hz
      · exact Finset.mem_range.2 hxm
      · exact h.1.1 (Finset.mem_of_mem_erase hz)
    · rw [Finset.card_insert_of_notMem hxe, Finset.card_erase_of_mem hy, h.1.2]
      have : 0 < W.card := Finset.card_pos.2 ⟨y, hy⟩
      rw [h.1.2] at this
      omega
  have hsum : ∑ c ∈ insert x (W.erase y), candScore r q c = ∑ c ∈ W, candScore r q c - candScore r q y + candScore r q x := by
    rw [Finset.sum_insert hxe, ← Finset.add_sum_erase _ _ hy]
    ring
  have := h.2 _ hB
  refine ⟨by linarith, fun he => ⟨hB, fun B' hB' => ?_⟩⟩
  have := h.2 B' hB'
  linarith

/-- The exchange argument without tie-breaking. -/
theorem exchange_both (hp : p.WF) (h : OtherBallot p p' v v') {k : ℕ} {W W' : Finset ℕ}
    (hW : SepOpt .av p k W) (hW' : SepOpt .av p' k W') (hlt : util v W < util v W') :
    (∃ B, SepOpt .av p k B ∧ util v W < util v B) ∧ ∃ B, SepOpt .av p' k B ∧ util v B < util v W' := by
  obtain ⟨x, y, hx1, hx2, hx3, hy1, hy2, hy3⟩ := better_swap hW.1.2 hW'.1.2 hlt
  have hxm : x < p.numCand := by
    have := Finset.mem_range.1 (hW'.1.1 hx1)
    rwa [h.numCand] at this
  have hym : y < p'.numCand := by
    have := Finset.mem_range.1 (hW.1.1 hy1)
    rwa [h.numCand]
  obtain ⟨e1, e2⟩ := exchange_opt hW hy1 hx2 hxm
  obtain ⟨f1, f2⟩ := exchange_opt hW' hx1 hy2 hym
  have g1 := h.loses hp hx3
  have g2 := h.gains hp hy3
  refine ⟨⟨_, e2 (by linarith), ?_⟩, ⟨_, f2 (by linarith), ?_⟩⟩
  · unfold util
    rw [Finset.inter_insert_of_mem hx3, Finset.card_insert_of_notMem
      (fun hc => hx2 (Finset.mem_of_mem_erase (Finset.mem_inter.1 hc).2))]
    have : v.A ∩ W.erase y = v.A ∩ W := by
      ext z
      simp only [Finset.mem_inter, Finset.mem_erase]
      constructor
      · rintro ⟨a, -, b⟩; exact ⟨a, b⟩
      · rintro ⟨a, b⟩; exact ⟨a, fun hz => hy3 (hz ▸ a), b⟩
    rw [this]
    omega
  · unfold util
    rw [Finset.inter_insert_of_notMem hy3]
    refine Finset.card_lt_card ⟨Finset.inter_subset_inter_left (Finset.erase_subset _ _), fun hc => ?_⟩
    have := hc (Finset.mem_inter.2 ⟨hx3, hx1⟩)
    exact absurd rfl (Finset.mem_erase.1 (Finset.mem_inter.1 this).2).1

/-- **C106** Approval voting with `resolute=False`: when a voter casts another ballot, neither the best nor the worst of the winning
committees gets better for her: every committee that wins then is at most as good as some committee that wins if she votes
sincerely, and every committee that wins if she votes sincerely is at least as good as some committee that wins then. -/
theorem C106_irresolute (w w' : World) (hp : p.WF) (hp' : p'.WF) (h : OtherBallot p p' v v') (a : Args) (alg alg' : String)
    (hr : a.resolute = false) (hm : a.max = none)
    (hal : prologue w.env "av" p a = .ok alg) (hal' : prologue w'.env "av" p' a = .ok alg') :
    ∃ cs cs', compute w "av" p a.committeesize none a.kw = .ok cs ∧ compute w' "av" p' a.committeesize none a.kw = .ok cs' ∧
      (∀ W' ∈ cs', ∃ W ∈ cs, util v W'.toFinset ≤ util v W.toFinset) ∧
      (∀ W ∈ cs, ∃ W' ∈ cs', util v W'.toFinset ≤ util v W.toFinset) := by
  have key : ∀ (w : World) (q : Profile) (hq : q.WF) (alg : String), prologue w.env "av" q a = .ok alg →
      Returns (compute w "av" q a.committeesize none a.kw) (SepOpt .av q a.k) ∧ ∃ A, SepOpt .av q a.k A := by
    intro w q hq alg hal
    have hst := standard_of hal rfl
    have h1 := C20_separable_optimal w.env .av q hq a hst
    have hv := validCall_of_prologue hal
    obtain ⟨W, -, -, h3⟩ := separableAlgorithm_answers .av q hq { a with resolute := true, max := none }
      ⟨hv.pos, hv.le, hv.voters, by simp, by simp⟩
    rw [compute_none hal]
    unfold Answers at h1
    rw [hr, hm] at h1
    exact ⟨h1, _, h3⟩
  obtain ⟨⟨cs, h1, h2, h3⟩, A₀, hA₀⟩ := key w p hp alg hal
  obtain ⟨⟨cs', h1', h2', h3'⟩, A₁, hA₁⟩ := key w' p' hp' alg' hal'
  refine ⟨cs, cs', h1, h1', ?_, ?_⟩
  · -- the best committee for `v`
    have hne : cs ≠ [] := by
      rintro rfl
      obtain ⟨W, hW, -⟩ := (h3 _).2 hA₀
      exact absurd hW (by simp)
    obtain ⟨W, hW, hmax⟩ := exists_max_image_list cs (fun W => util v W.toFinset) hne
    intro W' hW'
    refine ⟨W, hW, ?_⟩
    by_contra hlt
    obtain ⟨⟨B, hB, hlt'⟩, -⟩ := exchange_both hp h ((h3 _).1 ⟨W, hW, rfl⟩) ((h3' _).1 ⟨W', hW', rfl⟩) (not_le.1 hlt)
    obtain ⟨V, hV, rfl⟩ := (h3 _).2 hB
    exact absurd (hmax V hV) (not_le.2 hlt')
  · have hne : cs' ≠ [] := by
      rintro rfl
      obtain ⟨W, hW, -⟩ := (h3' _).2 hA₁
      exact absurd hW (by simp)
    obtain ⟨W', hW', hmin⟩ := exists_min_image_list cs' (fun W => util v W.toFinset) hne
    intro W hW
    refine ⟨W', hW', ?_⟩
    by_contra hlt
    obtain ⟨-, B, hB, hlt'⟩ := exchange_both hp h ((h3 _).1 ⟨W, hW, rfl⟩) ((h3' _).1 ⟨W', hW', rfl⟩) (not_le.1 hlt)
    obtain ⟨V, hV, rfl⟩ := (h3' _).2 hB
    exact absurd (hmin V hV) (not_le.2 hlt')

/-! ## Concrete cases -/

/-- The third voter approves 1 and 2; she may pretend to approve only 1. -/
def sincere : Profile := ⟨4, [⟨[0, 2, 3], 3⟩, ⟨[0, 1, 2], 1⟩, ⟨[1, 2], 1⟩], []⟩
def insincere : Profile := ⟨4, [⟨[0, 2, 3], 3⟩, ⟨[0, 1, 2], 1⟩, ⟨[1], 1⟩], []⟩

example : sincere.WF ∧ insincere.WF ∧ OtherBallot sincere insincere ⟨[1, 2], 1⟩ ⟨[1], 1⟩ :=
  ⟨⟨by decide, by decide, by decide, by decide⟩, ⟨by decide, by decide, by decide, by decide⟩,
    ⟨rfl, rfl, [⟨[0, 2, 3], 3⟩, ⟨[0, 1, 2], 1⟩], [], rfl, rfl⟩⟩

/-- **C106, contrast.** PAV and SAV are not strategyproof: in these profiles there is only one winning committee, and the voter who
approves 1 and 2 (respectively 0, 2 and 3) gets one more approved candidate elected by voting for 1 (respectively 2) only. -/
theorem C106_contrast :
    computeThieleMethod exampleEnv "pav" (fun _ => .error .importError) sincere
      { committeesize := 3, algorithm := "brute-force", resolute := false } = .ok [[0, 2, 3]] ∧
    computeThieleMethod exampleEnv "pav" (fun _ => .error .importError) insincere
      { committeesize := 3, algorithm := "brute-force", resolute := false } = .ok [[0, 1, 2]] ∧
    computeSeparable exampleEnv .sav ⟨4, [⟨[0], 1⟩, ⟨[0, 1], 1⟩, ⟨[0, 2, 3], 1⟩], []⟩ { committeesize := 2, resolute := false }
      = .ok [[0, 1]] ∧
    computeSeparable exampleEnv .sav ⟨4, [⟨[0], 1⟩, ⟨[0, 1], 1⟩, ⟨[2], 1⟩], []⟩ { committeesize := 2, resolute := false }
      = .ok [[0, 2]] := by
  refine ⟨?_, ?_, ?_, ?_⟩ <;> decide +kernel

end Abc
