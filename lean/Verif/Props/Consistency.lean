import Verif.Spec.Changes
import Verif.Props.Dispatch
import Verif.Props.Preferences

/-!
# C98: consistency

If two electorates have a common winning committee, then the winning committees of the joint electorate are exactly the committees that
win in both.
-/

namespace Abc
open Spec

theorem returns_mem {S : Finset ℕ → Prop} {cs : List (List ℕ)} (hc : Canonical cs)
    (h : ∀ A : Finset ℕ, (∃ W ∈ cs, W.toFinset = A) ↔ S A) (W : List ℕ) : W ∈ cs ↔ W.Pairwise (· < ·) ∧ S W.toFinset := by
  constructor
  · exact fun hW => ⟨hc.asc W hW, (h _).1 ⟨W, hW, rfl⟩⟩
  · rintro ⟨h1, h2⟩
    obtain ⟨V, hV, e⟩ := (h _).2 h2
    rwa [← eq_of_lt_toFinset (hc.asc V hV) h1 e]

theorem consistent_of_answers {a₁ a₂ a : Args} (h₁ : AllCommittees a₁) (h₂ : AllCommittees a₂) (h : AllCommittees a)
    {r₁ r₂ r : Except Err (List (List ℕ))} {S₁ S₂ S : Finset ℕ → Prop} (g₁ : Answers a₁ r₁ S₁) (g₂ : Answers a₂ r₂ S₂) (g : Answers a r S)
    (hS : ∀ A₀, S₁ A₀ → S₂ A₀ → ∀ A, S A ↔ S₁ A ∧ S₂ A) : Consistent r₁ r₂ r := by
  unfold Answers at g₁ g₂ g
  rw [h₁.1, h₁.2] at g₁
  rw [h₂.1, h₂.2] at g₂
  rw [h.1, h.2] at g
  obtain ⟨cs₁, e₁, c₁, m₁⟩ := g₁
  obtain ⟨cs₂, e₂, c₂, m₂⟩ := g₂
  obtain ⟨cs, e, c, m⟩ := g
  refine ⟨cs₁, cs₂, cs, e₁, e₂, e, ?_⟩
  rintro ⟨W₀, w₁, w₂⟩ W
  rw [returns_mem c₁ m₁] at w₁ ⊢
  rw [returns_mem c₂ m₂] at w₂ ⊢
  rw [returns_mem c m, hS _ w₁.2 w₂.2]
  constructor
  · rintro ⟨x, y, z⟩; exact ⟨⟨x, y⟩, x, z⟩
  · rintro ⟨⟨x, y⟩, -, z⟩; exact ⟨x, y, z⟩

/-- Consistency of rules that maximise a value, if the value for the union is determined monotonically by the two values. -/
theorem consistent_values {α : Type} [LinearOrder α] {C : Finset ℕ → Prop} {v₁ v₂ v : Finset ℕ → α}
    (hcomb : ∀ A B, v₁ B ≤ v₁ A → v₂ B ≤ v₂ A → v B ≤ v A ∧ (v₁ B < v₁ A ∨ v₂ B < v₂ A → v B < v A))
    (A₀ : Finset ℕ) (h₁ : C A₀ ∧ ∀ B, C B → v₁ B ≤ v₁ A₀) (h₂ : C A₀ ∧ ∀ B, C B → v₂ B ≤ v₂ A₀) (A : Finset ℕ) :
    (C A ∧ ∀ B, C B → v B ≤ v A) ↔ (C A ∧ ∀ B, C B → v₁ B ≤ v₁ A) ∧ (C A ∧ ∀ B, C B → v₂ B ≤ v₂ A) := by
  constructor
  · rintro ⟨hA, hmax⟩
    obtain ⟨-, h4⟩ := hcomb A₀ A (h₁.2 A hA) (h₂.2 A hA)
    have h5 := hmax A₀ h₁.1
    have h6 : ¬ (v₁ A < v₁ A₀ ∨ v₂ A < v₂ A₀) := fun g => absurd h5 (not_le.2 (h4 g))
    rw [not_or, not_lt, not_lt] at h6
    exact ⟨⟨hA, fun B hB => (h₁.2 B hB).trans h6.1⟩, hA, fun B hB => (h₂.2 B hB).trans h6.2⟩
  · rintro ⟨⟨hA, g₁⟩, -, g₂⟩
    exact ⟨hA, fun B hB => (hcomb A B (g₁ B hB) (g₂ B hB)).1⟩

theorem rat_comb {x y x' y' : ℚ} (h : x ≤ x') (h' : y ≤ y') : x + y ≤ x' + y' ∧ (x < x' ∨ y < y' → x + y < x' + y') :=
  ⟨add_le_add h h', fun g => g.elim (fun g => add_lt_add_of_lt_of_le g h') (fun g => add_lt_add_of_le_of_lt h g)⟩

theorem lex_cons_le {a b : ℚ} {l l' : List ℚ} : a :: l ≤ b :: l' ↔ a < b ∨ a = b ∧ l ≤ l' := by
  rw [← not_lt, List.cons_lt_cons_iff, not_or, not_lt, not_and, not_lt, le_iff_lt_or_eq]
  constructor
  · rintro ⟨h | h, h'⟩
    · exact Or.inl h
    · exact Or.inr ⟨h, h' h.symm⟩
  · rintro (h | ⟨h, h'⟩)
    · exact ⟨Or.inl h, fun e => absurd e h.ne'⟩
    · exact ⟨Or.inr h, fun _ => h'⟩

theorem lex_comb {ι : Type} (L : List ι) (f f' g g' : ι → ℚ) (h : L.map f ≤ L.map f') (h' : L.map g ≤ L.map g') :
    L.map (fun i => f i + g i) ≤ L.map (fun i => f' i + g' i) ∧
      (L.map f < L.map f' ∨ L.map g < L.map g' → L.map (fun i => f i + g i) < L.map (fun i => f' i + g' i)) := by
  induction L with
  | nil => simp
  | cons i L ih =>
    simp only [List.map_cons] at h h' ⊢
    rw [lex_cons_le] at h h'
    rw [lex_cons_le, List.cons_lt_cons_iff, List.cons_lt_cons_iff, List.cons_lt_cons_iff]
    rcases h with h | ⟨e, h⟩
    · have hg : g i ≤ g' i := by
        rcases h' with h' | ⟨e', -⟩
        · exact h'.le
        · exact e'.le
      have hlt : f i + g i < f' i + g' i := add_lt_add_of_lt_of_le h hg
      exact ⟨Or.inl hlt, fun _ => Or.inl hlt⟩
    · rcases h' with h' | ⟨e', h'⟩
      · have hlt : f i + g i < f' i + g' i := add_lt_add_of_le_of_lt e.le h'
        exact ⟨Or.inl hlt, fun _ => Or.inl hlt⟩
      · obtain ⟨i1, i2⟩ := ih h h'
        refine ⟨Or.inr ⟨by rw [e, e'], i1⟩, ?_⟩
        rintro ((g1 | ⟨-, g1⟩) | (g1 | ⟨-, g1⟩))
        · exact absurd e g1.ne
        · exact Or.inr ⟨by rw [e, e'], i2 (Or.inl g1)⟩
        · exact absurd e' g1.ne
        · exact Or.inr ⟨by rw [e, e'], i2 (Or.inr g1)⟩

section
variable {p q r : Profile} (M : Merged p q r)
include M

theorem merged_sum (F : Voter → ℚ) (G : Finset ℕ × ℚ → ℚ) (hF : ∀ v, F v = G (ballot v)) :
    (r.voters.map F).sum = (p.voters.map F).sum + (q.voters.map F).sum := by
  have e : ∀ l : List Voter, l.map F = (l.map ballot).map G := fun l => by
    rw [List.map_map]
    exact List.map_congr_left (fun v _ => hF v)
  rw [e, e, e, (M.voters.map G).sum_eq, List.map_append, List.sum_append]

theorem merged_committee (k : ℕ) (A : Finset ℕ) : (IsCommittee p k A ↔ IsCommittee r k A) ∧ (IsCommittee q k A ↔ IsCommittee r k A) := by
  unfold IsCommittee
  rw [M.left, M.right]
  exact ⟨Iff.rfl, Iff.rfl⟩

theorem merged_thiele (f : ℕ → ℚ) (k : ℕ) (A₀ : Finset ℕ) (h₁ : ThieleOpt f p k A₀) (h₂ : ThieleOpt f q k A₀) (A : Finset ℕ) :
    ThieleOpt f r k A ↔ ThieleOpt f p k A ∧ ThieleOpt f q k A := by
  unfold ThieleOpt at *
  simp only [(merged_committee M k _).1, (merged_committee M k _).2] at *
  refine consistent_values (fun A B h h' => ?_) A₀ h₁ h₂ A
  have e : ∀ W, score f r W = score f p W + score f q W := fun W =>
    merged_sum M _ (fun b => b.2 * ∑ i ∈ Finset.range (b.1 ∩ W).card, f (i + 1)) (fun _ => rfl)
  rw [e, e]
  exact rat_comb h h'

/-- What a voter gives to an approved candidate. -/
def sepValue (s : SepRule) (b : Finset ℕ × ℚ) : ℚ :=
  match s with
  | .av => b.2
  | .sav => b.2 / (b.1.card : ℚ)

theorem merged_sep (s : SepRule) (k : ℕ) (A₀ : Finset ℕ) (h₁ : SepOpt s p k A₀) (h₂ : SepOpt s q k A₀) (A : Finset ℕ) :
    SepOpt s r k A ↔ SepOpt s p k A ∧ SepOpt s q k A := by
  unfold SepOpt at *
  simp only [(merged_committee M k _).1, (merged_committee M k _).2] at *
  refine consistent_values (fun A B h h' => ?_) A₀ h₁ h₂ A
  have e : ∀ W : Finset ℕ, ∑ c ∈ W, candScore s r c = ∑ c ∈ W, candScore s p c + ∑ c ∈ W, candScore s q c := fun W => by
    rw [← Finset.sum_add_distrib]
    exact Finset.sum_congr rfl (fun c _ => merged_sum M _ (fun b => if c ∈ b.1 then sepValue s b else 0) (fun v => by cases s <;> rfl))
  rw [e, e]
  exact rat_comb h h'

theorem merged_lexcc (k : ℕ) (A₀ : Finset ℕ) (h₁ : LexccOpt p k A₀) (h₂ : LexccOpt q k A₀) (A : Finset ℕ) :
    LexccOpt r k A ↔ LexccOpt p k A ∧ LexccOpt q k A := by
  unfold LexccOpt at *
  simp only [(merged_committee M k _).1, (merged_committee M k _).2, not_lt] at *
  refine consistent_values (fun A B h h' => ?_) A₀ h₁ h₂ A
  have e : ∀ W, coverageVector r k W = (List.range k).map (fun l => coverage p (l + 1) W + coverage q (l + 1) W) := fun W =>
    List.map_congr_left (fun l _ => merged_sum M _ (fun b => if l + 1 ≤ (b.1 ∩ W).card then b.2 else 0) (fun _ => rfl))
  rw [e, e]
  exact lex_comb _ _ _ _ _ h h'

theorem merged_minimaxav (k : ℕ) (A : Finset ℕ) (h₁ : MinimaxavOpt p k A) (h₂ : MinimaxavOpt q k A) : MinimaxavOpt r k A := by
  refine ⟨(merged_committee M k A).1.1 h₁.1, fun B hB d hd v hv => ?_⟩
  have hd' : ∀ {u v : Voter}, ballot u = ballot v → ∀ W, dist u W = dist v W := by
    intro u v e W
    have : u.A = v.A := congrArg Prod.fst e
    unfold dist
    rw [this]
  have hsub : ∀ v, ballot v ∈ r.voters.map ballot ↔ ballot v ∈ p.voters.map ballot ∨ ballot v ∈ q.voters.map ballot := fun v => by
    rw [M.voters.mem_iff, List.mem_append]
  have hin : ∀ u, ballot u ∈ r.voters.map ballot → dist u B ≤ d := by
    intro u hu
    obtain ⟨v, hv, e⟩ := List.mem_map.1 hu
    rw [← hd' e]
    exact hd v hv
  rcases (hsub v).1 (List.mem_map_of_mem hv) with h | h
  · obtain ⟨u, hu, e⟩ := List.mem_map.1 h
    rw [← hd' e]
    exact h₁.2 B ((merged_committee M k B).1.2 hB) d (fun v hv => hin v ((hsub v).2 (Or.inl (List.mem_map_of_mem hv)))) u hu
  · obtain ⟨u, hu, e⟩ := List.mem_map.1 h
    rw [← hd' e]
    exact h₂.2 B ((merged_committee M k B).2.2 hB) d (fun v hv => hin v ((hsub v).2 (Or.inr (List.mem_map_of_mem hv)))) u hu

end

/-! ## The theorems

The three calls may use different algorithms and different solvers. -/

section
variable {w₁ w₂ w : World} (hw₁ : w₁.Exact) (hw₂ : w₂.Exact) (hw : w.Exact) {p q r : Profile} (hp : p.WF) (hq : q.WF) (hr : r.WF)
  (M : Merged p q r) {a₁ a₂ a : Args} (h₁ : AllCommittees a₁) (h₂ : AllCommittees a₂) (h : AllCommittees a)
  (hk₁ : a₁.k = a.k) (hk₂ : a₂.k = a.k) {ruleId alg₁ alg₂ alg : String}
  (hal₁ : prologue w₁.env ruleId p a₁ = .ok alg₁) (hal₂ : prologue w₂.env ruleId q a₂ = .ok alg₂)
  (hal : prologue w.env ruleId r a = .ok alg)
include hw₁ hw₂ hw hp hq hr M h₁ h₂ h hk₁ hk₂ hal₁ hal₂ hal

/-- **C98** AV and SAV are consistent. -/
theorem C98_separable (hrule : ruleId = "av" ∨ ruleId = "sav") :
    Consistent (compute w₁ ruleId p a₁.committeesize none a₁.kw) (compute w₂ ruleId q a₂.committeesize none a₂.kw)
      (compute w ruleId r a.committeesize none a.kw) := by
  rcases hrule with rfl | rfl
  · refine consistent_of_answers h₁ h₂ h (C31_compute w₁ hw₁ p hp a₁ _ _ hal₁ .av) (C31_compute w₂ hw₂ q hq a₂ _ _ hal₂ .av)
      (C31_compute w hw r hr a _ _ hal .av) ?_
    rw [hk₁, hk₂]
    exact merged_sep M _ _
  · refine consistent_of_answers h₁ h₂ h (C31_compute w₁ hw₁ p hp a₁ _ _ hal₁ .sav) (C31_compute w₂ hw₂ q hq a₂ _ _ hal₂ .sav)
      (C31_compute w hw r hr a _ _ hal .sav) ?_
    rw [hk₁, hk₂]
    exact merged_sep M _ _

/-- **C98** The Thiele methods `pav`, `slav`, `cc` and `geom<base>` are consistent. -/
theorem C98_thiele {s : ScoreId} (hs₁ : w₁.env.scoreId ruleId = .ok s) (hs₂ : w₂.env.scoreId ruleId = .ok s)
    (hs : w.env.scoreId ruleId = .ok s) (hok : s = .pav ∨ s = .slav ∨ s = .cc ∨ ∃ b, s = .geom b ∧ 1 < b)
    (hcp₁ : alg₁ = "ortools-cp" → IntegerWeights p) (hcp₂ : alg₂ = "ortools-cp" → IntegerWeights q)
    (hcp : alg = "ortools-cp" → IntegerWeights r) :
    Consistent (compute w₁ ruleId p a₁.committeesize none a₁.kw) (compute w₂ ruleId q a₂.committeesize none a₂.kw)
      (compute w ruleId r a.committeesize none a.kw) := by
  have hok' : ∀ alg : String, s = .pav ∨ s = .slav ∨ s = .cc ∨
      ∃ b, s = .geom b ∧ (1 < b ∨ (alg = "branch-and-bound" ∧ 1 ≤ b) ∨ (alg = "brute-force" ∧ 0 < b)) := by
    intro alg
    rcases hok with h | h | h | ⟨b, h, hb⟩
    · exact Or.inl h
    · exact Or.inr (Or.inl h)
    · exact Or.inr (Or.inr (Or.inl h))
    · exact Or.inr (Or.inr (Or.inr ⟨b, h, Or.inl hb⟩))
  refine consistent_of_answers h₁ h₂ h (C31_compute w₁ hw₁ p hp a₁ _ _ hal₁ (.thiele hs₁ (hok' _) hcp₁))
    (C31_compute w₂ hw₂ q hq a₂ _ _ hal₂ (.thiele hs₂ (hok' _) hcp₂)) (C31_compute w hw r hr a _ _ hal (.thiele hs (hok' _) hcp)) ?_
  rw [hk₁, hk₂]
  exact merged_thiele M _ _

/-- **C98** Lex-CC is consistent. -/
theorem C98_lexcc (hrule : ruleId = "lexcc") (hg₁ : alg₁ = "gurobi" → Granular p) (hg₂ : alg₂ = "gurobi" → Granular q)
    (hg : alg = "gurobi" → Granular r) :
    Consistent (compute w₁ ruleId p a₁.committeesize none a₁.kw) (compute w₂ ruleId q a₂.committeesize none a₂.kw)
      (compute w ruleId r a.committeesize none a.kw) := by
  subst hrule
  refine consistent_of_answers h₁ h₂ h (C31_compute w₁ hw₁ p hp a₁ _ _ hal₁ (.lexcc hg₁))
    (C31_compute w₂ hw₂ q hq a₂ _ _ hal₂ (.lexcc hg₂)) (C31_compute w hw r hr a _ _ hal (.lexcc hg)) ?_
  rw [hk₁, hk₂]
  exact merged_lexcc M _

/-- **C98** Minimax-AV: the committees that win in both electorates win in the joint electorate. -/
theorem C98_minimaxav (hrule : ruleId = "minimaxav") :
    ∃ cs₁ cs₂ cs, compute w₁ ruleId p a₁.committeesize none a₁.kw = .ok cs₁ ∧ compute w₂ ruleId q a₂.committeesize none a₂.kw = .ok cs₂ ∧
      compute w ruleId r a.committeesize none a.kw = .ok cs ∧ ∀ W ∈ cs₁, W ∈ cs₂ → W ∈ cs := by
  subst hrule
  have g₁ := C31_compute w₁ hw₁ p hp a₁ _ _ hal₁ .minimaxav
  have g₂ := C31_compute w₂ hw₂ q hq a₂ _ _ hal₂ .minimaxav
  have g := C31_compute w hw r hr a _ _ hal .minimaxav
  unfold Answers at g₁ g₂ g
  rw [h₁.1, h₁.2, hk₁] at g₁
  rw [h₂.1, h₂.2, hk₂] at g₂
  rw [h.1, h.2] at g
  obtain ⟨cs₁, e₁, c₁, m₁⟩ := g₁
  obtain ⟨cs₂, e₂, c₂, m₂⟩ := g₂
  obtain ⟨cs, e, c, m⟩ := g
  refine ⟨cs₁, cs₂, cs, e₁, e₂, e, fun W w₁ w₂ => ?_⟩
  rw [returns_mem c m]
  exact ⟨c₁.asc W w₁, merged_minimaxav M _ _ ((m₁ _).1 ⟨W, w₁, rfl⟩) ((m₂ _).1 ⟨W, w₂, rfl⟩)⟩

end

/-- **C98** Adding the voters of `q` to the profile `p` merges the two electorates. -/
theorem C98_add_voters (p q : Profile) (hp : p.WF) (hq : q.WF) (hn : q.numCand = p.numCand) :
    (p.addVoters (q.voters.map Voter.toRaw)).2 = none ∧ Merged p q (p.addVoters (q.voters.map Voter.toRaw)).1 ∧
      (p.addVoters (q.voters.map Voter.toRaw)).1.WF := by
  have h := addVoters_inv hp (q.voters.map Voter.toRaw)
  refine ⟨?_, ?_, h.1⟩
  · rw [addVoters_toRaw p q.voters (fun v hv => ⟨hq.nodup v hv, by rw [← hn]; exact hq.lt v hv, hq.weight v hv⟩)]
  · refine ⟨h.2.symm, by rw [hn]; exact h.2.symm, ?_⟩
    rw [addVoters_toRaw p q.voters (fun v hv => ⟨hq.nodup v hv, by rw [← hn]; exact hq.lt v hv, hq.weight v hv⟩)]
    refine List.Perm.of_eq ?_
    rw [List.map_append, List.map_map]
    congr 1
    refine List.map_congr_left (fun v _ => ?_)
    refine Prod.ext ?_ rfl
    change (sortNat v.approved).toFinset = v.approved.toFinset
    ext x
    simp [mem_sortNat]

/-! ### The hypotheses can be met -/

/-- Two electorates with a common winning committee of size 2 under PAV, and their union. -/
example : Merged ⟨3, [⟨[0, 1], 1⟩], []⟩ ⟨3, [⟨[1, 2], 2⟩], []⟩ exampleProfile := ⟨rfl, rfl, List.Perm.refl _⟩

example (w : World) (hw : w.env = exampleEnv) :
    prologue w.env "pav" exampleProfile { committeesize := 2, resolute := false } = .ok "branch-and-bound" ∧
    prologue w.env "pav" ⟨3, [⟨[0, 1], 1⟩], []⟩ { committeesize := 2, algorithm := "brute-force", resolute := false } = .ok "brute-force" ∧
    AllCommittees { committeesize := 2, algorithm := "brute-force", resolute := false } :=
  ⟨by rw [hw]; decide +kernel, by rw [hw]; decide +kernel, rfl, rfl⟩

end Abc
