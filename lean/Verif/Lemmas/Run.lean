import Verif.Lemmas.Dfs
import Verif.Spec.Run

/-!
# From the search loops to runs
-/

namespace Abc
open Spec

section
variable {σ : Type} {Best : List ℕ → σ → ℕ → Prop} {upd : List ℕ → σ → ℕ → σ} {W₀ : List ℕ} {s₀ : σ}

theorem Spec.RunFirst.run {W : List ℕ} {s : σ} (h : RunFirst Best upd W₀ s₀ W s) : Run Best upd W₀ s₀ W s := by
  induction h with
  | start => exact .start
  | step _ h1 _ ih => exact .step ih h1

theorem Spec.Run.length {W : List ℕ} {s : σ} (h : Run Best upd W₀ s₀ W s) : W₀.length ≤ W.length := by
  induction h with
  | start => exact le_rfl
  | step _ _ ih => simp; omega

theorem Spec.Run.prefix {W : List ℕ} {s : σ} (h : Run Best upd W₀ s₀ W s) : W₀ <+: W := by
  induction h with
  | start => exact List.prefix_rfl
  | step _ _ ih => exact ih.trans (List.prefix_append _ _)

theorem run_snoc_iff {W : List ℕ} {c : ℕ} {t : σ} (hl : W₀.length ≤ W.length) : Run Best upd W₀ s₀ (W ++ [c]) t ↔
    ∃ s, Run Best upd W₀ s₀ W s ∧ Best W s c ∧ t = upd W s c := by
  constructor
  · intro h
    generalize hV : W ++ [c] = V at h
    cases h with
    | start => rw [← hV] at hl; simp at hl
    | step h1 h2 =>
      obtain ⟨rfl, h5⟩ := List.append_inj' hV rfl
      obtain rfl : c = _ := by simpa using h5
      exact ⟨_, h1, h2, rfl⟩
  · rintro ⟨s, h1, h2, rfl⟩
    exact .step h1 h2

theorem run_zero_iff {W : List ℕ} {t : σ} : (Run Best upd W₀ s₀ W t ∧ W.length = W₀.length) ↔ W = W₀ ∧ t = s₀ := by
  constructor
  · rintro ⟨h, hl⟩
    cases h with
    | start => exact ⟨rfl, rfl⟩
    | step h1 _ =>
      have := h1.length
      simp at hl
      omega
  · rintro ⟨rfl, rfl⟩
    exact ⟨.start, rfl⟩

theorem Spec.Run.nodup {m : ℕ} (hB : ∀ W s c, Run Best upd W₀ s₀ W s → Best W s c → c < m ∧ c ∉ W) (h0 : W₀.Nodup)
    (h1 : ∀ c ∈ W₀, c < m) {W : List ℕ} {s : σ}
    (h : Run Best upd W₀ s₀ W s) : W.Nodup ∧ ∀ c ∈ W, c < m := by
  induction h with
  | start => exact ⟨h0, h1⟩
  | @step W s c hrun hc ih =>
    obtain ⟨hlt, hcW⟩ := hB _ _ _ hrun hc
    refine ⟨?_, ?_⟩
    · rw [List.nodup_append]
      refine ⟨ih.1, by simp, ?_⟩
      rintro x hx y hy rfl
      simp at hy
      exact hcW (hy ▸ hx)
    · intro x hx
      rcases List.mem_append.1 hx with hx | hx
      · exact ih.2 x hx
      · simp at hx; omega

/-- The smallest-index run of a given length is unique. -/
theorem Spec.RunFirst.unique {V W : List ℕ} {s t : σ} (hV : RunFirst Best upd W₀ s₀ V s) (hW : RunFirst Best upd W₀ s₀ W t)
    (hl : V.length = W.length) : V = W ∧ s = t := by
  induction hV generalizing W t with
  | start =>
    obtain ⟨rfl, rfl⟩ := run_zero_iff.1 ⟨hW.run, hl.symm⟩
    exact ⟨rfl, rfl⟩
  | @step V s c hV h1 h2 ih =>
    cases hW with
    | start =>
      have := hV.run.length
      simp at hl
      omega
    | @step W t d hW g1 g2 =>
      obtain ⟨rfl, rfl⟩ := ih hW (by simpa using hl)
      have : c = d := by
        rcases lt_trichotomy c d with h | h | h
        · exact absurd h1 (g2 c h)
        · exact h
        · exact absurd g1 (h2 d h)
      subst this
      exact ⟨rfl, rfl⟩

/-- The successors computed by the code are the possible elections, in ascending order. -/
def SuccSpec {N : Type} (Best : List ℕ → σ → ℕ → Prop) (upd : List ℕ → σ → ℕ → σ) (W₀ : List ℕ) (s₀ : σ) (m k : ℕ)
    (node : List ℕ → σ → N) (succs : N → Except Err (List N)) : Prop :=
  ∀ W s, Run Best upd W₀ s₀ W s → W.length < k → ∃ cands : List ℕ,
    succs (node W s) = .ok (cands.map (fun c => node (W ++ [c]) (upd W s c))) ∧ cands.Pairwise (· < ·) ∧ cands ≠ [] ∧
    (∀ c ∈ cands, c < m) ∧ ∀ c, c ∈ cands ↔ Best W s c

/-- The same for an arbitrary order of the tied candidates. -/
def SuccSpecN {N : Type} (Best : List ℕ → σ → ℕ → Prop) (upd : List ℕ → σ → ℕ → σ) (W₀ : List ℕ) (s₀ : σ) (m k : ℕ)
    (node : List ℕ → σ → N) (succs : N → Except Err (List N)) : Prop :=
  ∀ W s, Run Best upd W₀ s₀ W s → W.length < k → ∃ cands : List ℕ,
    succs (node W s) = .ok (cands.map (fun c => node (W ++ [c]) (upd W s c))) ∧ cands.Nodup ∧ cands ≠ [] ∧
    (∀ c ∈ cands, c < m) ∧ ∀ c, c ∈ cands ↔ Best W s c

theorem SuccSpec.toN {N : Type} {m k : ℕ} {node : List ℕ → σ → N} {succs : N → Except Err (List N)}
    (hs : SuccSpec Best upd W₀ s₀ m k node succs) : SuccSpecN Best upd W₀ s₀ m k node succs := by
  intro W s h1 h2
  obtain ⟨cands, e, hlt, h⟩ := hs W s h1 h2
  exact ⟨cands, e, nodup_of_lt hlt, h⟩

/-- The successor function without exceptions. -/
def succOf {N : Type} (succs : N → Except Err (List N)) (n : N) : List N :=
  match succs n with
  | .ok l => l
  | .error _ => []

theorem succOf_ok {N : Type} {succs : N → Except Err (List N)} {n : N} {l : List N} (h : succs n = .ok l) : succOf succs n = l := by
  unfold succOf
  rw [h]

variable {N : Type} {m k : ℕ} {node : List ℕ → σ → N} {succs : N → Except Err (List N)}

theorem mem_leaves_runN (hs : SuccSpecN Best upd W₀ s₀ m k node succs) (r : ℕ) (hr : W₀.length + r ≤ k) (n : N) :
    n ∈ leaves (succOf succs) r (node W₀ s₀) ↔ ∃ W s, Run Best upd W₀ s₀ W s ∧ W.length = W₀.length + r ∧ n = node W s := by
  induction r generalizing n with
  | zero =>
    simp only [leaves, List.mem_singleton, add_zero]
    constructor
    · rintro rfl; exact ⟨W₀, s₀, .start, rfl, rfl⟩
    · rintro ⟨W, s, h1, h2, rfl⟩
      obtain ⟨rfl, rfl⟩ := run_zero_iff.1 ⟨h1, h2⟩
      rfl
  | succ r ih =>
    rw [mem_leaves_snoc]
    constructor
    · rintro ⟨n', hn', hn⟩
      obtain ⟨W, s, h1, h2, rfl⟩ := (ih (by omega) n').1 hn'
      obtain ⟨cands, e, -, -, -, hc⟩ := hs W s h1 (by omega)
      rw [succOf_ok e, List.mem_map] at hn
      obtain ⟨c, hcm, rfl⟩ := hn
      exact ⟨W ++ [c], _, .step h1 ((hc c).1 hcm), by simp [h2]; omega, rfl⟩
    · rintro ⟨W, t, h1, h2, rfl⟩
      rcases List.eq_nil_or_concat W with rfl | ⟨V, c, rfl⟩
      · simp at h2
      · rw [List.concat_eq_append] at h1 h2 ⊢
        have hl : V.length = W₀.length + r := by simp at h2; omega
        obtain ⟨s, g1, g2, rfl⟩ := (run_snoc_iff (by omega)).1 h1
        obtain ⟨cands, e, -, -, -, hc⟩ := hs V s g1 (by omega)
        refine ⟨node V s, (ih (by omega) _).2 ⟨V, s, g1, hl, rfl⟩, ?_⟩
        rw [succOf_ok e, List.mem_map]
        exact ⟨c, (hc c).2 g2, rfl⟩

theorem mem_leaves_run (hs : SuccSpec Best upd W₀ s₀ m k node succs) (r : ℕ) (hr : W₀.length + r ≤ k) (n : N) :
    n ∈ leaves (succOf succs) r (node W₀ s₀) ↔ ∃ W s, Run Best upd W₀ s₀ W s ∧ W.length = W₀.length + r ∧ n = node W s :=
  mem_leaves_runN hs.toN r hr n

/-- the first leaf is the smallest-index run -/
theorem leaves_head_run (hs : SuccSpec Best upd W₀ s₀ m k node succs) (r : ℕ) (W : List ℕ) (s : σ)
    (h : RunFirst Best upd W₀ s₀ W s) (hr : W.length + r ≤ k) :
    ∃ V t rest, RunFirst Best upd W₀ s₀ V t ∧ V.length = W.length + r ∧
      leaves (succOf succs) r (node W s) = node V t :: rest := by
  induction r generalizing W s with
  | zero => exact ⟨W, s, [], h, rfl, rfl⟩
  | succ r ih =>
    obtain ⟨cands, e, hlt, hne, -, hc⟩ := hs W s h.run (by omega)
    cases cands with
    | nil => exact absurd rfl hne
    | cons c cs =>
      have hstep : RunFirst Best upd W₀ s₀ (W ++ [c]) (upd W s c) := by
        refine .step h ((hc c).1 (by simp)) ?_
        intro d hd hb
        have h1 := (hc d).2 hb
        rw [List.pairwise_cons] at hlt
        rcases List.mem_cons.1 h1 with h1 | h1
        · omega
        · have := hlt.1 d h1; omega
      obtain ⟨V, t, rest, g1, g2, g3⟩ := ih _ _ hstep (by simp; omega)
      refine ⟨V, t, rest ++ (cs.map (fun c => node (W ++ [c]) (upd W s c))).flatMap (leaves (succOf succs) r), g1, by simp at g2; omega, ?_⟩
      simp only [leaves]
      rw [succOf_ok e]
      simp [g3]

end

section
variable {σ : Type} {Best : List ℕ → σ → ℕ → Prop} {upd : List ℕ → σ → ℕ → σ} {s₀ : σ}
variable {N : Type} {node : List ℕ → σ → N} {succs : N → Except Err (List N)} {full : N → Bool} {out : N → List ℕ}

theorem nodup_length_le_of_lt {l : List ℕ} {m : ℕ} (h : l.Nodup) (hm : ∀ c ∈ l, c < m) : l.length ≤ m := by
  rw [← List.toFinset_card_of_nodup h]
  calc l.toFinset.card ≤ (Finset.range m).card := Finset.card_le_card (fun c hc => by simpa using hm c (by simpa using hc))
    _ = m := by simp

theorem sorted_length_le_of_lt {l : List ℕ} {m : ℕ} (h : l.Pairwise (· < ·)) (hm : ∀ c ∈ l, c < m) : l.length ≤ m := by
  rw [← toFinset_card_of_lt h]
  calc l.toFinset.card ≤ (Finset.range m).card := Finset.card_le_card (fun c hc => by simpa using hm c (by simpa using hc))
    _ = m := by simp

/-- The search over all runs (any start), with any bound on the number of committees. -/
theorem universes_runN {W₀ : List ℕ} {m k : ℕ} (hs : SuccSpecN Best upd W₀ s₀ m k node succs)
    (hfull : ∀ W s, full (node W s) = decide (W.length = k)) (hlen : W₀.length < k) (max : Option ℕ) (fuel : ℕ)
    (hfuel : (m + 1) ^ (k - W₀.length) ≤ fuel) :
    universes full out succs max fuel [node W₀ s₀] []
      = .ok (collect max ((leaves (succOf succs) (k - W₀.length) (node W₀ s₀)).map out) []) := by
  -- we search over nodes tagged with their length
  have main : ∀ (fuel : ℕ) (stack : List (List ℕ × σ)) (win : List (List ℕ)),
      (∀ n ∈ stack, Run Best upd W₀ s₀ n.1 n.2 ∧ n.1.length < k) →
      (stack.map (fun n => (m + 1) ^ (k - n.1.length))).sum ≤ fuel →
      universes full out succs max fuel (stack.map (fun n => node n.1 n.2)) win
        = .ok (collect max ((stack.flatMap (fun n => leaves (succOf succs) (k - n.1.length) (node n.1 n.2))).map out) win) := by
    intro fuel
    induction fuel with
    | zero =>
      intro stack win _ hf
      cases stack with
      | nil => simp [universes, collect]
      | cons n rest =>
        have : 0 < (m + 1) ^ (k - n.1.length) := by positivity
        simp at hf
    | succ fuel ih =>
      intro stack win hst hf
      cases stack with
      | nil => simp [universes, collect]
      | cons n rest =>
        obtain ⟨W, s⟩ := n
        obtain ⟨hrun, hW⟩ := hst (W, s) (by simp)
        obtain ⟨cands, e, hlt, hne, hm, hc⟩ := hs W s hrun hW
        simp only [List.map_cons]
        unfold universes
        rw [e]
        simp only [bind, Except.bind]
        obtain ⟨r, hr'⟩ : ∃ r, k - W.length = r + 1 := ⟨k - W.length - 1, by simp at hW; omega⟩
        have hcl := nodup_length_le_of_lt hlt hm
        have hpot : (rest.map (fun n => (m + 1) ^ (k - n.1.length))).sum + m * (m + 1) ^ r ≤ fuel := by
          simp only [List.map_cons, List.sum_cons, hr', pow_succ] at hf
          have : 1 ≤ (m + 1) ^ r := Nat.one_le_pow _ _ (by omega)
          nlinarith
        have hleaf : leaves (succOf succs) (k - W.length) (node W s)
            = (cands.map (fun c => (W ++ [c], upd W s c))).flatMap
                (fun n => leaves (succOf succs) (k - n.1.length) (node n.1 n.2)) := by
          rw [hr']
          simp only [leaves]
          rw [succOf_ok e, List.flatMap_map, List.flatMap_map]
          rw [List.flatMap_def, List.flatMap_def]
          congr 1
          refine List.map_congr_left (fun c hc => ?_)
          simp only [List.length_append, List.length_singleton]
          congr 1
          omega
        by_cases h0 : r = 0
        · have hall : ∀ n ∈ cands.map (fun c => node (W ++ [c]) (upd W s c)), full n = true := by
            intro n hn
            obtain ⟨c, hc, rfl⟩ := List.mem_map.1 hn
            rw [hfull]
            simp
            omega
          have hl2 : leaves (succOf succs) (k - W.length) (node W s) = cands.map (fun c => node (W ++ [c]) (upd W s c)) := by
            rw [hr', h0]
            simp only [leaves]
            rw [succOf_ok e]
            simp
          rcases expandLoop_all_full full out max _ win hall with ⟨w, e1, e2⟩ | ⟨w, e1, e2⟩
          · rw [e1]
            simp only [List.flatMap_cons, List.map_append, hl2]
            rw [e2]
          · rw [e1]
            simp only [List.nil_append]
            rw [ih rest w (fun n hn => hst n (by simp [hn])) (by omega)]
            simp only [List.flatMap_cons, List.map_append, hl2]
            rw [e2]
        · have hall : ∀ n ∈ cands.map (fun c => node (W ++ [c]) (upd W s c)), full n = false := by
            intro n hn
            obtain ⟨c, hc, rfl⟩ := List.mem_map.1 hn
            rw [hfull]
            simp
            omega
          rw [expandLoop_none_full full out max _ [] win hall]
          simp only [List.nil_append]
          have := ih (cands.map (fun c => (W ++ [c], upd W s c)) ++ rest) win ?_ ?_
          · simp only [List.map_append, List.map_map] at this
            have e3 : ((fun n : List ℕ × σ => node n.1 n.2) ∘ fun c => (W ++ [c], upd W s c))
                = fun c => node (W ++ [c]) (upd W s c) := rfl
            rw [e3] at this
            rw [this]
            simp only [List.flatMap_append, List.flatMap_cons, hleaf, List.map_append]
          · intro n hn
            rcases List.mem_append.1 hn with hn | hn
            · obtain ⟨c, hcm, rfl⟩ := List.mem_map.1 hn
              exact ⟨.step hrun ((hc c).1 hcm), by simp; omega⟩
            · exact hst n (by simp [hn])
          · rw [List.map_append, List.sum_append]
            have : ((cands.map (fun c => (W ++ [c], upd W s c))).map (fun n => (m + 1) ^ (k - n.1.length))).sum
                ≤ m * (m + 1) ^ r := by
              have e3 : (cands.map (fun c => (W ++ [c], upd W s c))).map (fun n => (m + 1) ^ (k - n.1.length))
                  = cands.map (fun _ => (m + 1) ^ r) := by
                rw [List.map_map]
                refine List.map_congr_left (fun c _ => ?_)
                simp only [Function.comp, List.length_append, List.length_singleton]
                congr 1
                omega
              rw [e3]
              simp only [List.map_const', List.sum_replicate, nsmul_eq_mul, Nat.cast_id]
              exact Nat.mul_le_mul_right _ hcl
            omega
  have := main fuel [(W₀, s₀)] [] (by
    intro n hn
    rw [List.mem_singleton] at hn
    subst hn
    exact ⟨.start, hlen⟩) (by simpa using hfuel)
  simpa using this

theorem universes_run {W₀ : List ℕ} {m k : ℕ} (hs : SuccSpec Best upd W₀ s₀ m k node succs)
    (hfull : ∀ W s, full (node W s) = decide (W.length = k)) (hlen : W₀.length < k) (max : Option ℕ) (fuel : ℕ)
    (hfuel : (m + 1) ^ (k - W₀.length) ≤ fuel) :
    universes full out succs max fuel [node W₀ s₀] []
      = .ok (collect max ((leaves (succOf succs) (k - W₀.length) (node W₀ s₀)).map out) []) :=
  universes_runN hs.toN hfull hlen max fuel hfuel

/-- The complete rule.  Resolute results are supplied separately (`hres`) or come from the same search with
`max_num_of_committees = 1`. -/
theorem run_answersN {p : Profile} {a : Args} (hv : ValidCall p a)
    (hs : SuccSpecN Best upd [] s₀ p.numCand a.k node succs)
    (hB : ∀ W s c, Run Best upd [] s₀ W s → Best W s c → c < p.numCand ∧ c ∉ W)
    (hfull : ∀ W s, full (node W s) = decide (W.length = a.k)) (hout : ∀ W s, out (node W s) = sortNat W)
    {r : Except Err (List (List ℕ))}
    (hres : a.resolute = true → ∃ W s, Run Best upd [] s₀ W s ∧ W.length = a.k ∧ r = sortedCommittees [W])
    (hirr : a.resolute = false → r = do
      let winning ← universes full out succs a.maxNum (dfsFuel p a.k) [node [] s₀] []
      sortedCommittees winning) : Answers a r (RunWinner Best upd s₀ a.k) := by
  have hpos := hv.pos
  have hmem := fun n => mem_leaves_runN hs a.k (by simp) n
  have hnd : ∀ {W s}, Run Best upd [] s₀ W s → W.Nodup := fun h => (h.nodup (m := p.numCand) hB (by simp) (by simp)).1
  set ls := (leaves (succOf succs) a.k (node [] s₀)).map out with hls
  have hlsm : ∀ V, V ∈ ls.foldl setAdd [] ↔ ∃ W s, Run Best upd [] s₀ W s ∧ W.length = a.k ∧ V = sortNat W := by
    intro V
    rw [mem_foldl_setAdd]
    simp only [List.not_mem_nil, false_or, hls, List.mem_map]
    constructor
    · rintro ⟨n, hn, rfl⟩
      obtain ⟨W, s, h1, h2, rfl⟩ := (hmem n).1 hn
      exact ⟨W, s, h1, by simpa using h2, hout W s⟩
    · rintro ⟨W, s, h1, h2, rfl⟩
      exact ⟨node W s, (hmem _).2 ⟨W, s, h1, by simpa using h2, rfl⟩, hout W s⟩
  have hlt : ∀ V ∈ ls.foldl setAdd [], V.Pairwise (· < ·) := by
    intro V hV
    obtain ⟨W, s, h1, -, rfl⟩ := (hlsm V).1 hV
    exact sortNat_lt (hnd h1)
  refine answers_sorted (cs := ls.foldl setAdd []) (fun V hV => nodup_of_lt (hlt V hV))
    (map_toFinset_nodup_of_lt hlt (foldl_setAdd_nodup List.nodup_nil)) ?_ ?_ ?_
  · intro A
    constructor
    · rintro ⟨V, hV, rfl⟩
      obtain ⟨W, s, h1, h2, rfl⟩ := (hlsm V).1 hV
      exact ⟨W, s, h1, h2, (sortNat_toFinset W).symm⟩
    · rintro ⟨W, s, h1, h2, rfl⟩
      exact ⟨sortNat W, (hlsm _).2 ⟨W, s, h1, h2, rfl⟩, sortNat_toFinset W⟩
  · intro hr
    obtain ⟨W, s, h1, h2, h3⟩ := hres hr
    exact ⟨W, hnd h1, ⟨W, s, h1, h2, rfl⟩, h3⟩
  · intro hr
    rw [hirr hr, universes_runN hs hfull (by simp; omega) a.maxNum (dfsFuel p a.k) (by simp [dfsFuel])]
    simp only [bind, Except.bind, List.length_nil, Nat.sub_zero]
    rw [← hls, collect_eq_truncate a hv]

theorem run_answers {p : Profile} {a : Args} (hv : ValidCall p a)
    (hs : SuccSpec Best upd [] s₀ p.numCand a.k node succs)
    (hB : ∀ W s c, Run Best upd [] s₀ W s → Best W s c → c < p.numCand ∧ c ∉ W)
    (hfull : ∀ W s, full (node W s) = decide (W.length = a.k)) (hout : ∀ W s, out (node W s) = sortNat W)
    {r : Except Err (List (List ℕ))}
    (hres : a.resolute = true → ∃ W s, RunFirst Best upd [] s₀ W s ∧ W.length = a.k ∧ r = sortedCommittees [W])
    (hirr : a.resolute = false → r = do
      let winning ← universes full out succs a.maxNum (dfsFuel p a.k) [node [] s₀] []
      sortedCommittees winning) : Answers a r (RunWinner Best upd s₀ a.k) :=
  run_answersN hv hs.toN hB hfull hout (fun h => by obtain ⟨W, s, h1, h2⟩ := hres h; exact ⟨W, s, h1.run, h2⟩) hirr

/-- The search bounded by one committee finds the smallest-index run. -/
theorem universes_first {W₀ : List ℕ} {m k : ℕ} (hs : SuccSpec Best upd W₀ s₀ m k node succs)
    (hfull : ∀ W s, full (node W s) = decide (W.length = k)) (hlen : W₀.length < k) (fuel : ℕ)
    (hfuel : (m + 1) ^ (k - W₀.length) ≤ fuel) :
    ∃ W s, RunFirst Best upd W₀ s₀ W s ∧ W.length = k ∧
      universes full out succs (some 1) fuel [node W₀ s₀] [] = .ok [out (node W s)] := by
  obtain ⟨V, t, rest, h1, h2, h3⟩ := leaves_head_run hs (k - W₀.length) W₀ s₀ .start (by omega)
  refine ⟨V, t, h1, by omega, ?_⟩
  rw [universes_run hs hfull hlen (some 1) fuel hfuel, h3]
  simp [collect, setAdd]

end

end Abc
