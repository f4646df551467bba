import Verif.Lemmas.PyNum
import Verif.Props.Budgets
import Verif.Props.Phragmen
import Verif.Props.ILPPhragmen

/-!
# C75: "float-fractions" returns committees (seq-Phragmén, Phragmén-Eneström, consensus rule)
-/

namespace Abc
open Spec

/-! ## Minima and maxima -/

section
variable {F : Type} {A : Arith F}

theorem minOf_spec {l : List F} (h : l ≠ []) : ∃ m, A.minOf l = .ok m ∧ m ∈ l ∧ ∀ x ∈ l, A.val m ≤ A.val x := by
  cases l with
  | nil => exact absurd rfl h
  | cons a l =>
    refine ⟨l.foldl A.min2 a, rfl, ?_⟩
    clear h
    induction l generalizing a with
    | nil => simp
    | cons b l ih =>
      simp only [List.foldl_cons]
      obtain ⟨h1, h2⟩ := ih (A.min2 a b)
      have hm : A.min2 a b = a ∨ A.min2 a b = b := by unfold Arith.min2; split <;> simp
      have hle : A.val (A.min2 a b) ≤ A.val a ∧ A.val (A.min2 a b) ≤ A.val b := by
        unfold Arith.min2
        split
        · rename_i h; exact ⟨h.le, le_rfl⟩
        · rename_i h; exact ⟨le_rfl, not_lt.1 h⟩
      have h3 := h2 (A.min2 a b) (by simp)
      refine ⟨?_, ?_⟩
      · rcases List.mem_cons.1 h1 with h1 | h1
        · rw [h1]; rcases hm with h | h <;> rw [h] <;> simp
        · exact List.mem_cons_of_mem _ (List.mem_cons_of_mem _ h1)
      · intro x hx
        rcases List.mem_cons.1 hx with rfl | hx
        · exact h3.trans hle.1
        · rcases List.mem_cons.1 hx with rfl | hx
          · exact h3.trans hle.2
          · exact h2 x (List.mem_cons_of_mem _ hx)

theorem maxOf_spec {l : List F} (h : l ≠ []) : ∃ m, A.maxOf l = .ok m ∧ m ∈ l ∧ ∀ x ∈ l, A.val x ≤ A.val m := by
  cases l with
  | nil => exact absurd rfl h
  | cons a l =>
    refine ⟨l.foldl A.max2 a, rfl, ?_⟩
    clear h
    induction l generalizing a with
    | nil => simp
    | cons b l ih =>
      simp only [List.foldl_cons]
      obtain ⟨h1, h2⟩ := ih (A.max2 a b)
      have hm : A.max2 a b = a ∨ A.max2 a b = b := by unfold Arith.max2; split <;> simp
      have hle : A.val a ≤ A.val (A.max2 a b) ∧ A.val b ≤ A.val (A.max2 a b) := by
        unfold Arith.max2
        split
        · rename_i h; exact ⟨h.le, le_rfl⟩
        · rename_i h; exact ⟨le_rfl, not_lt.1 h⟩
      have h3 := h2 (A.max2 a b) (by simp)
      refine ⟨?_, ?_⟩
      · rcases List.mem_cons.1 h1 with h1 | h1
        · rw [h1]; rcases hm with h | h <;> rw [h] <;> simp
        · exact List.mem_cons_of_mem _ (List.mem_cons_of_mem _ h1)
      · intro x hx
        rcases List.mem_cons.1 hx with rfl | hx
        · exact hle.1.trans h3
        · rcases List.mem_cons.1 hx with rfl | hx
          · exact hle.2.trans h3
          · exact h2 x (List.mem_cons_of_mem _ hx)

end

/-! ## Valid outcomes -/

/-- There is a winning committee, and all winning committees are committees of size `k`. -/
def Spec.ValidOutcomes (p : Profile) (k : ℕ) (S : Finset ℕ → Prop) : Prop := (∃ X, S X) ∧ ∀ X, S X → IsCommittee p k X

theorem runWinner_valid {σ N : Type} {Best : List ℕ → σ → ℕ → Prop} {upd : List ℕ → σ → ℕ → σ} {s₀ : σ} {p : Profile} {k : ℕ}
    {node : List ℕ → σ → N} {succs : N → Except Err (List N)}
    (hs : SuccSpec Best upd [] s₀ p.numCand k node succs)
    (hB : ∀ W s c, Run Best upd [] s₀ W s → Best W s c → c < p.numCand ∧ c ∉ W) :
    ValidOutcomes p k (RunWinner Best upd s₀ k) := by
  constructor
  · obtain ⟨V, t, -, h1, h2, -⟩ := leaves_head_run hs k [] s₀ .start (by simp)
    exact ⟨V.toFinset, V, t, h1.run, by simpa using h2, rfl⟩
  · rintro X ⟨W, s, h1, h2, rfl⟩
    obtain ⟨h3, h4⟩ := h1.nodup (m := p.numCand) hB (by simp) (by simp)
    exact ⟨fun c hc => by simpa using h4 c (by simpa using hc), by rw [List.toFinset_card_of_nodup h3, h2]⟩

/-! ## seq-Phragmén -/

/-- Integer weights and a total weight small enough for exact integer arithmetic. -/
structure Spec.Moderate (p : Profile) (k : ℕ) : Prop where
  integer : IntegerWeights p
  size : (k + 1) * total p ≤ 2 ^ 53
  seats : k ≤ 10 ^ 10

/-- the weight as an integer -/
theorem Spec.Moderate.num {p : Profile} {k : ℕ} (h : Moderate p k) {v : Voter} (hv : v ∈ p.voters) :
    ((v.weight.num : ℤ) : ℚ) = v.weight ∧ 0 ≤ v.weight.num := by
  obtain ⟨n, hn⟩ := h.integer v hv
  rw [hn]
  simp

theorem num_sum {p : Profile} {k : ℕ} (h : Moderate p k) (l : List Voter) (hl : l.Sublist p.voters) :
    (((l.map (fun v => v.weight.num)).sum : ℤ) : ℚ) = (l.map Voter.weight).sum ∧ (l.map Voter.weight).sum ≤ total p := by
  constructor
  · induction l with
    | nil => simp
    | cons v l ih =>
      have hv : v ∈ p.voters := hl.subset (by simp)
      simp only [List.map_cons, List.sum_cons, Int.cast_add]
      rw [ih ((List.sublist_cons_self v l).trans hl), (h.num hv).1]
  · rw [← totalWeight_eq]
    refine List.Sublist.sum_le_sum (hl.map _) ?_
    intro x hx
    obtain ⟨v, hv, rfl⟩ := List.mem_map.1 hx
    rw [← (h.num hv).1]
    exact_mod_cast (h.num hv).2

section
variable {F : Type} {A : Arith F}

theorem sum_weights_exact (hA : Sound A) {p : Profile} {k : ℕ} (h : Moderate p k) (l : List Voter) (hl : l.Sublist p.voters) :
    A.val (A.sum (l.map (fun v => A.weight v.weight))) = ((l.map (fun v => v.weight.num)).sum : ℤ) ∧
    0 ≤ (l.map (fun v => v.weight.num)).sum ∧ (k + 1) * (l.map (fun v => v.weight.num)).sum ≤ 2 ^ 53 := by
  obtain ⟨h1, h2⟩ := num_sum h l hl
  have hnn : 0 ≤ (l.map (fun v => v.weight.num)).sum := by
    refine List.sum_nonneg ?_
    intro x hx
    obtain ⟨v, hv, rfl⟩ := List.mem_map.1 hx
    exact (h.num (hl.subset hv)).2
  have hsz : (k + 1) * (l.map (fun v => v.weight.num)).sum ≤ 2 ^ 53 := by
    have : ((k : ℚ) + 1) * ((l.map (fun v => v.weight.num)).sum : ℤ) ≤ 2 ^ 53 := by
      rw [h1]
      refine le_trans ?_ h.size
      gcongr
    exact_mod_cast this
  have hle : (l.map (fun v => v.weight.num)).sum ≤ 2 ^ 53 := by nlinarith
  have e1 : (l.map (fun v => (A.weight v.weight, v.weight.num))).map Prod.fst = l.map (fun v => A.weight v.weight) := by
    rw [List.map_map]; rfl
  have e2 : (l.map (fun v => (A.weight v.weight, v.weight.num))).map Prod.snd = l.map (fun v => v.weight.num) := by
    rw [List.map_map]; rfl
  have hv : ∀ e ∈ (l.map (fun v => (A.weight v.weight, v.weight.num)) : List (F × ℤ)), 0 ≤ e.2 ∧ A.val e.1 = e.2 := by
    intro e he
    obtain ⟨v, hv, rfl⟩ := List.mem_map.1 he
    have := h.num (hl.subset hv)
    exact ⟨this.2, by simp only; rw [hA.val_weight, this.1]⟩
  refine ⟨le_antisymm ?_ ?_, hnn, hsz⟩
  · have := hA.sum.le _ (fun e he => ⟨(hv e he).1, (hv e he).2.le⟩) (by rw [e2]; exact hle)
    rwa [e1, e2] at this
  · have := hA.sum.ge _ (fun e he => ⟨(hv e he).1, (hv e he).2.ge⟩) (by rw [e2]; exact hle)
    rwa [e1, e2] at this

theorem zip_filter_fst (vs : List Voter) (xs : List F) (hl : xs.length = vs.length) (P : Voter → Bool) :
    ((vs.zip xs).filter (fun vl => P vl.1)).map Prod.fst = vs.filter P := by
  induction vs generalizing xs with
  | nil => simp
  | cons v vs ih =>
    cases xs with
    | nil => simp at hl
    | cons x xs =>
      simp only [List.zip_cons_cons, List.filter_cons]
      have := ih xs (by simpa using hl)
      split <;> simp [this]

/-- The computed new load is at most one larger than the largest load. -/
theorem fNewLoad_le (hA : Sound A) {p : Profile} {k : ℕ} (hm : Moderate p k) (load : List F) (hl : load.length = p.voters.length)
    (j : ℕ) (hj : j + 1 ≤ k) (hx : ∀ x ∈ load, A.val x ≤ j) (c : ℕ) (hc : 0 < A.val (fApproversWeight A p c)) :
    A.val (A.div (A.add (fApproversLoad A p load c) (A.int 1)) (fApproversWeight A p c)) ≤ j + 1 := by
  set vs := p.voters.filter (fun v => decide (c ∈ v.approved)) with hvs
  obtain ⟨h1, h2, h3⟩ := sum_weights_exact hA hm vs List.filter_sublist
  set Z := (vs.map (fun v => v.weight.num)).sum with hZ
  have hW : A.val (fApproversWeight A p c) = (Z : ℤ) := h1
  have hZp : 0 < Z := by rw [hW] at hc; exact_mod_cast hc
  have hload : A.val (fApproversLoad A p load c) ≤ ((Z * j : ℤ) : ℚ) := by
    unfold fApproversLoad
    set es := (p.voters.zip load).filter (fun vl => decide (c ∈ vl.1.approved)) with hes
    have e1 : (es.map (fun vl => (A.mul (A.weight vl.1.weight) vl.2, vl.1.weight.num * (j : ℤ)))).map Prod.fst
        = es.map (fun vl => A.mul (A.weight vl.1.weight) vl.2) := by rw [List.map_map]; rfl
    have e2 : ((es.map (fun vl => (A.mul (A.weight vl.1.weight) vl.2, vl.1.weight.num * (j : ℤ)))).map Prod.snd).sum = Z * j := by
      have := zip_filter_fst p.voters load hl (fun v => decide (c ∈ v.approved))
      rw [hZ, hvs, ← this, List.map_map, List.map_map, ← List.sum_map_mul_right]
      rfl
    have hb := hA.sum.le (es.map (fun vl => (A.mul (A.weight vl.1.weight) vl.2, vl.1.weight.num * (j : ℤ)))) ?_ ?_
    · rwa [e1, e2] at hb
    · intro e he
      obtain ⟨vl, hvl, rfl⟩ := List.mem_map.1 he
      have hz := List.mem_filter.1 hvl
      have hv : vl.1 ∈ p.voters := (List.of_mem_zip hz.1).1
      have hxl : vl.2 ∈ load := (List.of_mem_zip hz.1).2
      have hn := hm.num hv
      have hnle : vl.1.weight.num ≤ Z := by
        refine List.single_le_sum ?_ _ (List.mem_map.2 ⟨vl.1, List.mem_filter.2 ⟨hv, hz.2⟩, rfl⟩)
        intro x hx
        obtain ⟨v, hv, rfl⟩ := List.mem_map.1 hx
        exact (hm.num (List.mem_filter.1 hv).1).2
      have hmul : vl.1.weight.num * (j : ℤ) ≤ Z * j := by gcongr
      refine ⟨mul_nonneg hn.2 (by omega), ?_⟩
      push_cast
      refine hA.mul_le_left _ _ vl.1.weight.num j hn.2 (by nlinarith) (by omega) (by nlinarith) (by nlinarith) ?_ (by
        push_cast; exact hx _ hxl)
      rw [hA.val_weight, hn.1]
    · rw [e2]; nlinarith
  have hadd : A.val (A.add (fApproversLoad A p load c) (A.int 1)) ≤ ((Z * j + 1 : ℤ) : ℚ) := by
    have := hA.add_le _ (A.int 1) (Z * j) 1 (by positivity) (by omega) (by nlinarith) hload (by rw [hA.val_int])
    push_cast at this ⊢
    exact this
  have := hA.div_le (A.add (fApproversLoad A p load c) (A.int 1)) (fApproversWeight A p c) (j + 1) Z (by omega) hZp (by nlinarith)
    (by nlinarith) hW (by
      refine hadd.trans ?_
      have : (Z * j + 1 : ℤ) ≤ (j + 1) * Z := by nlinarith
      exact_mod_cast this)
  push_cast at this
  exact this

theorem fNewMaxload_getD (p : Profile) (k : ℕ) (V : List ℕ) (load : List F) (c : ℕ) (hc : c < p.numCand) :
    (fNewMaxload A p k V load).getD c (A.int 0) =
      if c ∈ V then A.int (k + 2)
      else if A.val (fApproversWeight A p c) > 0 then
        A.div (A.add (fApproversLoad A p load c) (A.int 1)) (fApproversWeight A p c)
      else A.int (k + 1) := by
  unfold fNewMaxload Profile.candidates
  simp [List.getD_eq_getElem?_getD, hc]

theorem fNewMaxload_perm {p : Profile} {k : ℕ} {V W : List ℕ} (h : V.Perm W) (load : List F) :
    fNewMaxload A p k V load = fNewMaxload A p k W load := by
  unfold fNewMaxload
  simp only [h.mem_iff]

/-- The candidates that may be elected next (there are fewer than `k` rounds). -/
def fPhragBest (A : Arith F) (p : Profile) (k : ℕ) (W : List ℕ) (load : List F) (c : ℕ) : Prop :=
  W.length < k ∧ ∃ tied, fPhragTied A p (fNewMaxload A p k W load) = .ok tied ∧ c ∈ tied

/-- The loads after electing `c`. -/
def fPhragUpd (A : Arith F) (p : Profile) (k : ℕ) (W : List ℕ) (load : List F) (c : ℕ) : List F :=
  fUpdateLoad p load c ((fNewMaxload A p k W load).getD c (A.int 0))

theorem fPhragTied_spec (hA : Sound A) {p : Profile} (hp : p.WF) {k : ℕ} (hm : Moderate p k) (hk : k ≤ p.numCand) (W : List ℕ)
    (hW : W.length < k) (load : List F) (hl : load.length = p.voters.length) (hx : ∀ x ∈ load, A.val x ≤ W.length) :
    ∃ tied, fPhragTied A p (fNewMaxload A p k W load) = .ok tied ∧ tied.Pairwise (· < ·) ∧ tied ≠ [] ∧
      ∀ c ∈ tied, c < p.numCand ∧ c ∉ W ∧ A.val ((fNewMaxload A p k W load).getD c (A.int 0)) ≤ k + 1 ∧
        ((∃ v ∈ p.voters, c ∈ v.approved) → 0 < A.val (fApproversWeight A p c) ∧
          A.val ((fNewMaxload A p k W load).getD c (A.int 0)) ≤ W.length + 1) := by
  obtain ⟨d0, hd0, hd0W⟩ := exists_not_mem (p := p) (W := W) (by omega)
  have hlen : (fNewMaxload A p k W load).length = p.numCand := by simp [fNewMaxload, Profile.candidates]
  have hne : fNewMaxload A p k W load ≠ [] := by
    intro h; rw [h] at hlen; simp at hlen; omega
  obtain ⟨opt, h1, h2, h3⟩ := minOf_spec (A := A) hne
  have hmem : ∀ c < p.numCand, (fNewMaxload A p k W load).getD c (A.int 0) ∈ fNewMaxload A p k W load := by
    intro c hc
    rw [List.getD_eq_getElem?_getD, List.getElem?_eq_getElem (by omega), Option.getD_some]
    exact List.getElem_mem _
  have hup : ∀ c < p.numCand, c ∉ W → A.val ((fNewMaxload A p k W load).getD c (A.int 0)) ≤ k + 1 := by
    intro c hc hcW
    rw [fNewMaxload_getD p k W load c hc, if_neg hcW]
    split
    · rename_i hpos
      have := fNewLoad_le hA hm load hl W.length (by omega) hx c hpos
      have : (W.length : ℚ) + 1 ≤ k := by exact_mod_cast hW
      linarith
    · rw [hA.val_int]; push_cast; exact le_rfl
  have hopt : A.val opt ≤ k + 1 := (h3 _ (hmem d0 hd0)).trans (hup d0 hd0 hd0W)
  refine ⟨_, by unfold fPhragTied; rw [h1]; rfl, (pairwise_lt_range _).filter _, ?_, ?_⟩
  · obtain ⟨i, hi, he⟩ := List.mem_iff_getElem.1 h2
    refine List.ne_nil_of_mem (a := i) (List.mem_filter.2 ⟨by simp [Profile.candidates]; omega, ?_⟩)
    rw [List.getD_eq_getElem?_getD, List.getElem?_eq_getElem hi, Option.getD_some, he]
    exact hA.isclose_refl opt
  · intro c hc
    obtain ⟨hc1, hc2⟩ := List.mem_filter.1 hc
    have hc1 : c < p.numCand := by simpa [Profile.candidates] using hc1
    have hcW : c ∉ W := by
      intro hcW
      rw [fNewMaxload_getD p k W load c hc1, if_pos hcW] at hc2
      have hs : (k : ℚ) ≤ 10 ^ 10 := by exact_mod_cast hm.seats
      rw [hA.isclose_far opt (A.int (k + 2)) (by rw [hA.val_int]; push_cast; linarith) (by rw [hA.val_int]; positivity)
        (by rw [hA.val_int]; push_cast; linarith)] at hc2
      exact absurd hc2 (by simp)
    refine ⟨hc1, hcW, hup c hc1 hcW, ?_⟩
    rintro ⟨v, hv, hcv⟩
    have hpos : 0 < A.val (fApproversWeight A p c) := by
      unfold fApproversWeight
      refine hA.sum.pos _ ?_ ?_
      · simp only [ne_eq, List.map_eq_nil_iff]
        exact List.ne_nil_of_mem (a := v) (List.mem_filter.2 ⟨hv, by simpa using hcv⟩)
      · intro x hx
        obtain ⟨u, hu, rfl⟩ := List.mem_map.1 hx
        rw [hA.val_weight]
        have hu' := List.mem_filter.1 hu
        exact hp.weight u hu'.1
    refine ⟨hpos, ?_⟩
    rw [fNewMaxload_getD p k W load c hc1, if_neg hcW, if_pos hpos]
    exact fNewLoad_le hA hm load hl W.length (by omega) hx c hpos

theorem fUpdateLoad_mem {p : Profile} {load : List F} {c : ℕ} {y x : F} (h : x ∈ fUpdateLoad p load c y) :
    x ∈ load ∨ (x = y ∧ ∃ v ∈ p.voters, c ∈ v.approved) := by
  unfold fUpdateLoad at h
  rw [← List.map_uncurry_zip_eq_zipWith] at h
  obtain ⟨⟨v, b⟩, hvb, rfl⟩ := List.mem_map.1 h
  have := List.of_mem_zip hvb
  simp only [Function.uncurry]
  split
  · exact Or.inr ⟨rfl, v, this.1, by assumption⟩
  · exact Or.inl this.2

theorem fRun_bound (hA : Sound A) {p : Profile} (hp : p.WF) {k : ℕ} (hm : Moderate p k) (hk : k ≤ p.numCand) {W₀ : List ℕ}
    {x₀ : List F} (hl : x₀.length = p.voters.length) (h0 : ∀ x ∈ x₀, A.val x ≤ W₀.length) {W : List ℕ} {x : List F}
    (h : Run (fPhragBest A p k) (fPhragUpd A p k) W₀ x₀ W x) :
    W.length ≤ k → x.length = p.voters.length ∧ ∀ y ∈ x, A.val y ≤ W.length := by
  induction h with
  | start => exact fun _ => ⟨hl, h0⟩
  | @step W x c hrun hc ih =>
    intro hW
    simp only [List.length_append, List.length_singleton] at hW
    obtain ⟨h1, h2⟩ := ih (by omega)
    obtain ⟨-, tied, g1, g2⟩ := hc
    obtain ⟨tied', g3, -, -, g4⟩ := fPhragTied_spec hA hp hm hk W (by omega) x h1 h2
    rw [g1] at g3
    obtain rfl := Except.ok.inj g3
    refine ⟨?_, ?_⟩
    · unfold fPhragUpd fUpdateLoad
      simp [h1]
    · intro y hy
      push_cast [List.length_append, List.length_singleton]
      rcases fUpdateLoad_mem hy with hy | ⟨rfl, hv⟩
      · have := h2 y hy; linarith
      · exact ((g4 c g2).2.2.2 hv).2

theorem fPhragBest_lt (hA : Sound A) {p : Profile} (hp : p.WF) {k : ℕ} (hm : Moderate p k) (hk : k ≤ p.numCand) {W₀ : List ℕ}
    {x₀ : List F} (hl : x₀.length = p.voters.length) (h0 : ∀ x ∈ x₀, A.val x ≤ W₀.length) (W : List ℕ) (x : List F) (c : ℕ)
    (h : Run (fPhragBest A p k) (fPhragUpd A p k) W₀ x₀ W x) (hc : fPhragBest A p k W x c) : c < p.numCand ∧ c ∉ W := by
  obtain ⟨hW, tied, g1, g2⟩ := hc
  obtain ⟨h1, h2⟩ := fRun_bound hA hp hm hk hl h0 h hW.le
  obtain ⟨tied', g3, -, -, g4⟩ := fPhragTied_spec hA hp hm hk W hW x h1 h2
  rw [g1] at g3
  obtain rfl := Except.ok.inj g3
  exact ⟨(g4 c g2).1, (g4 c g2).2.1⟩

theorem fPhrag_succSpec (hA : Sound A) {p : Profile} (hp : p.WF) {k : ℕ} (hm : Moderate p k) (hk : k ≤ p.numCand) (W₀ : List ℕ)
    (x₀ : List F) (hl : x₀.length = p.voters.length) (h0 : ∀ x ∈ x₀, A.val x ≤ W₀.length) :
    SuccSpec (fPhragBest A p k) (fPhragUpd A p k) W₀ x₀ p.numCand k (fun W x => (W, x)) (fSeqphragmenSuccs A p k) := by
  intro W x hrun hW
  obtain ⟨h1, h2⟩ := fRun_bound hA hp hm hk hl h0 hrun hW.le
  obtain ⟨tied, g1, g2, g3, g4⟩ := fPhragTied_spec hA hp hm hk W hW x h1 h2
  refine ⟨tied, ?_, g2, g3, fun c hc => (g4 c hc).1, ?_⟩
  · unfold fSeqphragmenSuccs
    simp only [g1, bind, Except.bind]
    rfl
  · intro c
    constructor
    · intro hc; exact ⟨hW, tied, g1, hc⟩
    · rintro ⟨-, t, e, hc⟩
      rw [g1] at e
      obtain rfl := Except.ok.inj e
      exact hc

theorem fSeqphragmenLoop_spec (hA : Sound A) {p : Profile} (hp : p.WF) {k : ℕ} (hm : Moderate p k) (hk : k ≤ p.numCand)
    (W₀ : List ℕ) (x₀ : List F) (hl : x₀.length = p.voters.length) (h0 : ∀ x ∈ x₀, A.val x ≤ W₀.length) (n : ℕ) (V W : List ℕ)
    (hVW : V.Perm W) (x : List F) (hrun : RunFirst (fPhragBest A p k) (fPhragUpd A p k) W₀ x₀ W x) (hlen : W.length + n ≤ k) :
    ∃ V' W' x', fSeqphragmenLoop A p k n V x = .ok V' ∧ V'.Perm W' ∧
      RunFirst (fPhragBest A p k) (fPhragUpd A p k) W₀ x₀ W' x' ∧ W'.length = W.length + n := by
  induction n generalizing V W x with
  | zero => exact ⟨V, W, x, rfl, hVW, hrun, rfl⟩
  | succ n ih =>
    obtain ⟨b1, b2⟩ := fRun_bound hA hp hm hk hl h0 hrun.run (by omega)
    obtain ⟨tied, g1, g2, g3, g4⟩ := fPhragTied_spec hA hp hm hk W (by omega) x b1 b2
    obtain ⟨c, cs, hcs, hget⟩ := pyGet_zero_of_ne_nil g3
    obtain ⟨h1, h2⟩ := head_le_of_lt g2 hget
    have hstep : RunFirst (fPhragBest A p k) (fPhragUpd A p k) W₀ x₀ (W ++ [c]) (fPhragUpd A p k W x c) := by
      refine .step hrun ⟨by omega, tied, g1, h1⟩ ?_
      rintro d hd ⟨-, t, e, hdt⟩
      rw [g1] at e
      obtain rfl := Except.ok.inj e
      have := h2 d hdt
      omega
    have hperm : (sortNat (V ++ [c])).Perm (W ++ [c]) := (sortNat_perm _).trans (hVW.append_right _)
    obtain ⟨V', W', x', k1, k2, k3, k4⟩ := ih (sortNat (V ++ [c])) (W ++ [c]) hperm (fPhragUpd A p k W x c) hstep (by simp; omega)
    refine ⟨V', W', x', ?_, k2, k3, by simp at k4; omega⟩
    unfold fSeqphragmenLoop
    simp only [fNewMaxload_perm hVW, g1, hget, bind, Except.bind]
    exact k1

theorem fZero_spec (hA : Sound A) (p : Profile) : (fZero A p).length = p.voters.length ∧ ∀ x ∈ fZero A p, A.val x ≤ ([] : List ℕ).length := by
  unfold fZero
  refine ⟨by simp, ?_⟩
  intro x hx
  rw [List.eq_of_mem_replicate hx, hA.val_int]
  simp

theorem withFractions_float {env : Env} (float exact : Except Err (List (List ℕ))) :
    withFractions env "float-fractions" float exact = float := rfl

/-- Resolute seq-Phragmén with floats: the smallest-index run of the float computation. -/
theorem float_seqphragmen_resolute (hA : Sound A) (p : Profile) (hp : p.WF) (k : ℕ) (hm : Moderate p k) (hk : k ≤ p.numCand) (env : Env)
    (a : Args) (hak : a.k = k) (hal : prologue env "seqphragmen" p a = .ok "float-fractions") (hr : a.resolute = true) :
    ∃ W x, RunFirst (fPhragBest A p k) (fPhragUpd A p k) [] (fZero A p) W x ∧ W.length = k ∧
      computeSeqphragmen env (floatSeqphragmen A p a) p a = .ok [sortNat W] := by
  subst hak
  obtain ⟨z1, z2⟩ := fZero_spec hA p
  have hB := fPhragBest_lt hA hp hm hk (W₀ := []) z1 z2
  have e : computeSeqphragmen env (floatSeqphragmen A p a) p a = floatSeqphragmen A p a >>= sortedCommittees := by
    unfold computeSeqphragmen
    rw [hal]
    rfl
  rw [e]
  unfold floatSeqphragmen
  obtain ⟨V, W, x, g1, g2, g3, g4⟩ := fSeqphragmenLoop_spec hA hp hm hk [] (fZero A p) z1 z2 a.k [] [] (List.Perm.refl _)
    (fZero A p) .start (by simp)
  have hn : W.Nodup := (g3.run.nodup (m := p.numCand) hB (by simp) (by simp)).1
  refine ⟨W, x, g3, by simpa using g4, ?_⟩
  rw [hr, if_pos rfl]
  unfold fSeqphragmenResolute
  simp only [List.length_nil, Nat.sub_zero, bind, Except.bind, g1]
  rw [sortedCommittees_one (g2.nodup_iff.2 hn), sortNat_eq_of_perm g2]

/-- seq-Phragmén with floats returns the committees elected by the runs of the float computation. -/
theorem float_seqphragmen_answers (hA : Sound A) (p : Profile) (hp : p.WF) (k : ℕ) (hm : Moderate p k) (hk : k ≤ p.numCand) (env : Env)
    (a : Args) (hak : a.k = k) (hal : prologue env "seqphragmen" p a = .ok "float-fractions") :
    Answers a (computeSeqphragmen env (floatSeqphragmen A p a) p a) (RunWinner (fPhragBest A p k) (fPhragUpd A p k) (fZero A p) k) := by
  obtain ⟨z1, z2⟩ := fZero_spec hA p
  have hss := fPhrag_succSpec hA hp hm hk [] (fZero A p) z1 z2
  have hB := fPhragBest_lt hA hp hm hk (W₀ := []) z1 z2
  have hv := validCall_of_prologue hal
  cases hr : a.resolute with
  | true =>
    obtain ⟨W, x, g1, g2, g3⟩ := float_seqphragmen_resolute hA p hp k hm hk env a hak hal hr
    have hn : W.Nodup := (g1.run.nodup (m := p.numCand) hB (by simp) (by simp)).1
    unfold Answers
    rw [hr]
    exact ⟨sortNat W, g3, sortNat_lt hn, W, x, g1.run, g2, (sortNat_toFinset W).symm⟩
  | false =>
    subst hak
    have e : computeSeqphragmen env (floatSeqphragmen A p a) p a = floatSeqphragmen A p a >>= sortedCommittees := by
      unfold computeSeqphragmen
      rw [hal]
      rfl
    rw [e]
    unfold floatSeqphragmen
    rw [hr, if_neg (by simp)]
    refine resort_answers ?_
    refine run_answers (p := p) hv hss hB (full := fun n => decide (n.1.length = a.k)) (out := fun n => sortNat n.1)
      (fun _ _ => rfl) (fun _ _ => rfl) (fun h => absurd h (by simp [hr])) ?_
    intro _
    rfl

/-- C75: seq-Phragmén with floats, integer weights. -/
theorem C75_seqphragmen (hA : Sound A) (p : Profile) (hp : p.WF) (k : ℕ) (hm : Moderate p k) (hk : k ≤ p.numCand) :
    ∃ S, ValidOutcomes p k S ∧ ∀ env a, a.k = k → prologue env "seqphragmen" p a = .ok "float-fractions" →
      Answers a (computeSeqphragmen env (floatSeqphragmen A p a) p a) S := by
  obtain ⟨z1, z2⟩ := fZero_spec hA p
  exact ⟨_, runWinner_valid (fPhrag_succSpec hA hp hm hk [] (fZero A p) z1 z2) (fPhragBest_lt hA hp hm hk (W₀ := []) z1 z2),
    float_seqphragmen_answers hA p hp k hm hk⟩

/-! ## Phragmén-Eneström and the consensus rule -/

theorem fMaxSupport_spec (hA : Sound A) (skip : F → Bool) {p : Profile} (W : List ℕ) (hW : W.length < p.numCand) (b : List F) :
    ∃ tied M, fMaxSupport A skip p W b = .ok (tied, M) ∧ tied.Pairwise (· < ·) ∧ tied ≠ [] ∧ ∀ c ∈ tied, c < p.numCand ∧ c ∉ W := by
  obtain ⟨d0, hd0, hd0W⟩ := exists_not_mem hW
  have hne : available p W ≠ [] := List.ne_nil_of_mem (mem_available.2 ⟨hd0, hd0W⟩)
  obtain ⟨M, h1, h2, h3⟩ := maxOf_spec (A := A) (l := (available p W).map (fSupport A skip p b)) (by simpa using hne)
  have hTne : (available p W).filter (fun c => A.isclose (fSupport A skip p b c) M) ≠ [] := by
    obtain ⟨d, hd, rfl⟩ := List.mem_map.1 h2
    exact List.ne_nil_of_mem (a := d) (List.mem_filter.2 ⟨hd, hA.isclose_refl _⟩)
  refine ⟨_, M, ?_, (available_lt p W).filter _, hTne, ?_⟩
  · unfold fMaxSupport
    simp only [h1, bind, Except.bind]
    rw [if_neg hTne]
  · intro c hc
    exact mem_available.1 (List.mem_filter.1 hc).1

/-- Rules whose nodes (committee, budget) are extended by a function that succeeds with extensions by available candidates. -/
theorem float_answers {p : Profile} {k : ℕ} (succs : List ℕ × List F → Except Err (List (List ℕ × List F)))
    (b₀ : List F) (I : List F → Prop) (hI0 : I b₀)
    (upd : List ℕ → List F → ℕ → List F)
    (hs : ∀ W b, W.length < k → I b → ∃ cands : List ℕ, succs (W, b) = .ok (cands.map (fun c => (W ++ [c], upd W b c))) ∧
      cands.Pairwise (· < ·) ∧ cands ≠ [] ∧ ∀ c ∈ cands, c < p.numCand ∧ c ∉ W ∧ I (upd W b c)) :
    ∃ S, ValidOutcomes p k S ∧ ∀ a : Args, a.k = k → ValidCall p a →
      Answers a (do
        let winning ← universes (fun n => decide (n.1.length = k)) (fun n => sortNat n.1) succs a.effMax (dfsFuel p k) [([], b₀)] []
        sortedCommittees winning) S := by
  set Best : List ℕ → List F → ℕ → Prop := fun W b c => W.length < k ∧ ∃ cands : List ℕ,
    succs (W, b) = .ok (cands.map (fun c => (W ++ [c], upd W b c))) ∧ c ∈ cands with hBest
  have inj : ∀ (W : List ℕ) (b : List F) (l l' : List ℕ),
      l.map (fun c => (W ++ [c], upd W b c)) = l'.map (fun c => (W ++ [c], upd W b c)) → l = l' := by
    intro W b l l' h
    refine List.map_injective_iff.2 ?_ h
    intro x y hxy
    simp only [Prod.mk.injEq, List.append_cancel_left_eq, List.cons.injEq, and_true] at hxy
    exact hxy.1
  have hinv : ∀ W b, Run Best upd [] b₀ W b → I b := by
    intro W b h
    induction h with
    | start => exact hI0
    | @step W b c _ hc ih =>
      obtain ⟨hW, l, e, hcl⟩ := hc
      obtain ⟨l', e', -, -, h4⟩ := hs W b hW ih
      rw [e] at e'
      obtain rfl := inj W b _ _ (Except.ok.inj e')
      exact (h4 c hcl).2.2
  have hB : ∀ W b c, Run Best upd [] b₀ W b → Best W b c → c < p.numCand ∧ c ∉ W := by
    rintro W b c hrun ⟨hW, l, e, hcl⟩
    obtain ⟨l', e', -, -, h4⟩ := hs W b hW (hinv W b hrun)
    rw [e] at e'
    obtain rfl := inj W b _ _ (Except.ok.inj e')
    exact ⟨(h4 c hcl).1, (h4 c hcl).2.1⟩
  have hss : SuccSpec Best upd [] b₀ p.numCand k (fun W b => (W, b)) succs := by
    intro W b hrun hW
    obtain ⟨l, e, h2, h3, h4⟩ := hs W b hW (hinv W b hrun)
    refine ⟨l, e, h2, h3, fun c hc => (h4 c hc).1, ?_⟩
    intro c
    constructor
    · intro hc; exact ⟨hW, l, e, hc⟩
    · rintro ⟨-, l', e', hc⟩
      rw [e] at e'
      obtain rfl := inj W b _ _ (Except.ok.inj e')
      exact hc
  refine ⟨RunWinner Best upd b₀ k, runWinner_valid hss hB, ?_⟩
  rintro a rfl hv
  exact (run_answers_effMax (p := p) (a := a) hv hss hB (full := fun n => decide (n.1.length = a.k)) (out := fun n => sortNat n.1)
    (fun _ _ => rfl) (fun _ _ => rfl) rfl).1

theorem fTotalWeight_pos (hA : Sound A) {p : Profile} (hp : p.WF) (hne : p.voters ≠ []) : 0 < A.val (fTotalWeight A p) := by
  unfold fTotalWeight
  refine hA.sum.pos _ (by simpa using hne) ?_
  intro x hx
  obtain ⟨v, hv, rfl⟩ := List.mem_map.1 hx
  rw [hA.val_weight]
  exact hp.weight v hv

/-- C75: Phragmén-Eneström with floats, arbitrary weights. -/
theorem C75_enestroem (hA : Sound A) (p : Profile) (hp : p.WF) (hne : p.voters ≠ []) (k : ℕ) (hk1 : 1 ≤ k) (hk : k ≤ p.numCand) :
    ∃ S, ValidOutcomes p k S ∧ ∀ env a, a.k = k → prologue env "phragmen-enestroem" p a = .ok "float-fractions" →
      Answers a (computeEnestroem env (floatEnestroem A p a) p a) S := by
  have hk0 : A.val (A.int k) ≠ 0 := by rw [hA.val_int]; push_cast; exact_mod_cast (by omega : k ≠ 0)
  have hprice : A.pyDiv (fTotalWeight A p) (A.int k) = .ok (A.div (fTotalWeight A p) (A.int k)) := by
    unfold Arith.pyDiv
    rw [if_neg hk0]
  set price := A.div (fTotalWeight A p) (A.int k) with hpr
  have hpr0 : 0 ≤ A.val price := hA.div_nonneg _ _ (fTotalWeight_pos hA hp hne).le (by rw [hA.val_int]; exact_mod_cast hk1)
  obtain ⟨S, h1, h2⟩ := float_answers (p := p) (k := k) (fEnestroemSuccs A p price) (p.voters.map (fun v => A.weight v.weight))
    (fun _ => True) trivial
    (fun W b c => match fMaxSupport A (fBroke A) p W b with
      | .ok (_, M) => List.zipWith (fun v x => if c ∈ v.approved then A.mul x
          (if A.val M > A.val price then A.div (A.sub M price) M else A.int 0) else x) p.voters b
      | .error _ => []) (by
    intro W b hW _
    obtain ⟨tied, M, g1, g2, g3, g4⟩ := fMaxSupport_spec hA (fBroke A) (p := p) W (by omega) b
    refine ⟨tied, ?_, g2, g3, fun c hc => ⟨(g4 c hc).1, (g4 c hc).2, trivial⟩⟩
    unfold fEnestroemSuccs
    simp only [g1, bind, Except.bind]
    by_cases hM : A.val M > A.val price
    · have hM0 : A.val M ≠ 0 := by linarith
      simp [hM, Arith.pyDiv, hM0]
    · simp [hM])
  · refine ⟨S, h1, ?_⟩
    rintro env a rfl hal
    have := h2 a rfl (validCall_of_prologue hal)
    unfold computeEnestroem floatEnestroem
    rw [hal]
    simp only [bind, Except.bind, withFractions_float, hprice]
    exact this

theorem mapM_okF {α β : Type} (f : α → Except Err β) (g : α → β) (l : List α) (h : ∀ x ∈ l, f x = .ok (g x)) :
    l.mapM f = .ok (l.map g) := by
  induction l with
  | nil => rfl
  | cons x l ih =>
    rw [List.mapM_cons, h x (by simp), ih (fun y hy => h y (by simp [hy]))]
    rfl

/-- C75: the consensus rule with floats, arbitrary weights. -/
theorem C75_consensus (hA : Sound A) (p : Profile) (hp : p.WF) (k : ℕ) (hk : k ≤ p.numCand) :
    ∃ S, ValidOutcomes p k S ∧ ∀ env a, a.k = k → prologue env "consensus-rule" p a = .ok "float-fractions" →
      Answers a (computeConsensus env (floatConsensus A p a) p a) S := by
  set pay : List F → ℕ → List F := fun budget cand => (p.voters.zip budget).map (fun vb =>
    if ! fNearlyBroke A vb.2 && decide (cand ∈ vb.1.approved) then
      A.sub vb.2 (A.mul (A.weight vb.1.weight) (A.div (fTotalWeight A p) (A.sum (((p.voters.zip budget).filter
        (fun vb => ! fNearlyBroke A vb.2 && decide (cand ∈ vb.1.approved))).map (fun vb => A.weight vb.1.weight)))))
    else vb.2) with hpay
  have hp' : ∀ budget cand, fConsensusPay A p budget cand = .ok (pay budget cand) := by
    intro budget cand
    unfold fConsensusPay
    refine mapM_okF _ _ _ ?_
    intro vb hvb
    split
    · rename_i hcond
      unfold Arith.pyDiv
      have hpos : 0 < A.val (A.sum (((p.voters.zip budget).filter
          (fun vb => ! fNearlyBroke A vb.2 && decide (cand ∈ vb.1.approved))).map (fun vb => A.weight vb.1.weight))) := by
        refine hA.sum.pos _ ?_ ?_
        · simp only [ne_eq, List.map_eq_nil_iff]
          exact List.ne_nil_of_mem (a := vb) (List.mem_filter.2 ⟨hvb, hcond⟩)
        · intro x hx
          obtain ⟨e, he, rfl⟩ := List.mem_map.1 hx
          rw [hA.val_weight]
          exact hp.weight _ (List.of_mem_zip (List.mem_filter.1 he).1).1
      rw [if_neg hpos.ne']
      rfl
    · rfl
  obtain ⟨S, h1, h2⟩ := float_answers (p := p) (k := k) (fConsensusSuccs A p) (fZero A p) (fun _ => True) trivial
    (fun W b c => pay (List.zipWith (fun v x => A.add x (A.weight v.weight)) p.voters b) c) (by
    intro W b hW _
    obtain ⟨tied, M, g1, g2, g3, g4⟩ := fMaxSupport_spec hA (fNearlyBroke A) (p := p) W (by omega)
      (List.zipWith (fun v x => A.add x (A.weight v.weight)) p.voters b)
    refine ⟨tied, ?_, g2, g3, fun c hc => ⟨(g4 c hc).1, (g4 c hc).2, trivial⟩⟩
    unfold fConsensusSuccs
    simp only [g1, bind, Except.bind]
    refine mapM_okF _ _ _ ?_
    intro c _
    rw [hp'])
  · refine ⟨S, h1, ?_⟩
    rintro env a rfl hal
    have := h2 a rfl (validCall_of_prologue hal)
    unfold computeConsensus floatConsensus
    rw [hal]
    simp only [bind, Except.bind, withFractions_float]
    exact this

end

end Abc
