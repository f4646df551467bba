import Verif.Props.FloatAccuracyShares

/-!
# C94: Equal Shares with "float-fractions", the search
-/

namespace Abc
open Spec

/-! ## Lists -/

theorem forall₂_mem {α β : Type} {R : α → β → Prop} {l : List α} {l' : List β} (h : List.Forall₂ R l l') :
    List.Forall₂ (fun a b => R a b ∧ a ∈ l ∧ b ∈ l') l l' := by
  rw [List.forall₂_iff_get] at h ⊢
  exact ⟨h.1, fun i h1 h2 => ⟨h.2 i h1 h2, List.get_mem _ _, List.get_mem _ _⟩⟩

theorem forall₂_filter {α β : Type} {R : α → β → Prop} {l : List α} {l' : List β} (h : List.Forall₂ R l l') (P : α → Bool)
    (Q : β → Bool) (hPQ : ∀ a b, R a b → P a = Q b) : List.Forall₂ R (l.filter P) (l'.filter Q) := by
  induction h with
  | nil => exact .nil
  | @cons a b l l' hab _ ih =>
    rw [List.filter_cons, List.filter_cons, hPQ a b hab]
    split
    · exact .cons hab ih
    · exact ih

/-! ## The loop -/

theorem completionLoop_simulation {N N' : Type} (Q : N → N' → Prop) {full : N → Bool} {full' : N' → Bool} {out : N → List ℕ}
    {out' : N' → List ℕ} {succs : N → Except Err (Option (List N))} {succs' : N' → Except Err (Option (List N'))}
    {complete : N → Except Err (List (List ℕ))} {complete' : N' → Except Err (List (List ℕ))}
    (hfull : ∀ n n', Q n n' → full n = full' n') (hout : ∀ n n', Q n n' → out n = out' n')
    (hsucc : ∀ n n', Q n n' → full n = false → (succs n = .ok none ∧ succs' n' = .ok none ∧ complete n = complete' n') ∨
      ∃ ns ns', succs n = .ok (some ns) ∧ succs' n' = .ok (some ns') ∧ List.Forall₂ Q ns ns')
    (max : Option ℕ) (fuel : ℕ) {st : List N} {st' : List N'} (h : List.Forall₂ Q st st') (hf : ∀ n ∈ st, full n = false)
    (win : List (List ℕ)) :
    completionLoop full out succs complete max fuel st win = completionLoop full' out' succs' complete' max fuel st' win := by
  induction fuel generalizing st st' win with
  | zero => cases h <;> rfl
  | succ fuel ih =>
    cases h with
    | nil => rfl
    | @cons n n' st st' hn hst =>
      unfold completionLoop
      rcases hsucc n n' hn (hf n (by simp)) with ⟨e1, e2, e3⟩ | ⟨ns, ns', e1, e2, hns⟩
      · simp only [e1, e2, e3, bind, Except.bind]
        cases complete' n' with
        | error e => rfl
        | ok new =>
          simp only [List.nil_append]
          split
          · rfl
          · exact ih hst (fun m hm => hf m (by simp [hm])) _
      · simp only [e1, e2, bind, Except.bind]
        rcases expandLoop_simulation Q hfull hout max hns (np := []) (np' := []) .nil (by simp) win with
          ⟨w, g1, g2⟩ | ⟨w, l, l', g1, g2, g3, g4⟩
        · rw [g1, g2]
        · rw [g1, g2]
          simp only
          split
          · rfl
          · refine ih (List.rel_append g3 hst) ?_ w
            intro m hm
            rcases List.mem_append.1 hm with hm | hm
            · exact g4 m hm
            · exact hf m (by simp [hm])

/-- The extensions of a node, as in `completionLoop`. -/
def exactSuccs (p : Profile) (resolute : Bool) (n : List ℕ × List ℚ) : Except Err (Option (List (List ℕ × List ℚ))) := do
  let minQ ← mesPrices p n.2 (available p n.1)
  if minQ.length > 0 then .ok (some (mesSuccs p resolute n minQ)) else .ok none

theorem mesLoop_eq (p : Profile) (k : ℕ) (resolute : Bool) (completion : Completion) (max : Option ℕ) (fuel : ℕ)
    (st : List (List ℕ × List ℚ)) (win : List (List ℕ)) :
    mesLoop p k resolute completion max fuel st win =
      completionLoop (fun n => decide (n.1.length = k)) (fun n => sortNat n.1) (exactSuccs p resolute)
        (fun n => mesComplete p k resolute completion n.1 n.2) max fuel st win := by
  induction fuel generalizing st win with
  | zero => cases st <;> rfl
  | succ fuel ih =>
    cases st with
    | nil => rfl
    | cons n st =>
      unfold mesLoop completionLoop mesStep exactSuccs
      simp only [bind, Except.bind]
      cases mesPrices p n.2 (available p n.1) with
      | error e => rfl
      | ok minQ =>
        simp only
        by_cases h : minQ.length > 0
        · simp only [if_pos h]
          cases expandLoop (fun n => decide (n.1.length = k)) (fun n => sortNat n.1) max (mesSuccs p resolute n minQ) [] win with
          | inl w => rfl
          | inr r =>
            simp only
            split
            · rfl
            · exact ih _ _
        · simp only [if_neg h]
          cases mesComplete p k resolute completion n.1 n.2 with
          | error e => rfl
          | ok new =>
            simp only
            split
            · rfl
            · exact ih _ _

section
variable {F : Type} {A : Arith F} {p : Profile} {y : Fin p.voters.length → F} {x : VoterMap p} {E : ℚ}

/-- Floats and fractions extend a committee in the same way. -/
theorem fMesSuccs_sim (hA : Sound A) (hS : SignedAccurate A) (hAc : Accurate A) {ord : List (Voter × F) → List (Voter × F)}
    (hord : Rearranges ord) (hp : p.WF) {k : ℕ} (hm : Moderate p k) (hC : CloseBudgets A p y x E) (W : List ℕ) (r : Bool) :
    (fMesSuccs A ord p r (W, List.ofFn y) = .ok none ∧ exactSuccs p r (W, List.ofFn x) = .ok none ∧ MESDone p W x) ∨
    ∃ ns ns', fMesSuccs A ord p r (W, List.ofFn y) = .ok (some ns) ∧ exactSuccs p r (W, List.ofFn x) = .ok (some ns') ∧
      List.Forall₂ (fun n n' => ∃ c qf q, MESBest p W x c ∧ PricePair A p y x c qf q ∧ IsPrice p x c q ∧
        n = (W ++ [c], List.ofFn (fNewBudget A p y c qf)) ∧ n' = (W ++ [c], List.ofFn (mesUpd p W x c))) ns ns' := by
  obtain ⟨lf, le, h1, h2, h3⟩ := fMesPrices_sim hA hS hAc hord hp hm hC (available p W)
  obtain ⟨le', g1, g2, g3, g4⟩ := mesPrices_spec hp x (available p W)
  rw [h2] at g1
  obtain rfl := Except.ok.inj g1
  unfold fMesSuccs exactSuccs
  simp only [h1, h2, bind, Except.bind]
  have hlen := h3.length_eq
  by_cases h0 : le = []
  · left
    have hlf : lf = [] := by rw [h0] at hlen; simpa using hlen
    rw [h0, hlf]
    refine ⟨rfl, rfl, ?_⟩
    intro c hc hcW haff
    have := g4 c (mem_available.2 ⟨hc, hcW⟩) haff
    simp [h0] at this
  · right
    have hlf : lf ≠ [] := by
      intro h
      rw [h] at hlen
      exact h0 (List.length_eq_zero_iff.1 (by simpa using hlen.symm))
    obtain ⟨m, m1, m2, m3⟩ := minOf_spec (A := A) (l := lf.map Prod.snd) (by simpa using hlf)
    rw [if_pos (List.length_pos_of_ne_nil hlf), if_pos (List.length_pos_of_ne_nil h0)]
    unfold fMesTied mesSuccs
    simp only [m1, bind, Except.bind]
    set μ := listMin (le.map Prod.snd) with hμ
    refine ⟨_, _, rfl, rfl, ?_⟩
    -- the tied entries
    have hsort : sortNat ((le.filter (fun cq => decide (cq.2 = μ))).map Prod.fst) = (le.filter (fun cq => decide (cq.2 = μ))).map Prod.fst := by
      apply sortNat_of_lt
      exact (available_lt p W).sublist ((List.filter_sublist.map _).trans g3)
    rw [hsort]
    have hmem := forall₂_mem h3
    have htied := forall₂_filter hmem (fun cq => A.isclose cq.2 m) (fun cq => decide (cq.2 = μ)) (by
      rintro a b ⟨hab, ha, hb⟩
      rw [Bool.eq_iff_iff, decide_eq_true_eq]
      exact tie_iff hAc hp hm hC h3 m2 m3 ha hab hb)
    have htied := forall₂_mem htied
    have hpt : List.Forall₂ (fun (a : ℕ × F) (b : ℕ) => ∃ q, MESBest p W x b ∧ a.1 = b ∧ PricePair A p y x b a.2 q ∧ IsPrice p x b q ∧ q = μ)
        (lf.filter (fun cq => A.isclose cq.2 m)) ((le.filter (fun cq => decide (cq.2 = μ))).map Prod.fst) := by
      rw [List.forall₂_map_right_iff]
      refine htied.imp ?_
      rintro a b ⟨⟨⟨hab1, hab2⟩, ha, hb⟩, -, hb2⟩
      have hbμ : b.2 = μ := by simpa using (List.mem_filter.1 hb2).2
      have hprice := g2 b hb
      obtain ⟨k1, k2⟩ := mem_available.1 (g3.subset (List.mem_map_of_mem hb))
      refine ⟨b.2, ⟨k1, k2, b.2, hprice, ?_⟩, hab1, hab1 ▸ hab2, hprice, hbμ⟩
      intro d hd hdW q' hq'
      have hA : Affordable p x d := (exists_price_iff hp x d).1 ⟨q', hq'⟩
      obtain ⟨e', he', rfl⟩ := List.mem_map.1 (g4 d (mem_available.2 ⟨hd, hdW⟩) hA)
      rw [isPrice_unique hq' (g2 e' he'), hbμ]
      exact listMin_le (List.mem_map_of_mem he')
    have hfin : ∀ {l : List (ℕ × F)} {l' : List ℕ},
        List.Forall₂ (fun (a : ℕ × F) (b : ℕ) => ∃ q, MESBest p W x b ∧ a.1 = b ∧ PricePair A p y x b a.2 q ∧ IsPrice p x b q ∧ q = μ) l l' →
        List.Forall₂ (fun n n' => ∃ c qf q, MESBest p W x c ∧ PricePair A p y x c qf q ∧ IsPrice p x c q ∧
          n = (W ++ [c], List.ofFn (fNewBudget A p y c qf)) ∧ n' = (W ++ [c], List.ofFn (mesUpd p W x c)))
          (l.map (fun cq => (W ++ [cq.1], fMesBudget A p (List.ofFn y) cq.1 cq.2)))
          (l'.map (fun c => (W ++ [c], mesBudget p (List.ofFn x) c μ))) := by
      intro l l' h
      rw [List.forall₂_map_left_iff, List.forall₂_map_right_iff]
      refine h.imp ?_
      rintro a b ⟨q, h1, rfl, h3, h4, rfl⟩
      refine ⟨a.1, a.2, μ, h1, h3, h4, ?_, ?_⟩
      · rw [fMesBudget_ofFn]
      · rw [mesBudget_eq W x a.1 h4]
    cases r with
    | false => exact hfin hpt
    | true =>
      simp only [if_true]
      exact hfin (List.forall₂_take 1 hpt)

/-! ## The invariant of the search -/

/-- The error after electing `j` candidates. -/
def budgetError (p : Profile) (B j : ℕ) : ℚ := (j * (10 * p.voters.length + 8 * B + 36) + 9 * B) / 2 ^ 53

/-- The sizes for which the accumulated error is below the tolerance of `isclose`; `B` is the total budget. -/
def Spec.FewRoundingsShares (p : Profile) (k B : ℕ) : Prop := (k + 1) * (p.voters.length + B + 5) ≤ 360

/-- In every round of Equal Shares with total budget `B`, different shares are well separated. -/
def Spec.SharesSeparated (p : Profile) (k B : ℕ) : Prop :=
  ∀ W x, Run (MESBest p) (mesUpd p) [] (budgetOf p (B / total p)) W x → W.length < k → SharesApart p x

theorem budgetError_small {k B : ℕ} (h : FewRoundingsShares p k B) {j : ℕ} (hj : j ≤ k) :
    budgetError p B j + priceError p ≤ 4 / 10 ^ 13 := by
  unfold budgetError priceError
  rw [← add_div, div_le_div_iff₀ (by norm_num) (by norm_num)]
  have h1 : 10 * ((k + 1) * (p.voters.length + B + 5)) ≤ 3600 := by unfold FewRoundingsShares at h; omega
  have h2 : j * (10 * p.voters.length + 8 * B + 36) + 9 * B + (10 * p.voters.length + 28) ≤ 10 * ((k + 1) * (p.voters.length + B + 5)) := by
    have := Nat.mul_le_mul_right (10 * p.voters.length + 8 * B + 36) hj
    nlinarith
  have h3 : ((j * (10 * p.voters.length + 8 * B + 36) + 9 * B + (10 * p.voters.length + 28) : ℕ) : ℚ) ≤ 3600 := by
    exact_mod_cast h2.trans h1
  push_cast at h3
  norm_num at h3 ⊢
  linarith

/-- What floats and exact budgets have to do with each other after electing `W`. -/
structure MesRel (A : Arith F) (p : Profile) (B : ℕ) (W : List ℕ) (y : Fin p.voters.length → F) (x : VoterMap p) : Prop where
  run : Run (MESBest p) (mesUpd p) [] (budgetOf p (B / total p)) W x
  float0 : ∀ i, 0 ≤ A.val (y i)
  error : ∑ i, |A.val (y i) - x i| ≤ budgetError p B W.length

theorem MesRel.exact0 (hp : p.WF) {B : ℕ} {W : List ℕ} (h : MesRel A p B W y x) : ∀ i, 0 ≤ x i :=
  (C36_budgets p hp _ (div_nonneg (by positivity) (Finset.sum_nonneg (fun i _ => (weight_pos hp i).le))) W x h.run).1

theorem MesRel.close (hp : p.WF) {k B : ℕ} (hfew : FewRoundingsShares p k B) (hsep : SharesSeparated p k B) {W : List ℕ}
    (h : MesRel A p B W y x) (hW : W.length < k) : CloseBudgets A p y x (budgetError p B W.length) :=
  ⟨h.float0, h.exact0 hp, h.error, budgetError_small hfew hW.le, hsep W x h.run hW⟩

theorem MesRel.step (hA : Sound A) (hS : SignedAccurate A) (hp : p.WF) {k B : ℕ} (hm : Moderate p k)
    (hfew : FewRoundingsShares p k B) (hsep : SharesSeparated p k B) {W : List ℕ}
    (h : MesRel A p B W y x) (hW : W.length < k) {c : ℕ} {qf : F} {q : ℚ} (hc : MESBest p W x c) (hpair : PricePair A p y x c qf q)
    (hq : IsPrice p x c q) : MesRel A p B (W ++ [c]) (fNewBudget A p y c qf) (mesUpd p W x c) := by
  have hC := h.close hp hfew hsep hW
  obtain ⟨h1, h2⟩ := fNewBudget_sim hA hS hp hm hC W hpair hq
  refine ⟨.step h.run hc, h1, h2.trans ?_⟩
  -- the total budget
  have ht0 : 0 ≤ total p := Finset.sum_nonneg (fun i _ => (weight_pos hp i).le)
  have hx : ∑ i, x i ≤ B := by
    have := (C36_budgets p hp (B / total p) (div_nonneg (by positivity) ht0) W x h.run).2.1
    rw [this]
    have h3 : (B : ℚ) / total p * total p ≤ B := by
      rcases ht0.lt_or_eq with ht | ht
      · rw [div_mul_cancel₀ _ ht.ne']
      · rw [← ht]; simp
    have : (0 : ℚ) ≤ W.length := by positivity
    linarith
  have hy : ∑ i, A.val (y i) ≤ B + 1 := by
    have h4 : ∑ i, A.val (y i) - ∑ i, x i ≤ ∑ i, |A.val (y i) - x i| := by
      rw [← Finset.sum_sub_distrib]
      exact Finset.sum_le_sum (fun i _ => le_abs_self _)
    have h5 := hC.error
    have h6 := hC.small
    have h7 := priceError_nonneg (p := p)
    norm_num at h6
    linarith
  have h8 : 8 / 2 ^ 53 * ∑ i, A.val (y i) ≤ 8 / 2 ^ 53 * ((B : ℚ) + 1) := by gcongr
  refine (add_le_add_right h8 _).trans (le_of_eq ?_)
  unfold budgetError priceError
  rw [List.length_append, List.length_singleton]
  push_cast
  ring

/-- The search with floats and the search with fractions return the same committees if the completions do. -/
theorem fCompletionLoop_eq (hA : Sound A) (hS : SignedAccurate A) (hAc : Accurate A) {ord : List (Voter × F) → List (Voter × F)}
    (hord : Rearranges ord) (hp : p.WF) {k B : ℕ} (hm : Moderate p k) (hk1 : 1 ≤ k) (hfew : FewRoundingsShares p k B)
    (hsep : SharesSeparated p k B) (r : Bool) (completion : Completion) (max : Option ℕ) (y₀ : Fin p.voters.length → F)
    (h0 : MesRel A p B [] y₀ (budgetOf p (B / total p)))
    (hcomp : ∀ W y x, MesRel A p B W y x → W.length < k → MESDone p W x →
      fMesComplete A p k r completion (W, List.ofFn y) = mesComplete p k r completion W (List.ofFn x)) (fuel : ℕ) :
    completionLoop (fun n => decide (n.1.length = k)) (fun n => sortNat n.1) (fMesSuccs A ord p r) (fMesComplete A p k r completion) max
      fuel [([], List.ofFn y₀)] [] =
    mesLoop p k r completion max fuel [([], List.ofFn (budgetOf p (B / total p)))] [] := by
  rw [mesLoop_eq]
  refine completionLoop_simulation (fun (n : List ℕ × List F) (n' : List ℕ × List ℚ) => ∃ W y x, n = (W, List.ofFn y) ∧
    n' = (W, List.ofFn x) ∧ MesRel A p B W y x ∧ W.length ≤ k) ?_ ?_ ?_ max fuel ?_ ?_ _
  · rintro n n' ⟨W, y, x, rfl, rfl, -⟩; rfl
  · rintro n n' ⟨W, y, x, rfl, rfl, -⟩; rfl
  · rintro n n' ⟨W, y, x, rfl, rfl, hR, hWk⟩ hf
    have hW : W.length < k := by
      simp only [decide_eq_false_iff_not] at hf
      omega
    rcases fMesSuccs_sim hA hS hAc hord hp hm (hR.close hp hfew hsep hW) W r with ⟨g1, g2, g3⟩ | ⟨ns, ns', g1, g2, g3⟩
    · exact Or.inl ⟨g1, g2, hcomp W y x hR hW g3⟩
    · right
      refine ⟨ns, ns', g1, g2, g3.imp ?_⟩
      rintro n n' ⟨c, qf, q, k1, k2, k3, rfl, rfl⟩
      refine ⟨W ++ [c], _, _, rfl, rfl, hR.step hA hS hp hm hfew hsep hW k1 k2 k3, ?_⟩
      rw [List.length_append, List.length_singleton]
      omega
  · exact .cons ⟨[], y₀, _, rfl, rfl, h0, by simp⟩ .nil
  · intro n hn
    simp only [List.mem_singleton] at hn
    rw [hn]
    simp only [List.length_nil, decide_eq_false_iff_not]
    omega

end

end Abc
