import Verif.Spec.Electorate
import Verif.Props.Preferences
import Verif.Props.Scores
import Verif.Lemmas.VoterMaps
import Verif.Model.Phragmen
import Verif.Model.Budgets
import Verif.Model.Other

/-!
# Everything the rules compute depends only on the electorate
-/

namespace Abc
open Spec

theorem sum_by_set (vs : List Voter) (g : Finset ℕ → ℚ) (S : Finset (Finset ℕ)) (hS : ∀ v ∈ vs, v.A ∈ S) :
    (vs.map (fun v => v.weight * g v.A)).sum = ∑ A ∈ S, electorate vs A * g A := by
  induction vs with
  | nil => simp [electorate]
  | cons v vs ih =>
    have hv := hS v (by simp)
    have hel : ∀ A, electorate (v :: vs) A = (if A = v.A then v.weight else 0) + electorate vs A := by
      intro A
      unfold electorate
      by_cases h : v.A = A
      · rw [List.filter_cons_of_pos (by simpa using h), if_pos h.symm]; simp
      · rw [List.filter_cons_of_neg (by simpa using h), if_neg (fun e => h e.symm)]; simp
    simp only [List.map_cons, List.sum_cons, hel, add_mul, Finset.sum_add_distrib]
    rw [ih (fun w hw => hS w (by simp [hw]))]
    congr 1
    rw [Finset.sum_eq_single v.A]
    · simp
    · intro b _ hb; simp [hb]
    · intro h; exact absurd hv h

/-- the master lemma: sums over voters of weight times a function of the approval set -/
theorem sum_electorate {p p' : Profile} (h : SameElectorate p p') (g : Finset ℕ → ℚ) :
    (p.voters.map (fun v => v.weight * g v.A)).sum = (p'.voters.map (fun v => v.weight * g v.A)).sum := by
  set S := ((p.voters ++ p'.voters).map Voter.A).toFinset with hS
  rw [sum_by_set p.voters g S, sum_by_set p'.voters g S]
  · exact Finset.sum_congr rfl (fun A _ => by rw [h.2 A])
  · intro v hv
    simp only [hS, List.mem_toFinset, List.mem_map, List.mem_append]
    exact ⟨v, Or.inr hv, rfl⟩
  · intro v hv
    simp only [hS, List.mem_toFinset, List.mem_map, List.mem_append]
    exact ⟨v, Or.inl hv, rfl⟩

theorem sum_electorate' {p p' : Profile} (h : SameElectorate p p') (g : Finset ℕ → ℚ) (f f' : Voter → ℚ)
    (hf : ∀ v ∈ p.voters, f v = v.weight * g v.A) (hf' : ∀ v ∈ p'.voters, f' v = v.weight * g v.A) :
    (p.voters.map f).sum = (p'.voters.map f').sum := by
  rw [List.map_congr_left hf, List.map_congr_left hf', sum_electorate h]

theorem electorate_pos {p : Profile} (hp : p.WF) (A : Finset ℕ) : 0 < electorate p.voters A ↔ ∃ v ∈ p.voters, v.A = A := by
  unfold electorate
  constructor
  · intro h
    by_contra hno
    rw [List.filter_eq_nil_iff.2] at h
    · simp at h
    · intro v hv
      simp only [decide_eq_true_eq]
      exact fun e => hno ⟨v, hv, e⟩
  · rintro ⟨v, hv, rfl⟩
    have hmem : v ∈ p.voters.filter (fun w => decide (w.A = v.A)) := by simp [hv]
    have hpos : ∀ x ∈ (p.voters.filter (fun w => decide (w.A = v.A))).map Voter.weight, 0 < x := by
      intro x hx
      obtain ⟨w, hw, rfl⟩ := List.mem_map.1 hx
      exact hp.weight w (List.mem_filter.1 hw).1
    exact List.sum_pos _ hpos (by simpa using List.ne_nil_of_mem hmem)

theorem occurs_iff {p p' : Profile} (hp : p.WF) (hp' : p'.WF) (h : SameElectorate p p') (A : Finset ℕ) :
    (∃ v ∈ p.voters, v.A = A) ↔ ∃ v ∈ p'.voters, v.A = A := by
  rw [← electorate_pos hp, ← electorate_pos hp', h.2]

theorem Spec.SameElectorate.symm {p p' : Profile} (h : SameElectorate p p') : SameElectorate p' p :=
  ⟨h.1.symm, fun A => (h.2 A).symm⟩

theorem voters_nil_iff {p p' : Profile} (hp : p.WF) (hp' : p'.WF) (h : SameElectorate p p') :
    p.voters.length = 0 ↔ p'.voters.length = 0 := by
  have key : ∀ {q q' : Profile}, q.WF → q'.WF → SameElectorate q q' → q.voters.length = 0 → q'.voters.length = 0 := by
    intro q q' hq hq' hqq h0
    rw [List.length_eq_zero_iff] at h0 ⊢
    rw [List.eq_nil_iff_forall_not_mem]
    intro v hv
    obtain ⟨w, hw, -⟩ := (occurs_iff hq hq' hqq v.A).2 ⟨v, hv, rfl⟩
    rw [h0] at hw
    simp at hw
  exact ⟨key hp hp' h, key hp' hp h.symm⟩

theorem candidates_congr {p p' : Profile} (h : SameElectorate p p') : p.candidates = p'.candidates := by
  unfold Profile.candidates
  rw [h.1]

theorem prologue_congr {p p' : Profile} (hp : p.WF) (hp' : p'.WF) (h : SameElectorate p p') (env : Env) (rid : String)
    (a : Args) : prologue env rid p a = prologue env rid p' a := by
  unfold prologue verifyComputeParameters
  simp only [h.1, voters_nil_iff hp hp' h]

theorem thieleScore_congr {p p' : Profile} (h : SameElectorate p p') (f : ℕ → ℚ) (W : List ℕ) :
    thieleScore f p W = thieleScore f p' W := by
  rw [thieleScore_eq, thieleScore_eq]
  unfold score
  exact sum_electorate h (fun A => ∑ i ∈ Finset.range ((A ∩ W.toFinset).card), f (i + 1))

theorem list_ext_getD {l l' : List ℚ} (hl : l.length = l'.length) (h : ∀ c < l.length, l.getD c 0 = l'.getD c 0) : l = l' := by
  refine List.ext_getElem hl ?_
  intro i h1 h2
  have := h i h1
  simpa [List.getD_eq_getElem?_getD, h1, h2] using this

theorem voterFold_congr {p p' : Profile} (hp : p.WF) (hp' : p'.WF) (h : SameElectorate p p') (G : Finset ℕ → ℚ)
    (g g' : Voter → ℚ) (hg : ∀ v ∈ p.voters, g v = v.weight * G v.A) (hg' : ∀ v ∈ p'.voters, g' v = v.weight * G v.A) :
    p.voters.foldl (fun m v => v.approved.foldl (fun m c => addAt m c (g v)) m) (List.replicate p.numCand 0) =
    p'.voters.foldl (fun m v => v.approved.foldl (fun m c => addAt m c (g' v)) m) (List.replicate p'.numCand 0) := by
  refine list_ext_getD ?_ ?_
  · rw [foldl_voters_length, foldl_voters_length, List.length_replicate, List.length_replicate, h.1]
  · intro c hc
    rw [foldl_voters_length, List.length_replicate] at hc
    have hc' : c < p'.numCand := h.1 ▸ hc
    rw [foldl_voters_getD _ hp.nodup _ _ _ (by simpa using hc), foldl_voters_getD _ hp'.nodup _ _ _ (by simpa using hc')]
    congr 1
    · simp [hc, hc']
    · refine sum_electorate' h (fun A => if c ∈ A then G A else 0) _ _ ?_ ?_
      · intro v hv
        split
        · exact hg v hv
        · simp
      · intro v hv
        split
        · exact hg' v hv
        · simp

theorem marginalAdd_congr {p p' : Profile} (hp : p.WF) (hp' : p'.WF) (h : SameElectorate p p') (f : ℕ → ℚ) (W : List ℕ) :
    marginalAdd f p W = marginalAdd f p' W := by
  unfold marginalAdd
  simp only
  rw [voterFold_congr hp hp' h (fun A => f ((A ∩ W.toFinset).card + 1))
    (fun v => v.weight * f ((inter v.approved W).length + 1)) (fun v => v.weight * f ((inter v.approved W).length + 1))]
  · intro v hv; rw [inter_length (hp.nodup v hv)]; rfl
  · intro v hv; rw [inter_length (hp'.nodup v hv)]; rfl

theorem marginalRemove_congr {p p' : Profile} (hp : p.WF) (hp' : p'.WF) (h : SameElectorate p p') (f : ℕ → ℚ) (W : List ℕ) :
    marginalRemove f p W = marginalRemove f p' W := by
  unfold marginalRemove
  simp only
  rw [voterFold_congr hp hp' h (fun A => f (A ∩ W.toFinset).card)
    (fun v => v.weight * f (inter v.approved W).length) (fun v => v.weight * f (inter v.approved W).length), candidates_congr h]
  · intro v hv; rw [inter_length (hp.nodup v hv)]; rfl
  · intro v hv; rw [inter_length (hp'.nodup v hv)]; rfl

theorem separableScores_congr {p p' : Profile} (hp : p.WF) (hp' : p'.WF) (h : SameElectorate p p') (r : SepRule) :
    separableScores r p = separableScores r p' := by
  unfold separableScores
  refine voterFold_congr hp hp' h (fun A => match r with
    | .av => 1
    | .sav => 1 / (A.card : ℚ)) _ _ ?_ ?_
  · intro v hv
    cases r with
    | av => simp [SepRule.amount]
    | sav => simp [SepRule.amount, Voter.A, List.toFinset_card_of_nodup (hp.nodup v hv)]; ring
  · intro v hv
    cases r with
    | av => simp [SepRule.amount]
    | sav => simp [SepRule.amount, Voter.A, List.toFinset_card_of_nodup (hp'.nodup v hv)]; ring

theorem minimaxavScore_congr {p p' : Profile} (hp : p.WF) (hp' : p'.WF) (h : SameElectorate p p') (W : List ℕ) (hW : W.Nodup) :
    minimaxavScore p W = minimaxavScore p' W := by
  have key : ∀ {q q' : Profile}, q.WF → q'.WF → SameElectorate q q' → minimaxavScore q W ≤ minimaxavScore q' W := by
    intro q q' hq hq' hqq
    obtain ⟨-, h1, h2⟩ := C18_minimaxavScore q hq W hW
    obtain ⟨g0, -, -⟩ := C18_minimaxavScore q' hq' W hW
    by_cases hn : q.voters = []
    · rw [h1 hn]; omega
    · obtain ⟨v, hv, he⟩ := h2 hn
      obtain ⟨w, hw, hwA⟩ := (occurs_iff hq hq' hqq v.A).1 ⟨v, hv, rfl⟩
      have := g0 w hw
      rw [← he]
      have hd : dist w W.toFinset = dist v W.toFinset := by
        unfold dist
        rw [hwA]
      omega
  exact le_antisymm (key hp hp' h) (key hp' hp h.symm)

theorem approversWeight_congr {p p' : Profile} (h : SameElectorate p p') (c : ℕ) : approversWeight p c = approversWeight p' c := by
  unfold approversWeight
  rw [sum_filter_map, sum_filter_map]
  refine sum_electorate' h (fun A => if c ∈ A then 1 else 0) _ _ ?_ ?_ <;>
  · intro v _
    simp [Voter.A]

theorem totalWeight_congr {p p' : Profile} (h : SameElectorate p p') : (p.voters.map Voter.weight).sum = (p'.voters.map Voter.weight).sum :=
  sum_electorate' h (fun _ => 1) _ _ (fun v _ => by simp) (fun v _ => by simp)

/-! ## Loads and budgets that depend on the approval set only -/

theorem zip_map_self (vs : List Voter) (h : Voter → ℚ) : vs.zip (vs.map h) = vs.map (fun v => (v, h v)) := by
  induction vs with
  | nil => rfl
  | cons v vs ih => simp [ih]

theorem zipWith_map_self (F : Voter → ℚ → ℚ) (vs : List Voter) (h : Voter → ℚ) :
    List.zipWith F vs (vs.map h) = vs.map (fun v => F v (h v)) := by
  induction vs with
  | nil => rfl
  | cons v vs ih => simp [ih]

/-! ## Simulation of the search -/

/-- results that are related -/
def ExRel {N N' : Type} (R : N → N' → Prop) : Except Err (List N) → Except Err (List N') → Prop
  | .ok l, .ok l' => List.Forall₂ R l l'
  | .error e, .error e' => e = e'
  | _, _ => False

theorem expandLoop_sim {N N' : Type} {R : N → N' → Prop} {full : N → Bool} {full' : N' → Bool} {out : N → List ℕ}
    {out' : N' → List ℕ} (hfull : ∀ n n', R n n' → full n = full' n') (hout : ∀ n n', R n n' → out n = out' n')
    (max : Option ℕ) {ns : List N} {ns' : List N'} (hns : List.Forall₂ R ns ns') {pa : List N} {pa' : List N'}
    (hpa : List.Forall₂ R pa pa') (win : List (List ℕ)) :
    (∃ w, expandLoop full out max ns pa win = .inl w ∧ expandLoop full' out' max ns' pa' win = .inl w) ∨
    (∃ q q' w, expandLoop full out max ns pa win = .inr (q, w) ∧ expandLoop full' out' max ns' pa' win = .inr (q', w) ∧
      List.Forall₂ R q q') := by
  induction hns generalizing pa pa' win with
  | nil => exact Or.inr ⟨pa, pa', win, rfl, rfl, hpa⟩
  | @cons n n' ns ns' hn hns ih =>
    unfold expandLoop
    rw [hfull n n' hn, hout n n' hn]
    split
    · simp only
      split
      · exact Or.inl ⟨_, rfl, rfl⟩
      · exact ih hpa _
    · exact ih (List.rel_append hpa (List.Forall₂.cons hn .nil)) _

theorem universes_sim {N N' : Type} {R : N → N' → Prop} {full : N → Bool} {full' : N' → Bool} {out : N → List ℕ}
    {out' : N' → List ℕ} {succs : N → Except Err (List N)} {succs' : N' → Except Err (List N')}
    (hfull : ∀ n n', R n n' → full n = full' n') (hout : ∀ n n', R n n' → out n = out' n')
    (hsuccs : ∀ n n', R n n' → ExRel R (succs n) (succs' n')) (max : Option ℕ) (fuel : ℕ) {st : List N} {st' : List N'}
    (hst : List.Forall₂ R st st') (win : List (List ℕ)) :
    universes full out succs max fuel st win = universes full' out' succs' max fuel st' win := by
  induction fuel generalizing st st' win with
  | zero =>
    cases hst with
    | nil => rfl
    | cons _ _ => rfl
  | succ fuel ih =>
    cases hst with
    | nil => rfl
    | @cons n n' st st' hn hst =>
      unfold universes
      have := hsuccs n n' hn
      cases h1 : succs n with
      | error e =>
        cases h2 : succs' n' with
        | error e' => rw [h1, h2] at this; simp only [ExRel] at this; rw [this]; rfl
        | ok l' => rw [h1, h2] at this; exact this.elim
      | ok l =>
        cases h2 : succs' n' with
        | error e' => rw [h1, h2] at this; exact this.elim
        | ok l' =>
          rw [h1, h2] at this
          simp only [bind, Except.bind]
          rcases expandLoop_sim hfull hout max (this : List.Forall₂ R l l') .nil win with ⟨w, e1, e2⟩ | ⟨q, q', w, e1, e2, e3⟩
          · rw [e1, e2]
          · rw [e1, e2]
            exact ih (List.rel_append e3 hst) w

end Abc
