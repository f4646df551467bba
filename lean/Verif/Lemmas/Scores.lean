import Verif.Props.Misc
import Verif.Spec.Scores

/-!
# Helper lemmas on scores
-/

namespace Abc
open Spec

theorem util_le_card (v : Voter) (W : Finset ℕ) : util v W ≤ W.card := Finset.card_le_card Finset.inter_subset_right

theorem util_mono (v : Voter) {W X : Finset ℕ} (h : W ⊆ X) : util v W ≤ util v X :=
  Finset.card_le_card (Finset.inter_subset_inter_left h)

theorem util_insert (v : Voter) {W : Finset ℕ} {c : ℕ} (hc : c ∉ W) :
    util v (insert c W) = util v W + if c ∈ v.A then 1 else 0 := by
  unfold util
  split
  · rename_i h
    rw [Finset.inter_insert_of_mem h, Finset.card_insert_of_notMem]
    exact fun h' => hc (Finset.mem_inter.1 h').2
  · rename_i h
    rw [Finset.inter_insert_of_notMem h, add_zero]

theorem util_erase (v : Voter) {W : Finset ℕ} {c : ℕ} (hc : c ∈ W) :
    util v W = util v (W.erase c) + if c ∈ v.A then 1 else 0 := by
  conv_lhs => rw [← Finset.insert_erase hc]
  exact util_insert v (by simp)

theorem inner_fold (f : ℕ → ℚ) (w : ℚ) (l : List ℕ) (n : ℕ) (s : ℚ) :
    (l.foldl (fun (st : ℕ × ℚ) _ => (st.1 + 1, st.2 + w * f (st.1 + 1))) (n, s)).2
      = s + w * ∑ i ∈ Finset.range l.length, f (n + i + 1) := by
  induction l generalizing n s with
  | nil => simp
  | cons x l ih =>
    simp only [List.foldl_cons, List.length_cons]
    rw [ih, Finset.sum_range_succ']
    simp only [add_zero]
    have : ∀ i, f (n + 1 + i + 1) = f (n + (i + 1) + 1) := fun i => by congr 1; omega
    simp only [this]
    ring

theorem foldl_add_map {α : Type} (g : α → ℚ) (l : List α) (s : ℚ) :
    l.foldl (fun s v => s + g v) s = s + (l.map g).sum := by
  induction l generalizing s with
  | nil => simp
  | cons x l ih => simp only [List.foldl_cons, ih, List.map_cons, List.sum_cons]; ring

theorem thieleScore_eq (f : ℕ → ℚ) (p : Profile) (W : List ℕ) :
    thieleScore f p W = score f p W.toFinset := by
  unfold thieleScore score
  simp only [inner_fold, zero_add]
  rw [foldl_add_map, zero_add]
  congr 1
  refine List.map_congr_left ?_
  intro v hv
  rw [inter_length W.nodup_dedup]
  have : (W.dedup.toFinset ∩ v.approved.toFinset).card = util v W.toFinset := by
    unfold util Voter.A
    rw [Finset.inter_comm]
    congr 2
    ext x; simp
  rw [this]

/-! ## list updates -/

theorem addAt_length (l : List ℚ) (i : ℕ) (x : ℚ) : (addAt l i x).length = l.length := by
  simp [addAt]

theorem addAt_getD (l : List ℚ) (i : ℕ) (x : ℚ) (c : ℕ) (hc : c < l.length) :
    (addAt l i x).getD c 0 = l.getD c 0 + if c = i then x else 0 := by
  unfold addAt
  simp only [List.getD_eq_getElem?_getD, List.getElem?_modify, hc, List.getElem?_eq_getElem]
  by_cases h : i = c
  · subst h; simp
  · have h' : ¬ c = i := fun e => h e.symm
    simp [h, h']

theorem foldl_addAt_length (l : List ℕ) (x : ℚ) (m : List ℚ) :
    (l.foldl (fun m c => addAt m c x) m).length = m.length := by
  induction l generalizing m with
  | nil => rfl
  | cons a l ih => simp only [List.foldl_cons, ih, addAt_length]

theorem foldl_addAt_getD (l : List ℕ) (hl : l.Nodup) (x : ℚ) (m : List ℚ) (c : ℕ) (hc : c < m.length) :
    (l.foldl (fun m c => addAt m c x) m).getD c 0 = m.getD c 0 + if c ∈ l then x else 0 := by
  induction l generalizing m with
  | nil => simp
  | cons a l ih =>
    rw [List.nodup_cons] at hl
    simp only [List.foldl_cons]
    rw [ih hl.2 _ (by rwa [addAt_length]), addAt_getD _ _ _ _ hc]
    by_cases h : c = a
    · subst h
      simp [hl.1]
    · simp [h]

theorem foldl_voters_length (vs : List Voter) (g : Voter → ℚ) (m : List ℚ) :
    (vs.foldl (fun m v => v.approved.foldl (fun m c => addAt m c (g v)) m) m).length = m.length := by
  induction vs generalizing m with
  | nil => rfl
  | cons v vs ih => simp only [List.foldl_cons, ih, foldl_addAt_length]

theorem foldl_voters_getD (vs : List Voter) (hvs : ∀ v ∈ vs, v.approved.Nodup) (g : Voter → ℚ) (m : List ℚ) (c : ℕ)
    (hc : c < m.length) :
    (vs.foldl (fun m v => v.approved.foldl (fun m c => addAt m c (g v)) m) m).getD c 0
      = m.getD c 0 + (vs.map (fun v => if c ∈ v.A then g v else 0)).sum := by
  induction vs generalizing m with
  | nil => simp
  | cons v vs ih =>
    simp only [List.foldl_cons]
    rw [ih (fun w hw => hvs w (by simp [hw])) _ (by rwa [foldl_addAt_length]),
      foldl_addAt_getD _ (hvs v (by simp)) _ _ _ hc]
    simp only [List.map_cons, List.sum_cons, Voter.A, List.mem_toFinset]
    ring

theorem foldl_set_length (l : List ℕ) (x : ℚ) (m : List ℚ) :
    (l.foldl (fun m c => m.set c x) m).length = m.length := by
  induction l generalizing m with
  | nil => rfl
  | cons a l ih => simp only [List.foldl_cons, ih, List.length_set]

theorem getD_set (m : List ℚ) (i c : ℕ) (x : ℚ) (hc : c < m.length) :
    (m.set i x).getD c 0 = if c = i then x else m.getD c 0 := by
  simp only [List.getD_eq_getElem?_getD, List.getElem?_set]
  by_cases h : i = c
  · subst h; simp [hc]
  · have h' : ¬ c = i := fun e => h e.symm
    simp [h, h']

theorem foldl_set_getD (l : List ℕ) (x : ℚ) (m : List ℚ) (c : ℕ) (hc : c < m.length) :
    (l.foldl (fun m c => m.set c x) m).getD c 0 = if c ∈ l then x else m.getD c 0 := by
  induction l generalizing m with
  | nil => simp
  | cons a l ih =>
    simp only [List.foldl_cons]
    rw [ih _ (by simpa using hc), getD_set _ _ _ _ hc]
    by_cases h : c ∈ l
    · simp [h]
    · by_cases h' : c = a <;> simp [h, h']

theorem marginalAdd_length (f : ℕ → ℚ) (p : Profile) (W : List ℕ) : (marginalAdd f p W).length = p.numCand := by
  unfold marginalAdd
  simp only
  rw [foldl_set_length, foldl_voters_length p.voters (fun v => v.weight * f ((inter v.approved W).length + 1))]
  simp

theorem marginalAdd_getD (f : ℕ → ℚ) (p : Profile) (hp : p.WF) (W : List ℕ) (c : ℕ) (hc : c < p.numCand) :
    (marginalAdd f p W).getD c 0 = if c ∈ W then -1 else
      (p.voters.map (fun v => if c ∈ v.A then v.weight * f (util v W.toFinset + 1) else 0)).sum := by
  unfold marginalAdd
  simp only
  rw [foldl_set_getD _ _ _ _ (by rw [foldl_voters_length p.voters
        (fun v => v.weight * f ((inter v.approved W).length + 1))]; simpa using hc),
    foldl_voters_getD p.voters hp.nodup (fun v => v.weight * f ((inter v.approved W).length + 1)) _ c (by simpa using hc)]
  split
  · rfl
  · simp only [List.getD_eq_getElem?_getD, List.getElem?_replicate, hc, if_true, Option.getD_some, zero_add]
    congr 1
    refine List.map_congr_left ?_
    intro v hv
    rw [inter_length (hp.nodup v hv)]
    rfl

/-- adding a candidate -/
theorem score_insert (f : ℕ → ℚ) (p : Profile) (W : Finset ℕ) (c : ℕ) (hc : c ∉ W) :
    score f p (insert c W) - score f p W
      = (p.voters.map (fun v => if c ∈ v.A then v.weight * f (util v W + 1) else 0)).sum := by
  unfold score
  induction p.voters with
  | nil => simp
  | cons v vs ih =>
    simp only [List.map_cons, List.sum_cons]
    rw [← ih, util_insert v hc]
    split
    · rw [Finset.sum_range_succ]; ring
    · simp

/-- removing a candidate -/
theorem score_erase (f : ℕ → ℚ) (p : Profile) (W : Finset ℕ) (c : ℕ) (hc : c ∈ W) :
    score f p W - score f p (W.erase c)
      = (p.voters.map (fun v => if c ∈ v.A then v.weight * f (util v W) else 0)).sum := by
  unfold score
  induction p.voters with
  | nil => simp
  | cons v vs ih =>
    simp only [List.map_cons, List.sum_cons]
    rw [← ih]
    have hu := util_erase v hc
    split
    · rename_i h
      rw [if_pos h] at hu
      rw [hu, Finset.sum_range_succ]; ring
    · rename_i h
      rw [if_neg h] at hu
      rw [hu]; simp

theorem le_foldl_max (l : List ℚ) (a x : ℚ) (h : x = a ∨ x ∈ l) : x ≤ l.foldl max a := by
  induction l generalizing a x with
  | nil => simp at h; simp [h]
  | cons b l ih =>
    simp only [List.foldl_cons]
    rcases h with rfl | h
    · exact (le_max_left _ b).trans (ih _ _ (Or.inl rfl))
    · rcases List.mem_cons.1 h with rfl | h
      · exact (le_max_right a _).trans (ih _ _ (Or.inl rfl))
      · exact ih _ _ (Or.inr h)

theorem lt_maxPlusOne (l : List ℚ) (c : ℕ) (hc : c < l.length) : l.getD c 0 < maxPlusOne l := by
  have hm : l.getD c 0 ∈ l := by
    simp [List.getD_eq_getElem?_getD, hc]
  cases l with
  | nil => simp at hc
  | cons x xs =>
    unfold maxPlusOne
    have := le_foldl_max xs x _ (List.mem_cons.1 hm)
    linarith

theorem removeLoop_length (cs W : List ℕ) (m : List ℚ) :
    (cs.foldl (fun m cand => if cand ∉ W then m.set cand (maxPlusOne m) else m) m).length = m.length := by
  induction cs generalizing m with
  | nil => rfl
  | cons a cs ih =>
    simp only [List.foldl_cons, ih]
    split <;> simp

theorem removeLoop_mem (cs W : List ℕ) (m : List ℚ) (c : ℕ) (hc : c < m.length) (hW : c ∈ W) :
    (cs.foldl (fun m cand => if cand ∉ W then m.set cand (maxPlusOne m) else m) m).getD c 0 = m.getD c 0 := by
  induction cs generalizing m with
  | nil => rfl
  | cons a cs ih =>
    simp only [List.foldl_cons]
    split
    · rename_i ha
      rw [ih _ (by simpa using hc), getD_set _ _ _ _ hc, if_neg]
      rintro rfl
      exact ha hW
    · exact ih _ hc

theorem removeLoop_notMem (cs W : List ℕ) (m : List ℚ) (d : ℕ) (hd : d < m.length)
    (hdW : d ∉ W) (hdcs : d ∈ cs ∨ ∀ c < m.length, c ∈ W → m.getD c 0 < m.getD d 0) :
    ∀ c < m.length, c ∈ W → m.getD c 0 <
      (cs.foldl (fun m cand => if cand ∉ W then m.set cand (maxPlusOne m) else m) m).getD d 0 := by
  induction cs generalizing m with
  | nil =>
    intro c hc hcW
    rcases hdcs with h | h
    · simp at h
    · exact h c hc hcW
  | cons a cs ih =>
    intro c hc hcW
    simp only [List.foldl_cons]
    split
    · rename_i ha
      have hca : c ≠ a := by rintro rfl; exact ha hcW
      have := ih (m.set a (maxPlusOne m)) (by simpa using hd) (by
        by_cases hda : d = a
        · right
          intro c' hc' hcW'
          have hc'' : c' < m.length := by simpa using hc'
          have hca' : c' ≠ a := by rintro rfl; exact ha hcW'
          rw [getD_set _ _ _ _ hc'', getD_set _ _ _ _ hd, if_neg hca', if_pos hda]
          exact lt_maxPlusOne _ _ hc''
        · rcases hdcs with h | h
          · left
            rcases List.mem_cons.1 h with h | h
            · exact absurd h hda
            · exact h
          · right
            intro c' hc' hcW'
            have hc'' : c' < m.length := by simpa using hc'
            have hca' : c' ≠ a := by rintro rfl; exact ha hcW'
            rw [getD_set _ _ _ _ hc'', getD_set _ _ _ _ hd, if_neg hca', if_neg hda]
            exact h c' hc'' hcW') c (by simpa using hc) hcW
      rwa [getD_set _ _ _ _ hc, if_neg hca] at this
    · rename_i ha
      refine ih m hd ?_ c hc hcW
      rcases hdcs with h | h
      · left
        rcases List.mem_cons.1 h with rfl | h
        · exact absurd hdW ha
        · exact h
      · exact Or.inr h

theorem marginalRemove_length (f : ℕ → ℚ) (p : Profile) (W : List ℕ) : (marginalRemove f p W).length = p.numCand := by
  unfold marginalRemove
  simp only
  rw [removeLoop_length, foldl_voters_length p.voters (fun v => v.weight * f (inter v.approved W).length)]
  simp

theorem marginalRemove_mem (f : ℕ → ℚ) (p : Profile) (hp : p.WF) (W : List ℕ) (c : ℕ) (hc : c < p.numCand) (hW : c ∈ W) :
    (marginalRemove f p W).getD c 0
      = (p.voters.map (fun v => if c ∈ v.A then v.weight * f (util v W.toFinset) else 0)).sum := by
  unfold marginalRemove
  simp only
  rw [removeLoop_mem _ _ _ _ (by rw [foldl_voters_length p.voters
      (fun v => v.weight * f (inter v.approved W).length)]; simpa using hc) hW,
    foldl_voters_getD p.voters hp.nodup (fun v => v.weight * f (inter v.approved W).length) _ c (by simpa using hc)]
  simp only [List.getD_eq_getElem?_getD, List.getElem?_replicate, hc, if_true, Option.getD_some, zero_add]
  congr 1
  refine List.map_congr_left ?_
  intro v hv
  rw [inter_length (hp.nodup v hv)]
  rfl

theorem marginalRemove_notMem (f : ℕ → ℚ) (p : Profile) (W : List ℕ) (c d : ℕ) (hc : c < p.numCand) (hW : c ∈ W)
    (hd : d < p.numCand) (hdW : d ∉ W) :
    (marginalRemove f p W).getD c 0 < (marginalRemove f p W).getD d 0 := by
  unfold marginalRemove
  simp only
  have hlen := foldl_voters_length p.voters (fun v => v.weight * f (inter v.approved W).length)
    (List.replicate p.numCand 0)
  simp only [List.length_replicate] at hlen
  rw [removeLoop_mem _ _ _ _ (by rw [hlen]; exact hc) hW]
  exact removeLoop_notMem _ _ _ d (by rw [hlen]; exact hd) hdW (Or.inl (by simpa [Profile.candidates] using hd)) c
    (by rw [hlen]; exact hc) hW

theorem minimaxavScore_fold (vs : List Voter) (g : Voter → ℕ) (s : ℕ) :
    s ≤ vs.foldl (fun score v => if g v > score then g v else score) s ∧
    (∀ v ∈ vs, g v ≤ vs.foldl (fun score v => if g v > score then g v else score) s) ∧
    (vs.foldl (fun score v => if g v > score then g v else score) s = s ∨
      ∃ v ∈ vs, vs.foldl (fun score v => if g v > score then g v else score) s = g v) := by
  induction vs generalizing s with
  | nil => simp
  | cons v vs ih =>
    simp only [List.foldl_cons]
    obtain ⟨h1, h2, h3⟩ := ih (if g v > s then g v else s)
    refine ⟨?_, ?_, ?_⟩
    · refine le_trans ?_ h1; split <;> omega
    · intro w hw
      rcases List.mem_cons.1 hw with rfl | hw
      · refine le_trans ?_ h1; split <;> omega
      · exact h2 w hw
    · rcases h3 with h3 | ⟨w, hw, h3⟩
      · by_cases h : g v > s
        · right; exact ⟨v, by simp, by rw [h3, if_pos h]⟩
        · left; rw [h3, if_neg h]
      · right; exact ⟨w, by simp [hw], h3⟩

end Abc
