import Verif.Lemmas.ILP

/-!
# C61: the enumeration loops return exactly the optimal committees
-/

namespace Abc
open Spec

section
variable {solve : Program → SolveResult} {thr : ℚ} {score : Option (List ℕ → Except Err ℚ)} {p : Profile} {a : Args}
  {v : Finset ℕ → ℚ} {P : Program} {F : Finset ℕ → Prop}

/-- The committees satisfying `F`, as a finite set. -/
noncomputable def famOf (p : Profile) (k : ℕ) (F : Finset ℕ → Prop) : Finset (Finset ℕ) :=
  open Classical in (Finset.powersetCard k (Finset.range p.numCand)).filter F

theorem mem_famOf {k : ℕ} (hF : ∀ A, F A → IsCommittee p k A) (A : Finset ℕ) : A ∈ famOf p k F ↔ F A := by
  classical
  unfold famOf
  rw [Finset.mem_filter, Finset.mem_powersetCard]
  exact ⟨fun h => h.2, fun h => ⟨hF A h, h⟩⟩

theorem card_famOf_le (k : ℕ) : (famOf p k F).card ≤ (combinations p.candidates k).length := by
  classical
  have hsub : famOf p k F ⊆ ((combinations p.candidates k).map List.toFinset).toFinset := by
    intro A hA
    unfold famOf at hA
    rw [Finset.mem_filter, Finset.mem_powersetCard] at hA
    obtain ⟨W, hW, e⟩ := (isCommittee_iff_combinations p k A).1 hA.1
    simp only [List.mem_toFinset, List.mem_map]
    exact ⟨W, hW, e⟩
  refine (Finset.card_le_card hsub).trans ((List.toFinset_card_le _).trans ?_)
  simp

/-- **C61.** Let `P` encode the committees satisfying `F` with value `v` (a specification-level notion, see `Spec.Encodes`), and let the
solver be exact.  Then the loop raises no exception and terminates, and: in resolute mode it returns one committee of maximal value,
with that value; in irresolute mode it returns exactly the committees whose value is maximal up to the tolerance of the code (0 if an
exact score function is given, else `10⁻⁷`), each once; with `max_num_of_committees = n` it returns `min n …` different ones. -/
theorem C61_enumeration (hs : ExactSolver solve) (h0 : 0 < thr) (h1 : thr ≤ 1) (hv : ValidCall p a) (hE : Encodes P p F v)
    (hF : ∀ A, F A → IsCommittee p a.k A)
    (hsc : ∀ f, score = some f → ∀ W : List ℕ, W.Pairwise (· < ·) → F W.toFinset → f W = .ok (v W.toFinset))
    (hne : ∃ A, F A) :
    ∃ cs m, optimizeRule solve thr score p a.k a.resolute a.maxNum P = .ok (cs, m) ∧
      (∃ A, F A ∧ v A = m ∧ ∀ B, F B → v B ≤ m) ∧ cs ≠ [] ∧
      (∀ W ∈ cs, W.Pairwise (· < ·) ∧ F W.toFinset ∧ m - cmpTol score ≤ v W.toFinset) ∧
      (a.resolute = true → ∃ W, cs = [W] ∧ v W.toFinset = m) ∧
      Answers a (sortedCommittees cs) (fun A => F A ∧ ∀ B, F B → v B - cmpTol score ≤ v A) := by
  classical
  have hmem := mem_famOf (p := p) hF
  have hEe : Encodes P p (· ∈ famOf p a.k F) v := by
    have : (· ∈ famOf p a.k F) = F := by funext A; exact propext (hmem A)
    rw [this]; exact hE
  have hSC : ∀ A ∈ famOf p a.k F, IsCommittee p a.k A := fun A hA => hF A ((hmem A).1 hA)
  have hscore : ScoreOk score (famOf p a.k F) v := fun f hf W hW hWS => hsc f hf W hW ((hmem _).1 hWS)
  have hneS : (famOf p a.k F).Nonempty := by
    obtain ⟨A, hA⟩ := hne
    exact ⟨A, (hmem A).2 hA⟩
  have htol := cmpTol_nonneg score
  cases hr : a.resolute with
  | true =>
    obtain ⟨W, e, hlt, hWS, hmax⟩ := optLoop_resolute (k := a.k) (p := p) hs h0 h1 hEe hSC hscore hneS a.maxNum
      (combinations p.candidates a.k).length
    refine ⟨[W], v W.toFinset, e, ⟨W.toFinset, (hmem _).1 hWS, rfl, fun B hB => hmax B ((hmem B).2 hB)⟩, by simp, ?_, ?_, ?_⟩
    · intro V hV
      rw [List.mem_singleton] at hV
      subst hV
      exact ⟨hlt, (hmem _).1 hWS, by linarith⟩
    · exact fun _ => ⟨W, rfl, rfl⟩
    · unfold Answers
      rw [hr, sortedCommittees_one (nodup_of_lt hlt)]
      refine ⟨_, rfl, sortNat_lt (nodup_of_lt hlt), ?_⟩
      rw [sortNat_toFinset]
      refine ⟨(hmem _).1 hWS, fun B hB => ?_⟩
      have := hmax B ((hmem B).2 hB)
      linarith
  | false =>
    obtain ⟨A, hA, hAmax⟩ := (famOf p a.k F).exists_max_image v hneS
    obtain ⟨ds, e1, e2, e3, e4, e5⟩ := optLoop_irresolute (p := p) (k := a.k) (score := score) hs h0 h1 a.maxNum
      ((combinations p.candidates a.k).length + 1) P (famOf p a.k F) [] none (v A) hEe hSC hscore
      (Nat.lt_succ_of_le (card_famOf_le a.k)) (Or.inr hneS) (by simp) (by simp) hAmax (fun _ => ⟨A, hA, rfl⟩)
      (fun n hn => by
        obtain ⟨z, hz, rfl⟩ := maxNum_some hn
        have := hv.max z hz
        simp; omega)
    simp only [List.nil_append] at e1 e4 e5
    have hT : ∀ B, (F B ∧ ∀ C, F C → v C - cmpTol score ≤ v B) ↔ F B ∧ v A - cmpTol score ≤ v B := by
      intro B
      refine and_congr_right fun hB => ⟨fun h => h A ((hmem A).1 hA), fun h C hC => ?_⟩
      have := hAmax C ((hmem C).2 hC)
      linarith
    have hsub : ∀ W ∈ ds, W.Pairwise (· < ·) ∧ F W.toFinset ∧ v A - cmpTol score ≤ v W.toFinset := fun W hW =>
      ⟨(e2 W hW).1, (hmem _).1 (e2 W hW).2.1, (e2 W hW).2.2⟩
    have hdne : ds ≠ [] := by
      rintro rfl
      rcases e5 with h | ⟨n, hn, h⟩
      · obtain ⟨W, hW, -⟩ := h A hA (by linarith)
        simp at hW
      · obtain ⟨z, hz, rfl⟩ := maxNum_some hn
        have := hv.max z hz
        simp at h
        omega
    refine ⟨ds, v A, e1, ⟨A, (hmem A).1 hA, rfl, fun B hB => hAmax B ((hmem B).2 hB)⟩, hdne, hsub, by simp, ?_⟩
    obtain ⟨out, ho1, ho2, ho3⟩ := sortedCommittees_canonical (fun W hW => nodup_of_lt (hsub W hW).1) e3
    have hoT : ∀ W ∈ out, F W.toFinset ∧ v A - cmpTol score ≤ v W.toFinset := by
      intro W hW
      have : W.toFinset ∈ ds.map List.toFinset := ho3.mem_iff.1 (List.mem_map.2 ⟨W, hW, rfl⟩)
      obtain ⟨V, hV, e⟩ := List.mem_map.1 this
      rw [← e]; exact (hsub V hV).2
    unfold Answers
    rw [hr, ho1]
    cases hm : a.max with
    | none =>
      have hcompl : ∀ B ∈ famOf p a.k F, v A - cmpTol score ≤ v B → ∃ W ∈ ds, W.toFinset = B := by
        rcases e5 with h | ⟨n, hn, -⟩
        · exact h
        · simp [Args.maxNum, hm] at hn
      refine ⟨out, rfl, ho2, fun B => ?_⟩
      refine Iff.trans ?_ (hT B).symm
      constructor
      · rintro ⟨W, hW, rfl⟩; exact hoT W hW
      · rintro ⟨hB, hBv⟩
        obtain ⟨W, hW, rfl⟩ := hcompl B ((hmem B).2 hB) hBv
        have : W.toFinset ∈ out.map List.toFinset := ho3.mem_iff.2 (List.mem_map.2 ⟨W, hW, rfl⟩)
        obtain ⟨V, hV, e⟩ := List.mem_map.1 this
        exact ⟨V, hV, e⟩
    | some z =>
      have hmn : a.maxNum = some z.toNat := by simp [Args.maxNum, hm]
      refine ⟨out, rfl, ho2, fun W hW => (hT _).2 (hoT W hW),
        (famOf p a.k F).filter (fun B => v A - cmpTol score ≤ v B), fun B => ?_, ?_⟩
      · rw [Finset.mem_filter, hmem]; exact (hT B).symm
      · have hlen : out.length = ds.length := by simpa using ho3.length_eq
        have hsubT : (ds.map List.toFinset).toFinset ⊆ (famOf p a.k F).filter (fun B => v A - cmpTol score ≤ v B) := by
          intro B hB
          simp only [List.mem_toFinset, List.mem_map] at hB
          obtain ⟨W, hW, rfl⟩ := hB
          rw [Finset.mem_filter]
          exact ⟨(e2 W hW).2.1, (e2 W hW).2.2⟩
        have hcard : (ds.map List.toFinset).toFinset.card = ds.length := by
          rw [List.toFinset_card_of_nodup e3]; simp
        have hle := Finset.card_le_card hsubT
        rw [hcard] at hle
        have hle2 := e4 _ hmn
        rw [hlen]
        rcases e5 with h | ⟨n, hn, h⟩
        · have : (famOf p a.k F).filter (fun B => v A - cmpTol score ≤ v B) ⊆ (ds.map List.toFinset).toFinset := by
            intro B hB
            rw [Finset.mem_filter] at hB
            obtain ⟨W, hW, e⟩ := h B hB.1 hB.2
            simp only [List.mem_toFinset, List.mem_map]
            exact ⟨W, hW, e⟩
          have := Finset.card_le_card this
          rw [hcard] at this
          omega
        · rw [hmn] at hn
          have := Option.some.inj hn
          omega

end

end Abc
