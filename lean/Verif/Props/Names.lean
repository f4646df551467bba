import Verif.Spec.Names

/-!
# C92: the names of the rules
-/

namespace Abc

open Spec

/-- What `longnameBase` says about an id with another beginning. -/
theorem longnameBase_geom (b : String) : longnameBase ("geom" ++ b) = some (b.toList ++ "-Geometric Rule".toList) := by
  have key : ∀ s : String, s.toList.take 4 ≠ "geom".toList → "geom" ++ b ≠ s := by
    rintro s hs rfl
    exact hs (by rw [String.toList_append]; rfl)
  unfold longnameBase
  simp only [key "av" (by decide), key "sav" (by decide), key "pav" (by decide), key "slav" (by decide), key "cc" (by decide),
    key "lexcc" (by decide), key "seqpav" (by decide), key "revseqpav" (by decide), key "seqslav" (by decide), key "seqcc" (by decide),
    key "seqphragmen" (by decide), key "minimaxphragmen" (by decide), key "leximaxphragmen" (by decide), key "maximin-support" (by decide),
    key "monroe" (by decide), key "greedy-monroe" (by decide), key "minimaxav" (by decide), key "lexminimaxav" (by decide),
    key "rule-x" (by decide), key "equal-shares" (by decide), key "equal-shares-with-seqphragmen-completion" (by decide),
    key "equal-shares-with-av-completion" (by decide), key "equal-shares-with-increment-completion" (by decide),
    key "rule-x-without-phragmen-phase" (by decide), key "equal-shares-without-phragmen-phase" (by decide),
    key "equal-shares-without-completion" (by decide), key "phragmen-enestroem" (by decide), key "consensus-rule" (by decide),
    key "trivial" (by decide), key "rsd" (by decide), key "eph" (by decide), if_false, or_self]
  rw [if_pos (by rw [String.toList_append]; rfl)]
  rw [String.toList_append]
  rfl

/-- No explicit name begins like this. -/
theorem longnameBase_other {s : String} (h : s.toList.take 7 = "seqgeom".toList ∨ s.toList.take 10 = "revseqgeom".toList) :
    longnameBase s = none := by
  have key : ∀ t : String, t.toList.take 7 ≠ "seqgeom".toList → t.toList.take 10 ≠ "revseqgeom".toList → s ≠ t := by
    rintro t h1 h2 rfl
    exact h.elim h1 h2
  unfold longnameBase
  simp only [key "av" (by decide) (by decide), key "sav" (by decide) (by decide), key "pav" (by decide) (by decide),
    key "slav" (by decide) (by decide), key "cc" (by decide) (by decide),
    key "lexcc" (by decide) (by decide), key "seqpav" (by decide) (by decide), key "revseqpav" (by decide) (by decide),
    key "seqslav" (by decide) (by decide), key "seqcc" (by decide) (by decide),
    key "seqphragmen" (by decide) (by decide), key "minimaxphragmen" (by decide) (by decide), key "leximaxphragmen" (by decide) (by decide),
    key "maximin-support" (by decide) (by decide), key "monroe" (by decide) (by decide), key "greedy-monroe" (by decide) (by decide),
    key "minimaxav" (by decide) (by decide), key "lexminimaxav" (by decide) (by decide),
    key "rule-x" (by decide) (by decide), key "equal-shares" (by decide) (by decide),
    key "equal-shares-with-seqphragmen-completion" (by decide) (by decide),
    key "equal-shares-with-av-completion" (by decide) (by decide), key "equal-shares-with-increment-completion" (by decide) (by decide),
    key "rule-x-without-phragmen-phase" (by decide) (by decide), key "equal-shares-without-phragmen-phase" (by decide) (by decide),
    key "equal-shares-without-completion" (by decide) (by decide), key "phragmen-enestroem" (by decide) (by decide),
    key "consensus-rule" (by decide) (by decide),
    key "trivial" (by decide) (by decide), key "rsd" (by decide) (by decide), key "eph" (by decide) (by decide), if_false, or_self]
  rw [if_neg]
  intro h'
  rcases h with h | h
  · have := congrArg (List.take 4) h
    rw [List.take_take] at this
    rw [show min 4 7 = 4 from rfl, h'] at this
    exact absurd this (by decide)
  · have := congrArg (List.take 4) h
    rw [List.take_take] at this
    rw [show min 4 10 = 4 from rfl, h'] at this
    exact absurd this (by decide)

/-- **C92** The names that are printed: those of the table, and for the geometric rules with every base. -/
theorem C92_names : (∀ x ∈ ruleNames, longname x.1 = x.2.toList) ∧ ∀ b : String,
    longname ("geom" ++ b) = (b ++ "-Geometric Rule").toList ∧
    longname ("seqgeom" ++ b) = ("Sequential " ++ b ++ "-Geometric Rule").toList ∧
    longname ("revseqgeom" ++ b) = ("Reverse Sequential " ++ b ++ "-Geometric Rule").toList := by
  refine ⟨by decide +kernel, fun b => ⟨?_, ?_, ?_⟩⟩
  · unfold longname
    rw [longnameBase_geom]
    exact (String.toList_append).symm
  · unfold longname
    rw [longnameBase_other (Or.inl (by rw [String.toList_append]; rfl))]
    simp only
    rw [if_pos (by rw [String.toList_append]; rfl)]
    have : String.ofList (("seqgeom" ++ b).toList.drop 3) = "geom" ++ b := by
      apply String.toList_injective
      rw [String.toList_ofList, String.toList_append, String.toList_append]
      rfl
    rw [this, longnameBase_geom]
    simp [String.toList_append]
  · unfold longname
    rw [longnameBase_other (Or.inr (by rw [String.toList_append]; rfl))]
    simp only
    rw [if_neg (by rw [String.toList_append]; exact fun h => absurd h (by
      show ¬ "rev".toList = "seq".toList
      decide))]
    have : String.ofList (("revseqgeom" ++ b).toList.drop 6) = "geom" ++ b := by
      apply String.toList_injective
      rw [String.toList_ofList, String.toList_append, String.toList_append]
      rfl
    rw [this, longnameBase_geom]
    simp [String.toList_append]

/-- Non-vacuity. -/
example : longname "seqgeom1.5" = "Sequential 1.5-Geometric Rule".toList := (C92_names.2 "1.5").2.1

end Abc
