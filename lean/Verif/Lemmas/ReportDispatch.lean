import Verif.Model.ReportDispatch
import Verif.Props.Dispatch

/-!
# Lemmas on the dispatch of the printing rules
-/

namespace Abc
open Spec

/-- Dispatch of `geom…`. -/
theorem runVerbose_geom (w : World) (t : Texts) (p : Profile) (a : Args) {rid : String} (h : rid.toList.take 4 = "geom".toList) :
    w.runVerbose t rid p a = w.thieleVerbose t rid p a := by
  have hne : ∀ u : String, u.toList.take 4 ≠ "geom".toList → (rid = u) = False :=
    fun u ht => eq_false (fun e => ht (e ▸ h))
  unfold World.runVerbose
  dsimp only
  simp only [hne "av" (by decide), hne "sav" (by decide), hne "pav" (by decide), hne "slav" (by decide), hne "cc" (by decide),
    hne "lexcc" (by decide), hne "seqpav" (by decide), hne "revseqpav" (by decide), hne "seqslav" (by decide),
    hne "seqcc" (by decide), hne "seqphragmen" (by decide), hne "minimaxphragmen" (by decide),
    hne "leximaxphragmen" (by decide), hne "maximin-support" (by decide), hne "monroe" (by decide),
    hne "greedy-monroe" (by decide), hne "minimaxav" (by decide), hne "lexminimaxav" (by decide),
    hne "rule-x" (by decide), hne "equal-shares" (by decide),
    hne "equal-shares-with-seqphragmen-completion" (by decide), hne "equal-shares-with-av-completion" (by decide),
    hne "equal-shares-with-increment-completion" (by decide), hne "rule-x-without-phragmen-phase" (by decide),
    hne "equal-shares-without-phragmen-phase" (by decide), hne "equal-shares-without-completion" (by decide),
    hne "phragmen-enestroem" (by decide), hne "consensus-rule" (by decide), hne "trivial" (by decide),
    hne "rsd" (by decide), hne "eph" (by decide), or_self, if_false]
  rw [if_pos h]

/-- Dispatch of the sequential Thiele methods. -/
theorem runVerbose_seq (w : World) (t : Texts) (p : Profile) (a : Args) {sid : String} {s : ScoreId}
    (h : w.env.scoreId sid = .ok s) :
    w.runVerbose t ("seq" ++ sid) p a = computeSeqThieleVerbose w.env t.num t.verbosity sid p a := by
  have main : ∀ x, sid.toList.take 2 = x → (x ≠ ['p', 'a'] ∧ x ≠ ['s', 'l'] ∧ x ≠ ['c', 'c'] ∧ x ≠ ['p', 'h']) →
      w.runVerbose t ("seq" ++ sid) p a = computeSeqThieleVerbose w.env t.num t.verbosity sid p a := by
    intro x hx hne
    have hl : ("seq" ++ sid).toList = 's' :: 'e' :: 'q' :: sid.toList := by simp
    have h3 : ("seq" ++ sid).toList.take 3 = ['s', 'e', 'q'] := by simp [hl]
    have h5 : ("seq" ++ sid).toList.take 5 = 's' :: 'e' :: 'q' :: x := by simp [hl, hx]
    have hd : String.ofList (("seq" ++ sid).toList.drop 3) = sid := by simp [hl]
    generalize "seq" ++ sid = rid at *
    have hn : ∀ u : String, u.toList.take 5 ≠ 's' :: 'e' :: 'q' :: x → (rid = u) = False :=
      fun u ht => eq_false (fun e => ht (e ▸ h5))
    have hn3 : ∀ u : String, u.toList.take 3 ≠ ['s', 'e', 'q'] → (rid = u) = False :=
      fun u ht => eq_false (fun e => ht (e ▸ h3))
    unfold World.runVerbose
    dsimp only
    have e1 : (rid = "seqpav") = False := hn _ (by simpa using Ne.symm hne.1)
    have e2 : (rid = "seqslav") = False := hn _ (by simpa using Ne.symm hne.2.1)
    have e3 : (rid = "seqcc") = False := hn _ (by simpa using Ne.symm hne.2.2.1)
    have e4 : (rid = "seqphragmen") = False := hn _ (by simpa using Ne.symm hne.2.2.2)
    simp only [e1, e2, e3, e4, hn3 "av" (by decide), hn3 "sav" (by decide), hn3 "pav" (by decide), hn3 "slav" (by decide), hn3 "cc" (by decide),
      hn3 "lexcc" (by decide), hn3 "revseqpav" (by decide), hn3 "minimaxphragmen" (by decide),
      hn3 "leximaxphragmen" (by decide), hn3 "maximin-support" (by decide), hn3 "monroe" (by decide),
      hn3 "greedy-monroe" (by decide), hn3 "minimaxav" (by decide), hn3 "lexminimaxav" (by decide),
      hn3 "rule-x" (by decide), hn3 "equal-shares" (by decide),
      hn3 "equal-shares-with-seqphragmen-completion" (by decide), hn3 "equal-shares-with-av-completion" (by decide),
      hn3 "equal-shares-with-increment-completion" (by decide), hn3 "rule-x-without-phragmen-phase" (by decide),
      hn3 "equal-shares-without-phragmen-phase" (by decide), hn3 "equal-shares-without-completion" (by decide),
      hn3 "phragmen-enestroem" (by decide), hn3 "consensus-rule" (by decide), hn3 "trivial" (by decide),
      hn3 "rsd" (by decide), hn3 "eph" (by decide), or_self, if_false]
    rw [if_neg, if_pos (show rid.toList.take 3 = "seq".toList from h3), hd]
    intro h4
    have := congrArg (List.take 3) h4
    rw [List.take_take] at this
    rw [show min 3 4 = 3 from rfl, h3] at this
    exact absurd this (by decide)
  rcases scoreId_cases h with ⟨rfl, -⟩ | ⟨rfl, -⟩ | ⟨rfl, -⟩ | ⟨rfl, -⟩ | ⟨hg, -⟩ | ⟨hg, -⟩
  · rfl
  · rfl
  · rfl
  · exact main _ rfl (by decide)
  · have := congrArg (List.take 2) hg
    rw [List.take_take] at this
    exact main _ this (by decide)
  · have := congrArg (List.take 2) hg
    rw [List.take_take] at this
    exact main _ this (by decide)

/-- Dispatch of the reverse sequential Thiele methods. -/
theorem runVerbose_revseq (w : World) (t : Texts) (p : Profile) (a : Args) {sid : String} {s : ScoreId}
    (h : w.env.scoreId sid = .ok s) :
    w.runVerbose t ("revseq" ++ sid) p a = computeRevseqThieleVerbose w.env t.num sid w.revOrd p a := by
  by_cases hp' : sid = "pav"
  · subst hp'; rfl
  have hl : ("revseq" ++ sid).toList = 'r' :: 'e' :: 'v' :: 's' :: 'e' :: 'q' :: sid.toList := by simp
  have h3 : ("revseq" ++ sid).toList.take 3 = ['r', 'e', 'v'] := by simp [hl]
  have hd : String.ofList (("revseq" ++ sid).toList.drop 6) = sid := by simp [hl]
  have hnp : ("revseq" ++ sid = "revseqpav") = False := by
    refine eq_false fun e => hp' ?_
    have := congrArg String.toList e
    rw [hl] at this
    rw [← String.toList_inj]
    simpa using this
  generalize "revseq" ++ sid = rid at *
  have hn3 : ∀ u : String, u.toList.take 3 ≠ ['r', 'e', 'v'] → (rid = u) = False :=
    fun u ht => eq_false (fun e => ht (e ▸ h3))
  unfold World.runVerbose
  dsimp only
  simp only [hnp, hn3 "av" (by decide), hn3 "sav" (by decide), hn3 "pav" (by decide), hn3 "slav" (by decide), hn3 "cc" (by decide),
    hn3 "lexcc" (by decide), hn3 "seqpav" (by decide), hn3 "seqslav" (by decide), hn3 "seqcc" (by decide),
    hn3 "seqphragmen" (by decide), hn3 "minimaxphragmen" (by decide), hn3 "leximaxphragmen" (by decide),
    hn3 "maximin-support" (by decide), hn3 "monroe" (by decide), hn3 "greedy-monroe" (by decide),
    hn3 "minimaxav" (by decide), hn3 "lexminimaxav" (by decide), hn3 "rule-x" (by decide),
    hn3 "equal-shares" (by decide), hn3 "equal-shares-with-seqphragmen-completion" (by decide),
    hn3 "equal-shares-with-av-completion" (by decide), hn3 "equal-shares-with-increment-completion" (by decide),
    hn3 "rule-x-without-phragmen-phase" (by decide), hn3 "equal-shares-without-phragmen-phase" (by decide),
    hn3 "equal-shares-without-completion" (by decide), hn3 "phragmen-enestroem" (by decide),
    hn3 "consensus-rule" (by decide), hn3 "trivial" (by decide), hn3 "rsd" (by decide), hn3 "eph" (by decide), or_self, if_false]
  rw [if_neg, if_neg, hd]
  · rw [h3]; decide
  · intro h4
    have := congrArg (List.take 3) h4
    rw [List.take_take] at this
    rw [show min 3 4 = 3 from rfl, h3] at this
    exact absurd this (by decide)

end Abc
