import Verif.Spec.Report
import Verif.Props.Text
import Verif.Props.ILPThiele
import Verif.Props.SeqThiele
import Verif.Props.RevSeqThiele

/-!
# The parts common to all reports
-/

namespace Abc
open Spec

theorem headMsgs_ok (ruleId : String) (r : Remark) (resolute : Bool) :
    headMsgs ruleId r resolute = .ok (heading ruleId :: r.msgs resolute) := by
  unfold headMsgs header heading
  show Except.ok _ = _
  simp

theorem algorithmMsg_standard : algorithmMsg "standard" = .ok standardAlgorithm := by
  unfold algorithmMsg standardAlgorithm
  have : algorithmName "standard" = .ok "Standard algorithm".toList := by simp [algorithmName]
  rw [this]
  show Except.ok _ = _
  congr 2

theorem committeesMsg_ok {p : Profile} (hn : Named p) {cs : List (List ℕ)} (h : ∀ W ∈ cs, ∀ c ∈ W, c < p.numCand) (hne : cs ≠ []) :
    committeesMsg p cs = .ok (winners p cs) := by
  unfold committeesMsg
  rw [strCommittees_some (fun W hW c hc => hn ▸ h W hW c hc) hne]
  show Except.ok _ = _
  unfold winners firstLine
  have : cs.length ≠ 0 := by simpa using hne
  congr 4

theorem nameOf_ok {p : Profile} (hn : Named p) {c : ℕ} (hc : c < p.numCand) : pyGet p.candNames c = .ok (nameOf p c) :=
  pyGet_name (hn ▸ hc)

theorem setText_ok {p : Profile} (hn : Named p) {W : List ℕ} (h : ∀ c ∈ W, c < p.numCand) :
    strSetOfCandidates W (some p.candNames) = .ok (setText p.candNames W) :=
  strSetOfCandidates_some fun c hc => hn ▸ h c hc

/-- Sorting committees a second time changes nothing. -/
theorem sortedCommittees_idem {cs ds : List (List ℕ)} (h : sortedCommittees cs = .ok ds) : sortedCommittees ds = .ok ds := by
  have hnd : ∀ W ∈ cs, W.Nodup := by
    intro W hW
    by_contra hn
    unfold sortedCommittees at h
    rw [mapM_mkSet_error hW hn] at h
    cases h
  rw [sortedCommittees_ok hnd] at h
  have he := Except.ok.inj h
  have hmem : ∀ W ∈ ds, W.Pairwise (· < ·) := by
    intro W hW
    rw [← he, List.mem_insertionSort, List.mem_map] at hW
    obtain ⟨V, hV, rfl⟩ := hW
    exact sortNat_lt (hnd V hV)
  rw [sortedCommittees_ok fun W hW => nodup_of_lt (hmem W hW)]
  have hmap : ds.map sortNat = ds := by
    conv_rhs => rw [← List.map_id ds]
    exact List.map_congr_left fun W hW => sortNat_of_lt (hmem W hW)
  rw [hmap]
  congr 1
  refine List.Pairwise.insertionSort_eq ?_
  rw [← he]
  have : Std.Total (fun a b : List ℕ => strLe (strKey a) (strKey b)) := ⟨fun a b => List.le_total _ _⟩
  have : IsTrans (List ℕ) (fun a b : List ℕ => strLe (strKey a) (strKey b)) := ⟨fun _ _ _ => List.le_trans⟩
  exact List.pairwise_insertionSort _ _

/-- The members of the committees returned, for every kind of call. -/
theorem answers_lt {a : Args} {r : Except Err (List (List ℕ))} {S : Finset ℕ → Prop} (h : Answers a r S) {m : ℕ}
    (hS : ∀ A, S A → ∀ c ∈ A, c < m) {cs : List (List ℕ)} (hcs : r = .ok cs) : ∀ W ∈ cs, ∀ c ∈ W, c < m := by
  have key : ∀ W ∈ cs, S W.toFinset := by
    unfold Answers at h
    intro W hW
    split at h
    · obtain ⟨V, e, _, hV⟩ := h
      rw [hcs] at e
      rw [Except.ok.inj e, List.mem_singleton] at hW
      rw [hW]; exact hV
    · obtain ⟨ds, e, _, hd⟩ := h
      rw [hcs] at e
      rw [Except.ok.inj e] at hW
      exact (hd _).1 ⟨W, hW, rfl⟩
    · obtain ⟨ds, e, _, hd, _⟩ := h
      rw [hcs] at e
      rw [Except.ok.inj e] at hW
      exact hd W hW
  intro W hW c hc
  exact hS _ (key W hW) c (by simpa using hc)

end Abc
