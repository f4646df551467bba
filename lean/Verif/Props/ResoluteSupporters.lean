import Verif.Props.ResoluteElectorate
import Verif.Props.Supporters

/-!
# C120: with `resolute=True`, new supporters of a candidate
-/

namespace Abc

open Spec

/-- The parameters are checked with the number of candidates and whether there are voters. -/
theorem prologue_same {env : Env} {ruleId alg : String} {p q : Profile} {a : Args} (hc : q.numCand = p.numCand) (hv : q.voters ≠ [])
    (h : prologue env ruleId p a = .ok alg) : prologue env ruleId q a = .ok alg := by
  obtain ⟨ri, h1, h2, h3, h4, -, h5⟩ := (C19_prologue_ok_iff _ _ p a alg).1 h
  exact (C19_prologue_ok_iff _ _ q a alg).2 ⟨ri, h1, h2, h3, by rw [hc]; exact h4, hv, h5⟩

theorem weight_kept {c : ℕ} {p p' : Profile} (M : MoreApprovals c p p') : ∀ v ∈ p.voters, ∃ u ∈ p'.voters, u.weight = v.weight := by
  have : ∀ {l l' : List Voter}, List.Forall₂ (fun v v' : Voter => v'.weight = v.weight ∧ (v'.A = v.A ∨ v'.A = insert c v.A)) l l' →
      ∀ v ∈ l, ∃ u ∈ l', u.weight = v.weight := by
    intro l l' h
    induction h with
    | nil => intro v hv; cases hv
    | cons h _ ih =>
      intro v hv
      rcases List.mem_cons.1 hv with rfl | hv
      · exact ⟨_, List.mem_cons_self .., h.1⟩
      · obtain ⟨u, h1, h2⟩ := ih v hv
        exact ⟨u, List.mem_cons_of_mem _ h1, h2⟩
  exact this M.voters

section
variable {w w' : World} (hw : w.Exact) (hw' : w'.Exact) {c : ℕ} {p p' : Profile} (hp : p.WF) (hp' : p'.WF) (N : NewSupporters c p p')
  {a a' : Args} (h : a.resolute = true) (h' : a'.resolute = true) (hk : a'.k = a.k) {ruleId alg alg' : String}
  (hal : prologue w.env ruleId p a = .ok alg) (hal' : prologue w'.env ruleId p' a' = .ok alg')
include hw hw' hp hp' N h h' hk hal hal'

/-- **C120** `resolute=True`: new voters who approve only a candidate `c` who is not elected with them change nothing. -/
theorem C120_loser (hr : ResoluteSupporterRule w w' p p' a.k alg alg' ruleId) :
    LoserIrrelevantOne c (compute w ruleId p a.committeesize none a.kw) (compute w' ruleId p' a'.committeesize none a'.kw) := by
  obtain ⟨q, hq, hb, M⟩ := supporters_middle N hp hp'
  have hvp := (validCall_of_prologue hal).voters
  have hvq : q.voters ≠ [] := by
    obtain ⟨l, hl, -⟩ := N.voters
    have := M.voters.length_eq
    have h1 := List.length_pos_of_ne_nil hvp
    rw [hl, List.length_append] at this
    exact List.ne_nil_of_length_pos (by omega)
  have halq := prologue_same hb.1.symm hvq hal
  have join : ResoluteBallotRule w w p q a.k alg alg ruleId → ResoluteRule w w' q p' a.k alg alg' ruleId →
      LoserIrrelevantOne c (compute w ruleId p a.committeesize none a.kw) (compute w' ruleId p' a'.committeesize none a'.kw) := by
    intro g1 g2
    obtain ⟨W, e1, e2⟩ := C118_empty_ballots hw hw hp hq h h rfl hal halq hb g1
    obtain ⟨V, V', e3, e4, e5⟩ := C117_loser hw hw' hq hp' h h' hk halq hal' M g2
    have := e2.symm.trans e3
    injection this with this
    injection this with this
    subst this
    exact ⟨_, _, e1, e4, e5⟩
  cases hr with
  | av => exact join .av .av
  | thiele h1 h2 h3 h4 h5 => exact join (.thiele h1 h1 h3 h4 h4) (.thiele h1 h2 h3 h4 h5)
  | thieleBranch h1 h2 h3 h4 h5 => exact join (.thieleBranch h1 h1 h3 h4 h4) (.thieleBranch h1 h2 h3 h4 h5)
  | lexcc h1 h2 => exact join (.lexcc h1 h1) (.lexcc h1 h2)
  | seqThiele h1 h2 h3 => exact join (.seqThiele h1 h1 h3) (.seqThiele h1 h2 h3)
  | seqphragmen h1 h2 h3 h4 => exact join (.seqphragmen h1 h3 h3) (.seqphragmen (approvers_ballots hb hp hq h1) h2 h3 h4)
  | maximinSupport h1 h2 h3 h4 h5 =>
    have hi : IntegerWeights q := fun v hv => by
      obtain ⟨u, g1, g2⟩ := weight_kept M v hv
      exact g2 ▸ h2 u g1
    exact join (.maximinSupport h1 hi h3 h4 h4) (.maximinSupport hi h2 h3 h4 h5)

/-- **C120** `resolute=True`: new voters who approve only `c` never cost `c` the seat. -/
theorem C120_monotone (hr : ResoluteSupporterRule w w' p p' a.k alg alg' ruleId ∨ ruleId = "sav" ∨
      (ruleId = "lexminimaxav" ∧ (∀ v ∈ p'.voters, v.weight = 1) ∧ alg = "brute-force" ∧ alg' = "brute-force")) :
    StillElectedOne c (compute w ruleId p a.committeesize none a.kw) (compute w' ruleId p' a'.committeesize none a'.kw) := by
  rcases hr with hr | hr
  · exact LoserIrrelevantOne.still (C120_loser hw hw' hp hp' N h h' hk hal hal' hr)
  obtain ⟨q, hq, hb, M⟩ := supporters_middle N hp hp'
  have hvp := (validCall_of_prologue hal).voters
  have hvq : q.voters ≠ [] := by
    obtain ⟨l, hl, -⟩ := N.voters
    have := M.voters.length_eq
    have h1 := List.length_pos_of_ne_nil hvp
    rw [hl, List.length_append] at this
    exact List.ne_nil_of_length_pos (by omega)
  have halq := prologue_same hb.1.symm hvq hal
  have join : ResoluteBallotRule w w p q a.k alg alg ruleId →
      (ruleId = "sav" ∨ (ruleId = "lexminimaxav" ∧ (∀ v ∈ q.voters, v.weight = 1) ∧ alg = "brute-force" ∧ alg' = "brute-force")) →
      StillElectedOne c (compute w ruleId p a.committeesize none a.kw) (compute w' ruleId p' a'.committeesize none a'.kw) := by
    intro g1 g2
    obtain ⟨W, e1, e2⟩ := C118_empty_ballots hw hw hp hq h h rfl hal halq hb g1
    obtain ⟨V, V', e3, e4, e5⟩ := C117_monotone hw hw' hq hp' h h' hk halq hal' M
      (Or.inr (g2.imp id Or.inr))
    have := e2.symm.trans e3
    injection this with this
    injection this with this
    subst this
    exact ⟨_, _, e1, e4, e5⟩
  rcases hr with rfl | ⟨rfl, hu, h1, h2⟩
  · exact join .sav (Or.inl rfl)
  · have hup : ∀ v ∈ p.voters, v.weight = 1 := by
      obtain ⟨l, hl, -⟩ := N.voters
      exact fun v hv => hu v (by rw [hl]; exact List.mem_append_left _ hv)
    have huq : ∀ v ∈ q.voters, v.weight = 1 := fun v hv => by
      obtain ⟨u, g1, g2⟩ := weight_kept M v hv
      exact g2 ▸ hu u g1
    exact join (.lexminimaxav hup huq h1 h1) (Or.inr ⟨rfl, huq, h1, h2⟩)

end

/-! ### The hypotheses can be met -/

/-- A new voter approves only candidate 2, who still has the fewest approvals. -/
example (w : World) (hw : w.env = exampleEnv) (p p' : Profile) (e : p = ⟨3, [⟨[0, 1], 1⟩, ⟨[0], 1⟩, ⟨[1], 1⟩], []⟩)
    (e' : p' = ⟨3, [⟨[0, 1], 1⟩, ⟨[0], 1⟩, ⟨[1], 1⟩, ⟨[2], 1⟩], []⟩) :
    p.WF ∧ p'.WF ∧ NewSupporters 2 p p' ∧ ResoluteSupporterRule w w p p' 2 "standard-fractions" "standard-fractions" "seqphragmen" ∧
    prologue w.env "seqphragmen" p { committeesize := 2, resolute := true } = .ok "standard-fractions" ∧
    prologue w.env "seqphragmen" p' { committeesize := 2, resolute := true } = .ok "standard-fractions" ∧
    compute bothWorld "seqphragmen" p' 2 none {} = .ok [[0, 1]] := by
  subst e e'
  refine ⟨⟨by decide +kernel, by decide +kernel, by decide +kernel, by decide +kernel⟩,
    ⟨by decide +kernel, by decide +kernel, by decide +kernel, by decide +kernel⟩, ⟨rfl, [⟨[2], 1⟩], rfl, by decide +kernel⟩, ?_, ?_, ?_, ?_⟩
  · refine .seqphragmen (approversAtLeastOne_of_weights ?_) (approversAtLeastOne_of_weights ?_) (Or.inl rfl) (Or.inl rfl)
    all_goals decide +kernel
  · rw [hw]; decide +kernel
  · rw [hw]; decide +kernel
  · decide +kernel

end Abc
