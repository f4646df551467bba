import Verif.Lemmas.RenamingShares
import Verif.Props.Dispatch
import Verif.Props.Anonymity

/-!
# C78, C79: the names of candidates, the order of voters and the unit of weights do not matter
-/

namespace Abc
open Spec

variable {s : ℚ} {p p' : Profile}

theorem rename_iff {F : Profile → Finset ℕ → Prop} (h : ∀ {s : ℚ} {p p' : Profile} (R : Renaming s p p') {A}, F p A → F p' (R.set A))
    (R : Renaming s p p') (A : Finset ℕ) : F p' (R.set A) ↔ F p A := by
  refine ⟨fun hA => ?_, h R⟩
  have := h R.symm hA
  rwa [R.set_symm_set] at this

theorem prologue_rename (R : Renaming s p p') (env : Env) (rid : String) (a : Args) : prologue env rid p' a = prologue env rid p a := by
  unfold prologue verifyComputeParameters
  rw [R.numCand, voters_length_rename R]

theorem weight_one_rename (R : Renaming 1 p p') {P : ℚ → Prop} (h : ∀ v ∈ p.voters, P v.weight) : ∀ v ∈ p'.voters, P v.weight := by
  refine R.forall_mem_voters.2 fun i => ?_
  rw [R.weight, one_mul]
  exact h _ (List.get_mem _ _)

theorem approversAtLeastOne_rename (R : Renaming 1 p p') (h : ApproversAtLeastOne p) : ApproversAtLeastOne p' := by
  refine R.forall_cand.2 fun c hc => ?_
  rw [R.backers, R.wt, one_mul]
  exact h c ((backers_nonempty R c).1 hc)

/-- What the rules require of the weights (see `Elects`) is satisfied by `p'` if it is satisfied by `p`. -/
structure SameRequirements (p p' : Profile) : Prop where
  integer : IntegerWeights p → IntegerWeights p'
  granular : Granular p → Granular p'
  one : ApproversAtLeastOne p → ApproversAtLeastOne p'

/-- The rules that are defined for unit weights only, or computed with an absolute tolerance. -/
def notHomogeneous : List String :=
  ["monroe", "greedy-monroe", "lexminimaxav", "rsd", "minimaxphragmen", "leximaxphragmen", "maximin-support"]

/-- The winning committees of the profile with renamed candidates, reordered voters and rescaled weights are the renamed winning
committees. -/
theorem elects_rename {w w' : World} (he : w'.env = w.env) (R : Renaming s p p') {k : ℕ} {alg r : String} {S : Finset ℕ → Prop}
    (hS : Elects w p k alg r S) (hreq : SameRequirements p p') (hs : s = 1 ∨ r ∉ notHomogeneous)
    (hgm : r = "greedy-monroe" → StrictMono R.voter)
    (hfix : r ∈ ["rsd", "equal-shares-with-increment-completion"] → R.cand = Equiv.refl ℕ) :
    ∃ S', Elects w' p' k alg r S' ∧ ∀ A, S' (R.set A) ↔ S A := by
  have ex : ExactAlg w.env alg → ExactAlg w'.env alg := by rw [he]; exact id
  have hs1 : r ∈ notHomogeneous → s = 1 := fun h => hs.resolve_right fun h' => h' h
  have hap : (approvedSet p').card = (approvedSet p).card := by rw [approvedSet_rename R, R.card_set]
  cases hS with
  | av => exact ⟨_, .av, rename_iff (F := fun p => SepOpt .av p k) (fun R _ h => h.rename R) R⟩
  | sav => exact ⟨_, .sav, rename_iff (F := fun p => SepOpt .sav p k) (fun R _ h => h.rename R) R⟩
  | @thiele _ sc h1 h2 h3 =>
    exact ⟨_, .thiele (by rw [he]; exact h1) h2 (fun h => hreq.integer (h3 h)),
      rename_iff (F := fun p => ThieleOpt (marginalFct sc) p k) (fun R _ h => h.rename R) R⟩
  | lexcc h => exact ⟨_, .lexcc (fun e => hreq.granular (h e)), rename_iff (F := fun p => LexccOpt p k) (fun R _ h => h.rename R) R⟩
  | @seqThiele _ sc h1 h2 =>
    exact ⟨_, .seqThiele (by rw [he]; exact h1) h2,
      rename_iff (F := fun p => SeqThieleWinner (marginalFct sc) p k) (fun R _ h => h.rename R) R⟩
  | @revseqThiele _ sc h1 =>
    exact ⟨_, .revseqThiele (by rw [he]; exact h1),
      rename_iff (F := fun p A => RevRun (marginalFct sc) p A ∧ A.card = k) (fun R _ h => ⟨h.1.rename R, by rw [R.card_set, h.2]⟩) R⟩
  | seqphragmen h1 h2 =>
    exact ⟨_, .seqphragmen (hreq.one h1) (ex h2),
      rename_iff (F := fun p => RunWinner (PhragBest p) (phragUpd p) (fun _ => 0) k) (fun R _ h => seqphragmen_rename R h) R⟩
  | minimaxphragmen h1 h2 h3 =>
    obtain rfl := hs1 (by decide)
    exact ⟨_, .minimaxphragmen (hreq.integer h1) (by rw [R.total, one_mul]; exact h2) (by rw [hap]; exact h3),
      rename_iff (F := fun p => MinimaxPhragmenOpt 0 p k) (fun R _ h => h.rename R (.inr rfl)) R⟩
  | minimaxphragmenTol h1 h2 =>
    obtain rfl := hs1 (by decide)
    refine ⟨_, .minimaxphragmenTol (weight_one_rename R h1) (by rw [hap]; exact h2), fun A => ⟨fun h => ?_, fun h => h.rename R (.inl rfl)⟩⟩
    have := h.rename R.symm (.inl inv_one)
    rwa [R.set_symm_set] at this
  | leximaxphragmen h1 h2 =>
    obtain rfl := hs1 (by decide)
    refine ⟨_, .leximaxphragmen (weight_one_rename R h1) (by rw [hap]; exact h2), fun A => ⟨fun h => ?_, fun h => h.rename R⟩⟩
    have key : ∀ {t : ℚ} (_ : t = 1) (Q : Renaming t p' p) {B : Finset ℕ}, LevelWinner (1 / 10 ^ 8) (1 / 10 ^ 7) (1 / 10 ^ 7) p' k B →
        LevelWinner (1 / 10 ^ 8) (1 / 10 ^ 7) (1 / 10 ^ 7) p k (Q.set B) := by
      rintro t rfl Q B h
      exact h.rename Q
    have := key inv_one R.symm h
    rwa [R.set_symm_set] at this
  | maximinSupport h1 h2 =>
    obtain rfl := hs1 (by decide)
    exact ⟨_, .maximinSupport (hreq.integer h1) h2,
      rename_iff (F := fun p => MaximinWinner 0 p k) (fun R _ h => h.rename R (.inr rfl)) R⟩
  | maximinSupportTol =>
    obtain rfl := hs1 (by decide)
    refine ⟨_, .maximinSupportTol, fun A => ⟨fun h => ?_, fun h => h.rename R (.inl rfl)⟩⟩
    have := h.rename R.symm (.inl inv_one)
    rwa [R.set_symm_set] at this
  | monroe h1 =>
    obtain rfl := hs1 (by decide)
    exact ⟨_, .monroe (weight_one_rename R (P := (· = 1)) h1), rename_iff (F := fun p => MonroeOpt p k) (fun R _ h => h.rename R) R⟩
  | greedyMonroe h1 =>
    obtain rfl := hs1 (by decide)
    have hm := hgm rfl
    refine ⟨_, .greedyMonroe (weight_one_rename R (P := (· = 1)) h1), fun A => ⟨fun h => ?_, fun h => greedyMonroe_rename R hm h⟩⟩
    have hm' : StrictMono R.symm.voter := fun i j hij => by
      change R.voter.symm i < R.voter.symm j
      rwa [← hm.lt_iff_lt, Equiv.apply_symm_apply, Equiv.apply_symm_apply]
    have := greedyMonroe_rename R.symm hm' h
    rwa [R.set_symm_set] at this
  | minimaxav => exact ⟨_, .minimaxav, rename_iff (F := fun p => MinimaxavOpt p k) (fun R _ h => h.rename R) R⟩
  | lexminimaxav h1 =>
    obtain rfl := hs1 (by decide)
    exact ⟨_, .lexminimaxav (weight_one_rename R (P := (· = 1)) h1), rename_iff (F := fun p => LexminimaxavOpt p k) (fun R _ h => h.rename R) R⟩
  | equalShares h1 h2 h3 =>
    exact ⟨_, .equalShares h1 (hreq.one h2) (ex h3),
      rename_iff (F := fun p => MESWinner p k .seqphragmen (k / total p)) (fun R _ h => h.rename R) R⟩
  | equalSharesAv h1 =>
    exact ⟨_, .equalSharesAv (ex h1), rename_iff (F := fun p => MESWinner p k .av (k / total p)) (fun R _ h => h.rename R) R⟩
  | equalSharesIncrement h1 h2 =>
    have hm := hfix (by decide)
    refine ⟨_, .equalSharesIncrement (hreq.one h1) (ex h2), fun A => ⟨fun h => ?_, fun h => h.rename R hm⟩⟩
    have := h.rename R.symm (by change R.cand.symm = _; rw [hm]; rfl)
    rwa [R.set_symm_set] at this
  | equalSharesNone h1 h2 =>
    exact ⟨_, .equalSharesNone h1 (ex h2), rename_iff (F := fun p => MESWinner p k .none (k / total p)) (fun R _ h => h.rename R) R⟩
  | enestroem h1 => exact ⟨_, .enestroem (ex h1), rename_iff (F := fun p => EnestroemWinner p k) (fun R _ h => h.rename R) R⟩
  | consensus h1 => exact ⟨_, .consensus (ex h1), rename_iff (F := fun p => ConsensusWinner p k) (fun R _ h => h.rename R) R⟩
  | trivial => exact ⟨_, .trivial, fun A => R.isCommittee⟩
  | rsd h1 =>
    obtain rfl := hs1 (by decide)
    have hm := hfix (by decide)
    refine ⟨_, .rsd (weight_one_rename R (P := (· = 1)) h1), fun A => ⟨fun h => ?_, fun h => h.rename R hm⟩⟩
    have := h.rename R.symm (by change R.cand.symm = _; rw [hm]; rfl)
    rwa [R.set_symm_set] at this
  | eph h1 h2 =>
    refine ⟨_, .eph (by rw [R.numCand]; exact h1) (ex h2),
      rename_iff (F := fun p => EPHWinner p k (Finset.range p.numCand)) (fun R _ h => by rw [← R.set_range]; exact h.rename R) R⟩

theorem sameRequirements_of_rename (R : Renaming 1 p p') : SameRequirements p p' where
  integer := weight_one_rename R (P := fun x => ∃ n : ℕ, x = n)
  granular := by
    rintro ⟨D, h1, h2, h3⟩
    exact ⟨D, h1, h2, weight_one_rename R (P := fun x => ∃ z : ℤ, x * D = z) h3⟩
  one := approversAtLeastOne_rename R

/-- Transporting an answer along an equivalence of the winning committees. -/
theorem answers_congr {a : Args} {r : Except Err (List (List ℕ))} {S T : Finset ℕ → Prop} (h : ∀ A, S A ↔ T A) (hr : Answers a r S) :
    Answers a r T := by
  have : S = T := funext fun A => propext (h A)
  rwa [← this]

/-- **C78** Neutrality and anonymity: if the voters are reordered and the candidates are renamed, the answer of `compute` is an answer
for the renamed winning committees, for every rule and all arguments — also in another world `w'` (other solvers, other iteration
orders).  Greedy Monroe depends on the order of the voters; Random Serial Dictator and Equal Shares with increment completion prefer
candidates with small indices. -/
theorem C78_rename {w w' : World} (hw' : w'.Exact) (he : w'.env = w.env) (hp' : p'.WF) (R : Renaming 1 p p')
    (a : Args) {ruleId alg : String} (hal : prologue w.env ruleId p a = .ok alg) {S : Finset ℕ → Prop}
    (hS : Elects w p a.k alg ruleId S) (hgm : ruleId = "greedy-monroe" → StrictMono R.voter)
    (hfix : ruleId ∈ ["rsd", "equal-shares-with-increment-completion"] → R.cand = Equiv.refl ℕ) :
    Answers a (compute w' ruleId p' a.committeesize none a.kw) (fun B => ∃ A, S A ∧ R.set A = B) := by
  obtain ⟨S', h1, h2⟩ := elects_rename he R hS (sameRequirements_of_rename R) (.inl rfl) hgm hfix
  refine answers_congr (fun B => ?_) (C31_compute w' hw' p' hp' a ruleId alg (by rw [he, prologue_rename R]; exact hal) h1)
  obtain ⟨A, rfl⟩ := R.set_surj B
  rw [h2]
  exact ⟨fun h => ⟨A, h, rfl⟩, fun ⟨A', h, e⟩ => by rwa [Finset.map_injective R.cand.toEmbedding e] at h⟩

/-- **C78** In particular an irresolute call returns exactly the renamed committees. -/
theorem C78_irresolute {w w' : World} (hw : w.Exact) (hw' : w'.Exact) (he : w'.env = w.env) (hp : p.WF) (hp' : p'.WF)
    (R : Renaming 1 p p') (a : Args) (hres : a.resolute = false) (hmax : a.max = none) {ruleId alg : String}
    (hal : prologue w.env ruleId p a = .ok alg) {S : Finset ℕ → Prop} (hS : Elects w p a.k alg ruleId S)
    (hgm : ruleId = "greedy-monroe" → StrictMono R.voter)
    (hfix : ruleId ∈ ["rsd", "equal-shares-with-increment-completion"] → R.cand = Equiv.refl ℕ) :
    ∃ cs cs', compute w ruleId p a.committeesize none a.kw = .ok cs ∧ compute w' ruleId p' a.committeesize none a.kw = .ok cs' ∧
      Canonical cs ∧ Canonical cs' ∧ ∀ A, (∃ W ∈ cs', W.toFinset = R.set A) ↔ ∃ W ∈ cs, W.toFinset = A := by
  have h1 := C31_compute w hw p hp a ruleId alg hal hS
  have h2 := C78_rename hw' he hp' R a hal hS hgm hfix
  unfold Answers at h1 h2
  rw [hres, hmax] at h1 h2
  obtain ⟨cs, e, hc, h⟩ := h1
  obtain ⟨cs', e', hc', h'⟩ := h2
  refine ⟨cs, cs', e, e', hc, hc', fun A => ?_⟩
  rw [h, h']
  exact ⟨fun ⟨A', h, e⟩ => by rwa [Finset.map_injective R.cand.toEmbedding e] at h, fun h => ⟨A, h, rfl⟩⟩

/-- Reordered voters. -/
theorem renaming_of_perm (hn : p'.numCand = p.numCand) (h : p.voters.Perm p'.voters) :
    ∃ R : Renaming 1 p p', R.cand = Equiv.refl ℕ := by
  obtain ⟨σ, hσ⟩ := perm_equiv h
  refine ⟨⟨σ, Equiv.refl ℕ, one_pos, hn, fun c => Iff.rfl, fun i c => ?_, fun i => ?_⟩, rfl⟩
  · unfold appr
    rw [hσ]
    rfl
  · rw [hσ, one_mul]

/-- **C78** Anonymity: an irresolute call returns exactly the same list if the voters are reordered — for every rule except Greedy
Monroe (which has no irresolute version anyway), for every algorithm, also with other solvers and iteration orders. -/
theorem C78_anonymity {w w' : World} (hw : w.Exact) (hw' : w'.Exact) (he : w'.env = w.env) (hp : p.WF) (hp' : p'.WF)
    (hn : p'.numCand = p.numCand) (h : p.voters.Perm p'.voters) (a : Args) (hres : a.resolute = false) (hmax : a.max = none)
    {ruleId alg : String} (hal : prologue w.env ruleId p a = .ok alg) {S : Finset ℕ → Prop} (hS : Elects w p a.k alg ruleId S)
    (hgm : ruleId ≠ "greedy-monroe") :
    compute w' ruleId p' a.committeesize none a.kw = compute w ruleId p a.committeesize none a.kw := by
  obtain ⟨R, hR⟩ := renaming_of_perm hn h
  obtain ⟨cs, cs', e, e', hc, hc', h1⟩ := C78_irresolute hw hw' he hp hp' R a hres hmax hal hS (fun h => absurd h hgm) (fun _ => hR)
  rw [e, e', canonical_ext hc' hc fun A => by rw [← h1 A, cand_one hR]]

/-! ## C79: homogeneity -/

/-- The same profile with all weights multiplied by `s`. -/
def Profile.scale (s : ℚ) (p : Profile) : Profile := { p with voters := p.voters.map (fun v => { v with weight := s * v.weight }) }

theorem wf_scale (hs : 0 < s) (hp : p.WF) : (p.scale s).WF where
  pos := hp.pos
  nodup := by
    intro v hv
    obtain ⟨u, hu, rfl⟩ := List.mem_map.1 hv
    exact hp.nodup u hu
  lt := by
    intro v hv
    obtain ⟨u, hu, rfl⟩ := List.mem_map.1 hv
    exact hp.lt u hu
  weight := by
    intro v hv
    obtain ⟨u, hu, rfl⟩ := List.mem_map.1 hv
    exact mul_pos hs (hp.weight u hu)

theorem renaming_scale (hs : 0 < s) (p : Profile) : ∃ R : Renaming s p (p.scale s), R.cand = Equiv.refl ℕ := by
  have hl : p.voters.length = (p.scale s).voters.length := by simp [Profile.scale]
  have hv : ∀ i : Fin p.voters.length, (p.scale s).voters.get (finCongr hl i) = { p.voters.get i with weight := s * (p.voters.get i).weight } := by
    intro i
    simp only [Profile.scale, List.get_eq_getElem, List.getElem_map]
    rfl
  refine ⟨⟨finCongr hl, Equiv.refl ℕ, hs, rfl, fun c => Iff.rfl, fun i c => ?_, fun i => ?_⟩, rfl⟩
  · unfold appr
    rw [hv]
    rfl
  · rw [hv]

/-- **C79** Homogeneity: if all weights are multiplied by `s`, the answer of `compute` is an answer for the same winning committees
(provided the weights still meet the requirements of the rule; not for rules that require unit weights or that are computed with an
absolute tolerance). -/
theorem C79_scale {w w' : World} (hw' : w'.Exact) (he : w'.env = w.env) (hp : p.WF) (hs : 0 < s) (a : Args) {ruleId alg : String}
    (hal : prologue w.env ruleId p a = .ok alg) {S : Finset ℕ → Prop} (hS : Elects w p a.k alg ruleId S)
    (hr : ruleId ∉ notHomogeneous) (hreq : SameRequirements p (p.scale s)) :
    Answers a (compute w' ruleId (p.scale s) a.committeesize none a.kw) S := by
  obtain ⟨R, hR⟩ := renaming_scale hs p
  obtain ⟨S', h1, h2⟩ := elects_rename he R hS hreq (.inr hr) (fun h => absurd (by rw [h]; decide) hr) (fun _ => hR)
  refine answers_congr (fun B => ?_) (C31_compute w' hw' _ (wf_scale hs hp) a ruleId alg (by rw [he, prologue_rename R]; exact hal) h1)
  rw [← h2, cand_one hR]

theorem sameRequirements_nat {n : ℕ} (hn : 0 < n) (p : Profile) : SameRequirements p (p.scale n) where
  integer h := by
    intro v hv
    obtain ⟨u, hu, rfl⟩ := List.mem_map.1 hv
    obtain ⟨m, hm⟩ := h u hu
    exact ⟨n * m, by simp [hm]⟩
  granular := by
    rintro ⟨D, h1, h2, h3⟩
    refine ⟨D, h1, h2, fun v hv => ?_⟩
    obtain ⟨u, hu, rfl⟩ := List.mem_map.1 hv
    obtain ⟨z, hz⟩ := h3 u hu
    refine ⟨n * z, ?_⟩
    change (n : ℚ) * u.weight * D = _
    rw [mul_assoc, hz]
    push_cast
    rfl
  one h := by
    have hn' : (1 : ℚ) ≤ n := by exact_mod_cast hn
    obtain ⟨R, -⟩ := renaming_scale (s := (n : ℚ)) (by exact_mod_cast hn) p
    refine R.forall_cand.2 fun c hc => ?_
    rw [R.backers, R.wt]
    have := h c ((backers_nonempty R c).1 hc)
    nlinarith

/-- **C79** Multiplying all weights by a positive integer changes no irresolute result. -/
theorem C79_irresolute {w w' : World} (hw : w.Exact) (hw' : w'.Exact) (he : w'.env = w.env) (hp : p.WF) {n : ℕ} (hn : 0 < n)
    (a : Args) (hres : a.resolute = false) (hmax : a.max = none) {ruleId alg : String}
    (hal : prologue w.env ruleId p a = .ok alg) {S : Finset ℕ → Prop} (hS : Elects w p a.k alg ruleId S)
    (hr : ruleId ∉ notHomogeneous) :
    compute w' ruleId (p.scale n) a.committeesize none a.kw = compute w ruleId p a.committeesize none a.kw := by
  have h1 := C31_compute w hw p hp a ruleId alg hal hS
  have h2 := C79_scale hw' he hp (s := (n : ℚ)) (by exact_mod_cast hn) a hal hS hr (sameRequirements_nat hn p)
  unfold Answers at h1 h2
  rw [hres, hmax] at h1 h2
  obtain ⟨cs, e, hc, h⟩ := h1
  obtain ⟨cs', e', hc', h'⟩ := h2
  rw [e, e', canonical_ext hc' hc fun A => by rw [h, h']]

/-- **C79** for the rules computed with tolerances: integer weights (and, for minimax-Phragmén, total weight at most 3162 also after
the multiplication). -/
theorem C79_tolerance_rules {w w' : World} (hw : w.Exact) (hw' : w'.Exact) (he : w'.env = w.env) (hp : p.WF) {n : ℕ} (hn : 0 < n)
    (hint : IntegerWeights p) (a : Args) (hres : a.resolute = false) (hmax : a.max = none) {ruleId alg : String}
    (hal : prologue w.env ruleId p a = .ok alg)
    (hr : (ruleId = "minimaxphragmen" ∧ n * total p ≤ 3162 ∧ a.k ≤ (approvedSet p).card) ∨ (ruleId = "maximin-support" ∧ a.k ≤ 3162)) :
    compute w' ruleId (p.scale n) a.committeesize none a.kw = compute w ruleId p a.committeesize none a.kw := by
  obtain ⟨R, hR⟩ := renaming_scale (s := (n : ℚ)) (by exact_mod_cast hn) p
  have hint' := (sameRequirements_nat hn p).integer hint
  have hp' := wf_scale (s := (n : ℚ)) (by exact_mod_cast hn) hp
  have key : ∀ S S' : Finset ℕ → Prop, Elects w p a.k alg ruleId S → Elects w' (p.scale n) a.k alg ruleId S' → (∀ A, S' (R.set A) ↔ S A) →
      compute w' ruleId (p.scale n) a.committeesize none a.kw = compute w ruleId p a.committeesize none a.kw := by
    intro S S' hS hS' hiff
    have h1 := C31_compute w hw p hp a ruleId alg hal hS
    have h2 := C31_compute w' hw' _ hp' a ruleId alg (by rw [he, prologue_rename R]; exact hal) hS'
    unfold Answers at h1 h2
    rw [hres, hmax] at h1 h2
    obtain ⟨cs, e, hc, h⟩ := h1
    obtain ⟨cs', e', hc', h'⟩ := h2
    rw [e, e', canonical_ext hc' hc fun A => by rw [h, h', ← hiff, cand_one hR]]
  rcases hr with ⟨rfl, h1, h2⟩ | ⟨rfl, h1⟩
  · have ht : 0 ≤ total p := Finset.sum_nonneg fun i _ => (hp.weight _ (List.get_mem _ i)).le
    have hn' : (1 : ℚ) ≤ n := by exact_mod_cast hn
    exact key _ _ (.minimaxphragmen hint (by nlinarith) h2)
      (.minimaxphragmen hint' (by rw [R.total]; exact h1) (by rw [approvedSet_rename R, R.card_set]; exact h2))
      (rename_iff (F := fun p => MinimaxPhragmenOpt 0 p a.k) (fun R _ h => h.rename R (.inr rfl)) R)
  · exact key _ _ (.maximinSupport hint h1) (.maximinSupport hint' h1)
      (rename_iff (F := fun p => MaximinWinner 0 p a.k) (fun R _ h => h.rename R (.inr rfl)) R)

end Abc
