import Verif.Spec.Symmetry
import Verif.Props.NeutralityCheck
import Verif.Props.ResoluteElectorate
import Verif.Props.Dominance

/-!
# C132: symmetries; candidates with the same supporters
-/

namespace Abc

open Spec

variable {p : Profile} {c d : ℕ}

/-- Exchanging two candidates with the same supporters is a symmetry. -/
def Spec.Clones.symmetry (h : Clones p c d) (hc : c < p.numCand) (hd : d < p.numCand) : Symmetry p where
  voter := Equiv.refl _
  cand := Equiv.swap c d
  pos := one_pos
  numCand := rfl
  lt x := by
    by_cases h1 : x = c
    · subst h1; simp [hc, hd]
    · by_cases h2 : x = d
      · subst h2; simp [hc, hd]
      · rw [Equiv.swap_apply_of_ne_of_ne h1 h2]
  approves i x := by
    have hcd := h _ (List.get_mem p.voters i)
    change Equiv.swap c d x ∈ (p.voters.get i).A ↔ x ∈ (p.voters.get i).A
    by_cases h1 : x = c
    · subst h1; rw [Equiv.swap_apply_left]; exact hcd.symm
    · by_cases h2 : x = d
      · subst h2; rw [Equiv.swap_apply_right]; exact hcd
      · rw [Equiv.swap_apply_of_ne_of_ne h1 h2]
  weight _ := (one_mul _).symm

theorem Spec.ClosedUnderSymmetries.clones {cs : List (List ℕ)} (hcs : ∀ W ∈ cs, ∀ x ∈ W, x < p.numCand)
    (h : ClosedUnderSymmetries p cs) : ClonesExchangeable p cs := by
  intro W hW c d hc hcl hd hcW
  obtain ⟨V, hV, hx⟩ := h (hcl.symmetry hc (hcs W hW d hd)) W hW
  refine ⟨V, hV, fun x => ?_⟩
  have hcd : c ≠ d := fun e => hcW (e ▸ hd)
  have e : ∀ x, Equiv.swap c d x ∈ V ↔ x ∈ W := hx
  by_cases h1 : x = c
  · subst h1
    have := e d
    rw [Equiv.swap_apply_right] at this
    simp [this, hd]
  · by_cases h2 : x = d
    · subst h2
      have := e c
      rw [Equiv.swap_apply_left] at this
      simp [this, hcW, hcd.symm]
    · have := e x
      rw [Equiv.swap_apply_of_ne_of_ne h1 h2] at this
      simp [this, h1, h2]

/-- **C132** Symmetries: with a committee also all its images under symmetries of the profile win; in particular a member of a winning
committee can be replaced by a candidate with the same supporters.  For every rule and algorithm, except the rules that always prefer
candidates with small index. -/
theorem C132_symmetry {w : World} (hw : w.Exact) (hp : p.WF) (a : Args) (hres : a.resolute = false) (hmax : a.max = none)
    {ruleId alg : String} (hal : prologue w.env ruleId p a = .ok alg) {S : Finset ℕ → Prop} (hS : Elects w p a.k alg ruleId S)
    (hr : ruleId ∉ ["greedy-monroe", "rsd", "equal-shares-with-increment-completion"]) :
    ∃ cs, compute w ruleId p a.committeesize none a.kw = .ok cs ∧ cs ≠ [] ∧ ClosedUnderSymmetries p cs ∧ ClonesExchangeable p cs := by
  obtain ⟨cs, h1, h2, -, h4, -⟩ := C31_valid w hw p hp a ruleId alg hal hS
  have hsym : ClosedUnderSymmetries p cs := by
    intro R W hW
    obtain ⟨cs₁, cs₂, e1, e2, -, -, h⟩ := C78_irresolute hw hw rfl hp hp R a hres hmax hal hS
      (fun e => absurd (e ▸ List.mem_cons_self) hr) (fun e => absurd (by
        simp only [List.mem_cons, List.not_mem_nil, or_false] at e ⊢
        exact Or.inr e) hr)
    rw [h1] at e1 e2
    obtain rfl := Except.ok.inj e1
    obtain rfl := Except.ok.inj e2
    obtain ⟨V, hV, e⟩ := (h W.toFinset).2 ⟨W, hW, rfl⟩
    exact ⟨V, hV, fun x => by rw [← List.mem_toFinset, e, R.mem_set, List.mem_toFinset]⟩
  exact ⟨cs, h1, h2, hsym, hsym.clones fun W hW => (h4 W hW).1⟩

/-- **C132** `check` does not distinguish committees that are symmetric to each other, e.g. those that arise by exchanging candidates
with the same supporters. -/
theorem C132_check {solve : Program → SolveResult} {solveMax : MaxProgram → SolveResult} (hs : ExactSolver solve)
    (hm : ExactMaxSolver solveMax) (ap : List ℕ) (hp : p.WF) (R : Symmetry p) (hv : p.voters ≠ []) {W V : List ℕ} (hne : W ≠ [])
    (hW : W.Nodup) (hlt : ∀ c ∈ W, c < p.numCand) (hV : V.Nodup) (hWV : ∀ x, R.cand x ∈ V ↔ x ∈ W) {algorithm : String}
    (ha : algorithm = "fastest" ∨ algorithm = "gurobi") {name : String} (hn : name ∈ propertyNames) :
    check solve solveMax ap name p (V.map Int.ofNat) none algorithm = check solve solveMax ap name p (W.map Int.ofNat) none algorithm := by
  refine C80_check hs hs hm hm ap ap hp hp R hv hne hW hlt hV ?_ ha hn
  refine Finset.ext fun y => ?_
  obtain ⟨x, rfl⟩ := R.cand.surjective y
  rw [List.mem_toFinset, hWV, R.mem_set, List.mem_toFinset]

/-! ### `resolute=True` -/

theorem Spec.Clones.symm (h : Clones p c d) : Clones p d c := fun v hv => (h v hv).symm

theorem Spec.Clones.asApproved (h : Clones p c d) : AsApproved p c d := fun v hv => (h v hv).2

theorem Spec.Clones.backers (h : Clones p c d) : backers p c = backers p d := by
  unfold Spec.backers
  exact Finset.filter_congr fun i _ => h _ (List.get_mem p.voters i)

/-- Runs with smallest-index tie-breaking elect clones in ascending order if clones are equally good. -/
theorem firstClones_run {σ : Type} {Best : List ℕ → σ → ℕ → Prop} {upd : List ℕ → σ → ℕ → σ} {W₀ : List ℕ} {s₀ : σ}
    (hB : ∀ W s c d, Clones p c d → c < d → c ∉ W → Best W s d → Best W s c) (h0 : FirstClones p W₀) {W : List ℕ} {s : σ}
    (h : RunFirst Best upd W₀ s₀ W s) : FirstClones p W := by
  induction h with
  | start => exact h0
  | @step W s e _ he hfst ih =>
    intro c d hcd hcl hd
    rcases List.mem_append.1 hd with hd | hd
    · exact List.mem_append_left _ (ih c d hcd hcl hd)
    · obtain rfl := List.mem_singleton.1 hd
      by_contra hc
      exact hfst c hcd (hB W s c d hcl hcd (fun g => hc (List.mem_append_left _ g)) he)

theorem firstClones_nil : FirstClones p [] := fun _ _ _ _ h => absurd h List.not_mem_nil

theorem Spec.FirstClones.congr {W V : List ℕ} (h : FirstClones p W) (hV : V.toFinset = W.toFinset) : FirstClones p V := by
  have e : ∀ x, x ∈ V ↔ x ∈ W := fun x => by rw [← List.mem_toFinset, hV, List.mem_toFinset]
  exact fun c d hcd hcl hd => (e c).2 (h c d hcd hcl ((e d).1 hd))

theorem Spec.FirstClones.sort {W : List ℕ} (h : FirstClones p W) : FirstClones p (sortNat W) := h.congr (sortNat_toFinset W)

/-- The lexicographically first set of a family that is closed under exchanging clones. -/
theorem firstClones_least {S : Finset ℕ → Prop} (hS : ∀ A, S A → ∀ c d, c < d → Clones p c d → d ∈ A → c ∉ A → S (replaced A c d))
    {W : List ℕ} (h : LeastOf (· ≤ ·) S W) : FirstClones p W := by
  obtain ⟨h1, h2, h3⟩ := h
  intro c d hcd hcl hd
  by_contra hc
  have hd' := List.mem_toFinset.2 hd
  have hc' : c ∉ W.toFinset := fun g => hc (List.mem_toFinset.1 g)
  have hsw := hS _ h2 c d hcd hcl hd' hc'
  set V := sortNat (replaced W.toFinset c d).toList with hV
  have hVasc : V.Pairwise (· < ·) := sortNat_lt (Finset.nodup_toList _)
  have hVB : V.toFinset = replaced W.toFinset c d := by simp [hV, sortNat_toFinset]
  have hmem : ∀ x, x ∈ V ↔ x = c ∨ x ∈ W ∧ x ≠ d := fun x => by rw [← List.mem_toFinset, hVB, mem_replaced, List.mem_toFinset]
  have hlen : V.length = W.length := by
    rw [← List.toFinset_card_of_nodup (nodup_of_lt hVasc), ← List.toFinset_card_of_nodup (nodup_of_lt h1), hVB]
    unfold replaced
    rw [Finset.card_insert_of_notMem (fun g => hc' (Finset.mem_of_mem_erase g)), Finset.card_erase_of_mem hd']
    have := Finset.card_pos.2 ⟨d, hd'⟩
    omega
  have hlt : V < W := by
    rw [lex_iff hVasc h1 hlen]
    refine ⟨c, (hmem c).2 (Or.inl rfl), hc, fun z hz => ?_⟩
    rw [hmem]
    constructor
    · rintro (rfl | h)
      · omega
      · exact h.1
    · exact fun h => Or.inr ⟨h, by omega⟩
  exact absurd (h3 V hVasc (hVB ▸ hsw)) (not_le.2 hlt)

theorem clones_phrag (W : List ℕ) (x : VoterMap p) (c d : ℕ) (h : Clones p c d) (hcd : c < d) (hc : c ∉ W) (hd : PhragBest p W x d) :
    PhragBest p W x c := by
  obtain ⟨h1, -, h3⟩ := hd
  unfold PhragBest newLoad at *
  rw [h.backers]
  exact ⟨hcd.trans h1, hc, h3⟩

theorem clones_support (W : List ℕ) (x : VoterMap p) (c d : ℕ) (h : Clones p c d) (hcd : c < d) (hc : c ∉ W) (hd : SupportBest p W x d) :
    SupportBest p W x c := by
  obtain ⟨h1, -, h3⟩ := hd
  refine ⟨hcd.trans h1, hc, fun e he heW => ?_⟩
  have := h3 e he heW
  unfold support at this ⊢
  rwa [h.backers]

theorem clones_mes (W : List ℕ) (x : VoterMap p) (c d : ℕ) (h : Clones p c d) (hcd : c < d) (hc : c ∉ W) (hd : MESBest p W x d) :
    MESBest p W x c := by
  obtain ⟨h1, -, q, h3, h4⟩ := hd
  refine ⟨hcd.trans h1, hc, q, ?_, h4⟩
  unfold IsPrice payments at h3 ⊢
  rwa [h.backers]

theorem clones_gm (W : List ℕ) (x : List (Group p)) (c d : ℕ) (h : Clones p c d) (hcd : c < d) (hc : c ∉ W) (hd : GMBest p W x d) :
    GMBest p W x c := by
  obtain ⟨h1, -, h3⟩ := hd
  refine ⟨hcd.trans h1, hc, fun e he heW => ?_⟩
  rw [h.backers]
  exact h3 e he heW

/-- Exchanging clones in a set of which one is a member. -/
theorem clones_set (h : Clones p c d) (hc : c < p.numCand) (hd : d < p.numCand) {A : Finset ℕ} (hcA : c ∉ A) (hdA : d ∉ A) :
    (h.symmetry hc hd).set (insert d A) = insert c A := by
  refine Finset.ext fun y => ?_
  obtain ⟨x, rfl⟩ := (h.symmetry hc hd).cand.surjective y
  rw [Renaming.mem_set]
  change x ∈ insert d A ↔ Equiv.swap c d x ∈ insert c A
  simp only [Finset.mem_insert]
  by_cases h1 : x = c
  · subst h1
    rw [Equiv.swap_apply_left]
    constructor
    · rintro (h | h)
      · exact Or.inl h.symm
      · exact absurd h hcA
    · rintro (h | h)
      · exact Or.inl h.symm
      · exact absurd h hdA
  · by_cases h2 : x = d
    · subst h2; simp
    · rw [Equiv.swap_apply_of_ne_of_ne h1 h2]; simp [h1, h2]

theorem clones_maximin (W : List ℕ) (x : Unit) (c d : ℕ) (h : Clones p c d) (hcd : c < d) (hc : c ∉ W) (hd : MaximinBest 0 p W d) :
    MaximinBest 0 p W c := by
  obtain ⟨h1, h2, h3⟩ := hd
  have hc' := hcd.trans h1
  refine ⟨hc', hc, fun e he heW t ht => ?_⟩
  have := supportAtLeast_rename (h.symmetry hc' h1) (h3 e he heW t ht)
  rw [clones_set h hc' h1 (by simpa using hc) (by simpa using h2), one_mul] at this
  exact this

theorem gain_clones (h : Clones p c d) {f : ℕ → ℚ} {A : Finset ℕ} (hc : c ∉ A) (hd : d ∉ A) : gain f p A c = gain f p A d := by
  unfold gain score
  congr 2
  refine List.map_congr_left fun v hv => ?_
  have : util v (insert c A) = util v (insert d A) := by
    unfold util
    have hcd := h v hv
    by_cases hm : c ∈ v.A
    · rw [Finset.inter_insert_of_mem hm, Finset.inter_insert_of_mem (hcd.1 hm), Finset.card_insert_of_notMem (by simp [hc]),
        Finset.card_insert_of_notMem (by simp [hd])]
    · rw [Finset.inter_insert_of_notMem hm, Finset.inter_insert_of_notMem (fun g => hm (hcd.2 g))]
  rw [this]

theorem firstClones_seqThiele {f : ℕ → ℚ} {W : List ℕ} (h : SeqRunFirst f p W) : FirstClones p W := by
  induction h with
  | nil => exact firstClones_nil
  | @snoc W e _ h1 h2 h3 h4 ih =>
    intro c d hcd hcl hd
    rcases List.mem_append.1 hd with hd | hd
    · exact List.mem_append_left _ (ih c d hcd hcl hd)
    · obtain rfl := List.mem_singleton.1 hd
      by_contra hc
      have hcW : c ∉ W := fun g => hc (List.mem_append_left _ g)
      have := h4 c hcd hcW
      rw [gain_clones hcl (by simpa using hcW) (by simpa using h2)] at this
      exact lt_irrefl _ this

/-- Equal Shares with smallest-index tie-breaking. -/
theorem firstClones_mes {k : ℕ} {cp : Completion} (hcp : cp = .none ∨ cp = .seqphragmen) {r : ℚ} {X W : List ℕ} {b : VoterMap p}
    (g : RunFirst (MESBest p) (mesUpd p) [] (budgetOf p r) W b)
    (he : (W.length = k ∧ W.toFinset = X.toFinset) ∨ (W.length < k ∧ MESDone p W b ∧ CompletedR p k true cp W b X.toFinset)) :
    FirstClones p X := by
  have hW := firstClones_run clones_mes firstClones_nil g
  rcases he with ⟨-, e⟩ | ⟨-, -, e⟩
  · exact hW.congr e.symm
  · rcases hcp with rfl | rfl
    · unfold CompletedR at e
      rw [if_neg (by simp)] at e
      have e : X.toFinset = W.toFinset := e
      exact hW.congr e
    · unfold CompletedR at e
      rw [if_pos ⟨rfl, rfl⟩] at e
      obtain ⟨V, x, v1, v2, v3⟩ := e
      exact (firstClones_run clones_phrag hW v1).congr v3.symm

/-- **C132** With `resolute=True`, of several candidates with the same supporters those with smaller index are elected first. -/
theorem C132_resolute {w : World} (hw : w.Exact) (hp : p.WF) {a : Args} (h : a.resolute = true) {ruleId alg : String}
    (hal : prologue w.env ruleId p a = .ok alg) (hr : FirstClonesRule w p a.k alg ruleId) :
    ∃ W, compute w ruleId p a.committeesize none a.kw = .ok [W] ∧ FirstClones p W := by
  have ofRun : ∀ {σ : Type} {Best : List ℕ → σ → ℕ → Prop} {upd : List ℕ → σ → ℕ → σ} {s₀ : σ} {k : ℕ} {r : Except Err (List (List ℕ))},
      (∀ W s c d, Clones p c d → c < d → c ∉ W → Best W s d → Best W s c) →
      (∃ W x, RunFirst Best upd [] s₀ W x ∧ W.length = k ∧ r = .ok [sortNat W]) → ∃ W, r = .ok [W] ∧ FirstClones p W := by
    rintro σ Best upd s₀ k r hB ⟨W, x, g1, -, g3⟩
    exact ⟨_, g3, (firstClones_run hB firstClones_nil g1).sort⟩
  cases hr with
  | av =>
    obtain ⟨W, g1, g2⟩ := least_separable hp h hal .av rfl
    exact ⟨W, g1, firstClones_least (fun A hA c d hcd hcl hd hc =>
      replace_sep hcl.asApproved (hcd.trans (Finset.mem_range.1 (hA.1.1 hd))) hd hc hp _ hA) g2⟩
  | sav =>
    obtain ⟨W, g1, g2⟩ := least_separable hp h hal .sav rfl
    exact ⟨W, g1, firstClones_least (fun A hA c d hcd hcl hd hc =>
      replace_sep hcl.asApproved (hcd.trans (Finset.mem_range.1 (hA.1.1 hd))) hd hc hp _ hA) g2⟩
  | @thiele sid s h1 h2 h3 =>
    obtain ⟨W, g1, g2⟩ := least_thiele hp h hal hw h1 h2 h3
    exact ⟨W, g1, firstClones_least (fun A hA c d hcd hcl hd hc =>
      replace_thiele hcl.asApproved (hcd.trans (Finset.mem_range.1 (hA.1.1 hd))) hd hc hp
        (marginalFct_nonneg _ fun b hb => geom_base (fun h => h) h2 hb) hA) g2⟩
  | @seqThiele sid s h1 h2 =>
    obtain ⟨ri, hi, -⟩ := (C19_prologue_ok_iff _ _ p a alg).1 hal
    obtain ⟨W, g1, -, g3⟩ := C27_seqThiele_resolute w.env sid s p hp a
      (standard_of hal ((ruleInfo_seq (Or.inl rfl) h1 hi) ▸ hi)) h1 h2 h
    rw [compute_none hal, run_seq w p _ h1]
    exact ⟨_, g3, (firstClones_seqThiele g1).sort⟩
  | seqphragmen h1 h2 =>
    rw [compute_none hal]
    exact ofRun clones_phrag (C33_seqphragmen_resolute w.env (w.float "seqphragmen" p a) p hp h1 a alg hal h2 h)
  | maximinSupport h1 h2 h3 =>
    rw [compute_none hal]
    exact ofRun clones_maximin (maximin_first w.env w.solve w.iter h3 p hp h1 a h2 alg hal (hw.solve alg) h)
  | greedyMonroe h1 h2 =>
    rw [compute_none hal]
    obtain ⟨W, Ds, C, -, -, g1, -, g2, -, -, -, g6, -⟩ := (C32_greedy_monroe w.env w.matching hw.matching w.minCost hw.minCost
      (w.iter p.candidates) p (hw.iter _) a (standard_of hal rfl)).1 (unitWeights_iff.2 h1)
    exact ⟨C, g1, (firstClones_run clones_gm firstClones_nil (g2 (h2 _))).congr g6⟩
  | enestroem h1 =>
    rw [compute_none hal]
    exact ofRun clones_support ((C40_enestroem w.env (w.float "phragmen-enestroem" p a) p hp a alg hal h1).2 h)
  | consensus h1 =>
    rw [compute_none hal]
    exact ofRun (fun W s c d => clones_support W (income p s) c d) ((C41_consensus w.env (w.float "consensus-rule" p a) p a alg hal h1).2 h)
  | equalShares h1 h2 h3 =>
    have same : prologue w.env "equal-shares" p a = .ok alg := by
      rw [← hal]
      refine (prologue_alias ?_ p a)
      simp only [List.mem_cons, List.not_mem_nil, or_false] at h1
      rcases h1 with rfl | rfl | rfl <;> rfl
    have run : w.run ruleId p a = computeEqualShares w.env (w.float ruleId p a) .seqphragmen p a := by
      simp only [List.mem_cons, List.not_mem_nil, or_false] at h1
      rcases h1 with rfl | rfl | rfl <;> rfl
    obtain ⟨X, W, b, g1, g2, g3, g4⟩ := C38_equal_shares_resolute w.env (w.float ruleId p a) p hp .seqphragmen
      (Or.inr (Or.inl ⟨rfl, h2⟩)) a _ alg rfl same h3 h
    rw [compute_none hal, run]
    exact ⟨X, g1, firstClones_mes (Or.inr rfl) g3 g4⟩
  | equalSharesNone h1 h2 =>
    have same : prologue w.env "equal-shares-without-completion" p a = .ok alg := by
      rw [← hal]
      refine (prologue_alias ?_ p a)
      simp only [List.mem_cons, List.not_mem_nil, or_false] at h1
      rcases h1 with rfl | rfl | rfl <;> rfl
    have run : w.run ruleId p a = computeEqualShares w.env (w.float ruleId p a) .none p a := by
      simp only [List.mem_cons, List.not_mem_nil, or_false] at h1
      rcases h1 with rfl | rfl | rfl <;> rfl
    obtain ⟨X, W, b, g1, g2, g3, g4⟩ := C38_equal_shares_resolute w.env (w.float ruleId p a) p hp .none
      (Or.inl rfl) a _ alg rfl same h2 h
    rw [compute_none hal, run]
    exact ⟨X, g1, firstClones_mes (Or.inl rfl) g3 g4⟩
  | equalSharesIncrement h1 h2 =>
    rw [compute_none hal]
    change ∃ W, computeEqualShares w.env (w.float "equal-shares-with-increment-completion" p a) .increment p a = .ok [W] ∧ FirstClones p W
    rcases lt_or_ge p.approvedCandidates.length a.k with hlt | hge
    · obtain ⟨ri, -, -, c1, c2, c3, -, -, -, -⟩ := (C19_prologue_ok_iff _ _ p a alg).1 hal
      have hal1 : prologue w.env "av" p { committeesize := a.committeesize, algorithm := "standard", resolute := true } = .ok "standard" :=
        (C19_prologue_ok_iff _ _ p _ _).2 ⟨_, rfl, rfl, c1, c2, c3, by decide, (by decide : true ∈ resOpt), by simp, by simp⟩
      obtain ⟨W, g1, g2⟩ := least_separable (w := w) hp rfl hal1 .av rfl
      rw [compute_none hal1] at g1
      have e : w.run "av" p { committeesize := a.committeesize, algorithm := "standard", resolute := true } =
          computeSeparable w.env .av p { committeesize := a.committeesize, algorithm := "standard", resolute := true } := rfl
      rw [e] at g1
      unfold computeSeparable at g1
      have hal1' : prologue w.env SepRule.av.id p
        { committeesize := a.committeesize, algorithm := "standard", resolute := true } = .ok "standard" := hal1
      rw [hal1'] at g1
      simp only [bind, Except.bind, if_true] at g1
      have g1 : separableAlgorithm .av p a.k true none = .ok [W] := g1
      rw [increment_eq hal hlt, g1]
      refine ⟨W, ?_, firstClones_least (fun A hA c d hcd hcl hd hc =>
        replace_sep hcl.asApproved (hcd.trans (Finset.mem_range.1 (hA.1.1 hd))) hd hc hp _ hA) g2⟩
      have hW := g2.1
      simp only [bind, Except.bind]
      rw [sortedCommittees_one (nodup_of_lt hW), sortNat_of_lt hW]
    · obtain ⟨inc, W, -, ⟨b, g1, -⟩, -, g2, -⟩ := (C39_increment w.env _ p hp h1 a alg hal h2).2 hge
      exact ⟨_, g2, (firstClones_run clones_mes firstClones_nil g1).sort⟩

/-! ### The hypotheses can be met -/

/-- Candidates 0 and 2 have the same supporters: exactly one of the two wins together with 1 (irresolute), 0 with `resolute=True`. -/
example (w : World) (hw : w.env = exampleEnv) (p : Profile) (e : p = ⟨4, [⟨[0, 1, 2], 1⟩, ⟨[2, 0], 1⟩, ⟨[1], 1⟩, ⟨[1, 3], 1⟩], []⟩) :
    Clones p 0 2 ∧ ¬ Clones p 1 3 ∧ p.WF ∧
    FirstClonesRule w p 2 "standard" "seqcc" ∧
    prologue w.env "seqcc" p { committeesize := 2, resolute := true } = .ok "standard" ∧
    prologue w.env "seqcc" p { committeesize := 2, resolute := false } = .ok "standard" ∧
    compute { bothWorld with env := exampleEnv } "seqcc" p 2 none { resolute := some true } = .ok [[0, 1]] ∧
    compute { bothWorld with env := exampleEnv } "seqcc" p 2 none { resolute := some false } = .ok [[0, 1], [1, 2]] := by
  subst e
  refine ⟨by unfold Clones Voter.A; decide, by unfold Clones Voter.A; decide, ⟨by decide, by decide, by decide, by decide⟩,
    .seqThiele (sid := "cc") (s := .cc) ?_ (marginalFct_nonneg .cc (by simp)), ?_, ?_, ?_, ?_⟩
  · rw [hw]; rfl
  · rw [hw]; decide +kernel
  · rw [hw]; decide +kernel
  · decide +kernel
  · decide +kernel

end Abc
