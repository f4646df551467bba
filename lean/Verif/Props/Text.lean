import Verif.Lemmas.Text
import Verif.Props.Preferences

/-!
# C84: printed committees and profiles
-/

namespace Abc
open Spec

/-! ## Lists of committees -/

theorem newline_not_mem_strNat (n : ℕ) : '\n' ∉ strNat n := by
  intro h
  have := Nat.isDigit_of_mem_toDigits (by omega) (by omega) h
  revert this
  decide

/-- The first line of `str_committees_with_header`. -/
def Spec.firstLine (n : ℕ) (winning : Bool) : Name :=
  strNat n ++ (if winning then " winning committee".toList else " committee".toList) ++ (if n = 1 then ":".toList else "s:".toList)

theorem firstLine_newline (n : ℕ) (winning : Bool) : '\n' ∉ firstLine n winning := by
  unfold firstLine
  rw [List.mem_append, List.mem_append]
  rintro ((h | h) | h)
  · exact newline_not_mem_strNat n h
  · cases winning <;> exact absurd h (by decide)
  · split at h <;> exact absurd h (by decide)

theorem strSets_some {names : List Name} {cs : List (List ℕ)} (h : ∀ W ∈ cs, ∀ c ∈ W, c < names.length) (hne : cs ≠ []) :
    strSetsOfCandidates cs (some names) = .ok (['\n'].intercalate (cs.map (fun W => ' ' :: setText names W) ++ [[]])) := by
  unfold strSetsOfCandidates
  rw [mapM_ok_of (g := setText names) (fun W hW => strSetOfCandidates_some (h W hW))]
  have := space_join (l := cs.map (setText names)) (by simpa using hne)
  rw [intercalate_append (by simpa using hne) (by simp), intercalate_singleton]
  rw [List.map_map] at this
  simp only [Function.comp_def] at this
  rw [← this]
  show Except.ok _ = _
  congr 1
  simp [joinText, List.intercalate]

theorem strCommittees_some {names : List Name} {cs : List (List ℕ)} (h : ∀ W ∈ cs, ∀ c ∈ W, c < names.length) (hne : cs ≠ [])
    (winning : Bool) :
    strCommitteesWithHeader cs (some names) winning =
      .ok (['\n'].intercalate (firstLine cs.length winning :: cs.map (fun W => ' ' :: setText names W) ++ [[]])) := by
  have hl : cs.length ≠ 0 := by simpa using hne
  unfold strCommitteesWithHeader
  rw [if_neg (by omega), strSets_some h hne]
  rw [List.cons_append, intercalate_cons (by simp)]
  show Except.ok _ = _
  congr 1
  unfold firstLine
  by_cases h1 : cs.length = 1
  · have h10 : strNat 1 = ['1'] := by decide
    rw [h1, h10]; cases winning <;> simp
  · rw [if_neg h1, if_neg h1]; cases winning <;> simp

/-- `str_committees_with_header` never fails on committees of existing candidates; its lines are: the number of committees, then
one line per committee, in the given order, showing this committee. -/
theorem C84_committees (names : List Name) (hn : ∀ n ∈ names, '\n' ∉ n) (cs : List (List ℕ))
    (h : ∀ W ∈ cs, ∀ c ∈ W, c < names.length) (hne : cs ≠ []) (winning : Bool) :
    ∃ t ls, strCommitteesWithHeader cs (some names) winning = .ok t ∧ lines t = firstLine cs.length winning :: ls ++ [[]] ∧
      List.Forall₂ (fun W l => ∃ u, l = ' ' :: u ∧ ShowsSet names W u) cs ls := by
  refine ⟨_, cs.map (fun W => ' ' :: setText names W), strCommittees_some h hne winning, ?_, ?_⟩
  · refine lines_intercalate (by simp) ?_
    intro l hl
    rw [List.mem_append, List.mem_cons] at hl
    rcases hl with (rfl | hl) | hl
    · exact firstLine_newline _ _
    · obtain ⟨W, hW, rfl⟩ := List.mem_map.1 hl
      rw [List.mem_cons, not_or]
      exact ⟨by decide, newline_not_mem_setText hn (h W hW)⟩
    · simp at hl; simp [hl]
  · rw [List.forall₂_map_right_iff, List.forall₂_same]
    exact fun W _ => ⟨_, rfl, setText_shows names W⟩

theorem C84_no_committees (names : Option (List Name)) :
    strCommitteesWithHeader [] names true = .ok "No winning committees".toList ∧
      strCommitteesWithHeader [] names false = .ok "No committees".toList := ⟨rfl, rfl⟩

/-- Without names the candidates are shown by their numbers. -/
theorem C84_default_names (cs : List (List ℕ)) (m : ℕ) (h : ∀ W ∈ cs, ∀ c ∈ W, c < m) (winning : Bool) :
    strCommitteesWithHeader cs none winning = strCommitteesWithHeader cs (some ((List.range m).map strNat)) winning := by
  have key : ∀ W ∈ cs, strSetOfCandidates W none = strSetOfCandidates W (some ((List.range m).map strNat)) := by
    intro W hW
    rw [strSetOfCandidates_some (by simpa using h W hW)]
    unfold strSetOfCandidates setText
    have : W.map (fun c => ((List.range m).map strNat).getD c []) = W.map strNat :=
      List.map_congr_left fun c hc => by simp [List.getD, h W hW c hc]
    rw [this]
    rfl
  unfold strCommitteesWithHeader strSetsOfCandidates
  have : cs.mapM (fun s => strSetOfCandidates s none) = cs.mapM (fun s => strSetOfCandidates s (some ((List.range m).map strNat))) := by
    clear h
    induction cs with
    | nil => rfl
    | cons W cs ih =>
      rw [List.mapM_cons, List.mapM_cons, key W (by simp), ih (fun V hV => key V (by simp [hV]))]
  rw [this]

theorem C84_default_readable (m : ℕ) : Readable ((List.range m).map strNat) where
  nodup := List.nodup_range.map strNat_injective
  nonempty := by intro n hn; obtain ⟨i, _, rfl⟩ := List.mem_map.1 hn; exact strNat_ne_nil i
  comma := by intro n hn; obtain ⟨i, _, rfl⟩ := List.mem_map.1 hn; exact comma_not_mem_strNat i
  newline := by intro n hn; obtain ⟨i, _, rfl⟩ := List.mem_map.1 hn; exact newline_not_mem_strNat i

/-- The printed list determines the committees (as sets) and their order. -/
theorem C84_committees_injective (names : List Name) (hr : Readable names) (cs ds : List (List ℕ))
    (hc : ∀ W ∈ cs, ∀ c ∈ W, c < names.length) (hd : ∀ W ∈ ds, ∀ c ∈ W, c < names.length) (w w' : Bool) (hne : cs ≠ []) (hne' : ds ≠ [])
    (h : strCommitteesWithHeader cs (some names) w = strCommitteesWithHeader ds (some names) w') :
    w = w' ∧ List.Forall₂ List.Perm cs ds := by
  obtain ⟨t, ls, h1, h2, h3⟩ := C84_committees names hr.newline cs hc hne w
  obtain ⟨t', ls', g1, g2, g3⟩ := C84_committees names hr.newline ds hd hne' w'
  have ht : t = t' := by rw [h1, g1] at h; exact Except.ok.inj h
  subst ht
  rw [h2] at g2
  simp only [List.cons_append, List.cons.injEq] at g2
  have hls : ls = ls' := List.append_cancel_right g2.2
  subst hls
  have hlen : cs.length = ds.length := h3.length_eq.trans g3.length_eq.symm
  refine ⟨?_, ?_⟩
  · have := g2.1
    rw [hlen] at this
    unfold firstLine at this
    have := List.append_cancel_left (List.append_cancel_right this)
    revert this
    cases w <;> cases w' <;> decide
  · clear h h1 g1 h2 g2 hne hne' hlen
    induction h3 generalizing ds with
    | nil => cases g3; exact .nil
    | @cons W l cs ls hW _ ih =>
      cases g3 with
      | cons hV hrest =>
        obtain ⟨u, rfl, hu⟩ := hW
        obtain ⟨u', hu', hv⟩ := hV
        obtain rfl : u = u' := (List.cons.inj hu').2
        refine .cons (ShowsSet.perm hr (hc _ (by simp)) (hd _ (by simp)) hu hv) (ih _ (fun X hX => hc X (by simp [hX])) (fun X hX => hd X (by simp [hX])) hrest)

/-- **C84** A voter is printed as the set of approved candidates: with names, …  -/
theorem C84_voter_names (names : List Name) (v : Voter) (h : ∀ c ∈ v.approved, c < names.length) :
    ∃ t, v.strWithNames (some names) = .ok t ∧ ShowsSet names v.approved t :=
  ⟨_, strSetOfCandidates_some h, setText_shows _ _⟩

/-- **C84** … and as indices without. -/
theorem C84_voter (v : Voter) (m : ℕ) (h : ∀ c ∈ v.approved, c < m) :
    ∃ t, v.str = .ok t ∧ ShowsSet ((List.range m).map strNat) v.approved t := by
  refine ⟨setText ((List.range m).map strNat) v.approved, ?_, setText_shows _ _⟩
  unfold Voter.str Voter.strWithNames strSetOfCandidates setText
  have : v.approved.map (fun c => ((List.range m).map strNat).getD c []) = v.approved.map strNat :=
    List.map_congr_left fun c hc => by simp [h c hc]
  rw [this]
  show Except.ok _ = _
  simp [List.intercalate]

/-- **C84** Two voters are printed in the same way iff they approve the same candidates. -/
theorem C84_voter_injective (v v' : Voter) (h : v.approved.Nodup) (h' : v'.approved.Nodup) : v.str = v'.str ↔ v.A = v'.A := by
  constructor
  · intro e
    have : strKey v.approved = strKey v'.approved := Except.ok.inj e
    exact List.toFinset_eq_of_perm _ _ (perm_of_strKey_eq this)
  · intro e
    have hp : v.approved.Perm v'.approved := (List.perm_ext_iff_of_nodup h h').2 fun c => by
      have : c ∈ v.A ↔ c ∈ v'.A := by rw [e]
      simpa [Voter.A] using this
    have key : strKey v.approved = strKey v'.approved := by
      unfold strKey
      have hs : (v.approved.map strNat).insertionSort strLe = (v'.approved.map strNat).insertionSort strLe :=
        List.Perm.eq_of_pairwise (fun _ _ _ _ h1 h2 => List.le_antisymm h1 h2) (strLe_pairwise _) (strLe_pairwise _)
          ((List.perm_insertionSort _ _).trans ((hp.map _).trans (List.perm_insertionSort _ _).symm))
      simp only [hs]
    show Except.ok (strKey v.approved) = Except.ok (strKey v'.approved)
    rw [key]

example : (⟨[10, 2], 1⟩ : Voter).str = .ok "{10, 2}".toList := by decide +kernel

/-- `header`: a line of symbols as long as the text, the text, the same line again. -/
theorem C84_header (text : Name) (s : Char) (rest : Name) (hs : s ≠ '\n') (ht : '\n' ∉ text) :
    ∃ t, header text (s :: rest) = .ok t ∧
      lines t = [List.replicate text.length s, text, List.replicate text.length s, []] := by
  refine ⟨['\n'].intercalate [List.replicate text.length s, text, List.replicate text.length s, []], ?_, ?_⟩
  · unfold header
    show Except.ok _ = _
    congr 1
    simp [List.intercalate]
  · refine lines_intercalate (by simp) ?_
    have hrep : '\n' ∉ List.replicate text.length s := fun h => hs (List.eq_of_mem_replicate h).symm
    simp [ht, hrep]

theorem C84_header_empty_symbol (text : Name) : header text [] = .error .indexError := rfl

/-! ## Profiles -/

/-- The line of voter number `vi`. -/
def Spec.VoterLine (num : ℚ → Name) (p : Profile) (vi : ℕ) (v : Voter) (l : Name) : Prop :=
  ∃ u, ShowsSet p.candNames v.approved u ∧
    l = " voter ".toList ++ (strNat vi ++ ":".toList) ++ List.replicate (4 - (strNat vi ++ ":".toList).length) ' ' ++ " ".toList ++
      (if p.hasUnitWeights then [] else num v.weight ++ " * ".toList) ++ u

/-- The text of one voter without the final comma and line break. -/
def voterLine (num : ℚ → Name) (p : Profile) (vi : ℕ) (v : Voter) : Name :=
  " voter ".toList ++ pad4 (strNat vi ++ ":".toList) ++ " ".toList ++ (if p.hasUnitWeights then [] else num v.weight ++ " * ".toList) ++
    setText p.candNames v.approved

theorem votersText_ok (num : ℚ → Name) {p : Profile} (vs : List Voter) (h : ∀ v ∈ vs, ∀ c ∈ v.approved, c < p.candNames.length) (vi : ℕ) :
    votersText num p vi vs = .ok (((vs.zipIdx vi).map (fun e => voterLine num p e.2 e.1 ++ ",\n".toList)).flatten) := by
  induction vs generalizing vi with
  | nil => rfl
  | cons v vs ih =>
    have h1 : voterText num p vi v = .ok (voterLine num p vi v ++ ",\n".toList) := by
      unfold voterText
      rw [strSetOfCandidates_some (h v (by simp))]
      show Except.ok _ = _
      congr 1
      unfold voterLine
      by_cases hu : p.hasUnitWeights = true <;> simp [hu]
    unfold votersText
    rw [h1, ih (fun w hw => h w (by simp [hw]))]
    simp only [List.zipIdx_cons, List.map_cons, List.flatten_cons]
    rfl

/-- `",\n".join` of the lines plus a final `",\n"`. -/
theorem flatten_comma {l : List Name} (hne : l ≠ []) :
    (l.map (fun t => t ++ ",\n".toList)).flatten = [',', '\n'].intercalate l ++ [',', '\n'] := by
  induction l with
  | nil => exact absurd rfl hne
  | cons a l ih =>
    cases l with
    | nil => simp [intercalate_singleton]
    | cons b l =>
      have := ih (by simp)
      rw [List.map_cons, List.flatten_cons, this, intercalate_cons_cons]
      simp

theorem comma_join {l : List Name} (hne : l ≠ []) :
    [',', '\n'].intercalate l = ['\n'].intercalate (l.dropLast.map (fun t => t ++ [',']) ++ [l.getLast hne]) := by
  induction l with
  | nil => exact absurd rfl hne
  | cons a l ih =>
    cases l with
    | nil => simp [intercalate_singleton]
    | cons b l =>
      have := ih (by simp)
      rw [intercalate_cons_cons, this]
      rw [List.dropLast_cons₂, List.map_cons, List.cons_append, intercalate_cons (by simp)]
      simp

theorem dropLast2_append (a : Name) (x y : Char) : dropLast2 (a ++ [x, y]) = a := by
  unfold dropLast2
  simp

/-- The first line of `str(profile)`. -/
def Spec.profileLine (p : Profile) : Name :=
  (if p.hasUnitWeights then [] else "weighted ".toList) ++ "profile with ".toList ++ strNat p.voters.length ++ " voters and ".toList ++
    strNat p.numCand ++ " candidates".toList

theorem profileLine_newline (p : Profile) : '\n' ∉ profileLine p := by
  unfold profileLine
  simp only [List.mem_append, not_or]
  refine ⟨⟨⟨⟨⟨?_, by decide⟩, newline_not_mem_strNat _⟩, by decide⟩, newline_not_mem_strNat _⟩, by decide⟩
  split
  · simp
  · decide

theorem voterLine_newline {num : ℚ → Name} (hnum : ∀ q, '\n' ∉ num q) {p : Profile} (hn : ∀ n ∈ p.candNames, '\n' ∉ n) (vi : ℕ) (v : Voter)
    (h : ∀ c ∈ v.approved, c < p.candNames.length) : '\n' ∉ voterLine num p vi v := by
  unfold voterLine pad4
  simp only [List.mem_append, not_or]
  refine ⟨⟨⟨⟨by decide, ⟨newline_not_mem_strNat _, by decide⟩, ?_⟩, by decide⟩, ?_⟩, newline_not_mem_setText hn h⟩
  · intro h; exact absurd (List.eq_of_mem_replicate h) (by decide)
  · split
    · simp
    · rw [List.mem_append]; rintro (h | h)
      · exact hnum _ h
      · exact absurd h (by decide)

/-- `str(profile)` never fails; its lines are a summary and one line per voter, in order (with a comma at the end of all but the
last). -/
theorem C84_profile (num : ℚ → Name) (hnum : ∀ q, '\n' ∉ num q) (p : Profile) (hp : p.WF) (hnm : Named p)
    (hn : ∀ n ∈ p.candNames, '\n' ∉ n) (hv : p.voters ≠ []) :
    ∃ t ls last, p.str num = .ok t ∧ lines t = (profileLine p ++ [':']) :: ls.map (fun l => l ++ [',']) ++ [last] ∧
      List.Forall₂ (fun e l => VoterLine num p e.2 e.1 l) p.voters.zipIdx (ls ++ [last]) := by
  have hlt : ∀ v ∈ p.voters, ∀ c ∈ v.approved, c < p.candNames.length := fun v hv c hc => hnm ▸ hp.lt v hv c hc
  let L := p.voters.zipIdx.map (fun e => voterLine num p e.2 e.1)
  have hL : L ≠ [] := by simpa [L] using hv
  refine ⟨['\n'].intercalate ((profileLine p ++ [':']) :: L.dropLast.map (fun l => l ++ [',']) ++ [L.getLast hL]), L.dropLast, L.getLast hL,
    ?_, ?_, ?_⟩
  · unfold Profile.str
    rw [votersText_ok num p.voters hlt 0]
    have : p.voters.zipIdx.map (fun e => voterLine num p e.2 e.1 ++ ",\n".toList) = L.map (fun t => t ++ ",\n".toList) := by
      simp [L, List.map_map, Function.comp_def]
    rw [this, flatten_comma hL, comma_join hL]
    rw [List.cons_append, intercalate_cons (by simp)]
    show Except.ok (dropLast2 _) = _
    rw [← List.append_assoc, dropLast2_append]
    congr 1
    unfold profileLine
    by_cases hu : p.hasUnitWeights = true <;> simp [hu]
  · refine lines_intercalate (by simp) ?_
    have hLn : ∀ l ∈ L, '\n' ∉ l := by
      intro l hl
      obtain ⟨e, he, rfl⟩ := List.mem_map.1 hl
      exact voterLine_newline hnum hn _ _ (hlt _ (List.fst_mem_of_mem_zipIdx he))
    intro l hl
    rw [List.mem_append, List.mem_cons] at hl
    rcases hl with (rfl | hl) | hl
    · rw [List.mem_append, not_or]; exact ⟨profileLine_newline p, by decide⟩
    · obtain ⟨m, hm, rfl⟩ := List.mem_map.1 hl
      rw [List.mem_append, not_or]
      exact ⟨hLn m (List.mem_of_mem_dropLast hm), by decide⟩
    · rw [List.mem_singleton] at hl
      exact hl ▸ hLn _ (List.getLast_mem hL)
  · rw [List.dropLast_append_getLast hL, List.forall₂_map_right_iff, List.forall₂_same]
    intro e _
    refine ⟨_, setText_shows _ _, ?_⟩
    unfold voterLine pad4
    simp

/-- A profile without voters is shown by the summary alone (without colon). -/
theorem C84_profile_empty (num : ℚ → Name) (p : Profile) (hv : p.voters = []) : p.str num = .ok (profileLine p) := by
  unfold Profile.str profileLine
  rw [hv]
  have hu : p.hasUnitWeights = true := by simp [Profile.hasUnitWeights, hv]
  show Except.ok (dropLast2 _) = _
  rw [hu]
  congr 1
  have : ∀ (a : Name), dropLast2 (a ++ " candidates:\n".toList ++ []) = a ++ " candidates".toList := by
    intro a
    have : a ++ " candidates:\n".toList ++ [] = (a ++ " candidates".toList) ++ [':', '\n'] := by simp
    rw [this, dropLast2_append]
  simpa using this ("profile with ".toList ++ strNat 0 ++ " voters and ".toList ++ strNat p.numCand)

/-! ## The compact form -/

theorem listedWeight_tableAdd (key : List ℕ) (w : ℚ) (t : List (List ℕ × ℚ)) (A : Finset ℕ) :
    listedWeight (tableAdd key w t) A = listedWeight t A + (if key.toFinset = A then w else 0) := by
  induction t with
  | nil => by_cases h : key.toFinset = A <;> simp [tableAdd, listedWeight, h]
  | cons e t ih =>
    obtain ⟨k, x⟩ := e
    unfold tableAdd
    by_cases hk : k = key
    · subst hk
      rw [if_pos rfl]
      by_cases h : k.toFinset = A <;> simp [listedWeight, h]; ring
    · rw [if_neg hk]
      unfold listedWeight at ih ⊢
      by_cases h : k.toFinset = A
      · simp only [List.filter_cons, h, decide_true, if_true, List.map_cons, List.sum_cons]
        rw [ih]; ring
      · simp only [List.filter_cons, h, decide_false, Bool.false_eq_true, if_false]
        rw [ih]

theorem keys_tableAdd (key : List ℕ) (w : ℚ) (t : List (List ℕ × ℚ)) : (tableAdd key w t).map Prod.fst = setAdd (t.map Prod.fst) key := by
  induction t with
  | nil => simp [tableAdd, setAdd]
  | cons e t ih =>
    obtain ⟨k, x⟩ := e
    unfold tableAdd
    by_cases hk : k = key
    · subst hk; simp [setAdd]
    · rw [if_neg hk, List.map_cons, ih]
      unfold setAdd
      by_cases h : key ∈ t.map Prod.fst
      · rw [if_pos h, if_pos (by simp only [List.map_cons, List.mem_cons]; exact Or.inr h)]; rfl
      · rw [if_neg h, if_neg (by
          simp only [List.map_cons, List.mem_cons, not_or]; exact ⟨fun e => hk e.symm, h⟩)]; rfl

theorem setAdd_nodup' {α : Type} [DecidableEq α] {s : List α} (h : s.Nodup) (x : α) : (setAdd s x).Nodup := by
  unfold setAdd
  split
  · exact h
  · rename_i hx; exact List.nodup_append.2 ⟨h, by simp, by rintro a ha b hb rfl; simp at hb; exact hx (hb ▸ ha)⟩

theorem compactTable_inv (vs : List Voter) (t : List (List ℕ × ℚ)) (ht : (t.map Prod.fst).Nodup) :
    ((vs.foldl (fun t v => tableAdd v.approved v.weight t) t).map Prod.fst).Nodup ∧
      (∀ k, k ∈ (vs.foldl (fun t v => tableAdd v.approved v.weight t) t).map Prod.fst ↔ k ∈ t.map Prod.fst ∨ ∃ v ∈ vs, v.approved = k) ∧
      ∀ A, listedWeight (vs.foldl (fun t v => tableAdd v.approved v.weight t) t) A = listedWeight t A + electorate vs A := by
  induction vs generalizing t with
  | nil => exact ⟨ht, by simp, fun A => by simp [electorate]⟩
  | cons v vs ih =>
    obtain ⟨h1, h2, h3⟩ := ih (tableAdd v.approved v.weight t) (by rw [keys_tableAdd]; exact setAdd_nodup' ht _)
    refine ⟨h1, fun k => ?_, fun A => ?_⟩
    · rw [List.foldl_cons, h2 k, keys_tableAdd]
      unfold setAdd
      split
      · rename_i hm
        constructor
        · rintro (h | ⟨w, hw, rfl⟩)
          · exact Or.inl h
          · exact Or.inr ⟨w, by simp [hw], rfl⟩
        · rintro (h | ⟨w, hw, rfl⟩)
          · exact Or.inl h
          · rcases List.mem_cons.1 hw with rfl | hw
            · exact Or.inl hm
            · exact Or.inr ⟨w, hw, rfl⟩
      · simp only [List.mem_append, List.mem_cons, List.not_mem_nil, or_false, exists_eq_or_imp]
        constructor
        · rintro ((h | rfl) | h)
          · exact Or.inl h
          · exact Or.inr (Or.inl rfl)
          · exact Or.inr (Or.inr h)
        · rintro (h | rfl | h)
          · exact Or.inl (Or.inl h)
          · exact Or.inl (Or.inr rfl)
          · exact Or.inr h
    · rw [List.foldl_cons, h3 A, listedWeight_tableAdd]
      unfold electorate Voter.A
      by_cases h : v.approved.toFinset = A <;> simp [h]; ring

/-- The entries printed by `str_compact`: no weight is lost or counted twice — the weights listed for any approval set add up to the
total weight of the voters with this approval set; only approval sets of voters are listed. -/
theorem C84_compact_weights (p : Profile) (A : Finset ℕ) :
    listedWeight p.compactTable A = electorate p.voters A ∧
      ((∃ e ∈ p.compactTable, e.1.toFinset = A) ↔ ∃ v ∈ p.voters, v.A = A) := by
  obtain ⟨_, h2, h3⟩ := compactTable_inv p.voters [] (by simp)
  refine ⟨(h3 A).trans (by simp [listedWeight]), ?_⟩
  constructor
  · rintro ⟨e, he, rfl⟩
    have := (h2 e.1).1 (List.mem_map_of_mem he)
    simp only [List.map_nil, List.not_mem_nil, false_or] at this
    obtain ⟨v, hv, hve⟩ := this
    exact ⟨v, hv, by rw [← hve]; rfl⟩
  · rintro ⟨v, hv, rfl⟩
    have := (h2 v.approved).2 (Or.inr ⟨v, hv, rfl⟩)
    obtain ⟨e, he, hev⟩ := List.mem_map.1 this
    exact ⟨e, he, by rw [hev]; rfl⟩

/-- If equal approval sets are stored in the same order, every approval set is listed exactly once. -/
theorem C84_compact_once (p : Profile) (h : ∀ v ∈ p.voters, ∀ w ∈ p.voters, v.A = w.A → v.approved = w.approved) :
    p.compactTable.Pairwise (fun e e' => e.1.toFinset ≠ e'.1.toFinset) := by
  obtain ⟨h1, h2, _⟩ := compactTable_inv p.voters [] (by simp)
  have hnd : (p.compactTable.map Prod.fst).Nodup := h1
  rw [List.Nodup, List.pairwise_map] at hnd
  refine hnd.imp_of_mem ?_
  intro e e' he he' hne heq
  have k1 := (h2 e.1).1 (List.mem_map_of_mem he)
  have k2 := (h2 e'.1).1 (List.mem_map_of_mem he')
  simp only [List.map_nil, List.not_mem_nil, false_or] at k1 k2
  obtain ⟨v, hv, hve⟩ := k1
  obtain ⟨w, hw, hwe⟩ := k2
  refine hne ?_
  rw [← hve, ← hwe]
  exact h v hv w hw (by unfold Voter.A; rw [hve, hwe]; exact heq)

/-- Finding: the dictionary key is the tuple of the set in iteration order, so that one approval set can be listed several times
(in CPython `{0, 8}` and `{8, 0}` are iterated differently). -/
theorem C84_compact_twice : ∃ p : Profile, p.WF ∧ Named p ∧ (∀ v ∈ p.voters, v.A = {0, 8}) ∧
    p.compactTable = [([0, 8], 1), ([8, 0], 1)] := by
  refine ⟨⟨9, [⟨[0, 8], 1⟩, ⟨[8, 0], 1⟩], (List.range 9).map strNat⟩, ⟨by decide, by decide, by decide, by decide⟩, rfl, by decide, by decide⟩

/-- `str_compact` never fails; one line per entry of the table. -/
theorem C84_compact_text (num : ℚ → Name) (p : Profile) (hp : p.WF) (hnm : Named p) (hv : p.voters ≠ []) :
    ∃ us : List Name, List.Forall₂ (fun e u => ShowsSet p.candNames e.1 u) p.compactTable us ∧
      p.strCompact num = .ok (profileLine p ++ ":\n".toList ++
        [',', '\n'].intercalate (List.zipWith (fun e u => " ".toList ++ num e.2 ++ " x ".toList ++ u) p.compactTable us) ++
        (if p.hasUnitWeights then [] else "\ntotal weight: ".toList ++ num p.totalWeight) ++ "\n".toList) := by
  obtain ⟨_, h2, _⟩ := compactTable_inv p.voters [] (by simp)
  have hkey : ∀ e ∈ p.compactTable, e.1.Nodup ∧ ∀ c ∈ e.1, c < p.candNames.length := by
    intro e he
    have := (h2 e.1).1 (List.mem_map_of_mem he)
    simp only [List.map_nil, List.not_mem_nil, false_or] at this
    obtain ⟨v, hv, hve⟩ := this
    rw [← hve]
    exact ⟨hp.nodup v hv, fun c hc => hnm ▸ hp.lt v hv c hc⟩
  have hne : p.compactTable ≠ [] := by
    obtain ⟨v, hv⟩ := List.exists_mem_of_ne_nil _ hv
    obtain ⟨e, he, _⟩ := List.mem_map.1 ((h2 v.approved).2 (Or.inr ⟨v, hv, rfl⟩))
    exact List.ne_nil_of_mem he
  have hline : ∀ e ∈ p.compactTable, compactLine num p e =
      .ok ((" ".toList ++ num e.2 ++ " x ".toList ++ setText p.candNames (sortNat e.1)) ++ ",\n".toList) := by
    intro e he
    obtain ⟨h1, h2⟩ := hkey e he
    unfold compactLine mkSet
    rw [if_neg (by simpa using h1)]
    have : strSetOfCandidates (sortNat e.1) (some p.candNames) = .ok (setText p.candNames (sortNat e.1)) :=
      strSetOfCandidates_some fun c hc => h2 c ((sortNat_perm e.1).mem_iff.1 hc)
    show (do let set ← strSetOfCandidates (sortNat e.1) (some p.candNames); _) = _
    rw [this]
    rfl
  refine ⟨p.compactTable.map (fun e => setText p.candNames (sortNat e.1)), ?_, ?_⟩
  · rw [List.forall₂_map_right_iff, List.forall₂_same]
    intro e _
    obtain ⟨l, h1, h2, h3⟩ := setText_shows p.candNames (sortNat e.1)
    exact ⟨l, h1.trans ((sortNat_perm e.1).map _), h2, h3⟩
  · unfold Profile.strCompact
    rw [mapM_ok_of hline]
    have e1 : p.compactTable.map (fun e => (" ".toList ++ num e.2 ++ " x ".toList ++ setText p.candNames (sortNat e.1)) ++ ",\n".toList)
        = (p.compactTable.map (fun e => " ".toList ++ num e.2 ++ " x ".toList ++ setText p.candNames (sortNat e.1))).map
            (fun t => t ++ ",\n".toList) := by rw [List.map_map]; rfl
    rw [e1]
    have e2 : List.zipWith (fun e u => " ".toList ++ num e.2 ++ " x ".toList ++ u) p.compactTable
        (p.compactTable.map (fun e => setText p.candNames (sortNat e.1)))
        = p.compactTable.map (fun e => " ".toList ++ num e.2 ++ " x ".toList ++ setText p.candNames (sortNat e.1)) := by
      rw [List.zipWith_map_right, List.zipWith_self]
    rw [e2]
    show Except.ok _ = _
    rw [flatten_comma (by simpa using hne), ← List.append_assoc, dropLast2_append]
    congr 1
    unfold profileLine
    by_cases hu : p.hasUnitWeights = true <;> simp [hu]

/-! ## Names -/

theorem step_named {p : Profile} (hp : Named p) (op : ProfileOp) : Named (p.step op).1 := by
  cases op with
  | addVoter v => unfold Profile.step Profile.addVoter; dsimp only; split <;> exact hp
  | addVoters vs =>
    show Named (p.addVoters vs).1
    induction vs generalizing p with
    | nil => exact hp
    | cons v vs ih =>
      have h1 : Named (p.addVoter v).1 := by unfold Profile.addVoter; split <;> exact hp
      unfold Profile.addVoters
      split
      · rename_i q hq; rw [hq] at h1; exact ih h1
      · rename_i q e hq; rw [hq] at h1; exact h1
  | setItem i v =>
    unfold Profile.step Profile.setItem
    dsimp only
    split
    · exact hp
    · split <;> split <;> exact hp
  | convertToUnitWeights => unfold Profile.step Profile.convertToUnitWeights; dsimp only; split <;> exact hp
  | convertToWeighted iter => exact hp
  | copy =>
    unfold Profile.step
    dsimp only
    split
    · rename_i q hq
      unfold Named
      rw [C05_copy_names p q hq, (copy_inv hq).2]
      simp
    · exact hp

/-- Every profile produced by the API has a name for every candidate. -/
theorem C84_named (n : ℤ) (names : Option (List Name)) (p : Profile) (hp : mkProfile n names = .ok p) (ops : List ProfileOp) :
    Named (p.run ops) := by
  have h0 : Named p := by
    unfold mkProfile at hp
    split at hp
    · cases hp
    · dsimp only at hp
      split at hp
      · cases hp; simp [Named]
      · split at hp
        · cases hp
        · rename_i h; cases hp; simp [Named]; omega
  unfold Profile.run
  induction ops generalizing p with
  | nil => exact h0
  | cons op ops ih => exact (by
      have : ∀ q : Profile, Named q → Named (ops.foldl (fun q op => (q.step op).1) q) := by
        clear ih
        induction ops with
        | nil => exact fun q h => h
        | cons op ops ih => exact fun q h => ih _ (step_named h op)
      exact this _ (step_named h0 op))

/-! ## Examples -/

example : strCommitteesWithHeader [[0, 2], [1, 2]] (some ["a".toList, "b".toList, "c".toList]) true
    = .ok "2 winning committees:\n {a, c}\n {b, c}\n".toList := by decide +kernel

example : Profile.str (fun q => strNat q.num.toNat) ⟨3, [⟨[0, 1], 1⟩, ⟨[2], 2⟩], ["x".toList, "b".toList, "c".toList]⟩
    = .ok "weighted profile with 2 voters and 3 candidates:\n voter 0:   1 * {b, x},\n voter 1:   2 * {c}".toList := by decide +kernel

example : Readable ["a".toList, "b".toList, "c".toList] := ⟨by decide, by decide, by decide, by decide⟩

end Abc
