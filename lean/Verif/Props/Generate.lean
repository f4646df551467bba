import Verif.Spec.Generate
import Verif.Props.Yaml

/-!
# C73, C74: random generation of profiles
-/

namespace Abc.Generate

open Abc Spec

/-! ## Building the profile -/

theorem mkVoter_some_cases (a : List ℤ) (n : ℕ) :
    (LegalVoter n ⟨a, 1⟩ ∧ ∃ v, mkVoter a 1 (some (n : ℤ)) = .ok v ∧ Stores ⟨a, 1⟩ v) ∨
    (¬ LegalVoter n ⟨a, 1⟩ ∧ mkVoter a 1 (some (n : ℤ)) = .error .valueError) := by
  unfold mkVoter
  cases hc : candidateSet a (some (n : ℤ)) with
  | error e =>
    refine Or.inr ⟨?_, by simp [bind, Except.bind, C01_candidateSet_error hc]⟩
    rintro ⟨h1, h2, -⟩
    obtain ⟨s, hs⟩ := (C01_candidateSet_ok_iff a (some (n : ℤ))).2
      ⟨h1, fun c hc => (h2 c hc).1, fun m hm c hc => by
        obtain rfl := Option.some.inj hm
        exact (h2 c hc).2⟩
    rw [hc] at hs
    exact absurd hs (by simp)
  | ok s =>
    obtain ⟨h1, h2, h3⟩ := (C01_candidateSet_ok_iff a (some (n : ℤ))).1 ⟨s, hc⟩
    obtain ⟨g1, -, g3⟩ := C01_candidateSet_elements hc
    refine Or.inl ⟨⟨h1, fun c hc => ⟨h2 c hc, h3 n rfl c hc⟩, by norm_num⟩, ⟨s, 1⟩, ?_, rfl, g1, g3⟩
    simp only [bind, Except.bind]
    rw [if_neg (by norm_num)]

theorem addSamples_cases (p : Profile) (l : List (List ℤ)) :
    ((∀ s ∈ l, LegalVoter p.numCand ⟨s, 1⟩) ∧ ∃ ws, List.Forall₂ (fun s v => Stores ⟨s, 1⟩ v) l ws ∧
      addSamples p.numCand p l = .ok { p with voters := p.voters ++ ws }) ∨
    ((∃ s ∈ l, ¬ LegalVoter p.numCand ⟨s, 1⟩) ∧ addSamples p.numCand p l = .error .valueError) := by
  induction l generalizing p with
  | nil => exact Or.inl ⟨by simp, [], .nil, by simp [addSamples]⟩
  | cons x l ih =>
    rcases mkVoter_some_cases x p.numCand with ⟨h, v, hv, hs⟩ | ⟨h, he⟩
    · have hadd : addVoterE p v.toRaw = .ok { p with voters := p.voters ++ [v] } := by
        have hm : mkVoter x 1 none = .ok v := by
          rcases mkVoter_none_cases x 1 with ⟨-, -, v', hv', hs'⟩ | ⟨hn, -⟩
          · rw [hv']
            congr 1
            have h1 : v'.weight = v.weight := by rw [hs.1, hs'.1]
            have h2 : v'.approved = v.approved := by
              refine List.Perm.eq_of_pairwise' (hs'.2.1.imp le_of_lt) (hs.2.1.imp le_of_lt) ?_
              refine (List.perm_ext_iff_of_nodup (hs'.2.1.imp ne_of_lt) (hs.2.1.imp ne_of_lt)).2 ?_
              intro c
              have e1 := hs.2.2 (c : ℤ)
              have e2 := hs'.2.2 (c : ℤ)
              simp only [Nat.cast_inj, exists_eq_right] at e1 e2
              rw [← e1, ← e2]
            cases v; cases v'; simp_all
          · exact absurd ⟨⟨h.1, fun c hc => (h.2.1 c hc).1⟩, h.2.2⟩ hn
        rcases addWeighted_cases p x 1 with ⟨-, v', hv', he⟩ | ⟨hn, -⟩
        · unfold addWeighted at he
          rw [hm] at he
          simp only [bind, Except.bind] at he
          rw [he]
          have h1 : v'.weight = v.weight := by rw [hs.1, hv'.1]
          have h2 : v'.approved = v.approved := by
            refine List.Perm.eq_of_pairwise' (hv'.2.1.imp le_of_lt) (hs.2.1.imp le_of_lt) ?_
            refine (List.perm_ext_iff_of_nodup (hv'.2.1.imp ne_of_lt) (hs.2.1.imp ne_of_lt)).2 ?_
            intro c
            have e1 := hs.2.2 (c : ℤ)
            have e2 := hv'.2.2 (c : ℤ)
            simp only [Nat.cast_inj, exists_eq_right] at e1 e2
            rw [← e1, ← e2]
          cases v; cases v'; simp_all
        · exact absurd h hn
      unfold addSamples
      rw [hv]
      simp only [bind, Except.bind]
      rw [hadd]
      dsimp only
      rcases ih { p with voters := p.voters ++ [v] } with ⟨g1, ws, g2, g3⟩ | ⟨⟨y, hy, hbad⟩, g⟩
      · refine Or.inl ⟨?_, v :: ws, .cons hs g2, ?_⟩
        · intro y hy
          rcases List.mem_cons.1 hy with rfl | hy
          · exact h
          · exact g1 y hy
        · rw [g3]
          simp
      · exact Or.inr ⟨⟨y, by simp [hy], hbad⟩, g⟩
    · refine Or.inr ⟨⟨x, by simp, h⟩, ?_⟩
      unfold addSamples
      rw [he]
      simp [bind, Except.bind]

/-- `prefsampling_wrapper`: the profile made of the samples, or an exception. -/
theorem wrapper_cases (w : Samplers) (nv nc : ℤ) (args : SamplerArgs) :
    (∃ e, w.sample nv nc args = .error e ∧ wrapper w nv nc args = .error e) ∨
    (∃ samples, w.sample nv nc args = .ok samples ∧
      ((0 < nc ∧ LegalSamples nc samples ∧ ∃ p, wrapper w nv nc args = .ok p ∧ MadeOf nc samples p) ∨
       (¬ (0 < nc ∧ LegalSamples nc samples) ∧ wrapper w nv nc args = .error .valueError))) := by
  unfold wrapper
  cases hs : w.sample nv nc args with
  | error e => exact Or.inl ⟨e, rfl, rfl⟩
  | ok samples =>
    refine Or.inr ⟨samples, rfl, ?_⟩
    simp only [bind, Except.bind]
    by_cases hn : 0 < nc
    · obtain ⟨n, rfl⟩ : ∃ n : ℕ, nc = n := ⟨nc.toNat, by omega⟩
      have hn' : 0 < n := by exact_mod_cast hn
      rw [mkProfile_pos n hn']
      dsimp only
      have hleg : (∀ s ∈ samples, LegalVoter n ⟨s, 1⟩) ↔ LegalSamples n samples := by
        constructor
        · exact fun h s hs => ⟨(h s hs).1, (h s hs).2.1⟩
        · exact fun h s hs => ⟨(h s hs).1, (h s hs).2, by norm_num⟩
      rcases addSamples_cases ⟨n, [], (List.range n).map strNat⟩ samples with ⟨h1, ws, h2, h3⟩ | ⟨⟨s, hs', hb⟩, h⟩
      · refine Or.inl ⟨hn, hleg.1 h1, _, h3, ⟨rfl, rfl, by simpa using h2⟩⟩
      · refine Or.inr ⟨fun hh => hb (hleg.2 hh.2 s hs'), h⟩
    · rw [mkProfile_nonpos nc (by omega)]
      exact Or.inr ⟨fun h => hn h.1, rfl⟩

/-! ## Binding of keyword arguments -/

theorem bind_ok_iff {α β : Type} (x : Except Err α) (f : α → Except Err β) (y : β) :
    (x >>= f) = .ok y ↔ ∃ a, x = .ok a ∧ f a = .ok y := by
  cases x with
  | error e => simp [bind, Except.bind]
  | ok a => simp [bind, Except.bind]

theorem lookup_filter_id (dist : Kw) (k : String) (hk : k ≠ "id") :
    (dist.filter (fun x => decide (x.1 ≠ "id"))).lookup k = dist.lookup k := by
  induction dist with
  | nil => rfl
  | cons x dist ih =>
    obtain ⟨a, v⟩ := x
    by_cases ha : a = "id"
    · subst ha
      rw [List.filter_cons_of_neg (by simp), ih, List.lookup_cons]
      have : (k == "id") = false := by simpa using hk
      rw [this]
    · rw [List.filter_cons_of_pos (by simpa using ha), List.lookup_cons, List.lookup_cons, ih]

theorem get_iff (dist : Kw) (k : String) (hk : k ≠ "id") (d : Option Arg) (v : Arg) :
    Kw.get (dist.filter (fun x => decide (x.1 ≠ "id"))) k d = .ok v ↔ Value dist k d v := by
  unfold Kw.get Value
  rw [lookup_filter_id dist k hk]
  cases dist.lookup k with
  | some x => simp
  | none => cases d with
    | none => simp
    | some y => simp

theorem only_iff (dist : Kw) (names : List String) :
    Kw.only (dist.filter (fun x => decide (x.1 ≠ "id"))) names = .ok () ↔ OnlyKeys dist names := by
  unfold Kw.only OnlyKeys
  split
  · rename_i h
    simp only [true_iff]
    intro x hx
    by_cases hid : x.1 = "id"
    · exact Or.inl hid
    · simp only [List.all_eq_true, decide_eq_true_eq] at h
      exact Or.inr (h x (List.mem_filter.2 ⟨hx, by simpa using hid⟩))
  · rename_i h
    simp only [reduceCtorEq, false_iff]
    intro hall
    apply h
    simp only [List.all_eq_true, decide_eq_true_eq]
    intro x hx
    obtain ⟨hx1, hx2⟩ := List.mem_filter.1 hx
    exact (hall x hx1).resolve_left (by simpa using hx2)

theorem relSize_iff (a : Arg) (n : ℤ) (r : ℚ) : relSize a n = .ok r ↔ ∃ s, a = .num s ∧ n ≠ 0 ∧ r = s / n := by
  unfold relSize
  cases a with
  | num s =>
    by_cases hn : n = 0
    · simp [hn]
    · simp [hn, eq_comm]
  | _ => simp

theorem value_unique {dist : Kw} {k : String} {d : Option Arg} {v v' : Arg} (h : Value dist k d v) (h' : Value dist k d v') :
    v = v' := by
  rcases h with h | ⟨h, g⟩ <;> rcases h' with h' | ⟨h', g'⟩ <;> rw [h] at h'
  · exact Option.some.inj h'
  · exact absurd h' (by simp)
  · exact absurd h' (by simp)
  · rw [g] at g'
    exact Option.some.inj g'

theorem asPoints_iff (a : Arg) (o : Option (List Point)) :
    a.asPoints = .ok o ↔ (a = .none ∧ o = none) ∨ ∃ l, a = .points l ∧ o = some l := by
  cases a <;> simp [Arg.asPoints, eq_comm]

theorem asDist_iff (a : Arg) (o : Option PointDist) :
    a.asDist = .ok o ↔ (a = .none ∧ o = none) ∨ ∃ l, a = .dist l ∧ o = some l := by
  cases a <;> simp [Arg.asDist, eq_comm]

/-- **C74.** Which sampler of the library is used for which name, with which dimension, center point, sigma and width. -/
theorem C74_sampler_of (d : PointDist) (s : PointSampler) : prefsamplingFunction d = .ok s ↔ SamplerOf d s := by
  constructor
  · intro h
    unfold prefsamplingFunction at h
    split at h
    · rename_i hn; obtain rfl := Except.ok.inj h; exact .interval hn
    split at h
    · rename_i hn; obtain rfl := Except.ok.inj h; exact .gaussian1 hn
    split at h
    · rename_i hn; obtain rfl := Except.ok.inj h; exact .gaussianInterval hn
    split at h
    · rename_i hn; obtain rfl := Except.ok.inj h; exact .disc hn
    split at h
    · rename_i hn; obtain rfl := Except.ok.inj h; exact .square hn
    split at h
    · rename_i hn; obtain rfl := Except.ok.inj h; exact .gaussian2 hn
    split at h
    · rename_i hn; obtain rfl := Except.ok.inj h; exact .gaussianDisc hn
    split at h
    · rename_i hn; obtain rfl := Except.ok.inj h; exact .cube hn
    · exact absurd h (by simp)
  · intro h
    cases h <;> (rename_i h; unfold prefsamplingFunction; rw [h]; rfl)

theorem candSide_iff (d p : Arg) (pos : Positions) : candSide d p = .ok pos ↔ Source d p pos := by
  unfold candSide
  rw [bind_ok_iff]
  constructor
  · rintro ⟨o, ho, h⟩
    rcases (asPoints_iff p o).1 ho with ⟨rfl, rfl⟩ | ⟨l, rfl, rfl⟩
    · dsimp only at h
      rw [bind_ok_iff] at h
      obtain ⟨o', ho', h⟩ := h
      rcases (asDist_iff d o').1 ho' with ⟨rfl, rfl⟩ | ⟨l, rfl, rfl⟩
      · obtain rfl := Except.ok.inj h
        exact .default rfl rfl
      · dsimp only at h
        rw [bind_ok_iff] at h
        obtain ⟨s, hs, h⟩ := h
        obtain rfl := Except.ok.inj h
        exact .distribution _ _ rfl rfl ((C74_sampler_of _ _).1 hs)
    · obtain rfl := Except.ok.inj h
      exact .given l rfl
  · intro h
    cases h with
    | given l h => exact ⟨some l, (asPoints_iff _ _).2 (Or.inr ⟨l, h, rfl⟩), rfl⟩
    | distribution x s h1 h2 h3 =>
      refine ⟨none, (asPoints_iff _ _).2 (Or.inl ⟨h1, rfl⟩), ?_⟩
      dsimp only
      rw [bind_ok_iff]
      refine ⟨some x, (asDist_iff _ _).2 (Or.inr ⟨x, h2, rfl⟩), ?_⟩
      dsimp only
      rw [(C74_sampler_of _ _).2 h3]
      rfl
    | default h1 h2 =>
      refine ⟨none, (asPoints_iff _ _).2 (Or.inl ⟨h1, rfl⟩), ?_⟩
      dsimp only
      rw [bind_ok_iff]
      exact ⟨none, (asDist_iff _ _).2 (Or.inl ⟨h2, rfl⟩), rfl⟩

theorem voterSide_iff (w : Samplers) (d p : Arg) (pos : Positions) (dims : ℤ) :
    voterSide w d p = .ok (pos, dims) ↔ Source d p pos ∧ Dimension w d p dims := by
  unfold voterSide
  rw [bind_ok_iff]
  constructor
  · rintro ⟨o, ho, h⟩
    rcases (asPoints_iff p o).1 ho with ⟨rfl, rfl⟩ | ⟨l, rfl, rfl⟩
    · dsimp only at h
      rw [bind_ok_iff] at h
      obtain ⟨o', ho', h⟩ := h
      rcases (asDist_iff d o').1 ho' with ⟨rfl, rfl⟩ | ⟨l, rfl, rfl⟩
      · obtain ⟨rfl, rfl⟩ := Prod.mk.inj (Except.ok.inj h)
        exact ⟨.default rfl rfl, .default rfl rfl⟩
      · dsimp only at h
        rw [bind_ok_iff] at h
        obtain ⟨s, hs, h⟩ := h
        rw [bind_ok_iff] at h
        obtain ⟨n, hn, h⟩ := h
        obtain ⟨rfl, rfl⟩ := Prod.mk.inj (Except.ok.inj h)
        refine ⟨.distribution _ _ rfl rfl ((C74_sampler_of _ _).1 hs), ?_⟩
        unfold nameDimension at hn
        split at hn
        · exact absurd hn (by simp)
        · rename_i c rest hname
          split at hn
          · rename_i k hk
            obtain rfl := Except.ok.inj hn
            exact .distribution _ c rest _ rfl rfl hname hk
          · exact absurd hn (by simp)
    · dsimp only at h
      rw [bind_ok_iff] at h
      obtain ⟨x, hx, h⟩ := h
      obtain ⟨rfl, rfl⟩ := Prod.mk.inj (Except.ok.inj h)
      cases l with
      | nil => exact absurd hx (by simp [pyGet])
      | cons y l =>
        simp [pyGet] at hx
        subst hx
        exact ⟨.given _ rfl, .given _ _ rfl⟩
  · rintro ⟨h, h'⟩
    cases h with
    | given l h =>
      subst h
      cases h' with
      | given x l' h =>
        cases h
        exact ⟨some (x :: l'), rfl, rfl⟩
      | distribution x c n k h1 h2 h3 h4 => exact absurd h1 (by simp)
      | default h1 h2 => exact absurd h1 (by simp)
    | distribution x s h1 h2 h3 =>
      subst h1 h2
      cases h' with
      | given x l' h => exact absurd h (by simp)
      | distribution x' c n k h1 h2 h4 h5 =>
        cases h2
        refine ⟨none, rfl, ?_⟩
        dsimp only
        rw [bind_ok_iff]
        refine ⟨some x, rfl, ?_⟩
        simp only [nameDimension, (C74_sampler_of _ _).2 h3, h4, h5, bind, Except.bind]
      | default h1 h2 => exact absurd h2 (by simp)
    | default h1 h2 =>
      subst h1 h2
      cases h' with
      | given x l' h => exact absurd h (by simp)
      | distribution x' c n k h1 h2 h3 h4 => exact absurd h2 (by simp)
      | default h1 h2 => exact ⟨none, rfl, rfl⟩

theorem truthy_iff (x : Arg) : x.truthy = true ↔ ¬ IsFalse x := by
  unfold IsFalse
  cases x <;> simp [Arg.truthy]

theorem returned_iff (rp : Arg) (vs cs : List Point) (pts : Option (List Point × List Point)) :
    ((IsFalse rp → pts = none) ∧ (¬ IsFalse rp → pts = some (vs, cs))) ↔ pts = if rp.truthy then some (vs, cs) else none := by
  by_cases h : IsFalse rp
  · have h1 : ¬ (rp.truthy = true) := fun h2 => (truthy_iff rp).1 h2 h
    rw [if_neg h1]
    exact ⟨fun g => g.1 h, fun g => ⟨fun _ => g, fun g' => absurd h g'⟩⟩
  · rw [if_pos ((truthy_iff rp).2 h)]
    exact ⟨fun g => g.2 h, fun g => ⟨fun g' => absurd g' h, fun _ => g⟩⟩

theorem euclideanWrapper_ok {w : Samplers} {nv nc : ℤ} {dist : Kw} {dims : ℤ} {vs cs : List Point}
    {pts : Option (List Point × List Point)} (h : Euclid w nv nc dist dims vs cs pts)
    (args : ℤ → List Point → List Point → SamplerArgs) :
    ∃ e, euclideanArgs (dist.filter (fun x => decide (x.1 ≠ "id"))) = .ok e ∧
      euclideanWrapper w nv nc e.voterDist e.candDist e.voterPts e.candPts e.returnPoints args =
        (wrapper w nv nc (args dims vs cs)) >>= fun p => .ok ⟨p, pts⟩ := by
  obtain ⟨vd, cd, vp, cp, rp, vpos, cpos, h1, h2, h3, h4, h5, h6, h7, h8, h9, h10⟩ := h.exists_args
  refine ⟨⟨vd, cd, vp, cp, rp⟩, ?_, ?_⟩
  · unfold euclideanArgs
    rw [(get_iff dist _ (by decide) _ _).2 h1, (get_iff dist _ (by decide) _ _).2 h2, (get_iff dist _ (by decide) _ _).2 h3,
      (get_iff dist _ (by decide) _ _).2 h4, (get_iff dist _ (by decide) _ _).2 h5]
    rfl
  · unfold euclideanWrapper
    rw [(voterSide_iff w vd vp vpos dims).2 ⟨h6, h8⟩, (candSide_iff cd cp cpos).2 h7]
    simp only [bind, Except.bind]
    rw [h9, (returned_iff rp vs cs pts).1 h10]

theorem euclid_of_ok {w : Samplers} {nv nc : ℤ} {dist : Kw} {e : EuclideanArgs} {g : Generated}
    {args : ℤ → List Point → List Point → SamplerArgs}
    (he : euclideanArgs (dist.filter (fun x => decide (x.1 ≠ "id"))) = .ok e)
    (h : euclideanWrapper w nv nc e.voterDist e.candDist e.voterPts e.candPts e.returnPoints args = .ok g) :
    ∃ dims vs cs, Euclid w nv nc dist dims vs cs g.points ∧ wrapper w nv nc (args dims vs cs) = .ok g.profile := by
  unfold euclideanArgs at he
  simp only [bind_ok_iff] at he
  obtain ⟨vd, h1, cd, h2, vp, h3, cp, h4, rp, h5, he⟩ := he
  obtain rfl := Except.ok.inj he
  unfold euclideanWrapper at h
  rw [bind_ok_iff] at h
  obtain ⟨⟨vpos, dims⟩, h6, h⟩ := h
  rw [bind_ok_iff] at h
  obtain ⟨cpos, h7, h⟩ := h
  rw [bind_ok_iff] at h
  obtain ⟨⟨vs, cs⟩, h8, h⟩ := h
  rw [bind_ok_iff] at h
  obtain ⟨p, h9, h⟩ := h
  obtain rfl := Except.ok.inj h
  obtain ⟨g1, g2⟩ := (voterSide_iff w vd vp vpos dims).1 h6
  exact ⟨dims, vs, cs, ⟨vd, cd, vp, cp, rp, vpos, cpos, (get_iff dist _ (by decide) _ _).1 h1, (get_iff dist _ (by decide) _ _).1 h2,
    (get_iff dist _ (by decide) _ _).1 h3, (get_iff dist _ (by decide) _ _).1 h4, (get_iff dist _ (by decide) _ _).1 h5, g1,
    (candSide_iff cd cp cpos).1 h7, g2, h8, (returned_iff rp vs cs _).2 rfl⟩, h9⟩

/-- A correct specification makes exactly the sampler call it stands for. -/
theorem randomProfile_of_requests {w : Samplers} {nv nc : ℤ} {dist : Kw} {id : String} {args : SamplerArgs}
    {pts : Option (List Point × List Point)} (hid : dist.lookup "id" = some (.str id))
    (h : Requests w nv nc dist id args pts) :
    randomProfile w nv nc dist = (wrapper w nv nc args) >>= fun p => .ok ⟨p, pts⟩ := by
  unfold randomProfile
  rw [hid]
  dsimp only
  cases h with
  | icFixedSize s h1 h2 h3 =>
    show icFixedSize w nv nc _ = _
    unfold icFixedSize
    rw [(only_iff dist _).2 h1, (get_iff dist _ (by decide) _ _).2 h2]
    simp only [bind, Except.bind, (relSize_iff (.num s) nc _).2 ⟨s, rfl, h3, rfl⟩]
  | ic p h1 h2 =>
    show ic w nv nc _ = _
    unfold ic
    rw [(only_iff dist _).2 h1, (get_iff dist _ (by decide) _ _).2 h2]
    simp only [bind, Except.bind]
  | mallows s phi h1 h2 h3 h4 =>
    show mallows w nv nc _ = _
    unfold mallows
    rw [(only_iff dist _).2 h1, (get_iff dist _ (by decide) _ _).2 h2, (get_iff dist _ (by decide) _ _).2 h3]
    simp only [bind, Except.bind, (relSize_iff (.num s) nc _).2 ⟨s, rfl, h4, rfl⟩]
  | urnFixedSize s phi h1 h2 h3 h4 =>
    show urnFixedSize w nv nc _ = _
    unfold urnFixedSize
    rw [(only_iff dist _).2 h1, (get_iff dist _ (by decide) _ _).2 h2, (get_iff dist _ (by decide) _ _).2 h3]
    simp only [bind, Except.bind, (relSize_iff (.num s) nc _).2 ⟨s, rfl, h4, rfl⟩]
  | urn p alpha h1 h2 h3 =>
    show urn w nv nc _ = _
    unfold urn
    rw [(only_iff dist _).2 h1, (get_iff dist _ (by decide) _ _).2 h2, (get_iff dist _ (by decide) _ _).2 h3]
    simp only [bind, Except.bind]
  | truncatedUrn s phi h1 h2 h3 h4 =>
    show truncatedUrn w nv nc _ = _
    unfold truncatedUrn
    rw [(only_iff dist _).2 h1, (get_iff dist _ (by decide) _ _).2 h2, (get_iff dist _ (by decide) _ _).2 h3]
    simp only [bind, Except.bind, (relSize_iff (.num s) nc _).2 ⟨s, rfl, h4, rfl⟩]
  | resampling p phi h1 h2 h3 =>
    show resampling w nv nc _ = _
    unfold resampling
    rw [(only_iff dist _).2 h1, (get_iff dist _ (by decide) _ _).2 h2, (get_iff dist _ (by decide) _ _).2 h3]
    simp only [bind, Except.bind]
  | disjointResampling p phi g h1 h2 h3 h4 h5 =>
    show disjointResampling w nv nc _ = _
    unfold disjointResampling
    rw [(only_iff dist _).2 h1, (get_iff dist _ (by decide) _ _).2 h2, (get_iff dist _ (by decide) _ _).2 h3,
      (get_iff dist _ (by decide) _ _).2 h5]
    simp only [bind, Except.bind, if_neg h4]
  | disjointResamplingRandom p g h1 h2 h3 h5 =>
    show disjointResampling w nv nc _ = _
    unfold disjointResampling
    rw [(only_iff dist _).2 h1, (get_iff dist _ (by decide) _ _).2 h2, (get_iff dist _ (by decide) _ _).2 h3,
      (get_iff dist _ (by decide) _ _).2 h5]
    simp only [bind, Except.bind, if_true]
  | noise p phi name d h1 h2 h3 h4 h5 =>
    show noise w nv nc _ = _
    have hd : distanceOf (.str name) = .ok d := by
      simp only [List.mem_cons, Prod.mk.injEq, List.not_mem_nil, or_false] at h5
      rcases h5 with ⟨rfl, rfl⟩ | ⟨rfl, rfl⟩ | ⟨rfl, rfl⟩ | ⟨rfl, rfl⟩ <;> decide
    unfold noise
    rw [(only_iff dist _).2 h1, (get_iff dist _ (by decide) _ _).2 h2, (get_iff dist _ (by decide) _ _).2 h3,
      (get_iff dist _ (by decide) _ _).2 h4]
    simp only [bind, Except.bind, hd]
  | euclideanFixedSize s dims vs cs pts h1 h2 h3 h4 =>
    show euclideanFixedSize w nv nc _ = _
    obtain ⟨e, he, hw⟩ := euclideanWrapper_ok h4 (.euclideanConstantSize (s / nc))
    unfold euclideanFixedSize
    rw [show ("setsize" :: euclideanNames) = "setsize" :: euclidKeys from rfl, (only_iff dist _).2 h1,
      (get_iff dist _ (by decide) _ _).2 h2, he]
    simp only [bind, Except.bind, (relSize_iff (.num s) nc _).2 ⟨s, rfl, h3, rfl⟩]
    exact hw
  | euclideanThreshold t dims vs cs pts h1 h2 h4 =>
    show euclideanThreshold w nv nc _ = _
    obtain ⟨e, he, hw⟩ := euclideanWrapper_ok h4 (.euclideanThreshold t)
    unfold euclideanThreshold
    rw [show ("threshold" :: euclideanNames) = "threshold" :: euclidKeys from rfl, (only_iff dist _).2 h1,
      (get_iff dist _ (by decide) _ _).2 h2, he]
    exact hw
  | euclideanVcr rv rc dims vs cs pts h1 h2 h3 h4 =>
    show euclideanVcr w nv nc _ = _
    obtain ⟨e, he, hw⟩ := euclideanWrapper_ok h4 (.euclideanVcr rv rc)
    unfold euclideanVcr
    rw [show ("voter_radius" :: "candidate_radius" :: euclideanNames) = "voter_radius" :: "candidate_radius" :: euclidKeys from rfl,
      (only_iff dist _).2 h1, (get_iff dist _ (by decide) _ _).2 h2, (get_iff dist _ (by decide) _ _).2 h3, he]
    exact hw

/-- Only correct specifications are accepted. -/
theorem requests_of_ok {w : Samplers} {nv nc : ℤ} {dist : Kw} {g : Generated} (h : randomProfile w nv nc dist = .ok g) :
    ∃ id args, dist.lookup "id" = some (.str id) ∧ Requests w nv nc dist id args g.points ∧
      wrapper w nv nc args = .ok g.profile := by
  unfold randomProfile at h
  split at h
  · exact absurd h (by simp)
  · rename_i id hid
    refine ⟨id, ?_⟩
    split at h
    · exact absurd h (by simp)
    · rename_i f hf
      simp only [probabilityDistributions, List.lookup_cons, List.lookup_nil] at hf
      have only1 := fun names => (only_iff dist names).1
      have get1 := fun k hk d v => (get_iff dist k hk d v).1
      by_cases e1 : id = "IC fixed-size"
      · subst e1
        simp only [BEq.rfl, Option.some.injEq] at hf
        subst hf
        simp only [icFixedSize, bind_ok_iff] at h
        obtain ⟨_, h1, a, h2, r, h3, p, h4, h⟩ := h
        obtain ⟨s, rfl, hn, rfl⟩ := (relSize_iff _ _ _).1 h3
        obtain rfl := Except.ok.inj h
        exact ⟨_, hid, .icFixedSize s (only1 _ h1) (get1 _ (by decide) _ _ h2) hn, h4⟩
      rw [show (id == "IC fixed-size") = false by simpa using e1] at hf
      by_cases e2 : id = "IC"
      · subst e2
        simp only [BEq.rfl, Option.some.injEq] at hf
        subst hf
        simp only [ic, bind_ok_iff] at h
        obtain ⟨_, h1, a, h2, p, h4, h⟩ := h
        obtain rfl := Except.ok.inj h
        exact ⟨_, hid, .ic a (only1 _ h1) (get1 _ (by decide) _ _ h2), h4⟩
      rw [show (id == "IC") = false by simpa using e2] at hf
      by_cases e3 : id = "Truncated Mallows"
      · subst e3
        simp only [BEq.rfl, Option.some.injEq] at hf
        subst hf
        simp only [mallows, bind_ok_iff] at h
        obtain ⟨_, h1, a, h2, b, h3, r, h4, p, h5, h⟩ := h
        obtain ⟨s, rfl, hn, rfl⟩ := (relSize_iff _ _ _).1 h4
        obtain rfl := Except.ok.inj h
        exact ⟨_, hid, .mallows s b (only1 _ h1) (get1 _ (by decide) _ _ h2) (get1 _ (by decide) _ _ h3) hn, h5⟩
      rw [show (id == "Truncated Mallows") = false by simpa using e3] at hf
      by_cases e4 : id = "Urn fixed-size"
      · subst e4
        simp only [BEq.rfl, Option.some.injEq] at hf
        subst hf
        simp only [urnFixedSize, bind_ok_iff] at h
        obtain ⟨_, h1, a, h2, b, h3, r, h4, p, h5, h⟩ := h
        obtain ⟨s, rfl, hn, rfl⟩ := (relSize_iff _ _ _).1 h4
        obtain rfl := Except.ok.inj h
        exact ⟨_, hid, .urnFixedSize s b (only1 _ h1) (get1 _ (by decide) _ _ h2) (get1 _ (by decide) _ _ h3) hn, h5⟩
      rw [show (id == "Urn fixed-size") = false by simpa using e4] at hf
      by_cases e5 : id = "Urn"
      · subst e5
        simp only [BEq.rfl, Option.some.injEq] at hf
        subst hf
        simp only [urn, bind_ok_iff] at h
        obtain ⟨_, h1, a, h2, b, h3, p, h5, h⟩ := h
        obtain rfl := Except.ok.inj h
        exact ⟨_, hid, .urn a b (only1 _ h1) (get1 _ (by decide) _ _ h2) (get1 _ (by decide) _ _ h3), h5⟩
      rw [show (id == "Urn") = false by simpa using e5] at hf
      by_cases e6 : id = "Truncated Urn"
      · subst e6
        simp only [BEq.rfl, Option.some.injEq] at hf
        subst hf
        simp only [truncatedUrn, bind_ok_iff] at h
        obtain ⟨_, h1, a, h2, b, h3, r, h4, p, h5, h⟩ := h
        obtain ⟨s, rfl, hn, rfl⟩ := (relSize_iff _ _ _).1 h4
        obtain rfl := Except.ok.inj h
        exact ⟨_, hid, .truncatedUrn s b (only1 _ h1) (get1 _ (by decide) _ _ h2) (get1 _ (by decide) _ _ h3) hn, h5⟩
      rw [show (id == "Truncated Urn") = false by simpa using e6] at hf
      by_cases e7 : id = "Euclidean VCR"
      · subst e7
        simp only [BEq.rfl, Option.some.injEq] at hf
        subst hf
        simp only [euclideanVcr, bind_ok_iff] at h
        obtain ⟨_, h1, a, h2, b, h3, e, h4, h⟩ := h
        obtain ⟨dims, vs, cs, g1, g2⟩ := euclid_of_ok h4 h
        exact ⟨_, hid, .euclideanVcr a b dims vs cs _ (only1 _ h1) (get1 _ (by decide) _ _ h2) (get1 _ (by decide) _ _ h3) g1, g2⟩
      rw [show (id == "Euclidean VCR") = false by simpa using e7] at hf
      by_cases e8 : id = "Euclidean fixed-size"
      · subst e8
        simp only [BEq.rfl, Option.some.injEq] at hf
        subst hf
        simp only [euclideanFixedSize, bind_ok_iff] at h
        obtain ⟨_, h1, a, h2, e, h4, r, h3, h⟩ := h
        obtain ⟨s, rfl, hn, rfl⟩ := (relSize_iff _ _ _).1 h3
        obtain ⟨dims, vs, cs, g1, g2⟩ := euclid_of_ok h4 h
        exact ⟨_, hid, .euclideanFixedSize s dims vs cs _ (only1 _ h1) (get1 _ (by decide) _ _ h2) hn g1, g2⟩
      rw [show (id == "Euclidean fixed-size") = false by simpa using e8] at hf
      by_cases e9 : id = "Euclidean Threshold"
      · subst e9
        simp only [BEq.rfl, Option.some.injEq] at hf
        subst hf
        simp only [euclideanThreshold, bind_ok_iff] at h
        obtain ⟨_, h1, a, h2, e, h4, h⟩ := h
        obtain ⟨dims, vs, cs, g1, g2⟩ := euclid_of_ok h4 h
        exact ⟨_, hid, .euclideanThreshold a dims vs cs _ (only1 _ h1) (get1 _ (by decide) _ _ h2) g1, g2⟩
      rw [show (id == "Euclidean Threshold") = false by simpa using e9] at hf
      by_cases e10 : id = "Resampling"
      · subst e10
        simp only [BEq.rfl, Option.some.injEq] at hf
        subst hf
        simp only [resampling, bind_ok_iff] at h
        obtain ⟨_, h1, a, h2, b, h3, p, h5, h⟩ := h
        obtain rfl := Except.ok.inj h
        exact ⟨_, hid, .resampling a b (only1 _ h1) (get1 _ (by decide) _ _ h2) (get1 _ (by decide) _ _ h3), h5⟩
      rw [show (id == "Resampling") = false by simpa using e10] at hf
      by_cases e11 : id = "Disjoint Resampling"
      · subst e11
        simp only [BEq.rfl, Option.some.injEq] at hf
        subst hf
        simp only [disjointResampling, bind_ok_iff] at h
        obtain ⟨_, h1, a, h2, b, h3, c, h4, p, h5, h⟩ := h
        obtain rfl := Except.ok.inj h
        by_cases hb : b = .none
        · rw [if_pos hb] at h5
          subst hb
          exact ⟨_, hid, .disjointResamplingRandom a c (only1 _ h1) (get1 _ (by decide) _ _ h2) (get1 _ (by decide) _ _ h3)
            (get1 _ (by decide) _ _ h4), h5⟩
        · rw [if_neg hb] at h5
          exact ⟨_, hid, .disjointResampling a b c (only1 _ h1) (get1 _ (by decide) _ _ h2) (get1 _ (by decide) _ _ h3) hb
            (get1 _ (by decide) _ _ h4), h5⟩
      rw [show (id == "Disjoint Resampling") = false by simpa using e11] at hf
      by_cases e12 : id = "Noise"
      · subst e12
        simp only [BEq.rfl, Option.some.injEq] at hf
        subst hf
        simp only [noise, bind_ok_iff] at h
        obtain ⟨_, h1, a, h2, b, h3, c, h4, d, h6, p, h5, h⟩ := h
        obtain rfl := Except.ok.inj h
        have hd : ∃ name, c = .str name ∧
            (name, d) ∈ [("hamming", SetDistance.hamming), ("jaccard", .jaccard), ("zelinka", .zelinka), ("bunke-shearer", .bunkeShearer)] := by
          unfold distanceOf at h6
          split at h6
          · obtain rfl := Except.ok.inj h6
            exact ⟨"hamming", by assumption, by decide⟩
          · split at h6
            · obtain rfl := Except.ok.inj h6
              exact ⟨"jaccard", by assumption, by decide⟩
            · split at h6
              · obtain rfl := Except.ok.inj h6
                exact ⟨"zelinka", by assumption, by decide⟩
              · split at h6
                · obtain rfl := Except.ok.inj h6
                  exact ⟨"bunke-shearer", by assumption, by decide⟩
                · exact absurd h6 (by simp)
        obtain ⟨name, rfl, hmem⟩ := hd
        exact ⟨_, hid, .noise a b name d (only1 _ h1) (get1 _ (by decide) _ _ h2) (get1 _ (by decide) _ _ h3)
          (get1 _ (by decide) _ _ h4) hmem, h5⟩
      rw [show (id == "Noise") = false by simpa using e12] at hf
      exact absurd hf (by simp)
  · exact absurd h (by simp)

/-! ## C73 -/

/-- **C73.** Whatever `random_profile` returns is the profile of the samples drawn by the sampler call that the dictionary
stands for: `num_cand` candidates, one voter of weight 1 per sample, in the order drawn, approving exactly the sampled
candidates. -/
theorem C73_profile (w : Samplers) (nv nc : ℤ) (dist : Kw) (g : Generated) (h : randomProfile w nv nc dist = .ok g) :
    ∃ id args samples, dist.lookup "id" = some (.str id) ∧ Requests w nv nc dist id args g.points ∧
      w.sample nv nc args = .ok samples ∧ LegalSamples nc samples ∧ MadeOf nc samples g.profile := by
  obtain ⟨id, args, h1, h2, h3⟩ := requests_of_ok h
  rcases wrapper_cases w nv nc args with ⟨e, -, he⟩ | ⟨samples, hs, ⟨hn, hl, p, hp, hm⟩ | ⟨-, he⟩⟩
  · rw [h3] at he
    exact absurd he (by simp)
  · rw [h3] at hp
    obtain rfl := Except.ok.inj hp
    exact ⟨id, args, samples, h1, h2, hs, hl, hm⟩
  · rw [h3] at he
    exact absurd he (by simp)

/-- **C73.** A correct specification whose sampler draws legal approval sets is answered; if it draws anything else, or the
number of candidates is not positive, the call raises ValueError; an exception of the sampler is passed on. -/
theorem C73_accepts (w : Samplers) (nv nc : ℤ) (dist : Kw) (id : String) (args : SamplerArgs)
    (pts : Option (List Point × List Point)) (hid : dist.lookup "id" = some (.str id))
    (h : Requests w nv nc dist id args pts) :
    (∀ samples, w.sample nv nc args = .ok samples → 0 < nc → LegalSamples nc samples →
      ∃ p, randomProfile w nv nc dist = .ok ⟨p, pts⟩ ∧ MadeOf nc samples p) ∧
    (∀ samples, w.sample nv nc args = .ok samples → ¬ (0 < nc ∧ LegalSamples nc samples) →
      randomProfile w nv nc dist = .error .valueError) ∧
    (∀ e, w.sample nv nc args = .error e → randomProfile w nv nc dist = .error e) := by
  rw [randomProfile_of_requests hid h]
  rcases wrapper_cases w nv nc args with ⟨e, hs, he⟩ | ⟨samples, hs, ⟨hn, hl, p, hp, hm⟩ | ⟨hn, he⟩⟩
  · refine ⟨?_, ?_, ?_⟩
    · intro samples h'; rw [hs] at h'; exact absurd h' (by simp)
    · intro samples h'; rw [hs] at h'; exact absurd h' (by simp)
    · intro e' h'
      rw [hs] at h'
      obtain rfl := Except.error.inj h'
      rw [he]
      rfl
  · refine ⟨?_, ?_, ?_⟩
    · intro samples' h' _ _
      rw [hs] at h'
      obtain rfl := Except.ok.inj h'
      exact ⟨p, by rw [hp]; rfl, hm⟩
    · intro samples' h' hno
      rw [hs] at h'
      obtain rfl := Except.ok.inj h'
      exact absurd ⟨hn, hl⟩ hno
    · intro e h'; rw [hs] at h'; exact absurd h' (by simp)
  · refine ⟨?_, ?_, ?_⟩
    · intro samples' h' h1 h2
      rw [hs] at h'
      obtain rfl := Except.ok.inj h'
      exact absurd ⟨h1, h2⟩ hn
    · intro samples' _ _
      rw [he]
      rfl
    · intro e h'; rw [hs] at h'; exact absurd h' (by simp)

theorem only_cases (dist : Kw) (names : List String) :
    (OnlyKeys dist names ∧ Kw.only (dist.filter (fun x => decide (x.1 ≠ "id"))) names = .ok ()) ∨
    (¬ OnlyKeys dist names ∧ Kw.only (dist.filter (fun x => decide (x.1 ≠ "id"))) names = .error .typeError) := by
  rw [← only_iff]
  unfold Kw.only
  split <;> simp

theorem get_cases (dist : Kw) (k : String) (hk : k ≠ "id") :
    (∃ v, Kw.get (dist.filter (fun x => decide (x.1 ≠ "id"))) k none = .ok v) ∧ dist.lookup k ≠ none ∨
    (dist.lookup k = none ∧ Kw.get (dist.filter (fun x => decide (x.1 ≠ "id"))) k none = .error .typeError) := by
  unfold Kw.get
  rw [lookup_filter_id dist k hk]
  cases dist.lookup k <;> simp

theorem euclideanArgs_missing (dist : Kw)
    (h : dist.lookup "voter_prob_distribution" = none ∨ dist.lookup "candidate_prob_distribution" = none) :
    euclideanArgs (dist.filter (fun x => decide (x.1 ≠ "id"))) = .error .typeError := by
  unfold euclideanArgs
  rcases get_cases dist "voter_prob_distribution" (by decide) with ⟨⟨v, h1⟩, h2⟩ | ⟨-, h1⟩
  · rcases get_cases dist "candidate_prob_distribution" (by decide) with ⟨⟨v', h1'⟩, h2'⟩ | ⟨-, h1'⟩
    · simp_all
    · rw [h1, h1']; rfl
  · rw [h1]; rfl

/-- **C73.** A dictionary without `"id"` raises KeyError, an unknown identifier ValueError; an unexpected key or a missing
required parameter raises TypeError.  In all these cases nothing is sampled. -/
theorem C73_errors (w : Samplers) (nv nc : ℤ) (dist : Kw) :
    (dist.lookup "id" = none → randomProfile w nv nc dist = .error .keyError) ∧
    (∀ v, dist.lookup "id" = some v → (∀ x ∈ parameters, v ≠ .str x.1) → randomProfile w nv nc dist = .error .valueError) ∧
    (∀ x ∈ parameters, dist.lookup "id" = some (.str x.1) →
      ¬ OnlyKeys dist (x.2.1 ++ x.2.2) ∨ (∃ key ∈ x.2.1, dist.lookup key = none) →
      randomProfile w nv nc dist = .error .typeError) := by
  refine ⟨?_, ?_, ?_⟩
  · intro h
    unfold randomProfile
    rw [h]
  · intro v hv hno
    unfold randomProfile
    rw [hv]
    cases v with
    | str id =>
      dsimp only
      have : probabilityDistributions.lookup id = none := by
        rw [List.lookup_eq_none_iff]
        intro x hx
        have : x.1 ∈ parameters.map Prod.fst := by
          have : x.1 ∈ probabilityDistributions.map Prod.fst := List.mem_map.2 ⟨x, hx, rfl⟩
          exact this
        obtain ⟨y, hy, hxy⟩ := List.mem_map.1 this
        have := hno y hy
        rw [hxy] at this
        simpa using this
      rw [this]
    | _ => rfl
  · intro x hx hl hbad
    have two : ∀ (a b : String), (∃ key ∈ [a, b], dist.lookup key = none) → dist.lookup a = none ∨ dist.lookup b = none := by
      simp
    unfold randomProfile
    rw [hl]
    dsimp only
    simp only [parameters, List.mem_cons, List.not_mem_nil, or_false] at hx
    rcases hx with rfl | rfl | rfl | rfl | rfl | rfl | rfl | rfl | rfl | rfl | rfl | rfl
    · show icFixedSize w nv nc _ = _
      unfold icFixedSize
      rcases only_cases dist ["setsize"] with ⟨h1, h2⟩ | ⟨-, h2⟩
      · rcases get_cases dist "setsize" (by decide) with ⟨-, h3⟩ | ⟨-, h3⟩
        · exact absurd hbad (by simp_all)
        · rw [h2, h3]; rfl
      · rw [h2]; rfl
    · show ic w nv nc _ = _
      unfold ic
      rcases only_cases dist ["p"] with ⟨h1, h2⟩ | ⟨-, h2⟩
      · exact absurd hbad (by simp_all)
      · rw [h2]; rfl
    · show mallows w nv nc _ = _
      unfold mallows
      rcases only_cases dist ["setsize", "dispersion"] with ⟨h1, h2⟩ | ⟨-, h2⟩
      · rcases get_cases dist "setsize" (by decide) with ⟨⟨v, h3⟩, h3'⟩ | ⟨-, h3⟩
        · rcases get_cases dist "dispersion" (by decide) with ⟨-, h4⟩ | ⟨-, h4⟩
          · rcases hbad with hbad | hbad
            · exact absurd h1 hbad
            · rcases two _ _ hbad with h | h
              · exact absurd h h3'
              · exact absurd h h4
          · rw [h2, h3, h4]; rfl
        · rw [h2, h3]; rfl
      · rw [h2]; rfl
    · show urnFixedSize w nv nc _ = _
      unfold urnFixedSize
      rcases only_cases dist ["setsize", "replace"] with ⟨h1, h2⟩ | ⟨-, h2⟩
      · rcases get_cases dist "setsize" (by decide) with ⟨⟨v, h3⟩, h3'⟩ | ⟨-, h3⟩
        · rcases get_cases dist "replace" (by decide) with ⟨-, h4⟩ | ⟨-, h4⟩
          · rcases hbad with hbad | hbad
            · exact absurd h1 hbad
            · rcases two _ _ hbad with h | h
              · exact absurd h h3'
              · exact absurd h h4
          · rw [h2, h3, h4]; rfl
        · rw [h2, h3]; rfl
      · rw [h2]; rfl
    · show urn w nv nc _ = _
      unfold urn
      rcases only_cases dist ["p", "replace"] with ⟨h1, h2⟩ | ⟨-, h2⟩
      · rcases get_cases dist "p" (by decide) with ⟨⟨v, h3⟩, h3'⟩ | ⟨-, h3⟩
        · rcases get_cases dist "replace" (by decide) with ⟨-, h4⟩ | ⟨-, h4⟩
          · rcases hbad with hbad | hbad
            · exact absurd h1 hbad
            · rcases two _ _ hbad with h | h
              · exact absurd h h3'
              · exact absurd h h4
          · rw [h2, h3, h4]; rfl
        · rw [h2, h3]; rfl
      · rw [h2]; rfl
    · show truncatedUrn w nv nc _ = _
      unfold truncatedUrn
      rcases only_cases dist ["setsize", "replace"] with ⟨h1, h2⟩ | ⟨-, h2⟩
      · rcases get_cases dist "setsize" (by decide) with ⟨⟨v, h3⟩, h3'⟩ | ⟨-, h3⟩
        · rcases get_cases dist "replace" (by decide) with ⟨-, h4⟩ | ⟨-, h4⟩
          · rcases hbad with hbad | hbad
            · exact absurd h1 hbad
            · rcases two _ _ hbad with h | h
              · exact absurd h h3'
              · exact absurd h h4
          · rw [h2, h3, h4]; rfl
        · rw [h2, h3]; rfl
      · rw [h2]; rfl
    · show euclideanVcr w nv nc _ = _
      unfold euclideanVcr
      rcases only_cases dist ("voter_radius" :: "candidate_radius" :: euclideanNames) with ⟨h1, h2⟩ | ⟨-, h2⟩
      · rcases get_cases dist "voter_radius" (by decide) with ⟨⟨v, h3⟩, h3'⟩ | ⟨-, h3⟩
        · rcases get_cases dist "candidate_radius" (by decide) with ⟨⟨v', h4⟩, h4'⟩ | ⟨-, h4⟩
          · rcases hbad with hbad | hbad
            · exact absurd h1 hbad
            · rw [h2, h3, h4]
              simp only [List.mem_cons, List.not_mem_nil, or_false, exists_eq_or_imp, exists_eq_left, h3', h4', false_or] at hbad
              simp only [bind, Except.bind, euclideanArgs_missing dist hbad]
          · rw [h2, h3, h4]; rfl
        · rw [h2, h3]; rfl
      · rw [h2]; rfl
    · show euclideanFixedSize w nv nc _ = _
      unfold euclideanFixedSize
      rcases only_cases dist ("setsize" :: euclideanNames) with ⟨h1, h2⟩ | ⟨-, h2⟩
      · rcases get_cases dist "setsize" (by decide) with ⟨⟨v, h3⟩, h3'⟩ | ⟨-, h3⟩
        · rcases hbad with hbad | hbad
          · exact absurd h1 hbad
          · rw [h2, h3]
            simp only [List.mem_cons, List.not_mem_nil, or_false, exists_eq_or_imp, exists_eq_left, h3', false_or] at hbad
            simp only [bind, Except.bind, euclideanArgs_missing dist hbad]
        · rw [h2, h3]; rfl
      · rw [h2]; rfl
    · show euclideanThreshold w nv nc _ = _
      unfold euclideanThreshold
      rcases only_cases dist ("threshold" :: euclideanNames) with ⟨h1, h2⟩ | ⟨-, h2⟩
      · rcases get_cases dist "threshold" (by decide) with ⟨⟨v, h3⟩, h3'⟩ | ⟨-, h3⟩
        · rcases hbad with hbad | hbad
          · exact absurd h1 hbad
          · rw [h2, h3]
            simp only [List.mem_cons, List.not_mem_nil, or_false, exists_eq_or_imp, exists_eq_left, h3', false_or] at hbad
            simp only [bind, Except.bind, euclideanArgs_missing dist hbad]
        · rw [h2, h3]; rfl
      · rw [h2]; rfl
    · show resampling w nv nc _ = _
      unfold resampling
      rcases only_cases dist ["p", "phi"] with ⟨h1, h2⟩ | ⟨-, h2⟩
      · rcases get_cases dist "p" (by decide) with ⟨⟨v, h3⟩, h3'⟩ | ⟨-, h3⟩
        · rcases get_cases dist "phi" (by decide) with ⟨-, h4⟩ | ⟨-, h4⟩
          · rcases hbad with hbad | hbad
            · exact absurd h1 hbad
            · rcases two _ _ hbad with h | h
              · exact absurd h h3'
              · exact absurd h h4
          · rw [h2, h3, h4]; rfl
        · rw [h2, h3]; rfl
      · rw [h2]; rfl
    · show disjointResampling w nv nc _ = _
      unfold disjointResampling
      rcases only_cases dist ["p", "phi", "num_groups"] with ⟨h1, h2⟩ | ⟨-, h2⟩
      · rcases get_cases dist "p" (by decide) with ⟨-, h3⟩ | ⟨-, h3⟩
        · exact absurd hbad (by simp_all)
        · rw [h2, h3]; rfl
      · rw [h2]; rfl
    · show noise w nv nc _ = _
      unfold noise
      rcases only_cases dist ["p", "phi", "distance"] with ⟨h1, h2⟩ | ⟨-, h2⟩
      · rcases get_cases dist "p" (by decide) with ⟨⟨v, h3⟩, h3'⟩ | ⟨-, h3⟩
        · rcases get_cases dist "phi" (by decide) with ⟨-, h4⟩ | ⟨-, h4⟩
          · rcases hbad with hbad | hbad
            · exact absurd h1 hbad
            · rcases two _ _ hbad with h | h
              · exact absurd h h3'
              · exact absurd h h4
          · rw [h2, h3, h4]; rfl
        · rw [h2, h3]; rfl
      · rw [h2]; rfl

/-- **C73.** A "fixed-size" request (`setsize`) asks the sampler for the fraction `setsize / num_cand`.  With a sampler that
returns one set per voter, of `rel · num_cand` candidates each, every generated profile has `num_voters` voters, and each of them
approves exactly `setsize` candidates. -/
theorem C73_setsize (w : Samplers) (nv nc : ℤ) (dist : Kw) (s : ℚ) (g : Generated)
    (hnum : ∀ args samples, w.sample nv nc args = .ok samples → (samples.length : ℤ) = nv)
    (hsize : ∀ args samples rel, w.sample nv nc args = .ok samples →
      (args = .impartialConstantSize rel ∨ (∃ a, args = .urnConstantSize rel a) ∨ (∃ o, args = .truncatedOrdinal rel o) ∨
        ∃ d vs cs, args = .euclideanConstantSize rel d vs cs) →
      ∀ x ∈ samples, (x.length : ℚ) = rel * nc)
    (hs : dist.lookup "setsize" = some (.num s))
    (h : randomProfile w nv nc dist = .ok g) :
    (g.profile.voters.length : ℤ) = nv ∧ ∀ v ∈ g.profile.voters, (v.approved.length : ℚ) = s ∧ v.weight = 1 := by
  obtain ⟨id, args, samples, h1, h2, h3, h4, h5⟩ := C73_profile w nv nc dist g h
  refine ⟨by rw [← h5.voters.length_eq]; exact hnum args samples h3, ?_⟩
  have hval : ∀ s', Value dist "setsize" none (.num s') → s' = s := by
    intro s' h'
    rcases h' with h' | ⟨h', -⟩
    · rw [hs] at h'
      injection h' with h'
      injection h' with h'
      exact h'.symm
    · rw [hs] at h'
      exact absurd h' (by simp)
  have hmem : ("setsize", Arg.num s) ∈ dist := by
    clear * - hs
    induction dist with
    | nil => simp at hs
    | cons x dist ih =>
      obtain ⟨a, b⟩ := x
      rw [List.lookup_cons] at hs
      by_cases hx : "setsize" = a
      · subst hx
        simp at hs
        simp [hs]
      · rw [show ("setsize" == a) = false by simpa using hx] at hs
        exact List.mem_cons_of_mem _ (ih hs)
  have hcase : nc ≠ 0 ∧ (args = .impartialConstantSize (s / nc) ∨ (∃ a, args = .urnConstantSize (s / nc) a) ∨
      (∃ o, args = .truncatedOrdinal (s / nc) o) ∨ ∃ d vs cs, args = .euclideanConstantSize (s / nc) d vs cs) := by
    generalize hpts : g.points = pts at h2
    cases h2 with
    | icFixedSize s' g1 g2 g3 => obtain rfl := hval s' g2; exact ⟨g3, Or.inl rfl⟩
    | mallows s' _ g1 g2 _ g3 => obtain rfl := hval s' g2; exact ⟨g3, Or.inr (Or.inr (Or.inl ⟨_, rfl⟩))⟩
    | urnFixedSize s' _ g1 g2 _ g3 => obtain rfl := hval s' g2; exact ⟨g3, Or.inr (Or.inl ⟨_, rfl⟩)⟩
    | truncatedUrn s' _ g1 g2 _ g3 => obtain rfl := hval s' g2; exact ⟨g3, Or.inr (Or.inr (Or.inl ⟨_, rfl⟩))⟩
    | euclideanFixedSize s' _ _ _ _ g1 g2 g3 _ => obtain rfl := hval s' g2; exact ⟨g3, Or.inr (Or.inr (Or.inr ⟨_, _, _, rfl⟩))⟩
    | ic _ g1 => exact absurd (g1 _ hmem) (by simp [euclidKeys])
    | urn _ _ g1 => exact absurd (g1 _ hmem) (by simp [euclidKeys])
    | resampling _ _ g1 => exact absurd (g1 _ hmem) (by simp [euclidKeys])
    | disjointResampling _ _ _ g1 => exact absurd (g1 _ hmem) (by simp [euclidKeys])
    | disjointResamplingRandom _ _ g1 => exact absurd (g1 _ hmem) (by simp [euclidKeys])
    | noise _ _ _ _ g1 => exact absurd (g1 _ hmem) (by simp [euclidKeys])
    | euclideanThreshold _ _ _ _ _ g1 => exact absurd (g1 _ hmem) (by simp [euclidKeys])
    | euclideanVcr _ _ _ _ _ _ g1 => exact absurd (g1 _ hmem) (by simp [euclidKeys])
  have hlen := hsize args samples (s / nc) h3 hcase.2
  have hn : (nc : ℚ) ≠ 0 := by exact_mod_cast hcase.1
  have key : ∀ (l : List (List ℤ)) (vs : List Voter), List.Forall₂ (fun s v => Stores ⟨s, 1⟩ v) l vs →
      (∀ x ∈ l, x.Nodup ∧ (x.length : ℚ) = s) → ∀ v ∈ vs, (v.approved.length : ℚ) = s ∧ v.weight = 1 := by
    intro l vs hf
    induction hf with
    | nil => simp
    | @cons x v l vs hx _ ih =>
      intro hl v' hv'
      rcases List.mem_cons.1 hv' with rfl | hv'
      · refine ⟨?_, hx.1⟩
        obtain ⟨hnd, hlen⟩ := hl x (by simp)
        rw [← hlen]
        congr 1
        have hp : x.Perm (v'.approved.map (fun n : ℕ => (n : ℤ))) := by
          refine (List.perm_ext_iff_of_nodup hnd ?_).2 ?_
          · have hnd' : v'.approved.Nodup := hx.2.1.imp ne_of_lt
            exact hnd'.map Int.ofNat_injective
          · intro c
            rw [hx.2.2 c, List.mem_map]
        simpa using hp.length_eq.symm
      · exact ih (fun y hy => hl y (List.mem_cons_of_mem _ hy)) v' hv'
  refine key samples g.profile.voters h5.voters ?_
  intro x hx
  refine ⟨(h4 x hx).1, ?_⟩
  rw [hlen x hx]
  field_simp

/-! ## C74: points -/

/-- The dimension for which a point sampler is called. -/
def PointSampler.dims : PointSampler → ℕ
  | .cube d _ _ => d
  | .gaussian d _ _ _ => d
  | .ballUniform d _ _ => d
  | .ballResampling d _ _ _ => d

/-- The center point with which a point sampler is called. -/
def PointSampler.center : PointSampler → Point
  | .cube _ c _ => c
  | .gaussian _ c _ _ => c
  | .ballUniform _ c _ => c
  | .ballResampling _ c _ _ => c

theorem nameStart_beforeD (name : Name) : NameStart name (beforeD name) := by
  fun_induction beforeD name with
  | case1 => exact ⟨List.prefix_rfl, by simp, Or.inl rfl⟩
  | case2 c => exact ⟨List.prefix_rfl, by simp, Or.inl rfl⟩
  | case3 c c' rest h =>
    obtain ⟨rfl, rfl⟩ := h
    exact ⟨List.nil_prefix, by simp, Or.inr ⟨rest, rfl⟩⟩
  | case4 c c' rest h ih =>
    obtain ⟨h1, h2, h3⟩ := ih
    refine ⟨List.cons_prefix_cons.2 ⟨rfl, h1⟩, ?_, ?_⟩
    · intro j hj
      cases j with
      | zero =>
        rw [List.drop_zero, List.cons_prefix_cons, List.cons_prefix_cons]
        rintro ⟨rfl, rfl, -⟩
        exact h ⟨rfl, rfl⟩
      | succ j =>
        rw [List.drop_succ_cons]
        exact h2 j (by simpa using hj)
    · rcases h3 with h3 | h3
      · exact Or.inl (by rw [h3])
      · exact Or.inr (by simpa using h3)

theorem NameStart.unique {name a b : Name} (ha : NameStart name a) (hb : NameStart name b) : a = b := by
  have key : ∀ a b : Name, NameStart name a → NameStart name b → a.length ≤ b.length := by
    intro a b ha hb
    by_contra hlt
    push Not at hlt
    obtain ⟨h1, h2, -⟩ := ha
    obtain ⟨-, -, h3⟩ := hb
    rcases h3 with rfl | h3
    · have := h1.length_le
      omega
    · exact h2 _ hlt h3
  exact (List.prefix_of_prefix_length_le ha.1 hb.1 (key a b ha hb)).eq_of_length
    (le_antisymm (key a b ha hb) (key b a hb ha))

/-- **C74.** Let `pre` be the part of the name before its first `d_` (the whole name if there is none).  A point distribution can
be created exactly if `pre` is a number and a center point given as a sequence has that many coordinates; otherwise ValueError.
A number as center point is used for every coordinate. -/
theorem C74_distribution (w : Samplers) (name pre : Name) (hpre : NameStart name pre) (center : Center) (sigma width : ℚ) :
    (∀ k, w.intOf pre = some k → (∀ p, center = .point p → (p.length : ℤ) = k) →
      ∃ d, mkPointDist w name center sigma width = .ok d ∧ d.name = name ∧ d.dimension = k ∧ d.sigma = sigma ∧ d.width = width ∧
        (∀ p, center = .point p → d.centerPoint = p) ∧ (∀ x, center = .scalar x → ∀ y ∈ d.centerPoint, y = x) ∧
        (0 ≤ k → (d.centerPoint.length : ℤ) = k)) ∧
    (w.intOf pre = none ∨ (∃ k p, w.intOf pre = some k ∧ center = .point p ∧ (p.length : ℤ) ≠ k) →
      mkPointDist w name center sigma width = .error .valueError) := by
  obtain rfl := hpre.unique (nameStart_beforeD name)
  constructor
  · intro k hk hc
    unfold mkPointDist
    rw [hk]
    cases center with
    | scalar x =>
      refine ⟨_, rfl, rfl, rfl, rfl, rfl, by simp, ?_, ?_⟩
      · intro x' hx' y hy
        cases hx'
        exact List.eq_of_mem_replicate hy
      · intro h0
        simp only [List.length_replicate]
        omega
    | point p =>
      have := hc p rfl
      dsimp only
      rw [if_neg (by simpa using this)]
      refine ⟨_, rfl, rfl, rfl, rfl, rfl, ?_, by simp, fun _ => this⟩
      intro p' hp'
      cases hp'
      rfl
  · rintro (h | ⟨k, p, h, rfl, hne⟩)
    · unfold mkPointDist
      rw [h]
    · unfold mkPointDist
      rw [h]
      dsimp only
      rw [if_pos hne]

example : NameStart "2d_gaussian_disc".toList "2".toList ∧ NameStart "third_cube".toList "thir".toList ∧
    NameStart "abc".toList "abc".toList := by
  refine ⟨⟨⟨"d_gaussian_disc".toList, by decide⟩, by decide, Or.inr ⟨"gaussian_disc".toList, by decide⟩⟩,
    ⟨⟨"d_cube".toList, by decide⟩, by decide, Or.inr ⟨"cube".toList, by decide⟩⟩, ⟨List.prefix_rfl, by decide, Or.inl rfl⟩⟩

/-- **C74.** `random_point` returns the point when the sampler, asked for one point, returns one; a name without sampler is a
ValueError, and an exception of the sampler is passed on. -/
theorem C74_random_point (w : Samplers) (d : PointDist) :
    (∀ s x, SamplerOf d s → w.points s 1 = .ok [x] → randomPoint w d = .ok x) ∧
    (d.name ∉ ["1d_interval".toList, "1d_gaussian".toList, "1d_gaussian_interval".toList, "2d_disc".toList, "2d_square".toList,
      "2d_gaussian".toList, "2d_gaussian_disc".toList, "3d_cube".toList] → randomPoint w d = .error .valueError) ∧
    (∀ s e, SamplerOf d s → w.points s 1 = .error e → randomPoint w d = .error e) := by
  refine ⟨?_, ?_, ?_⟩
  · intro s x hs hx
    replace hs := (C74_sampler_of _ _).2 hs
    simp only [randomPoint, hs, hx, bind, Except.bind]
    rfl
  · intro h
    have : prefsamplingFunction d = .error .valueError := by
      unfold prefsamplingFunction
      simp only [List.mem_cons, List.not_mem_nil, or_false, not_or] at h
      obtain ⟨h1, h2, h3, h4, h5, h6, h7, h8⟩ := h
      rw [if_neg h1, if_neg h2, if_neg h3, if_neg h4, if_neg h5, if_neg h6, if_neg h7, if_neg h8]
    simp only [randomPoint, this, bind, Except.bind]
  · intro s e hs hx
    replace hs := (C74_sampler_of _ _).2 hs
    simp only [randomPoint, hs, hx, bind, Except.bind]

/-- **C74.** For every point distribution object that the sampling code accepts, the dimension passed to the sampler, the
dimension stored in the object, the length of its center point and the dimension announced to the election sampler
(first character of the name) are one and the same number. -/
theorem C74_dimensions (w : Samplers)
    (hint : w.intOf ['1'] = some 1 ∧ w.intOf ['2'] = some 2 ∧ w.intOf ['3'] = some 3)
    (name : Name) (center : Center) (sigma width : ℚ) (d : PointDist) (s : PointSampler)
    (hd : mkPointDist w name center sigma width = .ok d) (hs : SamplerOf d s) :
    d.dimension = s.dims ∧ d.centerPoint = s.center ∧ s.center.length = s.dims ∧ nameDimension w d.name = .ok s.dims := by
  replace hs := (C74_sampler_of _ _).2 hs
  have hcases : ∀ k, w.intOf (beforeD name) = some k → 0 ≤ k → d.dimension = k ∧ d.name = name ∧ (d.centerPoint.length : ℤ) = k := by
    intro k hk h0
    unfold mkPointDist at hd
    rw [hk] at hd
    cases center with
    | scalar x =>
      dsimp only at hd
      obtain rfl := Except.ok.inj hd
      refine ⟨rfl, rfl, ?_⟩
      simp only [List.length_replicate]
      omega
    | point p =>
      dsimp only at hd
      split at hd
      · exact absurd hd (by simp)
      · rename_i h
        obtain rfl := Except.ok.inj hd
        exact ⟨rfl, rfl, by simpa using h⟩
  have hname : d.name = name := by
    unfold mkPointDist at hd
    split at hd
    · exact absurd hd (by simp)
    · split at hd
      · split at hd
        · exact absurd hd (by simp)
        · obtain rfl := Except.ok.inj hd
          rfl
      · obtain rfl := Except.ok.inj hd
        rfl
  have fin : ∀ (k : ℕ) (c : Char), beforeD name = [c] → (∃ r, name = c :: r) → w.intOf [c] = some (k : ℤ) → s.dims = k →
      s.center = d.centerPoint →
      d.dimension = s.dims ∧ d.centerPoint = s.center ∧ s.center.length = s.dims ∧ nameDimension w d.name = .ok s.dims := by
    rintro k c h1 ⟨r, h1'⟩ h2 h3 h4
    obtain ⟨g1, g2, g3⟩ := hcases k (by rw [h1]; exact h2) (by omega)
    refine ⟨by rw [g1, h3], h4.symm, by rw [h4, h3]; exact_mod_cast g3, ?_⟩
    unfold nameDimension
    rw [g2, h1']
    dsimp only
    rw [h2, h3]
  unfold prefsamplingFunction at hs
  rw [hname] at hs
  split at hs
  · rename_i h; obtain rfl := Except.ok.inj hs
    exact fin 1 '1' (by rw [h]; decide) ⟨_, h⟩ hint.1 rfl rfl
  split at hs
  · rename_i h; obtain rfl := Except.ok.inj hs
    exact fin 1 '1' (by rw [h]; decide) ⟨_, h⟩ hint.1 rfl rfl
  split at hs
  · rename_i h; obtain rfl := Except.ok.inj hs
    exact fin 1 '1' (by rw [h]; decide) ⟨_, h⟩ hint.1 rfl rfl
  split at hs
  · rename_i h; obtain rfl := Except.ok.inj hs
    exact fin 2 '2' (by rw [h]; decide) ⟨_, h⟩ hint.2.1 rfl rfl
  split at hs
  · rename_i h; obtain rfl := Except.ok.inj hs
    exact fin 2 '2' (by rw [h]; decide) ⟨_, h⟩ hint.2.1 rfl rfl
  split at hs
  · rename_i h; obtain rfl := Except.ok.inj hs
    exact fin 2 '2' (by rw [h]; decide) ⟨_, h⟩ hint.2.1 rfl rfl
  split at hs
  · rename_i h; obtain rfl := Except.ok.inj hs
    exact fin 2 '2' (by rw [h]; decide) ⟨_, h⟩ hint.2.1 rfl rfl
  split at hs
  · rename_i h; obtain rfl := Except.ok.inj hs
    exact fin 3 '3' (by rw [h]; decide) ⟨_, h⟩ hint.2.2 rfl rfl
  · exact absurd hs (by simp)

/-- **C74.** The eight known point distributions, and no others, can be sampled from; the others raise ValueError when used. -/
theorem C74_known_names (d : PointDist) :
    ((∃ s, prefsamplingFunction d = .ok s) ↔
      String.ofList d.name ∈ ["1d_interval", "1d_gaussian", "1d_gaussian_interval", "2d_square", "2d_disc", "2d_gaussian", "2d_gaussian_disc",
        "3d_cube"]) ∧
    (∀ e, prefsamplingFunction d = .error e → e = .valueError) := by
  have conv : ∀ t : String, String.ofList d.name = t ↔ d.name = t.toList := by
    intro t
    constructor
    · rintro rfl
      simp
    · intro h
      rw [h]
      simp
  simp only [List.mem_cons, List.not_mem_nil, or_false, conv]
  unfold prefsamplingFunction
  constructor
  · split_ifs <;> simp_all
  · intro e
    split_ifs <;> simp_all

theorem change_lookup_other (kw : Kw) {key k' : String} (v : Arg) (h : k' ≠ key) : (Kw.change kw key v).lookup k' = kw.lookup k' := by
  induction kw with
  | nil => rfl
  | cons x kw ih =>
    obtain ⟨y, z⟩ := x
    unfold Kw.change at ih ⊢
    rw [List.map_cons]
    by_cases hy : y = key
    · subst hy
      rw [if_pos rfl, List.lookup_cons, List.lookup_cons, ih]
      simp only [show (k' == y) = false by simpa using h]
    · rw [if_neg hy, List.lookup_cons, List.lookup_cons, ih]

theorem change_lookup_self (kw : Kw) (key : String) (v : Arg) : (Kw.change kw key v).lookup key = (kw.lookup key).map (fun _ => v) := by
  induction kw with
  | nil => rfl
  | cons x kw ih =>
    obtain ⟨y, z⟩ := x
    unfold Kw.change at ih ⊢
    rw [List.map_cons]
    by_cases hy : y = key
    · subst hy
      rw [if_pos rfl, List.lookup_cons, List.lookup_cons]
      simp
    · rw [if_neg hy, List.lookup_cons, List.lookup_cons, ih]
      simp only [show (key == y) = false by simpa using fun e => hy e.symm]

theorem change_get_other (kw : Kw) {key k' : String} (v : Arg) (h : k' ≠ key) (d : Option Arg) :
    (Kw.change kw key v).get k' d = kw.get k' d := by
  unfold Kw.get
  rw [change_lookup_other kw v h]

theorem change_only (kw : Kw) (key : String) (v : Arg) (names : List String) : (Kw.change kw key v).only names = kw.only names := by
  unfold Kw.only Kw.change
  rw [List.all_map]
  congr 2
  congr 1
  funext x
  simp only [Function.comp]
  split_ifs with h
  · rw [h]
  · rfl

theorem change_filter (kw : Kw) {key : String} (v : Arg) (h : key ≠ "id") :
    (Kw.change kw key v).filter (fun x => decide (x.1 ≠ "id")) = Kw.change (kw.filter (fun x => decide (x.1 ≠ "id"))) key v := by
  unfold Kw.change
  rw [List.filter_map]
  congr 1
  refine List.filter_congr fun x _ => ?_
  simp only [Function.comp]
  split_ifs with hx
  · rw [hx]
  · rfl

theorem only_bad {kw : Kw} {key : String} {v : Arg} (h : kw.lookup key = some v) {names : List String} (hn : key ∉ names) :
    kw.only names = .error .typeError := by
  unfold Kw.only
  rw [if_neg]
  intro hall
  rw [List.all_eq_true] at hall
  obtain ⟨l, r, e, -⟩ := List.lookup_eq_some_iff.1 h
  have := hall (key, v) (by rw [e]; simp)
  rw [decide_eq_true_eq] at this
  exact hn this

/-- The three Euclidean generators. -/
theorem euclidean_change (w : Samplers) (nv nc : ℤ) (kw : Kw) (v : Arg) {key pts : String} {l : List Point}
    (hk : (key = "voter_prob_distribution" ∧ pts = "voter_points") ∨ (key = "candidate_prob_distribution" ∧ pts = "candidate_points"))
    (h : kw.lookup pts = some (.points l)) :
    ∀ (r : Except Err ℚ) (args : ℚ → ℤ → List Point → List Point → SamplerArgs),
      (euclideanArgs (Kw.change kw key v)).bind (fun e => r.bind fun x =>
          euclideanWrapper w nv nc e.voterDist e.candDist e.voterPts e.candPts e.returnPoints (args x))
        = (euclideanArgs kw).bind (fun e => r.bind fun x =>
          euclideanWrapper w nv nc e.voterDist e.candDist e.voterPts e.candPts e.returnPoints (args x)) := by
  intro r args
  have hpts : kw.get pts (some .none) = .ok (.points l) := by
    unfold Kw.get
    rw [h]
  unfold euclideanArgs
  rcases hk with ⟨rfl, rfl⟩ | ⟨rfl, rfl⟩
  · rw [change_get_other kw v (k' := "candidate_prob_distribution") (by decide), change_get_other kw v (k' := "voter_points") (by decide),
      change_get_other kw v (k' := "candidate_points") (by decide), change_get_other kw v (k' := "return_points") (by decide), hpts]
    unfold Kw.get
    rw [change_lookup_self]
    cases kw.lookup "voter_prob_distribution" with
    | none => rfl
    | some x =>
      simp only [Option.map_some, bind, Except.bind]
      cases kw.lookup "candidate_prob_distribution" <;> cases kw.lookup "candidate_points" <;> cases kw.lookup "return_points" <;> rfl
  · rw [change_get_other kw v (k' := "voter_prob_distribution") (by decide), change_get_other kw v (k' := "voter_points") (by decide),
      change_get_other kw v (k' := "candidate_points") (by decide), change_get_other kw v (k' := "return_points") (by decide), hpts]
    unfold Kw.get
    rw [change_lookup_self]
    cases kw.lookup "voter_prob_distribution" with
    | none => rfl
    | some x =>
      simp only [bind, Except.bind]
      cases kw.lookup "candidate_prob_distribution" <;> cases kw.lookup "voter_points" <;> cases kw.lookup "return_points" <;> rfl

/-- **C74.** Points given by the user have precedence over a distribution given for the same side (contrary to the docstrings, which
say that the points are only used if the distribution is `None`): the outcome of `random_profile` does not depend on that distribution. -/
theorem C74_points_precedence (w : Samplers) (nv nc : ℤ) (dist : Kw) (v : Arg) (key pts : String) (l : List Point)
    (hk : (key = "voter_prob_distribution" ∧ pts = "voter_points") ∨ (key = "candidate_prob_distribution" ∧ pts = "candidate_points"))
    (h : dist.lookup pts = some (.points l)) :
    randomProfile w nv nc (Kw.change dist key v) = randomProfile w nv nc dist := by
  have hid : "id" ≠ key := by rcases hk with ⟨rfl, -⟩ | ⟨rfl, -⟩ <;> decide
  have hpid : pts ≠ "id" := by rcases hk with ⟨-, rfl⟩ | ⟨-, rfl⟩ <;> decide
  unfold randomProfile
  rw [change_lookup_other dist v hid, change_filter dist v hid.symm]
  have hkw : (dist.filter (fun x => decide (x.1 ≠ "id"))).lookup pts = some (.points l) := by
    rw [← h]
    clear h
    induction dist with
    | nil => rfl
    | cons x d ih =>
      rw [List.filter_cons]
      by_cases hx : x.1 = "id"
      · simp only [hx, ne_eq, not_true_eq_false, decide_false, Bool.false_eq_true, if_false]
        rw [ih, List.lookup_cons, show (pts == x.1) = false by rw [hx]; simpa using hpid]
      · simp only [hx, ne_eq, not_false_eq_true, decide_true, if_true]
        rw [List.lookup_cons, List.lookup_cons, ih]
  generalize dist.filter (fun x => decide (x.1 ≠ "id")) = kw at hkw ⊢
  have hnew : (Kw.change kw key v).lookup pts = some (.points l) := by
    rw [change_lookup_other kw v (by rcases hk with ⟨rfl, rfl⟩ | ⟨rfl, rfl⟩ <;> decide), hkw]
  cases hd : dist.lookup "id" with
  | none => rfl
  | some x =>
    cases x with
    | str id =>
      dsimp only
      cases hf : probabilityDistributions.lookup id with
      | none => rfl
      | some f =>
        dsimp only
        have hmem : (id, f) ∈ probabilityDistributions := by
          obtain ⟨a, b, e, -⟩ := List.lookup_eq_some_iff.1 hf
          rw [e]; simp
        have bad : ∀ {names : List String}, pts ∉ names → Kw.only kw names = .error .typeError := fun hn => only_bad hkw hn
        have bad' : ∀ {names : List String}, pts ∉ names → (Kw.change kw key v).only names = .error .typeError := fun hn => only_bad hnew hn
        have euc := euclidean_change w nv nc kw v hk hkw
        have getk : ∀ k' ∈ ["setsize", "threshold", "voter_radius", "candidate_radius"], ∀ d, (Kw.change kw key v).get k' d = Kw.get kw k' d := by
          intro k' hk' d
          refine change_get_other kw v (fun e => ?_) d
          subst e
          rcases hk with ⟨rfl, rfl⟩ | ⟨rfl, rfl⟩ <;> revert hk' <;> decide
        unfold probabilityDistributions at hmem
        simp only [List.mem_cons, List.not_mem_nil, or_false, Prod.mk.injEq] at hmem
        have hp : pts = "voter_points" ∨ pts = "candidate_points" := by
          rcases hk with ⟨-, h⟩ | ⟨-, h⟩
          · exact Or.inl h
          · exact Or.inr h
        rcases hmem with ⟨-, rfl⟩ | ⟨-, rfl⟩ | ⟨-, rfl⟩ | ⟨-, rfl⟩ | ⟨-, rfl⟩ | ⟨-, rfl⟩ | ⟨-, rfl⟩ | ⟨-, rfl⟩ | ⟨-, rfl⟩ | ⟨-, rfl⟩ |
          ⟨-, rfl⟩ | ⟨-, rfl⟩
        case _ => unfold icFixedSize; rw [bad (by rcases hp with rfl | rfl <;> decide), bad' (by rcases hp with rfl | rfl <;> decide)]; rfl
        case _ => unfold ic; rw [bad (by rcases hp with rfl | rfl <;> decide), bad' (by rcases hp with rfl | rfl <;> decide)]; rfl
        case _ => unfold mallows; rw [bad (by rcases hp with rfl | rfl <;> decide), bad' (by rcases hp with rfl | rfl <;> decide)]; rfl
        case _ => unfold urnFixedSize; rw [bad (by rcases hp with rfl | rfl <;> decide), bad' (by rcases hp with rfl | rfl <;> decide)]; rfl
        case _ => unfold urn; rw [bad (by rcases hp with rfl | rfl <;> decide), bad' (by rcases hp with rfl | rfl <;> decide)]; rfl
        case _ => unfold truncatedUrn; rw [bad (by rcases hp with rfl | rfl <;> decide), bad' (by rcases hp with rfl | rfl <;> decide)]; rfl
        case _ =>
          unfold euclideanVcr
          rw [change_only, getk "voter_radius" (by simp), getk "candidate_radius" (by simp)]
          simp only [bind]
          refine congrArg _ (funext fun _ => congrArg _ (funext fun x => congrArg _ (funext fun y => ?_)))
          exact euc (.ok 0) fun _ => _
        case _ =>
          unfold euclideanFixedSize
          rw [change_only, getk "setsize" (by simp)]
          simp only [bind]
          refine congrArg _ (funext fun _ => congrArg _ (funext fun x => ?_))
          exact euc (relSize x nc) _
        case _ =>
          unfold euclideanThreshold
          rw [change_only, getk "threshold" (by simp)]
          simp only [bind]
          refine congrArg _ (funext fun _ => congrArg _ (funext fun x => ?_))
          exact euc (.ok 0) fun _ => _
        case _ => unfold resampling; rw [bad (by rcases hp with rfl | rfl <;> decide), bad' (by rcases hp with rfl | rfl <;> decide)]; rfl
        case _ => unfold disjointResampling; rw [bad (by rcases hp with rfl | rfl <;> decide), bad' (by rcases hp with rfl | rfl <;> decide)]; rfl
        case _ => unfold Generate.noise; rw [bad (by rcases hp with rfl | rfl <;> decide), bad' (by rcases hp with rfl | rfl <;> decide)]; rfl
    | _ => rfl

/-- **C74.** With `return_points`, the returned points are exactly the positions from which the approval sets were computed;
without it no points are returned. -/
theorem C74_return_points (w : Samplers) (nv nc : ℤ) (dist : Kw) (g : Generated) (h : randomProfile w nv nc dist = .ok g) :
    ∀ vs cs, g.points = some (vs, cs) →
      ∃ args dims samples, w.sample nv nc args = .ok samples ∧ MadeOf nc samples g.profile ∧
        ((∃ r, args = .euclideanConstantSize r dims vs cs) ∨ (∃ t, args = .euclideanThreshold t dims vs cs) ∨
          ∃ a b, args = .euclideanVcr a b dims vs cs) := by
  intro vs cs hp
  obtain ⟨id, args, samples, h1, h2, h3, h4, h5⟩ := C73_profile w nv nc dist g h
  rw [hp] at h2
  have hpts : ∀ {dims vs' cs'}, Euclid w nv nc dist dims vs' cs' (some (vs, cs)) → vs' = vs ∧ cs' = cs := by
    intro dims vs' cs' he
    obtain ⟨_, _, _, _, rp, _, _, -, -, -, -, -, -, -, -, -, hr⟩ := he.exists_args
    by_cases hf : IsFalse rp
    · exact absurd (hr.1 hf) (by simp)
    · injection hr.2 hf with hr
      injection hr with h1 h2
      exact ⟨h1.symm, h2.symm⟩
  cases h2 with
  | euclideanFixedSize s' dims vs' cs' _ g1 g2 g3 g4 =>
    obtain ⟨rfl, rfl⟩ := hpts g4
    exact ⟨_, dims, samples, h3, h5, Or.inl ⟨_, rfl⟩⟩
  | euclideanThreshold t dims vs' cs' _ g1 g2 g4 =>
    obtain ⟨rfl, rfl⟩ := hpts g4
    exact ⟨_, dims, samples, h3, h5, Or.inr (Or.inl ⟨_, rfl⟩)⟩
  | euclideanVcr a b dims vs' cs' _ g1 g2 g3 g4 =>
    obtain ⟨rfl, rfl⟩ := hpts g4
    exact ⟨_, dims, samples, h3, h5, Or.inr (Or.inr ⟨_, _, rfl⟩)⟩

/-! ## Concrete cases -/

/-- A sampler that lets every voter approve candidates 0 and 1, resp. as many candidates as `rel` says; positions at the origin. -/
def exampleSamplers : Samplers where
  sample := fun nv nc args => match args with
    | .impartialConstantSize rel => .ok (List.replicate nv.toNat ((List.range (rel * nc).num.toNat).map Int.ofNat))
    | _ => .ok (List.replicate nv.toNat [1, 0])
  positions := fun nv nc _ _ _ => .ok (List.replicate nv.toNat [0], List.replicate nc.toNat [1])
  points := fun _ n => .ok (List.replicate n [0])
  random := 1 / 3
  intOf := fun s => if s = ['1'] then some 1 else if s = ['2'] then some 2 else if s = ['3'] then some 3 else none

example : randomProfile exampleSamplers 2 3 [("id", .str "IC fixed-size"), ("setsize", .num 2)] =
    .ok ⟨⟨3, [⟨[0, 1], 1⟩, ⟨[0, 1], 1⟩], [['0'], ['1'], ['2']]⟩, none⟩ := by decide +kernel

example : randomProfile exampleSamplers 1 2 [("id", .str "Disjoint Resampling"), ("p", .num (1 / 2))] =
    .ok ⟨⟨2, [⟨[0, 1], 1⟩], [['0'], ['1']]⟩, none⟩ := by decide +kernel

example : randomProfile exampleSamplers 1 1 [("id", .str "IC")] = .error .valueError := by decide +kernel

example : randomProfile exampleSamplers 1 1 [("id", .str "Noise"), ("p", .num 1), ("phi", .num 1), ("distance", .str "l2")] =
    .error .valueError := by decide +kernel

def exampleDist : PointDist := ⟨"1d_interval".toList, 1, [1 / 2], 15 / 100, 1⟩

example : mkPointDist exampleSamplers "1d_interval".toList = .ok exampleDist := by decide +kernel

example : randomProfile exampleSamplers 1 2 [("id", .str "Euclidean Threshold"), ("threshold", .num 2),
      ("voter_prob_distribution", .dist exampleDist), ("candidate_prob_distribution", .none), ("return_points", .bool true)] =
    .ok ⟨⟨2, [⟨[0, 1], 1⟩], [['0'], ['1']]⟩, some ([[0]], [[1], [1]])⟩ := by decide +kernel

/-- The fraction `rel_num_approvals` of a sampler call, if it has one. -/
def SamplerArgs.rel? : SamplerArgs → Option ℚ
  | .impartialConstantSize r => some r
  | .urnConstantSize r _ => some r
  | .truncatedOrdinal r _ => some r
  | .euclideanConstantSize r _ _ _ => some r
  | _ => none

/-- A library that meets the hypotheses of `C73_setsize`: it draws the first `rel · num_candidates` candidates for every voter. -/
def exactSamplers : Samplers :=
  { exampleSamplers with
    sample := fun nv nc args =>
      if 0 ≤ nv ∧ 0 ≤ args.rel?.getD 0 * nc ∧ (args.rel?.getD 0 * nc).den = 1 then
        .ok (List.replicate nv.toNat ((List.range (args.rel?.getD 0 * nc).num.toNat).map Int.ofNat))
      else .error .valueError }

theorem exactSamplers_exact (nv nc : ℤ) :
    (∀ args samples, exactSamplers.sample nv nc args = .ok samples → (samples.length : ℤ) = nv) ∧
    (∀ args samples rel, exactSamplers.sample nv nc args = .ok samples →
      (args = .impartialConstantSize rel ∨ (∃ a, args = .urnConstantSize rel a) ∨ (∃ o, args = .truncatedOrdinal rel o) ∨
        ∃ d vs cs, args = .euclideanConstantSize rel d vs cs) →
      ∀ x ∈ samples, (x.length : ℚ) = rel * nc) := by
  constructor
  · intro args samples h
    simp only [exactSamplers] at h
    split at h
    · rename_i hc
      obtain rfl := Except.ok.inj h
      simp only [List.length_replicate]
      omega
    · exact absurd h (by simp)
  · intro args samples rel h hargs x hx
    have hr : args.rel? = some rel := by
      rcases hargs with rfl | ⟨_, rfl⟩ | ⟨_, rfl⟩ | ⟨_, _, _, rfl⟩ <;> rfl
    simp only [exactSamplers, hr, Option.getD_some] at h
    split at h
    · rename_i hc
      obtain rfl := Except.ok.inj h
      obtain rfl := List.eq_of_mem_replicate hx
      simp only [List.length_map, List.length_range]
      have h0 : 0 ≤ (rel * nc).num := Rat.num_nonneg.2 hc.2.1
      have h1 : (((rel * nc).num.toNat : ℤ) : ℚ) = (rel * nc).num := by rw [Int.toNat_of_nonneg h0]
      have h2 : ((rel * nc).num : ℚ) = rel * nc := by
        conv_rhs => rw [← Rat.num_div_den (rel * nc), hc.2.2]
        simp
      rw [← h2, ← h1]
      norm_cast
    · exact absurd h (by simp)

example : randomProfile exactSamplers 2 3 [("id", .str "Truncated Urn"), ("setsize", .num 2), ("replace", .num 1)] =
    .ok ⟨⟨3, [⟨[0, 1], 1⟩, ⟨[0, 1], 1⟩], [['0'], ['1'], ['2']]⟩, none⟩ := by decide +kernel

end Abc.Generate
