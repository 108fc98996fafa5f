import Verif.Lemmas.DomainPatterns

/-! # What `DeleteLink` in a pattern domain does not touch -/

namespace Fastac

namespace DM

theorem mapSubs_get {f : DM → Res DM} {p : Str → Bool} : ∀ {subs r : GoMap Str DM},
    mapSubs f p subs = .ok r → ∀ d, p d = false → r.get d = subs.get d
  | [], r, h, d, _ => by
    cases h; rfl
  | (k, s) :: rest, r, h, d, hd => by
    rw [mapSubs] at h
    split at h
    · rename_i hk
      cases e : f s with
      | err => rw [e] at h; cases h
      | panic => rw [e] at h; cases h
      | ok s' =>
        rw [e] at h
        cases e2 : mapSubs f p rest with
        | err => rw [e2] at h; cases h
        | panic => rw [e2] at h; cases h
        | ok r' =>
          rw [e2] at h
          cases h
          have := mapSubs_get e2 d hd
          simp only [GoMap.get]
          split
          · rename_i e3; subst e3; rw [hk] at hd; cases hd
          · exact this
    · cases e2 : mapSubs f p rest with
      | err => rw [e2] at h; cases h
      | panic => rw [e2] at h; cases h
      | ok r' =>
        rw [e2] at h
        cases h
        have := mapSubs_get e2 d hd
        simp only [GoMap.get]
        split
        · rfl
        · exact this

/-- Two managers that look the same from domain `d`. -/
structure SameFor (d : Str) (dm dm' : DM) : Prop where
  level : dm'.level = dm.level
  matcher : dm'.matcher = dm.matcher
  domMatcher : dm'.domMatcher = dm.domMatcher
  sub : dm'.subs.get d = dm.subs.get d
  pats : ∀ m, dm.domMatcher = some m → dm'.matchingPatterns m d = dm.matchingPatterns m d
  links : ∀ m, dm.domMatcher = some m → ∀ p ∈ dm.matchingPatterns m d, dm'.linksOf p = dm.linksOf p

theorem patternLinks_congr {dm dm' : DM} : ∀ (ps : List Str), (∀ p ∈ ps, dm'.linksOf p = dm.linksOf p) →
    dm'.patternLinks ps = dm.patternLinks ps
  | [], _ => rfl
  | p :: ps, h => by
    rw [patternLinks, patternLinks, h p (by simp), patternLinks_congr ps (fun q hq => h q (by simp [hq]))]

theorem SameFor.getSub {d : Str} {dm dm' : DM} (h : SameFor d dm dm')
    (add : DM → Str → Str → List Str → Res (DM × Bool)) :
    (getSub add dm' d).map (·.2) = (getSub add dm d).map (·.2) := by
  unfold DM.getSub
  rw [h.sub, h.level, h.matcher, h.domMatcher]
  cases e : dm.subs.get d with
  | some s => rfl
  | none =>
    simp only
    unfold newDomain
    rw [h.domMatcher]
    cases em : dm.domMatcher with
    | none => rfl
    | some m =>
      simp only
      split
      · simp
      · rw [h.pats m em, patternLinks_congr _ (h.links m em)]
        cases dm.patternLinks (dm.matchingPatterns m d) with
        | err => rfl
        | panic => rfl
        | ok ls =>
          simp only [Res.map_ok, Res.bind_ok]
          generalize List.foldl _ _ _ = x
          cases x <;> rfl

theorem SameFor.query {β : Type} {d : Str} {dm dm' : DM} (h : SameFor d dm dm') (hd : d ≠ redundantRole)
    (hd' : d ≠ defaultDomain) (q : RM → RM × β) (fuel : Nat) (π : List Str) :
    (DM.query q fuel dm' (d :: π)).map (·.2) = (DM.query q fuel dm (d :: π)).map (·.2) := by
  cases fuel with
  | zero => rfl
  | succ fuel =>
    rw [DM.query, DM.query]
    have e : getDomain (d :: π) = (some d, π) := by simp [getDomain, hd, hd']
    simp only [e]
    have hs := h.getSub (addLink fuel)
    cases e1 : DM.getSub (addLink fuel) dm' d <;> cases e2 : DM.getSub (addLink fuel) dm d <;>
      rw [e1, e2] at hs <;> simp only [Res.map_ok, Res.map_err, Res.map_panic, Res.ok.injEq] at hs <;>
      first | (cases hs; rfl) | (cases hs; done) | skip
    rename_i x y
    obtain ⟨x1, x2⟩ := x
    obtain ⟨y1, y2⟩ := y
    simp only at hs
    subst hs
    simp only [Res.bind_ok]
    cases DM.query q fuel x2 π <;> rfl

theorem One.delete_frame {m : PMatcher} {mm : Option PMatcher} {L : Nat}
    {H : List (Str × Str × List Str)} {dm : DM} (h : One m mm L H dm)
    {V : Str → Prop} (hf : m.FlatOn V) (hV : ∀ u r n, (u, r, [n]) ∈ H → V n)
    (hd : m.isPattern defaultDomain = false) (fuel : Nat) (u r x : Str) (hc : Clean [x]) (hVx : V x)
    (d : Str) (hdx : d ≠ x) (hdm : m.isPattern x = true → m.match d x = false)
    {dm' : DM} {b : Bool} (e : DM.deleteLink (fuel + 2) dm u r [x] = .ok (dm', b)) : SameFor d dm dm' := by
  have hx := hc x (by simp)
  rw [DM.deleteLink] at e
  have eg : getDomain [x] = (some x, []) := by simp [getDomain, hx.1, hx.2]
  simp only [eg] at e
  obtain ⟨⟨dm1, s⟩, e1, hl, hn, h1⟩ := h.getSub hf hV hd fuel x hVx
  simp only [e1, Res.bind_ok] at e
  simp only at h1
  cases e2 : DM.deleteLink (fuel + 1) s u r [] with
  | err => rw [e2] at e; cases e
  | panic => rw [e2] at e; cases e
  | ok y =>
    obtain ⟨s', b'⟩ := y
    rw [e2] at e
    simp only [Res.bind_ok] at e
    have hsubs : dm1.subs = dm.subs := by
      rcases h1 with ⟨rfl, _⟩ | ⟨rfl, _⟩ <;> rfl
    have hfix : dm1.level = dm.level ∧ dm1.matcher = dm.matcher ∧ dm1.domMatcher = dm.domMatcher := by
      rcases h1 with ⟨rfl, _⟩ | ⟨rfl, _⟩ <;> exact ⟨rfl, rfl, rfl⟩
    -- patterns that match `d`
    have hpat : dm1.matchingPatterns m d = dm.matchingPatterns m d := by
      rcases h1 with ⟨rfl, _⟩ | ⟨rfl, hp⟩
      · rfl
      · show List.filter _ (sins dm.patterns x) = List.filter _ dm.patterns
        unfold sins
        split
        · rfl
        · rw [List.filter_append]
          simp [hdm hp]
    -- keys other than `x` that do not match `x`
    have hget : ∀ k, k ≠ x → (m.isPattern x = true → m.match k x = false) →
        dm'.subs.get k = dm.subs.get k := by
      intro k hk hkm
      unfold propagate at e
      have hdmm : (dm1.setSub x s').domMatcher = some m := by
        show dm1.domMatcher = _
        rw [hfix.2.2, h.domMatcher]
      have hset : (dm1.setSub x s').subs.get k = dm.subs.get k := by
        show (dm1.subs.set x s').get k = _
        rw [GoMap.get_set, hsubs, if_neg (fun e => hk e.symm)]
      rw [hdmm] at e
      simp only at e
      split at e
      · rename_i hp
        unfold forMatching at e
        cases e3 : mapSubs (fun s => (DM.deleteLink (fuel + 1) s u r ([] ++ [redundantRole])).map (·.1))
            (fun d => decide (x ≠ d) && m.match d x) (dm1.setSub x s').subs with
        | err => simp only [e3] at e; cases e
        | panic => simp only [e3] at e; cases e
        | ok subs' =>
          simp only [e3] at e
          cases e
          rw [← hset]
          exact mapSubs_get e3 k (by simp [hkm hp])
      · cases e
        exact hset
    have hrest : dm'.level = dm1.level ∧ dm'.matcher = dm1.matcher ∧ dm'.domMatcher = dm1.domMatcher ∧
        dm'.patterns = dm1.patterns := by
      unfold propagate at e
      have hdmm : (dm1.setSub x s').domMatcher = some m := by
        show dm1.domMatcher = _
        rw [hfix.2.2, h.domMatcher]
      rw [hdmm] at e
      simp only at e
      split at e
      · unfold forMatching at e
        cases e3 : mapSubs (fun s => (DM.deleteLink (fuel + 1) s u r ([] ++ [redundantRole])).map (·.1))
            (fun d => decide (x ≠ d) && m.match d x) (dm1.setSub x s').subs with
        | err => simp only [e3] at e; cases e
        | panic => simp only [e3] at e; cases e
        | ok subs' =>
          simp only [e3] at e
          cases e
          exact ⟨rfl, rfl, rfl, rfl⟩
      · cases e
        exact ⟨rfl, rfl, rfl, rfl⟩
    refine ⟨hrest.1.trans hfix.1, hrest.2.1.trans hfix.2.1, hrest.2.2.1.trans hfix.2.2,
      hget d hdx hdm, ?_, ?_⟩
    · intro m' hm'
      rw [h.domMatcher] at hm'
      cases hm'
      rw [← hpat]
      unfold matchingPatterns
      rw [hrest.2.2.2]
    · intro m' hm' p hp
      rw [h.domMatcher] at hm'
      cases hm'
      unfold matchingPatterns at hp
      rw [List.mem_filter] at hp
      have hpp := (h.pats p).1 hp.1
      obtain ⟨t, ht⟩ := Option.isSome_iff_exists.1 hpp.2
      have hne : p ≠ defaultDomain := h.names _ (GoMap.mem_of_get ht)
      have hmd : m.match d p = true := by
        have := hp.2
        simp only [Bool.and_eq_true] at this
        exact this.2
      have hpx : p ≠ x := by
        rintro rfl
        rw [hdm hpp.1] at hmd; cases hmd
      unfold linksOf
      rw [if_neg hne, if_neg hne, hget p hpx (fun hx' => by
        obtain ⟨_, _, hk⟩ := h.keys p hpp.2
        exact hf p x (hV _ _ _ hk) hVx hpp.1 hx' hpx)]

end DM

end Fastac
