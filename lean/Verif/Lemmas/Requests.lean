import Verif.Lemmas.Changes
import Verif.Lemmas.Context

/-!
# What no request changes

Nothing here supposes that the state can be reached, that the library follows any rules, or that a request succeeds.
-/

namespace Fastac

/-! ## Role managers -/

namespace RM

/-- The links of `rm'` are those of `rm`, listed in the same order; `rm'` may have further names. -/
structure Lists (rm rm' : RM) : Prop where
  roles : ∀ n ∈ rm.names, (rm'.obj n).roles = (rm.obj n).roles
  redundant : ∀ n ∈ rm.names, (rm'.obj n).redundant = (rm.obj n).redundant

theorem Lists.refl (rm : RM) : rm.Lists rm := ⟨fun _ _ => rfl, fun _ _ => rfl⟩

theorem Lists.runs {rm rm' : RM} (h : rm.Lists rm') (hn : rm'.names = rm.names) :
    (Mgr.rm rm').runs = (Mgr.rm rm).runs := by
  simp only [Mgr.runs, hn]
  apply List.map_congr_left
  intro n hm
  rw [h.roles n hm, h.redundant n hm]

theorem addMatch_fields (obj : Str → Role) (p r n : Str) : (addMatch obj p r n).roles = (obj n).roles ∧
    (addMatch obj p r n).redundant = (obj n).redundant := by
  unfold addMatch updRole
  by_cases h1 : n = r <;> by_cases h2 : n = p <;> simp [h1, h2]
  all_goals split <;> simp_all

theorem removeMatch_fields (obj : Str → Role) (p r n : Str) : (removeMatch obj p r n).roles = (obj n).roles ∧
    (removeMatch obj p r n).redundant = (obj n).redundant := by
  unfold removeMatch updRole
  by_cases h1 : n = r <;> by_cases h2 : n = p <;> simp [h1, h2]
  all_goals split <;> simp_all

theorem foldl_fields {α : Type} (f : (Str → Role) → α → Str → Role)
    (hf : ∀ obj a n, (f obj a n).roles = (obj n).roles ∧ (f obj a n).redundant = (obj n).redundant) :
    ∀ (l : List α) (obj : Str → Role) (n : Str), (l.foldl f obj n).roles = (obj n).roles ∧
      (l.foldl f obj n).redundant = (obj n).redundant
  | [], _, _ => ⟨rfl, rfl⟩
  | a :: l, obj, n => by
    have ih := foldl_fields f hf l (f obj a) n
    exact ⟨ih.1.trans (hf obj a n).1, ih.2.trans (hf obj a n).2⟩

theorem getRole_lists (rm : RM) (n : Str) :
    ((rm.getRole n).2 = false → (rm.getRole n).1 = rm) ∧
    ((rm.getRole n).2 = true → n ∉ rm.names ∧ (rm.getRole n).1.names = rm.names ++ [n]) ∧
    rm.Lists (rm.getRole n).1 := by
  by_cases hn : n ∈ rm.names
  · have e : rm.getRole n = (rm, false) := by unfold getRole; rw [if_pos hn]
    rw [e]
    exact ⟨fun _ => rfl, fun h => (by cases h), .refl rm⟩
  · have hu : ∀ k ∈ rm.names, updRole rm.obj n (fun _ => {}) k = rm.obj k := by
      intro k hk
      unfold updRole
      rw [if_neg (by rintro rfl; exact hn hk)]
    have key : ∃ obj ps, rm.getRole n = ({ rm with names := rm.names ++ [n], obj := obj, patterns := ps }, true) ∧
        ∀ k, (obj k).roles = (updRole rm.obj n (fun _ => {}) k).roles ∧
          (obj k).redundant = (updRole rm.obj n (fun _ => {}) k).redundant := by
      unfold getRole
      rw [if_neg hn]
      cases hm : rm.matcher with
      | none => exact ⟨updRole rm.obj n (fun _ => {}), rm.patterns, by simp, fun k => ⟨rfl, rfl⟩⟩
      | some m =>
        simp only
        by_cases hp : m.isPattern n = true
        · rw [if_pos hp]
          exact ⟨_, _, rfl, fun k => foldl_fields _ (fun o a x => addMatch_fields o n a x) _ _ k⟩
        · rw [if_neg hp]
          exact ⟨_, _, rfl, fun k => foldl_fields _ (fun o a x => addMatch_fields o a n x) _ _ k⟩
    obtain ⟨obj, ps, e, hf⟩ := key
    rw [e]
    refine ⟨fun h => (by cases h), fun _ => ⟨hn, rfl⟩, fun k hk => ?_, fun k hk => ?_⟩
    · rw [← hu k hk]; exact (hf k).1
    · rw [← hu k hk]; exact (hf k).2

theorem removeRole_fields (rm : RM) (n k : Str) (hk : k ≠ n) :
    ((rm.removeRole n).obj k).roles = (rm.obj k).roles ∧ ((rm.removeRole n).obj k).redundant = (rm.obj k).redundant := by
  unfold removeRole
  split
  · have hu : ∀ obj : Str → Role, updRole obj n (fun _ => {}) k = obj k := fun obj => by
      unfold updRole; rw [if_neg hk]
    simp only [hu]
    have h1 := foldl_fields _ (fun o a x => removeMatch_fields o n a x) (rm.obj n).matched rm.obj k
    generalize List.foldl (fun o k => removeMatch o n k) rm.obj (rm.obj n).matched = obj at h1
    have h2 := foldl_fields _ (fun o a x => removeMatch_fields o a n x) (obj n).matchedBy obj k
    exact ⟨h2.1.trans h1.1, h2.2.trans h1.2⟩
  · exact ⟨rfl, rfl⟩

theorem sdel_self {names : List Str} {n : Str} (h : n ∉ names) : sdel (names ++ [n]) n = names := by
  unfold sdel
  rw [List.filter_append, List.filter_eq_self.2]
  · simp
  · intro k hk
    simp only [decide_eq_true_eq, ne_eq]
    rintro rfl; exact h hk

theorem removeRole_names (rm : RM) {names : List Str} {n : Str} (h : n ∉ names) (hn : rm.names = names ++ [n]) :
    (rm.removeRole n).names = names := by
  unfold removeRole
  rw [if_pos (by rw [hn]; simp)]
  simp only [hn]
  exact sdel_self h

/-- A role created for a question is removed again. -/
theorem lists_back {rm rm1 : RM} {n : Str} (created : Bool)
    (h1 : created = false → rm1.names = rm.names) (h2 : created = true → n ∉ rm.names ∧ rm1.names = rm.names ++ [n])
    (h3 : rm.Lists rm1) :
    (if created then rm1.removeRole n else rm1).names = rm.names ∧
      rm.Lists (if created then rm1.removeRole n else rm1) := by
  cases created with
  | false => exact ⟨h1 rfl, h3⟩
  | true =>
    obtain ⟨hn, hs⟩ := h2 rfl
    refine ⟨removeRole_names rm1 hn hs, fun k hk => ?_, fun k hk => ?_⟩
    · have := removeRole_fields rm1 n k (by rintro rfl; exact hn hk)
      exact this.1.trans (h3.roles k hk)
    · have := removeRole_fields rm1 n k (by rintro rfl; exact hn hk)
      exact this.2.trans (h3.redundant k hk)

theorem hasLink_lists (rm : RM) (u r : Str) : (rm.hasLink u r).1.names = rm.names ∧ rm.Lists (rm.hasLink u r).1 := by
  unfold hasLink
  split
  · exact ⟨rfl, .refl rm⟩
  · obtain ⟨a1, a2, a3⟩ := getRole_lists rm u
    simp only
    generalize rm.getRole u = x at a1 a2 a3
    obtain ⟨rm1, uc⟩ := x
    simp only at a1 a2 a3 ⊢
    obtain ⟨b1, b2, b3⟩ := getRole_lists rm1 r
    generalize rm1.getRole r = y at b1 b2 b3
    obtain ⟨rm2, rc⟩ := y
    simp only at b1 b2 b3 ⊢
    obtain ⟨c1, c2⟩ := lists_back rc (fun h => by rw [b1 h]) b2 b3
    generalize (if rc = true then rm2.removeRole r else rm2) = rm3 at c1 c2
    have hsub : ∀ k ∈ rm.names, k ∈ rm1.names := by
      intro k hk
      cases uc with
      | false => rw [a1 rfl]; exact hk
      | true => rw [(a2 rfl).2]; simp [hk]
    exact lists_back uc (fun h => by rw [c1, a1 h]) (fun h => ⟨(a2 h).1, by rw [c1, (a2 h).2]⟩)
      ⟨fun k hk => (c2.roles k (hsub k hk)).trans (a3.roles k hk),
        fun k hk => (c2.redundant k (hsub k hk)).trans (a3.redundant k hk)⟩

theorem hasLink_runs (rm : RM) (u r : Str) : (Mgr.rm (rm.hasLink u r).1).runs = (Mgr.rm rm).runs :=
  (hasLink_lists rm u r).2.runs (hasLink_lists rm u r).1

theorem links_runs (rm : RM) : rm.links.map (fun l => (l.1, l.2, ([] : List Str))) = (Mgr.rm rm).runs.flatten := by
  simp [links, Mgr.runs, List.flatMap_def, List.map_flatten, List.map_map, Function.comp_def]

end RM

/-! ## Domain managers -/

namespace DM

theorem range_setPatterns (dm : DM) (ps : List Str) : (dm.setPatterns ps).range = dm.range := by cases dm; rfl

theorem newDomain_range {dm dm1 : DM} {d : Str} {ls : List (Str × Str × List Str)} (h : dm.newDomain d = .ok (dm1, ls)) :
    dm1.range = dm.range := by
  unfold newDomain at h
  cases hm : dm.domMatcher with
  | none => rw [hm] at h; cases h; rfl
  | some m =>
    rw [hm] at h
    simp only at h
    split at h
    · cases h; exact range_setPatterns _ _
    · cases hp : dm.patternLinks (dm.matchingPatterns m d) with
      | ok x => rw [hp] at h; cases h; rfl
      | err => rw [hp] at h; cases h
      | panic => rw [hp] at h; cases h

theorem getDefault_range {dm dm1 : DM} {rm : RM} (h : dm.getDefault = .ok (dm1, rm)) :
    dm1.range = dm.range ∧ (dm.dflt.isSome = true → dm1 = dm ∧ dm.dflt = some rm) := by
  unfold getDefault at h
  cases hd : dm.dflt with
  | some rm' => rw [hd] at h; cases h; exact ⟨rfl, fun _ => ⟨rfl, rfl⟩⟩
  | none =>
    rw [hd] at h
    simp only at h
    cases hn : dm.newDomain defaultDomain with
    | ok x =>
      rw [hn] at h; cases h
      exact ⟨newDomain_range hn, fun h => by cases h⟩
    | err => rw [hn] at h; cases h
    | panic => rw [hn] at h; cases h

theorem getSub_range {add : DM → Str → Str → List Str → Res (DM × Bool)} {dm dm1 s : DM} {d : Str}
    (h : getSub add dm d = .ok (dm1, s)) :
    dm1.range = dm.range ∧ ((dm.subs.get d).isSome = true → dm1 = dm ∧ dm.subs.get d = some s) := by
  unfold getSub at h
  cases hd : dm.subs.get d with
  | some s' => rw [hd] at h; cases h; exact ⟨rfl, fun _ => ⟨rfl, rfl⟩⟩
  | none =>
    rw [hd] at h
    simp only at h
    cases hn : dm.newDomain d with
    | ok x =>
      rw [hn] at h
      simp only [Res.bind] at h
      refine ⟨?_, fun h => by cases h⟩
      have := newDomain_range hn
      generalize List.foldl _ _ x.2 = y at h
      cases y with
      | ok z => cases h; exact this
      | err => cases h
      | panic => cases h
    | err => rw [hn] at h; cases h
    | panic => rw [hn] at h; cases h

theorem rangeSubs_set {d : Str} {s s' : DM} (hr : s'.range = s.range) : ∀ (subs : GoMap Str DM), subs.get d = some s →
    rangeSubs (subs.set d s') = rangeSubs subs
  | [], h => by cases h
  | (e, t) :: subs, h => by
    unfold GoMap.set
    unfold GoMap.get at h
    split
    · rename_i he
      rw [if_pos he] at h
      cases h
      simp only [rangeSubs, hr, he]
    · rename_i he
      rw [if_neg he] at h
      simp only [rangeSubs, rangeSubs_set hr subs h]

theorem range_setSub {dm s s' : DM} {d : Str} (h : dm.subs.get d = some s) (hr : s'.range = s.range) :
    (dm.setSub d s').range = dm.range := by
  cases dm
  simp only [setSub, range, dflt, subs] at h ⊢
  rw [rangeSubs_set hr _ h]

theorem range_setDflt {dm : DM} {rm rm' : RM} (h : dm.dflt = some rm) (hr : rm'.links = rm.links) :
    (dm.setDflt rm').range = dm.range := by
  cases dm
  simp only [dflt] at h
  subst h
  simp only [setDflt, range, dfltLinks, subs, hr]

/-- A question leaves the links of a domain manager. -/
theorem query_range {β : Type} (q : RM → RM × β) (hq : ∀ rm, (q rm).1.links = rm.links) :
    ∀ (fuel : Nat) (dm : DM) (ds : List Str) (dm' : DM) (b : β), query q fuel dm ds = .ok (dm', b) → dm'.range = dm.range
  | 0, _, _, _, _, h => by cases h
  | fuel + 1, dm, ds, dm', b, h => by
    simp only [query] at h
    generalize getDomain ds = x at h
    obtain ⟨domain, sub⟩ := x
    cases domain with
    | none =>
      simp only at h
      cases hg : dm.getDefault with
      | err => rw [hg] at h; cases h
      | panic => rw [hg] at h; cases h
      | ok y =>
        obtain ⟨dm1, rm⟩ := y
        rw [hg] at h
        simp only [Res.map, Res.ok.injEq, Prod.mk.injEq] at h
        obtain ⟨h1, h2⟩ := getDefault_range hg
        obtain ⟨rfl, -⟩ := h
        split
        · rename_i hs
          obtain ⟨rfl, h3⟩ := h2 hs
          exact range_setDflt h3 (hq rm)
        · exact h1
    | some d =>
      simp only at h
      cases hg : getSub (addLink fuel) dm d with
      | err => rw [hg] at h; cases h
      | panic => rw [hg] at h; cases h
      | ok y =>
        obtain ⟨dm1, s⟩ := y
        rw [hg] at h
        simp only [Res.bind] at h
        obtain ⟨h1, h2⟩ := getSub_range hg
        cases hs : query q fuel s sub with
        | err => rw [hs] at h; cases h
        | panic => rw [hs] at h; cases h
        | ok z =>
          obtain ⟨s', b'⟩ := z
          rw [hs] at h
          simp only [Res.map, Res.ok.injEq, Prod.mk.injEq] at h
          obtain ⟨rfl, -⟩ := h
          have ih := query_range q hq fuel s sub s' b' hs
          split
          · rename_i hi
            obtain ⟨rfl, h3⟩ := h2 hi
            exact range_setSub h3 ih
          · exact h1

end DM

/-- A question leaves what `Range` of the manager reports, in its order. -/
theorem Mgr.hasLink_runs {mgr mgr' : Mgr} {u r : Str} {ds : List Str} {b : Bool}
    (h : mgr.hasLink u r ds = .ok (mgr', b)) : mgr'.runs = mgr.runs := by
  cases mgr with
  | rm m =>
    simp only [Mgr.hasLink, Res.ok.injEq, Prod.mk.injEq] at h
    obtain ⟨rfl, -⟩ := h
    exact RM.hasLink_runs m u r
  | dm d =>
    simp only [Mgr.hasLink] at h
    cases hq : d.hasLink (d.fuelFor ds) u r ds with
    | err => rw [hq] at h; cases h
    | panic => rw [hq] at h; cases h
    | ok x =>
      obtain ⟨d', b'⟩ := x
      rw [hq] at h
      simp only [Res.map, Res.ok.injEq, Prod.mk.injEq] at h
      obtain ⟨rfl, -⟩ := h
      have hl : ∀ rm : RM, (rm.hasLink u r).1.links = rm.links := by
        intro rm
        have h1 := (RM.links_runs (rm.hasLink u r).1).trans
          ((congrArg List.flatten (RM.hasLink_runs rm u r)).trans (RM.links_runs rm).symm)
        refine (List.map_inj_right ?_).1 h1
        rintro ⟨a, b⟩ ⟨c, d⟩ h
        simp only [Prod.mk.injEq, and_true] at h
        rw [h.1, h.2]
      simp only [Mgr.runs, DM.query_range _ hl _ _ _ _ _ hq]

/-! ## Models -/

namespace GoMap

theorem map_set_same {K V W : Type} [DecidableEq K] (f : V → W) {k : K} {v v' : V} (hf : f v' = f v) :
    ∀ m : GoMap K V, m.get k = some v → (m.set k v').map (fun e => (e.1, f e.2)) = m.map (fun e => (e.1, f e.2))
  | [], h => by cases h
  | (k0, v0) :: m, h => by
    unfold GoMap.set
    unfold GoMap.get at h
    split
    · rename_i he
      rw [if_pos he] at h
      cases h
      simp [hf, he]
    · rename_i he
      rw [if_neg he] at h
      simp [map_set_same f hf m h]

theorem get_of_map {K V W : Type} [DecidableEq K] (f : V → W) (k : K) :
    ∀ m m' : GoMap K V, m'.map (fun e => (e.1, f e.2)) = m.map (fun e => (e.1, f e.2)) →
      (m'.get k).map f = (m.get k).map f
  | [], [], _ => rfl
  | [], _ :: _, h => by cases h
  | _ :: _, [], h => by cases h
  | (k0, v0) :: m, (k1, v1) :: m', h => by
    simp only [List.map_cons, List.cons.injEq, Prod.mk.injEq] at h
    obtain ⟨⟨rfl, hv⟩, ht⟩ := h
    unfold GoMap.get
    split
    · simp [hv]
    · exact get_of_map f k m m' ht

end GoMap

namespace Model

/-- Same policies in the same order, same definitions; matchers may have been added. -/
structure Holds (m m' : Model) : Prop where
  pol : m'.pMap.map (fun e => (e.1, e.2.policy)) = m.pMap.map (fun e => (e.1, e.2.policy))
  role : m'.rpMap.map (fun e => (e.1, e.2.runs)) = m.rpMap.map (fun e => (e.1, e.2.runs))
  rDefs : m'.rDefs = m.rDefs
  pDefs : m'.pDefs = m.pDefs
  gDefs : m'.gDefs = m.gDefs
  eDefs : m'.eDefs = m.eDefs
  mDefs : m'.mDefs = m.mDefs
  mMap : m'.mMap = m.mMap
  lp : ∀ k p, m.pMap.get k = some p → ∃ p', m'.pMap.get k = some p' ∧ p.listeners <+: p'.listeners
  lg : ∀ k p, m.rpMap.get k = some p → ∃ p', m'.rpMap.get k = some p' ∧ p.listeners <+: p'.listeners

theorem Holds.refl (m : Model) : m.Holds m :=
  ⟨rfl, rfl, rfl, rfl, rfl, rfl, rfl, rfl, fun _ p h => ⟨p, h, List.prefix_rfl⟩, fun _ p h => ⟨p, h, List.prefix_rfl⟩⟩

theorem Holds.trans {a b c : Model} (h : a.Holds b) (g : b.Holds c) : a.Holds c := by
  refine ⟨g.pol.trans h.pol, g.role.trans h.role, g.rDefs.trans h.rDefs, g.pDefs.trans h.pDefs, g.gDefs.trans h.gDefs,
    g.eDefs.trans h.eDefs, g.mDefs.trans h.mDefs, g.mMap.trans h.mMap, fun k p hp => ?_, fun k p hp => ?_⟩
  · obtain ⟨p1, h1, h2⟩ := h.lp k p hp
    obtain ⟨p2, h3, h4⟩ := g.lp k p1 h1
    exact ⟨p2, h3, h2.trans h4⟩
  · obtain ⟨p1, h1, h2⟩ := h.lg k p hp
    obtain ⟨p2, h3, h4⟩ := g.lg k p1 h1
    exact ⟨p2, h3, h2.trans h4⟩

theorem Holds.setP {m : Model} {k : Str} {p : PolObj} (hg : m.pMap.get k = some p) (mt : Matcher) :
    m.Holds { m with pMap := m.pMap.set k ⟨p.policy, p.listeners ++ [mt]⟩ } := by
  refine ⟨GoMap.map_set_same (v := p) (v' := ⟨p.policy, p.listeners ++ [mt]⟩) (fun x : PolObj => x.policy) rfl _ hg, rfl, rfl, rfl, rfl, rfl, rfl, rfl, fun k' q hq => ?_,
    fun _ q h => ⟨q, h, List.prefix_rfl⟩⟩
  simp only [GoMap.get_set]
  by_cases hk : k = k'
  · subst hk
    rw [if_pos rfl]
    rw [hg] at hq; cases hq
    exact ⟨_, rfl, List.prefix_append _ _⟩
  · rw [if_neg hk]; exact ⟨q, hq, List.prefix_rfl⟩

theorem Holds.setG {m : Model} {k : Str} {p p' : RolePolicy} (hg : m.rpMap.get k = some p) (hr : p'.runs = p.runs)
    (hl : p.listeners <+: p'.listeners) : m.Holds { m with rpMap := m.rpMap.set k p' } := by
  refine ⟨rfl, GoMap.map_set_same (fun x : RolePolicy => x.runs) hr _ hg, rfl, rfl, rfl, rfl, rfl, rfl,
    fun _ q h => ⟨q, h, List.prefix_rfl⟩, fun k' q hq => ?_⟩
  simp only [GoMap.get_set]
  by_cases hk : k = k'
  · subst hk
    rw [if_pos rfl]
    rw [hg] at hq; cases hq
    exact ⟨_, rfl, hl⟩
  · rw [if_neg hk]; exact ⟨q, hq, List.prefix_rfl⟩

theorem Holds.policyRules {m m' : Model} (h : m.Holds m') (key : Str) : m'.policyRules key = m.policyRules key := by
  have hp := GoMap.get_of_map (fun x : PolObj => x.policy) key _ _ h.pol
  have hr := GoMap.get_of_map (fun x : RolePolicy => x.runs) key _ _ h.role
  unfold Model.policyRules
  cases hm : m.pMap.get key with
  | some p =>
    cases hm' : m'.pMap.get key with
    | none => rw [hm, hm'] at hp; cases hp
    | some p' =>
      rw [hm, hm'] at hp
      simp only [Option.map_some, Option.some.injEq] at hp
      simp only [hp]
  | none =>
    cases hm' : m'.pMap.get key with
    | some p' => rw [hm, hm'] at hp; cases hp
    | none =>
      simp only
      have : ∀ x : Option RolePolicy, x.map RolePolicy.rules = (x.map (fun x => x.runs)).map List.flatten := by
        intro x; cases x <;> rfl
      rw [this, this, hr]

theorem Holds.ruleRuns {m m' : Model} (h : m.Holds m') : m'.ruleRuns = m.ruleRuns := by
  unfold Model.ruleRuns
  have e1 : ∀ x : Model, x.pMap.map (fun e => e.2.policy.rules.map (fun r => e.1 :: r)) =
      (x.pMap.map (fun e => (e.1, e.2.policy))).map (fun e => e.2.rules.map (fun r => e.1 :: r)) := by
    intro x; rw [List.map_map]; rfl
  have e2 : ∀ x : Model, x.rpMap.flatMap (fun e => e.2.runs.map (fun g => g.map (fun r => e.1 :: r))) =
      (x.rpMap.map (fun e => (e.1, e.2.runs))).flatMap (fun e => e.2.map (fun g => g.map (fun r => e.1 :: r))) := by
    intro x; rw [List.flatMap_map]
  rw [e1, e1, e2, e2, h.pol, h.role]

theorem Holds.getMatcher {m m' : Model} (h : m.Holds m') {key : Str} {mt : Matcher}
    (hm : m.getMatcher key = some mt) : m'.getMatcher key = some mt := by
  unfold Model.getMatcher at hm ⊢
  rw [h.mMap]
  cases hx : m.mMap.get key with
  | none => rw [hx] at hm; cases hm
  | some x =>
    rw [hx] at hm
    simp only [Option.bind_some] at hm ⊢
    cases x with
    | frozen y => exact hm
    | live k i =>
      unfold Model.resolve at hm ⊢
      simp only at hm ⊢
      have hp := GoMap.get_of_map (fun x : PolObj => x.policy) k _ _ h.pol
      cases hk : m.pMap.get k with
      | some p =>
        obtain ⟨p', h1, e, h2⟩ := h.lp k p hk
        rw [hk] at hm; rw [h1]
        simp only at hm ⊢
        rw [← h2, List.getElem?_append_left (List.getElem?_eq_some_iff.1 hm).1]
        exact hm
      | none =>
        rw [hk] at hp hm
        simp only at hm
        have hk' : m'.pMap.get k = none := by
          cases hk' : m'.pMap.get k with
          | none => rfl
          | some _ => rw [hk'] at hp; cases hp
        rw [hk']
        simp only
        cases hg : m.rpMap.get k with
        | none => rw [hg] at hm; cases hm
        | some p =>
          obtain ⟨p', h1, e, h2⟩ := h.lg k p hg
          rw [hg] at hm; rw [h1]
          simp only at hm ⊢
          rw [← h2, List.getElem?_append_left (List.getElem?_eq_some_iff.1 hm).1]
          exact hm

theorem buildFromExpr_holds (build : Str → Res Stage) (m : Model) (e : Str) : m.Holds (m.buildFromExpr build e).1 := by
  unfold buildFromExpr
  cases build e with
  | err => exact .refl m
  | panic => exact .refl m
  | ok root =>
    simp only
    cases m.matcherPolicyDef root.policyKey with
    | err => exact .refl m
    | panic => exact .refl m
    | ok pDef =>
      simp only
      cases hp : m.pMap.get root.policyKey with
      | some p =>
        simp only
        cases newMatcher pDef root p.policy.rules with
        | err => exact .refl m
        | panic => exact .refl m
        | ok mt => exact .setP hp mt
      | none =>
        simp only
        cases hg : m.rpMap.get root.policyKey with
        | none => exact .refl m
        | some rp =>
          simp only
          cases newMatcher pDef root rp.rules with
          | err => exact .refl m
          | panic => exact .refl m
          | ok mt => exact .setG hg rfl (List.prefix_append _ _)

theorem applyOpts_holds (build : Str → Res Stage) : ∀ (os : List CtxOpt) (m : Model) (ctx : Ctx),
    m.Holds (applyOpts build m ctx os).1
  | [], m, _ => .refl m
  | o :: os, m, ctx => by
    have h1 : m.Holds (applyOpt build m ctx o).1 := by
      cases o with
      | request a => exact .refl m
      | effector a => exact .refl m
      | matcher a =>
        cases a with
        | str x =>
          simp only [applyOpt, setMatcherOpt]
          split
          · exact .refl m
          · split
            · exact .refl m
            · exact buildFromExpr_holds build m _
        | ofDef e => exact buildFromExpr_holds build m _
        | obj x => exact .refl m
        | other => exact .refl m
    unfold applyOpts
    generalize applyOpt build m ctx o = x at h1
    obtain ⟨m', r⟩ := x
    cases r with
    | ok c => exact h1.trans (applyOpts_holds build os m' c)
    | err => exact h1
    | panic => exact h1

theorem newContext_holds (build : Str → Res Stage) (m : Model) (opts : List CtxOpt) :
    m.Holds (newContext build m opts).1 := by
  unfold newContext
  have h := applyOpts_holds build opts m ⟨none, none, none⟩
  generalize applyOpts build m ⟨none, none, none⟩ opts = x at h
  obtain ⟨m', r⟩ := x
  cases r with
  | err => exact h
  | panic => exact h
  | ok ctx =>
    simp only
    cases defaultRequest m' ctx with
    | err => exact h
    | panic => exact h
    | ok c1 =>
      simp only
      have h2 : m'.Holds (defaultMatcher build m' c1).1 := by
        unfold defaultMatcher
        split
        · have h3 : m'.Holds (setMatcherOpt build m' c1 (.str (s% "m"))).1 := by
            simp only [setMatcherOpt]
            split
            · exact .refl m'
            · split
              · exact .refl m'
              · exact buildFromExpr_holds build m' _
          generalize setMatcherOpt build m' c1 (.str (s% "m")) = z at h3
          obtain ⟨m3, r3⟩ := z
          cases r3 <;> exact h3
        · exact .refl m'
      generalize defaultMatcher build m' c1 = y at h2
      obtain ⟨m'', r2⟩ := y
      cases r2 <;> exact h.trans h2

end Model

/-! ## The traversal -/

theorem Ask.runE_inv {τ : Type} {I : τ → Prop} {call : Str → List Str → τ → τ × EvalRes}
    (hc : ∀ f args t, I t → I (call f args t).1) : ∀ (a : Ask) (t : τ), I t → I (a.runE call t).1
  | .ret x, t, h => h
  | .call f args k, t, h => by
    unfold Ask.runE
    have h1 := hc f args t h
    generalize call f args t = y at h1
    obtain ⟨t', x⟩ := y
    cases x with
    | panic => exact h1
    | bool b => exact runE_inv hc (k (.bool b)) t' h1
    | other => exact runE_inv hc (k .other) t' h1
    | err => exact runE_inv hc (k .err) t' h1

theorem rangeEntriesE_inv {τ σ : Type} {E : EvaluatorE τ} {I : τ → Prop} {expr : Str}
    (hE : ∀ r t, I t → I (E.eval expr r t).1) {cb : Str → Node → τ × σ → (τ × σ) × Status}
    (hcb : ∀ k child s, I s.1 → I (cb k child s).1.1) :
    ∀ (es : GoMap Str Node) (s : τ × σ), I s.1 → I (rangeEntriesE E expr cb es s).1.1
  | [], s, h => h
  | (k, child) :: es, (t, s), h => by
    have h1 := hE child.rule t h
    simp only [rangeEntriesE]
    generalize E.eval expr child.rule t = y at h1
    obtain ⟨t', x⟩ := y
    cases x with
    | err => exact h1
    | panic => exact h1
    | other => exact rangeEntriesE_inv hE hcb es (t', s) h1
    | bool b =>
      cases b with
      | false => exact rangeEntriesE_inv hE hcb es (t', s) h1
      | true =>
        have h2 := hcb k child (t', s) h1
        simp only
        generalize cb k child (t', s) = z at h2
        obtain ⟨s', q⟩ := z
        cases q with
        | cont => exact rangeEntriesE_inv hE hcb es s' h2
        | stop => exact h2
        | err => exact h2
        | panic => exact h2

mutual
theorem rangeStageE_inv {τ σ : Type} {E : EvaluatorE τ} {I : τ → Prop} (hE : ∀ e r t, I t → I (E.eval e r t).1)
    (nargs : Nat) (ord : Order) (fn : σ → Rule → σ × Bool) : ∀ (st : Stage) (path : List (Nat × Str)) (node : Node)
    (s : τ × σ), I s.1 → I (rangeStageE E nargs ord fn st path node s).1.1
  | .mk _ cs, path, node, s, h => by
    simp only [rangeStageE]
    exact rangeChildrenE_inv hE nargs ord fn cs 0 path node s h
theorem rangeChildrenE_inv {τ σ : Type} {E : EvaluatorE τ} {I : τ → Prop} (hE : ∀ e r t, I t → I (E.eval e r t).1)
    (nargs : Nat) (ord : Order) (fn : σ → Rule → σ × Bool) : ∀ (cs : List Stage) (i : Nat) (path : List (Nat × Str))
    (node : Node) (s : τ × σ), I s.1 → I (rangeChildrenE E nargs ord fn cs i path node s).1.1
  | [], _, _, _, _, h => by simp only [rangeChildrenE]; exact h
  | st :: rest, i, path, node, s, h => by
    simp only [rangeChildrenE]
    cases node.children[i]? with
    | none => exact h
    | some m =>
      simp only
      by_cases hc : E.compiles st.expr = false
      · rw [if_pos hc]; exact h
      · rw [if_neg hc]
        have hcb : ∀ (k : Str) (child : Node) (s : τ × σ), I s.1 → I (match (if st.isLeaf then fn s.2 child.rule else (s.2, true)) with
            | (s', false) => ((s.1, s'), Status.stop)
            | (s', true) =>
              match rangeStageE E nargs ord fn st (path ++ [(i, k)]) child (s.1, s') with
              | (s'', .cont) => (s'', .cont)
              | (s'', .panic) => (s'', .panic)
              | (s'', _) => (s'', .stop)).1.1 := by
          intro k child s h
          generalize (if st.isLeaf then fn s.2 child.rule else (s.2, true)) = z
          obtain ⟨s', b⟩ := z
          cases b with
          | false => exact h
          | true =>
            have ih := rangeStageE_inv hE nargs ord fn st (path ++ [(i, k)]) child (s.1, s') h
            simp only
            generalize rangeStageE E nargs ord fn st (path ++ [(i, k)]) child (s.1, s') = y at ih
            obtain ⟨s'', q⟩ := y
            cases q <;> exact ih
        have h2 := rangeEntriesE_inv (hE st.expr) hcb
          (if m.isEmpty then [([], newNode (List.replicate nargs []))] else ord path i m) s h
        generalize rangeEntriesE E st.expr _ _ s = y at h2
        obtain ⟨s', q⟩ := y
        cases q with
        | cont => exact rangeChildrenE_inv hE nargs ord fn rest (i + 1) path node s' h2
        | stop => exact h2
        | err => exact h2
        | panic => exact h2
end

namespace FnModel

theorem call_holds (f : Str) (args : List Str) (t : FnModel) :
    t.model.Holds (call f args t).1.model ∧ (call f args t).1.fns = t.fns := by
  unfold call
  cases t.fns.get f with
  | none => exact ⟨.refl _, rfl⟩
  | some v =>
    cases v with
    | fn g => exact ⟨.refl _, rfl⟩
    | eval => exact ⟨.refl _, rfl⟩
    | role =>
      simp only
      cases hr : t.model.rpMap.get f with
      | none => exact ⟨.refl _, rfl⟩
      | some rp =>
        match args with
        | [] => exact ⟨.refl _, rfl⟩
        | [_] => exact ⟨.refl _, rfl⟩
        | u :: r :: ds =>
          simp only
          cases hl : rp.mgr.hasLink u r ds with
          | err => exact ⟨.refl _, rfl⟩
          | panic => exact ⟨.refl _, rfl⟩
          | ok x =>
            obtain ⟨mgr, b⟩ := x
            simp only [onManager, hr]
            refine ⟨.setG hr ?_ List.prefix_rfl, trivial⟩
            simp only [RolePolicy.runs, Mgr.hasLink_runs hl]

theorem enforceE_holds (build : FnBuild) (s : FnModel) (gi : GovI) (depth : Nat) (ord : Order) (params : List Param) :
    s.model.Holds (s.enforceE build gi depth ord params).1.model ∧
      ((s.enforceE build gi depth ord params).1.fns = s.fns ∨
        (s.enforceE build gi depth ord params).1.fns = s.fns.set (s% "eval") .eval) := by
  unfold enforceE
  have h := Model.newContext_holds (build s.knows) s.model (splitParams params).1
  generalize newContext (build s.knows) s.model (splitParams params).1 = x at h
  obtain ⟨m', r⟩ := x
  cases r with
  | err => exact ⟨h, .inl rfl⟩
  | panic => exact ⟨h, .inl rfl⟩
  | ok ctx =>
    simp only
    split
    · rename_i mt rDef eff _ _ _
      cases m'.pDefs.get mt.pDef.key with
      | none => exact ⟨h, .inl rfl⟩
      | some pDef =>
        simp only
        have hi := rangeStageE_inv (E := s.evaluatorE gi depth mt rDef (splitParams params).2)
          (I := fun t : FnModel => s.model.Holds t.model ∧ t.fns = s.fns.set (s% "eval") .eval)
          (fun e r t ht => Ask.runE_inv (I := fun t : FnModel => s.model.Holds t.model ∧ t.fns = s.fns.set (s% "eval") .eval)
            (call := call) (fun f args t ht => ⟨ht.1.trans (call_holds f args t).1,
            (call_holds f args t).2.trans ht.2⟩) _ t ht) mt.pDef.args.length ord
          (fun s rule => enforceVisit pDef eff s (mt.pDef.key :: rule)) mt.exprRoot [] mt.root
          ((⟨m', s.fns.set (s% "eval") .eval⟩ : FnModel), EnfState.init) ⟨h, rfl⟩
        generalize rangeStageE _ _ _ _ _ _ _ _ = y at hi
        obtain ⟨⟨t, e⟩, st⟩ := y
        exact ⟨hi.1, .inr hi.2⟩
    · refine ⟨h, ?_⟩
      by_cases hr : s.reaches build params = true
      · exact .inr (by simp [hr])
      · exact .inl (by simp [hr])

end FnModel

end Fastac
