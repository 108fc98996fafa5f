import Verif.Lemmas.DomainManager
import Verif.Lemmas.ReservedNames
import Verif.Lemmas.DomainFrame
import Verif.Lemmas.DomainState
import Verif.Lemmas.DomainPure
import Verif.Props.Roles

/-!
# C27–C31 (and C26): domain managers

The recursion bound `fuel` is any number larger than the length of the paths that are used.
-/

namespace Fastac

open DM

/-- What `HasLink` answers without pattern domains: the answer of a role manager that got exactly the
calls for this domain. -/
theorem DM.ask_quiet (fuel L : Nat) (m dmm : Option PMatcher) (H : List Op) (hH : Calls fuel H)
    (np : ∀ op ∈ H, NoPattern dmm op.path)
    (π : List Str) (hπ : Clean π) (nπ : NoPattern dmm π) (hf : π.length < fuel) (a b : Str) :
    ask fuel L m dmm H a b π =
      .ok (((RM.new (L - 1 - π.length) m).run (inDomain π H)).hasLink a b).2 := by
  obtain ⟨dm, e, hs⟩ := (sim_new m dmm L).run fuel H [] _ hH np
  rw [List.nil_append] at hs
  obtain ⟨dm', e', -⟩ := query_quiet (fun rm => rm.hasLink a b) π fuel L dm hπ nπ hf hs.quiet
  unfold ask DM.hasLink
  rw [e]
  simp only [Res.bind_ok, e', Res.map_ok]
  rw [hs.at]
  rfl

/-- C27.  With any matcher for roles, and no domain matcher or one of whose patterns none is used as a
domain (`NoPattern`): `HasLink` in a domain path depends only on the calls made for exactly this path: two
histories that agree there get the same answer, and the answer is neither an error nor a panic.

Missing: paths with the elements `"RoleManager"` and `"redundant_role"`, which are confused with the
default domain (`c27_fails`). -/
theorem c27_isolated_partial (fuel L : Nat) (m dmm : Option PMatcher) (H H' : List Op)
    (hH : Calls fuel H) (hH' : Calls fuel H') (np : ∀ op ∈ H ++ H', NoPattern dmm op.path)
    (π : List Str) (hπ : Clean π) (nπ : NoPattern dmm π) (hf : π.length < fuel)
    (hsame : inDomain π H = inDomain π H') (a b : Str) :
    ask fuel L m dmm H a b π = ask fuel L m dmm H' a b π ∧
      ∃ x, ask fuel L m dmm H a b π = .ok x := by
  rw [ask_quiet fuel L m dmm H hH (fun o ho => np o (by simp [ho])) π hπ nπ hf,
    ask_quiet fuel L m dmm H' hH' (fun o ho => np o (by simp [ho])) π hπ nπ hf, hsame]
  exact ⟨rfl, _, rfl⟩

/-- C27 for one call: removing an `AddLink`, `DeleteLink` or query for another domain path from a
history changes no answer. -/
theorem c27_other_domain_partial (fuel L : Nat) (m dmm : Option PMatcher) (H₁ H₂ : List Op) (op : Op)
    (hH : Calls fuel (H₁ ++ op :: H₂)) (np : ∀ o ∈ H₁ ++ op :: H₂, NoPattern dmm o.path)
    (π : List Str) (hπ : Clean π) (nπ : NoPattern dmm π) (hf : π.length < fuel)
    (hop : op ≠ .clear) (hne : op.path ≠ π) (a b : Str) :
    ask fuel L m dmm (H₁ ++ op :: H₂) a b π = ask fuel L m dmm (H₁ ++ H₂) a b π := by
  have hmem : ∀ o ∈ H₁ ++ H₂, o ∈ H₁ ++ op :: H₂ := by
    intro o ho
    rcases List.mem_append.1 ho with h | h
    · simp [h]
    · simp [h]
  refine (c27_isolated_partial fuel L m dmm _ _ hH (fun o ho => hH o (hmem o ho)) ?_ π hπ nπ hf ?_ a b).1
  · intro o ho
    rcases List.mem_append.1 ho with h | h
    · exact np o h
    · exact np o (hmem o h)
  · unfold inDomain
    rw [List.filterMap_append, List.filterMap_append, List.filterMap_cons]
    have : op.on π = none := by
      cases op <;> simp_all [Op.on, Op.path]
    rw [this]

/-- C27 and C28 with paths of any names, also the reserved ones: every answer is the one after the same calls with each
path cut off at the first reserved name.  (Only `Clean` paths stand for themselves.) -/
theorem c27_reserved_partial (fuel L : Nat) (m dmm : Option PMatcher) (H : List Op)
    (hH : ∀ op ∈ H, NoPattern dmm op.plainly.path ∧ op.plainly.path.length < fuel)
    (π : List Str) (nπ : NoPattern dmm (standsFor π)) (hf : (standsFor π).length < fuel) (a b : Str) :
    ask fuel L m dmm H a b π = ask fuel L m dmm (H.map Op.plainly) a b (standsFor π) ∧
      ∃ x, ask fuel L m dmm H a b π = .ok x := by
  obtain ⟨dm, e, hs⟩ := (simU_new m dmm L).run fuel H [] _ hH
  rw [List.nil_append] at hs
  have hc : ∀ (op : Op), Clean op.plainly.path := by
    intro op
    cases op with
    | clear => intro d hd; cases hd
    | add | del | hasLink | getRoles | getUsers => exact standsFor_clean _
  obtain ⟨dm', e', -⟩ := query_quiet (fun rm => rm.hasLink a b) (standsFor π) fuel L dm (standsFor_clean π) nπ hf hs.quiet
  have h1 : ask fuel L m dmm H a b π =
      .ok (((RM.new (L - 1 - (standsFor π).length) m).run (inDomain (standsFor π) (H.map Op.plainly))).hasLink a b).2 := by
    unfold ask DM.hasLink
    rw [e]
    simp only [Res.bind_ok]
    rw [query_any, e', Res.map_ok]
    have h2 := hs.at (standsFor π)
    have h3 := RM.unmark_hasLink (dm.atD L m (standsFor π)) a b
    rw [h2] at h3
    unfold inDomain
    rw [h3]
  refine ⟨?_, _, h1⟩
  rw [h1, ask_quiet fuel L m dmm (H.map Op.plainly) ?_ ?_ (standsFor π) (standsFor_clean π) nπ hf]
  · intro op ho
    obtain ⟨o, ho', rfl⟩ := List.mem_map.1 ho
    exact ⟨hc o, (hH o ho').2⟩
  · intro op ho
    obtain ⟨o, ho', rfl⟩ := List.mem_map.1 ho
    exact (hH o ho').1

/-- C28.  Without a matcher for roles, and no domain matcher or one of whose patterns none is used as a
domain: `HasLink(a, b, d₁ … dₙ)` is true iff `a = b` or `b` is reached from `a` over `k` links stored in
exactly this domain, with `k ≤ L - 2 - n`.

Missing: the reserved path elements, see `c27_fails`. -/
theorem c28_has_link_partial (fuel L : Nat) (dmm : Option PMatcher) (H : List Op) (hH : Calls fuel H)
    (np : ∀ op ∈ H, NoPattern dmm op.path) (π : List Str)
    (hπ : Clean π) (nπ : NoPattern dmm π) (hf : π.length < fuel) (a b : Str) :
    ∃ x, ask fuel L none dmm H a b π = .ok x ∧
      (x = true ↔ a = b ∨ ∃ k, k + 2 + π.length ≤ L ∧
        Reach (fun u r => linked (inDomain π H) u r = true) k a b) := by
  refine ⟨_, ask_quiet fuel L none dmm H hH np π hπ nπ hf a b, ?_⟩
  rw [c21_has_link]
  constructor
  · rintro (h | ⟨k, hk, hr⟩)
    · exact Or.inl h
    · exact Or.inr ⟨k, by omega, hr⟩
  · rintro (h | ⟨k, hk, hr⟩)
    · exact Or.inl h
    · exact Or.inr ⟨k, by omega, hr⟩

/-- C28 with paths of any names: the domains are the paths cut off at the first reserved name. -/
theorem c28_reserved_partial (fuel L : Nat) (H : List Op) (hH : ∀ op ∈ H, op.plainly.path.length < fuel)
    (π : List Str) (hf : (standsFor π).length < fuel) (a b : Str) :
    ∃ x, ask fuel L none none H a b π = .ok x ∧
      (x = true ↔ a = b ∨ ∃ k, k + 2 + (standsFor π).length ≤ L ∧
        Reach (fun u r => linked (inDomain (standsFor π) (H.map Op.plainly)) u r = true) k a b) := by
  rw [(c27_reserved_partial fuel L none none H (fun o ho => ⟨noPattern_none _, hH o ho⟩) π (noPattern_none _) hf a b).1]
  refine c28_has_link_partial fuel L none (H.map Op.plainly) ?_ (fun _ _ => noPattern_none _) _ (standsFor_clean π)
    (noPattern_none _) hf a b
  intro op ho
  obtain ⟨o, ho', rfl⟩ := List.mem_map.1 ho
  refine ⟨?_, hH o ho'⟩
  cases o with
  | clear => intro d hd; cases hd
  | add | del | hasLink | getRoles | getUsers => exact standsFor_clean _

/-! ## Setting matchers, queries -/

/-- C26 for `SetMatcher` of a domain manager.  Whatever the history and the matchers, as long as no
pattern of the domain matcher was used as a domain: `SetMatcher` keeps exactly the links of every domain,
and afterwards the new matcher is in force in every domain, used before or not: if no
patterns among the names match each other `HasLink` gives the answer of `roleAnswer`, and whatever the matcher each
stored link is honoured.

Missing: pattern domains, whose links are lost in the domains they were copied to (`c26_fails`). -/
theorem c26_domains_set_matcher_partial (fuel L : Nat) (m dmm m' : Option PMatcher)
    (order : List (Str × Str) → List (Str × Str)) (ho : ∀ l, (order l).Perm l) (H : List Op)
    (hH : Calls fuel H) (np : ∀ op ∈ H, NoPattern dmm op.path) :
    ∃ dm, calls fuel (new L m dmm) (H.map .op ++ [.setMatcher m' order]) = .ok dm ∧
      (∀ u r π, (u, r, π) ∈ dm.range ↔ linked (inDomain π H) u r = true) ∧ dm.range.Nodup ∧
      ∀ π, Clean π → NoPattern dmm π → π.length < fuel →
        (π.length + 3 ≤ L → ∀ u r, linked (inDomain π H) u r = true →
          (dm.hasLink fuel u r π).map (·.2) = .ok true) ∧
        ∀ a b, (∀ pm, m' = some pm → pm.FlatOn (fun n =>
            endsOf (fun u r => linked (inDomain π H) u r = true) n ∨ n = a ∨ n = b)) →
          ∃ x, (dm.hasLink fuel a b π).map (·.2) = .ok x ∧
          (x = true ↔ roleAnswer (L - 1 - π.length) (fun u r => linked (inDomain π H) u r = true)
            (endsOf (fun u r => linked (inDomain π H) u r = true)) a b m') := by
  obtain ⟨dm0, e, hs⟩ := (sim_new m dmm L).run fuel H [] _ hH np
  rw [List.nil_append] at hs
  have h := setMatcher_has m' order ho dm0 L _ _ hs.has
  refine ⟨dm0.setMatcher m' order, ?_, h.range, h.range_nodup, fun π hc nπ hf => ⟨?_, ?_⟩⟩
  · rw [calls_ops, e]; rfl
  · intro hL u r hur
    exact h.honours fuel π hc nπ hf hL hur
  · intro a b hflat
    exact h.hasLink fuel π hc nπ hf a b hflat

/-- C26 for `SetDomainMatcher`.  Whatever the history and the matchers, as long as no pattern of the old or
the new domain matcher was used as a domain: `SetDomainMatcher` keeps exactly the links of every domain,
and `HasLink` goes on to answer by them.

Missing: domains that are patterns, for which the claim is false (`c26_fails`). -/
theorem c26_domains_set_domain_matcher_partial (fuel L : Nat) (m dmm dmm' : Option PMatcher) (H : List Op)
    (order : List (Str × Str × List Str) → List (Str × Str × List Str)) (ho : ∀ l, (order l).Perm l)
    (hH : Calls fuel H) (np : ∀ op ∈ H, NoPattern dmm op.path ∧ NoPattern dmm' op.path) :
    ∃ dm, calls fuel (new L m dmm) (H.map .op ++ [.setDomainMatcher dmm' order]) = .ok dm ∧
      (∀ u r π, (u, r, π) ∈ dm.range ↔ linked (inDomain π H) u r = true) ∧ dm.range.Nodup ∧
      ∀ π, Clean π → NoPattern dmm' π → π.length < fuel →
        (π.length + 3 ≤ L → ∀ u r, linked (inDomain π H) u r = true →
          (dm.hasLink fuel u r π).map (·.2) = .ok true) ∧
        ∀ a b, (∀ pm, m = some pm → pm.FlatOn (fun n =>
            endsOf (fun u r => linked (inDomain π H) u r = true) n ∨ n = a ∨ n = b)) →
          ∃ x, (dm.hasLink fuel a b π).map (·.2) = .ok x ∧
          (x = true ↔ roleAnswer (L - 1 - π.length) (fun u r => linked (inDomain π H) u r = true)
            (endsOf (fun u r => linked (inDomain π H) u r = true)) a b m) := by
  obtain ⟨dm0, e, hs⟩ := (sim_new m dmm L).run fuel H [] _ hH (fun op ho => (np op ho).1)
  rw [List.nil_append] at hs
  obtain ⟨dm, e2, h⟩ := setDomainMatcher_has dmm' fuel order ho dm0 L _ _ hs.has (by
    intro π u r hl
    obtain ⟨op, hop, rfl⟩ := linked_path hl
    exact ⟨(hH op hop).1, (np op hop).2, (hH op hop).2⟩)
  refine ⟨dm, ?_, h.range, h.range_nodup, fun π hc nπ hf => ⟨?_, ?_⟩⟩
  · rw [calls_ops, e]
    simp only [Res.bind_ok, calls, call, e2]
  · intro hL u r hur
    exact h.honours fuel π hc nπ hf hL hur
  · intro a b hflat
    exact h.hasLink fuel π hc nπ hf a b hflat

/-! ## Domain patterns -/

theorem RM.Inv.hasLink_iff {rm : RM} {Lk : Str → Str → Prop} (h : rm.Inv Lk) (hm : rm.matcher = none)
    (a b : Str) : (rm.hasLink a b).2 = true ↔ a = b ∨ ∃ k, k < rm.level ∧ Reach Lk k a b := by
  have hmt : ∀ c, rm.matches c b = false := by
    intro c; unfold RM.matches; rw [hm]
  obtain ⟨h2, s2, _⟩ := RM.getRole2_inv h a b
  have hstep := h2.step_plain (s2.matcher.trans hm)
  rw [RM.hasLink_result]
  simp only [hmt, Bool.false_eq_true, or_false, false_or]
  constructor
  · rintro (h | ⟨k, hk, c, hr, rfl⟩)
    · exact Or.inl h
    · exact Or.inr ⟨k, hk, hr.mono (fun x y hxy => (hstep x y).1 hxy)⟩
  · rintro (h | ⟨k, hk, hr⟩)
    · exact Or.inl h
    · exact Or.inr ⟨k, hk, b, hr.mono (fun x y hxy => (hstep x y).2 hxy), rfl⟩

/-- The history of adding the links `H`. -/
def DM.adds (H : List (Str × Str × List Str)) : List Op := H.map (fun l => .add l.1 l.2.1 l.2.2)

/-- C29.  If no pattern among the domains in use matches another one, a link `(u, r)` added in a
pattern domain counts in every domain matching the pattern, in whatever order the links were added and
whichever domains were used before.

Missing: domain paths of more than one element, and overlapping patterns, for which the
claim is false (`c29_fails`). -/
theorem c29_pattern_links_partial (fuel L : Nat) (hL : 4 ≤ L) (mm : Option PMatcher) (m : PMatcher)
    (hd : m.isPattern defaultDomain = false) (H : List (Str × Str × List Str))
    (hH : ∀ l ∈ H, Clean l.2.2 ∧ l.2.2.length ≤ 1) (u r p d : Str) (hl : (u, r, [p]) ∈ H)
    (hflat : m.FlatOn (fun n => n = d ∨ ∃ a b, (a, b, [n]) ∈ H))
    (hp : m.isPattern p = true) (hc : Clean [d]) (hm : m.match d p = true) :
    ask (fuel + 2) L mm (some m) (adds H) u r [d] = .ok true := by
  obtain ⟨dm, e, hone⟩ := One.addAll (mm := mm) (L := L) hflat hd fuel H [] _ one_new
    (fun u r n hn => .inr ⟨u, r, hn⟩) hH
  rw [List.nil_append] at hone
  obtain ⟨dm', rm, e', hi, hlv, _⟩ := hone.query hflat (fun u r n hn => .inr ⟨u, r, hn⟩) hd fuel d hc
    (.inl rfl) (fun rm => rm.hasLink u r)
  unfold ask DM.hasLink
  rw [show run (fuel + 2) (new L mm (some m)) (adds H) = .ok dm from e]
  simp only [Res.bind_ok, e', Res.map_ok]
  congr 1
  rw [RM.hasLink_result]
  refine Or.inr (Or.inr ⟨1, by omega, r, .step ?_ (.refl r), Or.inl rfl⟩)
  obtain ⟨g, _, _⟩ := RM.getRole2_inv hi u r
  refine (g.mem_rangeRoles u r).2 (Or.inl ⟨p, hl, ?_⟩)
  by_cases hpd : p = d
  · exact Or.inl hpd
  · exact Or.inr ⟨hp, fun e => hpd e.symm, hm⟩

/-- C29, exact form: `HasLink(a, b, d)` is true iff `a = b` or `b` is reached over at most `L - 3` links
each added in `d` or in a pattern domain that `d` matches (no matcher for roles). -/
theorem c29_exact_partial (fuel L : Nat) (m : PMatcher)
    (hd : m.isPattern defaultDomain = false) (H : List (Str × Str × List Str))
    (hH : ∀ l ∈ H, Clean l.2.2 ∧ l.2.2.length ≤ 1) (a b d : Str) (hc : Clean [d])
    (hflat : m.FlatOn (fun n => n = d ∨ ∃ a b, (a, b, [n]) ∈ H)) :
    ∃ x, ask (fuel + 2) L none (some m) (adds H) a b [d] = .ok x ∧
      (x = true ↔ a = b ∨ ∃ k, k + 3 ≤ L ∧ Reach (fun u r => ∃ p, (u, r, [p]) ∈ H ∧
        (p = d ∨ (m.isPattern p = true ∧ d ≠ p ∧ m.match d p = true))) k a b) := by
  obtain ⟨dm, e, hone⟩ := One.addAll (mm := none) (L := L) hflat hd fuel H [] _ one_new
    (fun u r n hn => .inr ⟨u, r, hn⟩) hH
  rw [List.nil_append] at hone
  obtain ⟨dm', rm, e', hi, hlv, hm⟩ := hone.query hflat (fun u r n hn => .inr ⟨u, r, hn⟩) hd fuel d hc
    (.inl rfl) (fun rm => rm.hasLink a b)
  refine ⟨(rm.hasLink a b).2, ?_, ?_⟩
  · unfold ask DM.hasLink
    rw [show run (fuel + 2) (new L none (some m)) (adds H) = .ok dm from e]
    simp only [Res.bind_ok, e', Res.map_ok]
  · rw [hi.hasLink_iff hm, hlv]
    constructor
    · rintro (h | ⟨k, hk, hr⟩)
      · exact Or.inl h
      · exact Or.inr ⟨k, by omega, hr⟩
    · rintro (h | ⟨k, hk, hr⟩)
      · exact Or.inl h
      · exact Or.inr ⟨k, by omega, hr⟩

/-- C30, the part that holds: after any links were added, `DeleteLink(u, r, x)` changes no answer in a
domain `d` that is neither `x` nor matches the pattern `x`.

Missing: domains that match the pattern; there the explicit link is deleted as well, and adding a
pattern link hides an explicit one from `Range` (`c30_fails`, `c30_fails_range`). -/
theorem c30_other_domains_partial (fuel L : Nat) (mm : Option PMatcher) (m : PMatcher)
    (hd : m.isPattern defaultDomain = false) (H : List (Str × Str × List Str))
    (hH : ∀ l ∈ H, Clean l.2.2 ∧ l.2.2.length ≤ 1) (u r x : Str) (hx : Clean [x])
    (d : Str) (hc : Clean [d]) (hdx : d ≠ x) (hm : m.isPattern x = true → m.match d x = false)
    (hflat : m.FlatOn (fun n => n = x ∨ ∃ a b, (a, b, [n]) ∈ H))
    (a b : Str) :
    ask (fuel + 2) L mm (some m) (adds H ++ [.del u r [x]]) a b [d] =
      ask (fuel + 2) L mm (some m) (adds H) a b [d] := by
  obtain ⟨dm, e, hone⟩ := One.addAll (mm := mm) (L := L) hflat hd fuel H [] _ one_new
    (fun u r n hn => .inr ⟨u, r, hn⟩) hH
  rw [List.nil_append] at hone
  have e0 : run (fuel + 2) (new L mm (some m)) (adds H) = .ok dm := e
  have hrun : ∀ (ops : List Op) (dm0 : DM) (op : Op), run (fuel + 2) dm0 (ops ++ [op]) =
      (run (fuel + 2) dm0 ops).bind (fun s => s.step (fuel + 2) op) := by
    intro ops
    induction ops with
    | nil =>
      intro dm0 op
      simp only [List.nil_append, run, Res.bind_ok]
      cases step (fuel + 2) dm0 op <;> rfl
    | cons o ops ih =>
      intro dm0 op
      rw [List.cons_append, run, run]
      cases step (fuel + 2) dm0 o with
      | ok s => simp only [Res.bind_ok]; exact ih s op
      | err => rfl
      | panic => rfl
  have hg : Good (some m) 1 dm := by
    have hleaf : ∀ y ∈ dm.subs, Good (some m) 0 y.2 := by
      intro y hy
      obtain ⟨o, e1, _⟩ := hone.leaf y hy
      rw [e1]
      exact Good.mk (by simp) (by simp) (by simp)
    have h1 := hone.pats
    have h2 := hone.domMatcher
    have h3 := hone.names
    cases dm with
    | mk dflt subs ps lv mt dmt =>
      simp only [DM.domMatcher] at h2
      subst h2
      refine Good.mk ?_ (fun _ => by omega) hleaf
      intro p hp
      have hp2 := (h1 p).1 hp
      rw [if_neg]
      · exact GoMap.mem_keys_iff.2 hp2.2
      · obtain ⟨t, ht⟩ := Option.isSome_iff_exists.1 hp2.2
        exact h3 _ (GoMap.mem_of_get ht)
  obtain ⟨⟨dm', bb⟩, ed, -⟩ := deleteLink_ok (fuel + 2) 1 dm u r [x] (by omega) hg
    (Nat.le_trans (names_le _) (by simp))
  have S := hone.delete_frame hflat (fun u r n hn => .inr ⟨u, r, hn⟩) hd fuel u r x hx (.inl rfl) d hdx hm ed
  have hcd := hc d (by simp)
  unfold ask
  rw [hrun, e0]
  simp only [Res.bind_ok, DM.step, ed, Res.map_ok]
  exact S.query hcd.1 hcd.2 _ _ _

/-! ## Panics, queries -/

theorem DM.Perms.tail {c : Call} {cs : List Call} (h : Perms (c :: cs)) : Perms cs :=
  ⟨fun m o hm => h.1 m o (by simp [hm]), fun m o hm => h.2 m o (by simp [hm])⟩

theorem DM.Perms.op {cs : List Call} (h : Perms cs) (q : Op) : Perms (cs ++ [.op q]) :=
  ⟨fun m o hm => h.1 m o (by simpa using hm), fun m o hm => h.2 m o (by simpa using hm)⟩

/-- C31.  A history of any calls, with any matchers set at any time, in which `HasLink`, `GetRoles` and
`GetUsers` are only asked about domains that are no patterns of any matcher used, succeeds: no panic
and no error.

Missing: queries about a pattern domain, after which the next call for a matching domain panics
(`c31_fails`). -/
theorem c31_no_panic_partial (fuel B L : Nat) (hB : B < fuel) (m dmm : Option PMatcher)
    (cs : List Call) (hp : Perms cs)
    (hlen : ∀ op, Call.op op ∈ cs → op.path.length ≤ B)
    (hq : ∀ op, Call.op op ∈ cs → op.isQuery = true →
      ∀ pm, used dmm cs pm →
        pm.isPattern defaultDomain = false ∧ ∀ d ∈ op.path, pm.isPattern d = false) :
    ∃ dm, calls fuel (new L m dmm) cs = .ok dm := by
  have key : ∀ (cs : List Call) (dmm : Option PMatcher) (dm : DM), Good dmm B dm → Perms cs →
      (∀ op, Call.op op ∈ cs → op.path.length ≤ B) →
      (∀ op, Call.op op ∈ cs → op.isQuery = true →
        ∀ pm, used dmm cs pm →
          pm.isPattern defaultDomain = false ∧ ∀ d ∈ op.path, pm.isPattern d = false) →
      ∃ dm', calls fuel dm cs = .ok dm' := by
    intro cs
    induction cs with
    | nil => intro _ dm _ _ _ _; exact ⟨dm, rfl⟩
    | cons c cs ih =>
      intro dmm dm hg hp hlen hq
      have step : ∃ dmm' dm', call fuel dm c = .ok dm' ∧ Good dmm' B dm' ∧
          (dmm' = dmm ∨ ∃ order, c = .setDomainMatcher dmm' order) := by
        cases c with
        | setMatcher m' order =>
          exact ⟨dmm, _, rfl, setMatcher_good dmm m' order dm B hg, Or.inl rfl⟩
        | setDomainMatcher m' order =>
          obtain ⟨dm', e, h'⟩ := setDomainMatcher_ok dmm m' fuel order (hp.2 m' order (by simp)) dm B hg hB
          exact ⟨m', dm', e, h', Or.inr ⟨order, rfl⟩⟩
        | op o =>
          have hl := hlen o (by simp)
          have hn : names o.path ≤ B := Nat.le_trans (names_le _) hl
          have hp : o.isQuery = true → NoPattern dmm o.path :=
            fun h pm e => hq o (by simp) h pm (Or.inl e)
          have fin : (dm.step fuel o).Ok (Good dmm B) := by
            cases o with
            | add u r ds => exact (addLink_ok fuel B dm u r ds hB hg hn).map (fun a h => h)
            | del u r ds => exact (deleteLink_ok fuel B dm u r ds hB hg hn).map (fun a h => h)
            | clear => exact ⟨_, rfl, hg.clear⟩
            | hasLink u r ds => exact (query_ok _ fuel B dm ds hB hg hn (hp rfl)).map (fun a h => h)
            | getRoles n ds => exact (query_ok _ fuel B dm ds hB hg hn (hp rfl)).map (fun a h => h)
            | getUsers n ds => exact (query_ok _ fuel B dm ds hB hg hn (hp rfl)).map (fun a h => h)
          obtain ⟨dm', e, h'⟩ := fin
          exact ⟨dmm, dm', e, h', Or.inl rfl⟩
      obtain ⟨dmm', dm', e, hg', hd⟩ := step
      obtain ⟨dm'', e''⟩ := ih dmm' dm' hg' hp.tail (fun op ho => hlen op (by simp [ho])) (by
        intro op ho hqu pm hpm
        refine hq op (by simp [ho]) hqu pm ?_
        rcases hpm with hpm | hpm
        · rcases hd with rfl | ⟨order, rfl⟩
          · exact Or.inl hpm
          · rw [hpm]; exact Or.inr ⟨order, by simp⟩
        · obtain ⟨order, hpm⟩ := hpm
          exact Or.inr ⟨order, by simp [hpm]⟩)
      exact ⟨dm'', by rw [calls, e]; exact e''⟩
  exact key cs dmm (new L m dmm) (good_new _ _ _ _) hp hlen hq

/-- C23 for domain managers.  In a history of any calls, with any matchers set at any time, a `HasLink`,
`GetRoles` or `GetUsers` about a domain that is no pattern of any matcher used leaves the manager in exactly
the state it was in: leaving out the query changes no later state and no later answer.

Missing: queries about a pattern domain; the next call for a matching domain panics (`c31_fails`). -/
theorem c23_domains_partial (fuel B L : Nat) (hB : B < fuel) (m dmm : Option PMatcher) (cs rest : List Call)
    (hp : Perms cs)    (q : Op) (hqu : q.isQuery = true)
    (hlen : ∀ op, Call.op op ∈ cs ++ [.op q] → op.path.length ≤ B)
    (hq : ∀ op, Call.op op ∈ cs ++ [.op q] → op.isQuery = true →
      ∀ pm, used dmm cs pm →
        pm.isPattern defaultDomain = false ∧ ∀ d ∈ op.path, pm.isPattern d = false) :
    calls fuel (new L m dmm) (cs ++ .op q :: rest) = calls fuel (new L m dmm) (cs ++ rest) := by
  obtain ⟨dm, e⟩ := c31_no_panic_partial fuel B L hB m dmm cs hp (fun op h => hlen op (by simp [h]))
    (fun op h => hq op (by simp [h]))
  obtain ⟨dm', e'⟩ := c31_no_panic_partial fuel B L hB m dmm (cs ++ [.op q]) (hp.op q) hlen
    (fun op h h' pm hpm => hq op h h' pm (by simpa [used] using hpm))
  have key : ∀ (cs : List Call) (dmm0 : Option PMatcher) (dm0 dm : DM), Sane dmm0 dm0 →
      calls fuel dm0 cs = .ok dm → ∃ dmm1, Sane dmm1 dm ∧ (dmm1 = dmm0 ∨ ∃ order, Call.setDomainMatcher dmm1 order ∈ cs) := by
    intro cs
    induction cs with
    | nil => intro d0 dm0 dm h e; cases e; exact ⟨d0, h, Or.inl rfl⟩
    | cons c cs ih =>
      intro d0 dm0 dm h e
      rw [calls] at e
      cases ec : call fuel dm0 c with
      | ok dm1 =>
        rw [ec] at e
        have step : ∃ d1, Sane d1 dm1 ∧ (d1 = d0 ∨ ∃ order, c = .setDomainMatcher d1 order) := by
          cases c with
          | setMatcher m' order => cases ec; exact ⟨d0, setMatcher_sane m' order dm0 h, Or.inl rfl⟩
          | setDomainMatcher m' order =>
            exact ⟨m', setDomainMatcher_sane m' order fuel dm0 dm1 ec, Or.inr ⟨order, rfl⟩⟩
          | op o =>
            refine ⟨d0, ?_, Or.inl rfl⟩
            have fin : (dm0.step fuel o).All (Sane d0) := by
              cases o with
              | add u r ds => exact (Sane.addLink fuel dm0 u r ds h).map (fun a h => h)
              | del u r ds => exact (Sane.deleteLink fuel dm0 u r ds h).map (fun a h => h)
              | clear => exact .ok h.clear
              | hasLink u r ds =>
                exact (Sane.query _ (fun rm Lk hi => hi.hasLink_state u r) fuel dm0 ds h).map (fun a h => h.1)
              | getRoles n ds =>
                exact (Sane.query _ (fun rm Lk hi => hi.getRoles_state n) fuel dm0 ds h).map (fun a h => h.1)
              | getUsers n ds =>
                exact (Sane.query _ (fun rm Lk hi => hi.getUsers_state n) fuel dm0 ds h).map (fun a h => h.1)
            exact fin dm1 ec
        obtain ⟨d1, h1, hd1⟩ := step
        obtain ⟨d2, h2, hd2⟩ := ih d1 dm1 dm h1 e
        refine ⟨d2, h2, ?_⟩
        rcases hd2 with rfl | ⟨order, hd2⟩
        · rcases hd1 with rfl | ⟨order, rfl⟩
          · exact Or.inl rfl
          · exact Or.inr ⟨order, by simp⟩
        · exact Or.inr ⟨order, by simp [hd2]⟩
      | err => rw [ec] at e; cases e
      | panic => rw [ec] at e; cases e
  obtain ⟨d1, h1, hd1⟩ := key cs dmm _ dm (sane_new L m) e
  have np : NoPattern d1 q.path := by
    intro pm ep
    refine hq q (by simp) hqu pm ?_
    rcases hd1 with rfl | ⟨order, hd1⟩
    · exact Or.inl ep
    · rw [ep] at hd1; exact Or.inr ⟨order, hd1⟩
  have pure : (dm.step fuel q).All (fun x => x = dm) := by
    cases q with
    | add u r ds => cases hqu
    | del u r ds => cases hqu
    | clear => cases hqu
    | hasLink u r ds =>
      exact (Sane.query _ (fun rm Lk hi => hi.hasLink_state u r) fuel dm ds h1).map (fun a h => h.2 np)
    | getRoles n ds =>
      exact (Sane.query _ (fun rm Lk hi => hi.getRoles_state n) fuel dm ds h1).map (fun a h => h.2 np)
    | getUsers n ds =>
      exact (Sane.query _ (fun rm Lk hi => hi.getUsers_state n) fuel dm ds h1).map (fun a h => h.2 np)
  have hstep : dm.step fuel q = .ok dm := by
    rw [calls_append, e] at e'
    simp only [Res.bind_ok, calls, call] at e'
    cases es : dm.step fuel q with
    | ok x => rw [pure x es]
    | err => rw [es] at e'; cases e'
    | panic => rw [es] at e'; cases e'
  rw [calls_append, calls_append, e]
  simp only [Res.bind_ok, calls, call, hstep]

/-! ## Examples and counterexamples -/

namespace DomainsExample
open RolesExample

def x := s% "x"
def y := s% "y"
def rmName := s% "RoleManager"

theorem clean_x : Clean [x] := by
  intro e he
  simp only [List.mem_singleton] at he
  subst he
  decide

-- C27/C28: links in `x`, `x/y` and the default domain; level 10
def H : List Op := [.add a b [x], .add b c [x], .add a d [x, y], .add c d [], .del c d [x]]

example : ask 5 10 none none H a c [x] = .ok true ∧ ask 5 10 none none H a d [x] = .ok false ∧
    ask 5 10 none none H a d [x, y] = .ok true ∧ ask 5 10 none none H c d [] = .ok true := by decide
-- two links in `x` need a level of 5
example : ask 5 5 none none H a c [x] = .ok true ∧ ask 5 4 none none H a c [x] = .ok false := by decide

-- C23, C26, C27, C28 with a domain matcher: no domain of `H` is a pattern of `star`
example : Calls 5 H ∧ ∀ op ∈ H, NoPattern (some star) op.path := by
  have h1 : ∀ op ∈ H, (op.path.all fun d => d != redundantRole && d != defaultDomain) = true ∧ op.path.length < 5 ∧
      (op.path.all fun d => !star.isPattern d) = true := by decide
  refine ⟨fun op ho => ⟨fun e he => ?_, (h1 op ho).2.1⟩, fun op ho pm e => ?_⟩
  · have := List.all_eq_true.1 (h1 op ho).1 e he
    simpa using this
  · cases e
    refine ⟨by decide, fun e he => ?_⟩
    have := List.all_eq_true.1 (h1 op ho).2.2 e he
    simpa using this

-- C26: a link through the pattern role `*p` counts in `x` after `SetMatcher`, in `y` it does not exist
example : ∃ dm, calls 5 (new 10 none none) ([Op.add p b [x], .add c d [x]].map .op ++ [.setMatcher (some star) id]) =
    .ok dm ∧ (dm.hasLink 5 a b [x]).map (·.2) = .ok true ∧ (dm.hasLink 5 a b [y]).map (·.2) = .ok false ∧
    dm.range = [(p, b, [x]), (c, d, [x])] := ⟨_, rfl, by decide, by decide, by decide⟩

-- C29: before and after the domain is used
example : ask 5 10 none (some star) (adds [(a, b, [x]), (b, c, [p])]) a c [x] = .ok true ∧
    ask 5 10 none (some star) (adds [(b, c, [p]), (a, b, [x])]) a c [x] = .ok true ∧
    ask 5 10 none (some star) (adds [(b, c, [p]), (a, b, [x])]) b c [y] = .ok true ∧
    ask 5 10 none (some star) (adds [(b, c, [p]), (a, b, [x])]) a b [y] = .ok false := by decide

/-- Domain patterns with overlap: `*p` matches `*q`, and `x` matches `*p` only. -/
def overlapD : PMatcher where
  isPattern s := s.head? == some '*'
  «match» n p := (n == s% "*p" && p == s% "*q") || (n == s% "x" && p == s% "*p")

end DomainsExample

open RolesExample DomainsExample

/-- C27 fails for the reserved name: a link added in the domain `"RoleManager"` appears in the default
domain. -/
theorem c27_fails : ∃ (H : List Op) (op : Op) (a b : Str), op.path ≠ [] ∧ op ≠ .clear ∧
    ∀ fuel, ask (fuel + 2) 10 none none (H ++ [op]) a b [] ≠ ask (fuel + 2) 10 none none H a b [] := by
  refine ⟨[], .add a b [rmName], a, b, by decide, by simp, fun fuel => ?_⟩
  have h1 : ask (fuel + 2) 10 none none ([] ++ [.add a b [rmName]]) a b [] = .ok true := rfl
  have h2 : ask (fuel + 2) 10 none none [] a b [] = .ok false := rfl
  rw [h1, h2]
  simp

/-- C28 fails for the reserved name: after `AddLink(a, b, "RoleManager")` no link is stored in the default domain, but
`HasLink(a, b)` is true. -/
theorem c28_fails : ∃ (H : List Op) (a b : Str), a ≠ b ∧ (∀ fuel, ask (fuel + 2) 10 none none H a b [] = .ok true) ∧
    ∀ u r, linked (inDomain [] H) u r = false :=
  ⟨[.add a b [rmName]], a, b, by decide, fun _ => rfl, fun _ _ => rfl⟩

/-- C29 fails for overlapping patterns: `(a, b)` is added in `*q`, from where it is copied to `*p`; the
explicit link in `*p` is then never copied to the domain `x`, which matches `*p`. -/
theorem c29_fails : ∃ (m : PMatcher) (H : List (Str × Str × List Str)) (u r p d : Str),
    (u, r, [p]) ∈ H ∧ m.isPattern p = true ∧ m.match d p = true ∧
    ask 5 10 none (some m) (adds H) u r [d] = .ok false :=
  ⟨overlapD, [(c, d, [p]), (a, b, [q]), (a, b, [p])], a, b, p, x, by simp, rfl, rfl, by decide⟩

/-- C30 fails: deleting the link of the pattern domain deletes the link added explicitly to `x`. -/
theorem c30_fails : ∃ (m : PMatcher) (u r p d : Str), m.Flat ∧ d ≠ p ∧ m.isPattern d = false ∧
    ask 5 10 none (some m) [.add u r [d], .add u r [p]] u r [d] = .ok true ∧
    ask 5 10 none (some m) [.add u r [d], .add u r [p], .del u r [p]] u r [d] = .ok false :=
  ⟨star, a, b, p, x, star_flat, by decide, rfl, by decide, by decide⟩

/-- C30 fails for `Range`: adding the link to the pattern domain hides the explicit link. -/
theorem c30_fails_range : ∃ (m : PMatcher) (u r p d : Str), m.Flat ∧ d ≠ p ∧
    (run 5 (new 10 none (some m)) [.add u r [d]]).map range = .ok [(u, r, [d])] ∧
    (run 5 (new 10 none (some m)) [.add u r [d], .add u r [p]]).map range = .ok [(u, r, [p])] :=
  ⟨star, a, b, p, x, star_flat, by decide, by decide, by decide⟩

/-- C31 fails: asking about a pattern domain without links makes the next question about a matching
domain panic (nil dereference). -/
theorem c31_fails : ∃ (m : PMatcher) (u r p d : Str), ∀ fuel L mm,
    calls (fuel + 2) (new L mm (some m)) [.op (.hasLink u r [p]), .op (.hasLink u r [d])] = .panic :=
  ⟨star, a, b, p, x, fun _ _ _ => rfl⟩

/-- C26 fails for domain managers: the link of a pattern domain counts in the domain `x`; after
`SetMatcher` with any matcher it no longer does. -/
theorem c26_fails : ∃ (m : PMatcher) (H : List Op) (u r d : Str), m.Flat ∧
    ask 5 10 none (some m) H u r [d] = .ok true ∧
    ((run 5 (new 10 none (some m)) H).map (fun dm => dm.setMatcher none id)).bind
      (fun dm => (dm.hasLink 5 u r [d]).map (·.2)) = .ok false :=
  ⟨star, [.add a b [p], .add c d [x]], a, b, x, star_flat, by decide, by decide⟩

-- C27, C28: what paths with reserved names stand for, and answers after calls with such paths
example : standsFor [x, rmName, y] = [x] ∧ standsFor [redundantRole, x] = [] ∧ standsFor [x, y] = [x, y] := by decide
example : ask 5 10 none none [.add a b [x, rmName, y], .add b c [x, redundantRole], .add c d [rmName, x]] a c [x] =
      .ok true ∧
    ask 5 10 none none [.add a b [x, rmName, y], .add b c [x, redundantRole], .del b c [x, rmName, redundantRole]] a c
      [x, redundantRole, y] = .ok false ∧
    ask 5 10 none none [.add a b [x, rmName, y], .add b c [x, redundantRole], .add c d [rmName, x]] c d [] = .ok true ∧
    ask 5 10 none none [.add a b [x, rmName, y], .add b c [x, redundantRole], .add c d [rmName, x]] c d [x] = .ok false := by
  decide
-- a link whose path has the mark of copied links behind the default domain counts, but `Range` does not list it
example : (run 5 (new 10 none none) [.add a b [x, rmName, redundantRole], .add b c [x, rmName, y]]).map range =
      .ok [(b, c, [x])] ∧
    ask 5 10 none none [.add a b [x, rmName, redundantRole]] a b [x] = .ok true := by
  decide

-- C30: the premise of `c30_other_domains_partial`
example : star.isPattern q = true ∧ star.match q p = false := by decide
-- C31: a history satisfying the premises, with patterns
example : ∃ dm, calls 5 (new 10 none none)
    [.setDomainMatcher (some star) id, .op (.add a b [p]), .op (.hasLink a b [x]), .op (.del a b [p]),
      .setMatcher (some star) id, .op (.getRoles a [x, y])] = .ok dm := ⟨_, rfl⟩

end Fastac
