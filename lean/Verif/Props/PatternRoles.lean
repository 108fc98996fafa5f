import Verif.Lemmas.RoleHistory
import Verif.Model.Matchers
import Verif.Props.AnyManager
import Verif.Props.PathRules

/-!
# C80, C81: role definitions with patterns in programs (examples/rbac_with_pattern_model.conf)
-/

namespace Fastac

open Model

/-- **C81**.  `PathMatcher` and `PathMatcher2` match a path against a pattern segment by segment, and a path that is not
a pattern matches itself only.  A pattern is a path with a segment `*` or a named one.  A `PrefixMatcher` asks its function about what follows
the prefix, which is `p'` for `RegexMatcher`. -/
theorem c81_matchers (re : Str → Str → Bool) (pre : Str) :
    (∀ n p, pathMatcher.match n p = true ↔ StarMatch Colon (splitC '/' n) (splitC '/' p)) ∧
    (∀ n p, pathMatcher2.match n p = true ↔ StarMatch Braces (splitC '/' n) (splitC '/' p)) ∧
    (∀ p, (prefixMatcher pre re).isPattern p = true ↔ ∃ q, p = pre ++ q) ∧
    (∀ n p, (prefixMatcher pre re).match n p = true ↔ ∃ q, p = pre ++ q ∧ re n q = true) ∧
    (∀ p, pathMatcher.isPattern p = true ↔ ∃ q ∈ splitC '/' p, q = ['*'] ∨ Colon q) ∧
    (∀ p, pathMatcher2.isPattern p = true ↔ ∃ q ∈ splitC '/' p, q = ['*'] ∨ Braces q) ∧
    (∀ m ∈ [pathMatcher, pathMatcher2], ∀ n p, m.isPattern p = false → (m.match n p = true ↔ n = p)) ∧
    regexMatcher re = prefixMatcher ['p', '\''] re := by
  refine ⟨fun n p => (c47_exact n p).1, fun n p => (c47_exact n p).2, fun p => ?_, fun n p => ?_,
    fun p => (isPathPattern_iff p).1, fun p => (isPathPattern_iff p).2, ?_, rfl⟩
  rotate_left 2
  · intro m hm n p hp
    simp only [List.mem_cons, List.not_mem_nil, or_false] at hm
    rcases hm with rfl | rfl
    · exact (c49_plain n p).1 hp
    · exact (c49_plain n p).2 hp
  · simp only [prefixMatcher, List.isPrefixOf_iff_prefix]
    constructor
    · rintro ⟨q, rfl⟩; exact ⟨q, rfl⟩
    · rintro ⟨q, rfl⟩; exact ⟨q, rfl⟩
  · simp only [prefixMatcher]
    by_cases h : pre.isPrefixOf p = true
    · obtain ⟨q, rfl⟩ := List.isPrefixOf_iff_prefix.mp h
      simp only [h, if_true, List.drop_left]
      constructor
      · intro hq; exact ⟨q, rfl, hq⟩
      · rintro ⟨q', e, hq⟩
        rw [List.append_cancel_left e]; exact hq
    · simp only [h]
      constructor
      · intro e; cases e
      · rintro ⟨q, rfl, -⟩
        exact absurd (List.isPrefixOf_iff_prefix.mpr ⟨q, rfl⟩) h

example : pathMatcher.match (s% "/book/7") (s% "/book/:id") = true ∧
    pathMatcher.match (s% "/book/7/8") (s% "/book/:id") = false ∧
    pathMatcher.match (s% "/book/:id") (s% "/book/*") = true ∧
    pathMatcher2.match (s% "/book/7") (s% "/book/{id}") = true ∧
    (regexMatcher (fun n q => n.take q.length == q)).match (s% "book_7") (s% "p'book") = true ∧
    (regexMatcher (fun n q => n.take q.length == q)).match (s% "book_7") (s% "book") = false := by
  decide +kernel

namespace FnModel

/-- **C80**.  In any program, behind a role definition with two arguments: its rules are the links, and its function
answers as `roleAnswerIn` says, for the level bound, the matcher, the links and the names that follow from the calls. -/
theorem c80_roles (build : FnBuild) (key : Str) (hg : key.head? = some 'g') (s : FnModel) (level : Nat)
    (pm : Option PMatcher) (L : Str → Str → Prop) (O : List Str) (h : RolesAre build key s level pm L O) :
    ∃ (rules : List Rule) (fn : Fn), s.model.policyRules key = some rules ∧
      (∀ r, r ∈ rules ↔ ∃ u v, r = [u, v] ∧ L u v) ∧
      s.functions key = some fn ∧
      (∀ u v ds, ∃ b, fn (u :: v :: ds) = .bool b ∧ (b = true ↔ roleAnswerIn level L O u v pm)) := by
  obtain ⟨h1, h2, m, hm, h3⟩ := h.behind hg
  unfold mgrOf at hm
  cases hq : s.model.rpMap.get key with
  | none => rw [hq] at hm; cases hm
  | some rp =>
    rw [hq] at hm
    have hrp : rp.mgr = .rm m := by simpa using hm
    refine ⟨rp.rules, gFunction rp.mgr, ?_, ?_, ?_, ?_⟩
    · unfold policyRules; rw [h1, hq]; rfl
    · intro r
      unfold RolePolicy.rules RolePolicy.runs
      rw [hrp]
      simp only [Mgr.runs, List.mem_flatten, List.mem_map, ← h3.has.links, RM.links, List.mem_flatMap]
      constructor
      · rintro ⟨_, ⟨_, ⟨u, hu, rfl⟩, rfl⟩, hr⟩
        obtain ⟨_, hl, rfl⟩ := List.mem_map.mp hr
        obtain ⟨v, hv, rfl⟩ := List.mem_map.mp hl
        exact ⟨u, v, rfl, u, hu, v, hv, rfl⟩
      · rintro ⟨u, v, rfl, u', hu, v', hv, e⟩
        cases e
        exact ⟨_, ⟨_, ⟨u, hu, rfl⟩, rfl⟩, List.mem_map.mpr ⟨_, List.mem_map.mpr ⟨v, hv, rfl⟩, rfl⟩⟩
    · simp only [FnModel.functions, h2, hq, Option.map_some]
    · intro u v ds
      rw [hrp]
      exact ⟨(m.hasLink u v).2, rfl, h3.hasLink u v⟩

end FnModel

namespace PatternRules

open PathRules (args actRegex Compiles)

def subRole : Atom := .call (s% "g") [.req (s% "sub"), .pol (s% "sub")]
def objRole : Atom := .call (s% "g2") [.req (s% "obj"), .pol (s% "obj")]

/-- `g(r.sub, p.sub) && g2(r.obj, p.obj) && regexMatch(r.act, p.act)` (examples/rbac_with_pattern_model.conf) -/
def asShipped : List (List Cond) := [[.atom subRole, .atom objRole, .atom actRegex]]

/-- `regexMatch(r.act, p.act) && g2(r.obj, p.obj) && g(r.sub, p.sub)` -/
def reordered : List (List Cond) := [[.atom actRegex, .atom objRole, .atom subRole]]

/-- The role managers of `g` and `g2`, as `RolesAre` describes them. -/
structure Roles where
  level : Nat
  pm : Option PMatcher
  links : Str → Str → Prop
  names : List Str

def Roles.has (R : Roles) (u v : Str) : Prop := roleAnswerIn R.level R.links R.names u v R.pm

/-- What a rule says about a request. -/
def Permits (std : StdLib) (g g2 : Roles) (sub obj act : Str) (rule : Rule) : Prop :=
  ∃ ps po re, rule = [ps, po, re] ∧ g.has sub ps ∧ g2.has obj po ∧ std.regex act re = some true

/-- The definitions of the model, the role managers and the function the matcher calls. -/
structure Defined (std : StdLib) (build : FnBuild) (g g2 : Roles) (s : FnModel) : Prop where
  r : s.model.rDefs.get (s% "r") = some (s% "sub, obj, act")
  p : s.model.pDefs.get (s% "p") = some (newPolicyDef (s% "p") (s% "sub, obj, act"))
  e : s.model.eDefs.get (s% "e") = some SOME_ALLOW
  regex : s.functions (s% "regexMatch") = (FnModel.new std []).functions (s% "regexMatch")
  g : FnModel.RolesAre build (s% "g") s g.level g.pm g.links g.names
  g2 : FnModel.RolesAre build (s% "g2") s g2.level g2.pm g2.links g2.names
  free : ∀ x ∈ args, s.functions (qual (s% "r") x) = none ∧ s.functions (qual (s% "p") x) = none

section

variable {std : StdLib} {build : FnBuild} {g g2 : Roles} {s : FnModel} (D : Defined std build g g2 s)

include D

omit D in
theorem role_holds {key : Str} {R : Roles} (hg : key.head? = some 'g') (hev : key ≠ s% "eval")
    (h : FnModel.RolesAre build key s R.level R.pm R.links R.names) (gov : Gov) (x y u v : Str) (sub obj act : Str)
    (rule : Rule) (hx : Ref.val args args [sub, obj, act] rule (.req x) = some u)
    (hy : Ref.val args args [sub, obj, act] rule (.pol y) = some v) :
    (Atom.call key [.req x, .pol y]).holds (Ref.val args args [sub, obj, act] rule)
      (s.SaysNow gov (s% "r") args [sub, obj, act]) ↔ R.has u v := by
  obtain ⟨_, fn, -, -, e, hfn⟩ := FnModel.c80_roles build key hg s _ _ _ _ h
  obtain ⟨b, hb, hb'⟩ := hfn u v []
  have hm : [Ref.req x, Ref.pol y].mapM (Ref.val args args [sub, obj, act] rule) = some [u, v] := by
    simp [hx, hy]
  unfold Roles.has
  rw [← hb']
  constructor
  · rintro ⟨vs, h, h'⟩
    rw [hm] at h
    cases h
    unfold FnModel.SaysNow at h'
    rw [if_neg hev] at h'
    obtain ⟨fn', e', h'⟩ := h'
    rw [e] at e'
    cases e'
    rw [hb] at h'
    exact EvalRes.bool.inj h'
  · intro hh
    refine ⟨[u, v], hm, ?_⟩
    unfold FnModel.SaysNow
    rw [if_neg hev]
    exact ⟨fn, e, by rw [hb, hh]⟩

theorem holds_iff (gov : Gov) (sub obj act : Str) (rule : Rule) (hl : rule.length = 3) :
    (subRole.holds (Ref.val args args [sub, obj, act] rule) (s.SaysNow gov (s% "r") args [sub, obj, act]) ∧
     objRole.holds (Ref.val args args [sub, obj, act] rule) (s.SaysNow gov (s% "r") args [sub, obj, act]) ∧
     actRegex.holds (Ref.val args args [sub, obj, act] rule) (s.SaysNow gov (s% "r") args [sub, obj, act]))
      ↔ Permits std g g2 sub obj act rule := by
  obtain ⟨_, _, f3, _, _, -, -, e3, -, -, -, -, h3, -⟩ := c78_functions std
  match rule, hl with
  | [a, b, c], _ =>
    have hr : actRegex.holds (Ref.val args args [sub, obj, act] [a, b, c])
        (s.SaysNow gov (s% "r") args [sub, obj, act]) ↔ std.regex act c = some true := by
      constructor
      · rintro ⟨vs, h, h'⟩
        have : [act, c] = vs := Option.some.inj h
        subst this
        unfold FnModel.SaysNow at h'
        rw [if_neg (by decide)] at h'
        obtain ⟨fn, e, h'⟩ := h'
        rw [D.regex, e3] at e
        cases e
        rw [(h3 act c).1] at h'
        cases hx : std.regex act c with
        | none => rw [hx] at h'; cases h'
        | some y => rw [hx] at h'; rw [EvalRes.bool.inj h']
      · intro hb
        refine ⟨[act, c], rfl, ?_⟩
        unfold FnModel.SaysNow
        rw [if_neg (by decide)]
        exact ⟨f3, D.regex.trans e3, by rw [(h3 act c).1, hb]; rfl⟩
    rw [hr, show subRole = Atom.call (s% "g") [.req (s% "sub"), .pol (s% "sub")] from rfl,
      show objRole = Atom.call (s% "g2") [.req (s% "obj"), .pol (s% "obj")] from rfl,
      role_holds rfl (by decide) D.g gov (s% "sub") (s% "sub") sub a sub obj act [a, b, c] rfl rfl,
      role_holds rfl (by decide) D.g2 gov (s% "obj") (s% "obj") obj b sub obj act [a, b, c] rfl rfl]
    constructor
    · rintro ⟨h, h', h''⟩; exact ⟨a, b, c, rfl, h, h', h''⟩
    · rintro ⟨_, _, _, e, h⟩; cases e; exact h

theorem fits (gov : Gov) (sub obj act : Str) : ∀ a ∈ [subRole, objRole, actRegex],
    a.FitsNow s gov (s% "r") (s% "p") args args [sub, obj, act] (Compiles std) := by
  obtain ⟨_, _, f3, _, _, -, -, e3, -, -, -, -, h3, -⟩ := c78_functions std
  intro a ha
  simp only [List.mem_cons, List.not_mem_nil, or_false] at ha
  rcases ha with rfl | rfl | rfl
  · refine ⟨⟨by simp, by decide, by decide, noTailRef_iff (by decide)⟩, ?_⟩
    rintro _ _ ⟨⟩
    rw [if_neg (by decide)]
    obtain ⟨_, fn, -, -, e, hfn⟩ := FnModel.c80_roles build (s% "g") rfl s _ _ _ _ D.g
    refine ⟨fn, e, ?_⟩
    rintro r ⟨x, y, z, rfl, -⟩ - vs h
    have : [sub, x] = vs := Option.some.inj h
    subst this
    obtain ⟨b, hb, -⟩ := hfn sub x []
    exact ⟨b, hb⟩
  · refine ⟨⟨by simp, by decide, by decide, noTailRef_iff (by decide)⟩, ?_⟩
    rintro _ _ ⟨⟩
    rw [if_neg (by decide)]
    obtain ⟨_, fn, -, -, e, hfn⟩ := FnModel.c80_roles build (s% "g2") rfl s _ _ _ _ D.g2
    refine ⟨fn, e, ?_⟩
    rintro r ⟨x, y, z, rfl, -⟩ - vs h
    have : [obj, y] = vs := Option.some.inj h
    subst this
    obtain ⟨b, hb, -⟩ := hfn obj y []
    exact ⟨b, hb⟩
  · refine ⟨⟨by simp, by decide, by decide, noTailRef_iff (by decide)⟩, ?_⟩
    rintro _ _ ⟨⟩
    rw [if_neg (by decide)]
    refine ⟨f3, D.regex.trans e3, ?_⟩
    rintro r ⟨x, y, z, rfl, hz⟩ - vs h
    have : [act, z] = vs := Option.some.inj h
    subst this
    rw [(h3 act z).1]
    cases hx : std.regex act z with
    | none => exact absurd hx (hz act)
    | some b => exact ⟨b, rfl⟩

theorem naming : Naming s.functions (s% "r") (s% "p") args args :=
  ⟨writable_of (by decide) (by decide +kernel) (fun x hx => (D.free x hx).1),
    writable_of (by decide) (by decide +kernel) (fun x hx => (D.free x hx).2), rfl, 'p', [], rfl, .inl rfl, by decide⟩

/-- **C80**, the part that holds of the matcher as shipped.  In any program in which no rule for `p` is removed one by
one, if the policy is not empty or the empty rule would not permit the request: a request is allowed if and only if a
stored rule permits it, with the roles of `g` and `g2`, patterns included, as they are now. -/
theorem c80_shipped_partial (u : Str → Res Stage) (hc : build.Coherent u)
    (hbin : ∀ e s, u e = .ok s → s.Binary) (grow : Nat → Nat) (root : Stage)
    (hroot : buildMatcherDef grow (Cond.formula (s% "r") (s% "p") asShipped).toks = .ok root)
    (h : FnModel.FnHeld build (s% "m") root (Compiles std) True s)
    (gov : Gov) (hgov : gov.Ok) (hsc : gov.Scoped) (hre : ∀ x, std.regex x [] ≠ none)
    (sub obj act : Str)
    (hne : s.model.policyRules (s% "p") ≠ some [] ∨ ¬ Permits std g g2 sub obj act [[], [], []])
    (ord : Order) (hord : ord.Valid) (depth : Nat) (hdep : 0 < depth) :
    ∃ rules answer, s.model.policyRules (s% "p") = some rules ∧
      (s.enforce build gov depth ord ([sub, obj, act].map .val)).2 = .ok answer ∧
      (answer = true ↔ ∃ rule ∈ rules, Permits std g g2 sub obj act rule) := by
  obtain ⟨rules, L, h1, h0, h2, -, h3⟩ := FnModel.c79_now_partial build u hc hbin grow (s% "r") (s% "m") (s% "e")
    (s% "p") (s% "sub, obj, act") SOME_ALLOW args args asShipped root (by decide) (by decide) hroot (Compiles std)
    True s h (by decide) (by decide) D.r (by decide) _ D.p (by decide +kernel) D.e gov hgov hsc (naming D)
    [sub, obj, act] (.of_len (by rfl))
    (fun a ha => fits D gov sub obj act a (by
      simpa [asShipped, Cond.anyAtoms, Cond.allAtoms, Cond.atoms] using ha))
    (.inl rfl) (fun _ => ⟨[], [], [], rfl, hre⟩) (fun h => absurd trivial h)
    (by
      intro he hh
      rcases hne with hs | hs
      · exact hs he
      · refine hs ((holds_iff D gov sub obj act _ rfl).mp ?_)
        rcases hh with hh | hh
        · exact ⟨hh.1, hh.2.1, hh.2.2.1⟩
        · exact hh.elim)
    (fun h => absurd h (by decide)) ord hord depth hdep
  refine ⟨rules, _, h1, h3 rfl rfl rfl, ?_⟩
  rw [PathRules.allows h2]
  constructor
  · rintro ⟨r, hr, h⟩
    refine ⟨r, hr, (holds_iff D gov sub obj act r (h0 r hr).2).mp ?_⟩
    simpa [asShipped, Cond.anyHolds, Cond.allHold, Cond.holds] using h
  · rintro ⟨r, hr, h⟩
    refine ⟨r, hr, ?_⟩
    simpa [asShipped, Cond.anyHolds, Cond.allHold, Cond.holds] using
      (holds_iff D gov sub obj act r (h0 r hr).2).mpr h

/-- **C80**, with the roles of the subject at the end: also if rules are removed, for subjects that do not have the
empty name as a role. -/
theorem c80_reordered_partial (u : Str → Res Stage) (hc : build.Coherent u)
    (hbin : ∀ e s, u e = .ok s → s.Binary) (grow : Nat → Nat) (root : Stage)
    (hroot : buildMatcherDef grow (Cond.formula (s% "r") (s% "p") reordered).toks = .ok root)
    (h : FnModel.FnHeld build (s% "m") root (Compiles std) False s)
    (gov : Gov) (hgov : gov.Ok) (hsc : gov.Scoped) (hre : ∀ x, std.regex x [] ≠ none)
    (sub obj act : Str) (hsub : ¬ g.has sub [])
    (ord : Order) (hord : ord.Valid) (depth : Nat) (hdep : 0 < depth) :
    ∃ rules answer, s.model.policyRules (s% "p") = some rules ∧
      (s.enforce build gov depth ord ([sub, obj, act].map .val)).2 = .ok answer ∧
      (answer = true ↔ ∃ rule ∈ rules, Permits std g g2 sub obj act rule) := by
  have hblank : ¬ subRole.holds (Ref.val args args [sub, obj, act] (List.replicate 3 []))
      (s.SaysNow gov (s% "r") args [sub, obj, act]) := fun hh =>
    hsub ((role_holds rfl (by decide) D.g gov (s% "sub") (s% "sub") sub [] sub obj act _ rfl rfl).mp hh)
  obtain ⟨rules, L, h1, h0, h2, -, h3⟩ := FnModel.c79_now_partial build u hc hbin grow (s% "r") (s% "m") (s% "e")
    (s% "p") (s% "sub, obj, act") SOME_ALLOW args args reordered root (by decide) (by decide) hroot (Compiles std)
    False s h (by decide) (by decide) D.r (by decide) _ D.p (by decide +kernel) D.e gov hgov hsc (naming D)
    [sub, obj, act] (.of_len (by rfl))
    (fun a ha => fits D gov sub obj act a (by
      have : a = actRegex ∨ a = objRole ∨ a = subRole := by
        simpa [reordered, Cond.anyAtoms, Cond.allAtoms, Cond.atoms] using ha
      rcases this with rfl | rfl | rfl <;> simp))
    (.inl rfl) (fun _ => ⟨[], [], [], rfl, hre⟩)
    (by
      intro _ a ha
      have : a = subRole := by simpa [reordered, Cond.anyLasts, Cond.allLasts, Cond.lasts] using ha
      subst this
      exact hblank)
    (by
      intro he hh
      rcases hh with hh | hh
      · exact hblank hh.2.2.1
      · exact hh)
    (fun h => absurd h (by decide)) ord hord depth hdep
  refine ⟨rules, _, h1, h3 rfl rfl rfl, ?_⟩
  rw [PathRules.allows h2]
  constructor
  · rintro ⟨r, hr, h⟩
    refine ⟨r, hr, (holds_iff D gov sub obj act r (h0 r hr).2).mp ?_⟩
    rcases h with h | h
    · exact ⟨h.2.2.1, h.2.1, h.1⟩
    · exact h.elim
  · rintro ⟨r, hr, h⟩
    refine ⟨r, hr, ?_⟩
    have := (holds_iff D gov sub obj act r (h0 r hr).2).mpr h
    simpa [reordered, Cond.anyHolds, Cond.allHold, Cond.holds] using
      And.intro this.2.2 (And.intro this.2.1 this.1)

end

/-! ## A program that meets the hypotheses -/

open PathRules (rootOf std add remove compiles)

def fbuild : FnBuild := fun known e =>
  if known (s% "g") && known (s% "g2") && known (s% "regexMatch") then
    if e = s% "shipped" then .ok (rootOf asShipped) else if e = s% "reordered" then .ok (rootOf reordered) else .err
  else .err

def reading (e : Str) : Res Stage :=
  if e = s% "shipped" then .ok (rootOf asShipped) else if e = s% "reordered" then .ok (rootOf reordered) else .err

theorem coherent : fbuild.Coherent reading := by
  intro known e
  unfold fbuild reading
  split
  · exact .inl rfl
  · exact .inr rfl

theorem binary : ∀ e s, reading e = .ok s → s.Binary := by
  intro e s h
  unfold reading at h
  split at h
  · cases h
    simp [rootOf, asShipped, subRole, objRole, actRegex, Cond.formula, Cond.operands, Cond.operand, Atom.operand,
      callAtom, Operand.trD, Operand.trC, Operand.trU, Stage.Binary, Stage.All, Stage.AllIn, Stage.children]
  · split at h
    · cases h
      simp [rootOf, reordered, subRole, objRole, actRegex, Cond.formula, Cond.operands, Cond.operand, Atom.operand,
        callAtom, Operand.trD, Operand.trC, Operand.trU, Stage.Binary, Stage.All, Stage.AllIn,
        Stage.children]
    · cases h

def start : FnModel :=
  ((FnModel.new std []).setDef 'r' (s% "r") (s% "sub, obj, act")).1.setDef 'p' (s% "p") (s% "sub, obj, act") |>.1

/-- the definitions of examples/rbac_with_pattern_model.conf -/
def defs (text : Str) : FnModel :=
  ((((start.setDef 'g' (s% "g") (s% "_, _")).1.setDef 'g' (s% "g2") (s% "_, _")).1.setDef
    'e' (s% "e") SOME_ALLOW).1.setDef 'm' (s% "m") text).1

def adminRule : Rule := [s% "p", s% "book_admin", s% "book_group", s% "GET"]
def penRule : Rule := [s% "p", s% "alice", s% "/pen/1", s% "POST"]
def bookLink : Str × Str := (s% "/book/:id", s% "book_group")

/-- a policy, and then the matcher of `g2` is set as in model_test.go:312-313 -/
def program (text : Str) : FnModel :=
  (add (add (add (add ((defs text).buildMatcher fbuild (s% "m")).1 adminRule) penRule)
    [s% "g", s% "alice", s% "book_admin"]) [s% "g2", s% "/book/:id", s% "book_group"]).onManager (s% "g2")
    (Mgr.onRM (RM.setMatcher · (some pathMatcher) (fun _ => [bookLink])))

def gRoles : Roles := ⟨10, none, fun a b => False ∨ (a = s% "alice" ∧ b = s% "book_admin"),
  [s% "alice", s% "book_admin"]⟩
def g2Roles : Roles := ⟨10, some pathMatcher, fun a b => False ∨ (a = s% "/book/:id" ∧ b = s% "book_group"),
  namesIn [bookLink]⟩

section

variable {b : FnBuild} {k : Str} {s : FnModel} {n : Nat} {pm : Option PMatcher} {L : Str → Str → Prop} {O : List Str}
  (h : FnModel.RolesAre b k s n pm L O)

include h

theorem addOther (r : Rule) (hr : r.head? ≠ some k) : FnModel.RolesAre b k (add s r) n pm L O :=
  h.other (.rule (.add r)) hr

theorem removeOther (r : Rule) (hr : r.head? ≠ some k) : FnModel.RolesAre b k (remove s r) n pm L O :=
  h.other (.rule (.remove r)) hr

theorem setDefOther (sec : Char) (key value : Str) (hr : sec ≠ 'g' ∨ key ≠ k) :
    FnModel.RolesAre b k (s.setDef sec key value).1 n pm L O := h.other (.setDef sec key value) hr

theorem buildOther (key : Str) : FnModel.RolesAre b k (s.buildMatcher b key).1 n pm L O :=
  h.other (.buildMatcher key) trivial

theorem addLinkHere (u r : Str) : FnModel.RolesAre b k (add s [k, u, r]) n pm
    ((LinkOp.add u r).links L) ((LinkOp.add u r).uses O) := h.add u r [] (by decide)

end

theorem gAre (text : Str) : FnModel.RolesAre fbuild (s% "g") (program text) gRoles.level gRoles.pm gRoles.links
    gRoles.names := by
  have h0 : FnModel.RolesAre fbuild (s% "g") (start.setDef 'g' (s% "g") (s% "_, _")).1 10 none
    (fun _ _ => False) [] := .defined start (by decide +kernel) _ (by decide +kernel)
  have h1 := buildOther (setDefOther (setDefOther (setDefOther h0 'g' (s% "g2") (s% "_, _") (.inr (by decide)))
    'e' (s% "e") SOME_ALLOW (.inl (by decide))) 'm' (s% "m") text (.inl (by decide))) (s% "m")
  have h2 := addOther (addOther h1 adminRule (by decide)) penRule (by decide)
  have h3 := addOther (addLinkHere h2 (s% "alice") (s% "book_admin")) [s% "g2", s% "/book/:id", s% "book_group"]
    (by decide)
  exact h3.other (.onManager (s% "g2") _) (show (s% "g2") ≠ s% "g" by decide)

theorem g2Are (text : Str) : FnModel.RolesAre fbuild (s% "g2") (program text) g2Roles.level g2Roles.pm
    g2Roles.links g2Roles.names := by
  have h0 : FnModel.RolesAre fbuild (s% "g2") ((start.setDef 'g' (s% "g") (s% "_, _")).1.setDef 'g' (s% "g2")
    (s% "_, _")).1 10 none (fun _ _ => False) [] := .defined _ (by decide +kernel) _ (by decide +kernel)
  have h1 := buildOther (setDefOther (setDefOther h0
    'e' (s% "e") SOME_ALLOW (.inl (by decide))) 'm' (s% "m") text (.inl (by decide))) (s% "m")
  have h2 := addOther (addOther (addOther h1 adminRule (by decide)) penRule (by decide))
    [s% "g", s% "alice", s% "book_admin"] (by decide)
  exact (addLinkHere h2 (s% "/book/:id") (s% "book_group")).setMatcher (some pathMatcher) [bookLink]
    (by decide) (by
      intro u r
      simp [bookLink, LinkOp.links])

theorem held {text : Str} {root : Stage} {keep : Prop} (ht : reading text = .ok root)
    (hd : (defs text).model.mDefs.get (s% "m") = some text)
    (hb : fbuild (defs text).knows text = reading text)
    (hk : root.policyKey = s% "p") (hok : ((defs text).buildMatcher fbuild (s% "m")).2 = .ok ())
    (hr : (defs text).model.policyRules (s% "p") = some [])
    (hd' : ((defs text).buildMatcher fbuild (s% "m")).1.model.pDefs.get (s% "p") =
      some (newPolicyDef (s% "p") (s% "sub, obj, act")))
    (hd'' : (add ((defs text).buildMatcher fbuild (s% "m")).1 adminRule).model.pDefs.get (s% "p") =
      some (newPolicyDef (s% "p") (s% "sub, obj, act"))) :
    FnModel.FnHeld fbuild (s% "m") root (Compiles std) keep (program text) := by
  have hs : ∀ s : FnModel, s.model.pDefs.get (s% "p") = some (newPolicyDef (s% "p") (s% "sub, obj, act")) →
      s.SuitsP adminRule ∧ s.SuitsP penRule := by
    intro s hs
    refine ⟨fun _ => ⟨by decide, ?_⟩, fun _ => ⟨by decide, ?_⟩⟩ <;>
    · intro d h
      rw [hs] at h
      cases h
      exact ⟨by decide +kernel, by decide +kernel, by decide +kernel⟩
  have hg : ∀ (s : FnModel) (k : Str) (r : Rule), k.head? ≠ some 'p' → s.SuitsP (k :: r) := fun s k r h h' =>
    absurd h' h
  refine .onManager (.add (.add (.add (.add (.built
    (.setDef (.setDef (.setDef (.setDef (.setDef (.setDef (.new _ _) _ _ _) _ _ _) _ _ _) _ _ _) _ _ _) _ _ _)
    text hd (hb.trans ht) hok ?_) _ (hs _ hd').1 ?_) _ (hs _ hd'').2 ?_) _ (hg _ _ _ (by decide)) ?_) _
    (hg _ _ _ (by decide)) ?_) _ _
  · intro rules h r hm
    rw [hk] at h
    cases hr.symm.trans h
    cases hm
  · intro f e; cases (List.cons.inj e).2; exact compiles _ rfl
  · intro f e; cases (List.cons.inj e).2; exact compiles _ rfl
  · intro f e; rw [hk] at e; cases e
  · intro f e; rw [hk] at e; cases e

/-- The hypotheses hold for every request: of the matcher as shipped … -/
example (sub obj act : Str) : ∃ rules answer, (program (s% "shipped")).model.policyRules (s% "p") = some rules ∧
    ((program (s% "shipped")).enforce fbuild EvalExample.gov 1 Order.fwd ([sub, obj, act].map .val)).2 = .ok answer ∧
    (answer = true ↔ ∃ rule ∈ rules, Permits std gRoles g2Roles sub obj act rule) :=
  c80_shipped_partial ⟨by decide +kernel, by rfl, by decide +kernel, by rfl, gAre _, g2Are _, by decide +kernel⟩
    reading coherent binary (fun _ => 0) (rootOf asShipped)
    (buildMatcherDef_formula _ _ (by decide) (by decide))
    (held rfl (by decide +kernel) (by rfl) (by decide +kernel) (by decide +kernel) (by decide +kernel) (by rfl)
      (by rfl))
    EvalExample.gov EvalExample.gov_ok (Gov.scope_scoped _) (by intro x h; cases h) sub obj act
    (.inl (by decide +kernel)) Order.fwd Order.fwd_valid 1 (by decide)

/-- … and of the reordered matcher after a rule was removed, for subjects other than the empty name. -/
example (sub obj act : Str) (hsub : sub ≠ []) : ∃ rules answer,
    (remove (program (s% "reordered")) adminRule).model.policyRules (s% "p") = some rules ∧
    ((remove (program (s% "reordered")) adminRule).enforce fbuild EvalExample.gov 1 Order.fwd
      ([sub, obj, act].map .val)).2 = .ok answer ∧
    (answer = true ↔ ∃ rule ∈ rules, Permits std gRoles g2Roles sub obj act rule) :=
  c80_reordered_partial ⟨by decide +kernel, by rfl, by decide +kernel, by rfl,
      removeOther (gAre _) adminRule (by decide),
      removeOther (g2Are _) adminRule (by decide), by decide +kernel⟩
    reading coherent binary (fun _ => 0) (rootOf reordered)
    (buildMatcherDef_formula _ _ (by decide) (by decide))
    (.remove (held rfl (by decide +kernel) (by rfl) (by decide +kernel) (by decide +kernel) (by decide +kernel)
      (by rfl) (by rfl)) _ (fun _ => ⟨by decide, by
        intro d h
        have : d = newPolicyDef (s% "p") (s% "sub, obj, act") := (Option.some.inj h).symm
        subst this
        exact ⟨by decide +kernel, by decide +kernel, by decide +kernel⟩⟩) (fun h => h.elim))
    EvalExample.gov EvalExample.gov_ok (Gov.scope_scoped _) (by intro x h; cases h) sub obj act
    (by
      have step : ∀ {k a b}, Reach gRoles.links k a b → a = b ∨ b = s% "book_admin" := by
        intro k a b h
        induction h with
        | refl => exact .inl rfl
        | step hab _ ih =>
          rcases hab with h | ⟨-, h⟩
          · exact h.elim
          · rcases ih with ih | ih
            · exact .inr (ih ▸ h)
            · exact .inr ih
      rintro (h | ⟨k, -, h⟩)
      · exact hsub h
      · rcases step h with h | h
        · exact hsub h
        · cases h)
    Order.fwd Order.fwd_valid 1 (by decide)

def ask (s : FnModel) (vals : List Str) : Res Bool := (s.enforce fbuild EvalExample.gov 1 Order.fwd (vals.map .val)).2

example : ask (program (s% "shipped")) [s% "alice", s% "/book/7", s% "GET"] = .ok true ∧
    ask (program (s% "shipped")) [s% "alice", s% "/book/7/8", s% "GET"] = .ok false ∧
    ask (program (s% "shipped")) [s% "bob", s% "/book/7", s% "GET"] = .ok false ∧
    ask (program (s% "shipped")) [s% "alice", s% "/pen/1", s% "POST"] = .ok true ∧
    ask (remove (program (s% "reordered")) adminRule) [s% "alice", s% "/book/7", s% "GET"] = .ok false := by
  decide +kernel

/-- **C80 fails** of the matcher as shipped once a rule is removed: the rule of the administrators is gone, and alice
may still do anything with the books. -/
theorem c80_fails :
    (remove (program (s% "shipped")) adminRule).model.policyRules (s% "p") = some [penRule.tail] ∧
    ask (remove (program (s% "shipped")) adminRule) [s% "alice", s% "/book/7", s% "DELETE"] = .ok true ∧
    (∀ rule ∈ [penRule.tail], ¬ Permits std gRoles g2Roles (s% "alice") (s% "/book/7") (s% "DELETE") rule) := by
  refine ⟨by decide +kernel, by decide +kernel, ?_⟩
  intro rule hr
  rw [List.mem_singleton] at hr
  subst hr
  rintro ⟨ps, po, re, e, -, -, h⟩
  cases e
  exact absurd h (by decide)

end PatternRules

end Fastac
