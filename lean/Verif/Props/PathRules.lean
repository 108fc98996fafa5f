import Verif.Props.Program
import Verif.Props.PathMatch

/-!
# C78: the built-in functions, and rules about paths (examples/pathmatch_model.conf)
-/

namespace Fastac

open Model

/-- The outcome of a function of the standard library that panics on malformed arguments. -/
def orPanic : Option Bool → EvalRes
  | some b => .bool b
  | none => .panic

/-- The outcome of a function of the standard library that returns an error. -/
def orErr : Option Bool → EvalRes
  | some b => .bool b
  | none => .err

/-- **C78**, the functions.  In a new model `pathMatch(path, pattern)` and `pathMatch2(path, pattern)` say whether
the path matches (exactly, see C47), `regexMatch` and `ipMatch` say what the standard library says about the
arguments in this order, or panic, `globMatch` likewise, or reports an error; with any other number of arguments all
of them report an error. -/
theorem c78_functions (std : StdLib) :
    ∃ f1 f2 f3 f4 f5 : Fn,
      (FnModel.new std []).functions (s% "pathMatch") = some f1 ∧
      (FnModel.new std []).functions (s% "pathMatch2") = some f2 ∧
      (FnModel.new std []).functions (s% "regexMatch") = some f3 ∧
      (FnModel.new std []).functions (s% "ipMatch") = some f4 ∧
      (FnModel.new std []).functions (s% "globMatch") = some f5 ∧
      (∀ path pattern, ∃ b, f1 [path, pattern] = .bool b ∧
        (b = true ↔ StarMatch Colon (splitC '/' path) (splitC '/' pattern))) ∧
      (∀ path pattern, ∃ b, f2 [path, pattern] = .bool b ∧
        (b = true ↔ StarMatch Braces (splitC '/' path) (splitC '/' pattern))) ∧
      (∀ x y, f3 [x, y] = orPanic (std.regex x y) ∧ f4 [x, y] = orPanic (std.ip x y) ∧
        f5 [x, y] = orErr (std.glob x y)) ∧
      ∀ args : List Str, args.length ≠ 2 → ∀ f ∈ [f1, f2, f3, f4, f5], f args = .err := by
  refine ⟨_, _, _, _, _, rfl, rfl, rfl, rfl, rfl, ?_, ?_, ?_, ?_⟩
  · intro path pattern
    obtain ⟨b, hb⟩ := c48_terminates '/' (some ':') none path pattern
    have e : PathMatchF (path.length + 2) path pattern = some b := hb _ (Nat.le_refl _)
    have hP : PathMatch path pattern = b := by unfold PathMatch; rw [e]; rfl
    refine ⟨b, ?_, ?_⟩
    · simp only [wrapMatching, e]
    · rw [← hP]; exact (c47_exact path pattern).1
  · intro path pattern
    obtain ⟨b, hb⟩ := c48_terminates '/' (some '{') (some '}') path pattern
    have e : PathMatch2F (path.length + 2) path pattern = some b := hb _ (Nat.le_refl _)
    have hP : PathMatch2 path pattern = b := by unfold PathMatch2; rw [e]; rfl
    refine ⟨b, ?_, ?_⟩
    · simp only [wrapMatching, e]
    · rw [← hP]; exact (c47_exact path pattern).2
  · intro x y
    refine ⟨?_, ?_, ?_⟩
    · cases h : std.regex x y <;> simp [wrapMatching, orPanic, h]
    · cases h : std.ip x y <;> simp [wrapMatching, orPanic, h]
    · cases h : std.glob x y <;> simp [globMatchFn, orErr, h]
  · intro args hl f hf
    match args, hl with
    | [], _ => simp only [List.mem_cons, List.not_mem_nil, or_false] at hf; rcases hf with rfl | rfl | rfl | rfl | rfl <;> rfl
    | [_], _ => simp only [List.mem_cons, List.not_mem_nil, or_false] at hf; rcases hf with rfl | rfl | rfl | rfl | rfl <;> rfl
    | [_, _], h => exact absurd rfl h
    | _ :: _ :: _ :: _, _ =>
      simp only [List.mem_cons, List.not_mem_nil, or_false] at hf; rcases hf with rfl | rfl | rfl | rfl | rfl <;> rfl

namespace PathRules

def subEq : Atom := .eq (.req (s% "sub")) (.pol (s% "sub"))
def objPath : Atom := .call (s% "pathMatch") [.req (s% "obj"), .pol (s% "obj")]
def actRegex : Atom := .call (s% "regexMatch") [.req (s% "act"), .pol (s% "act")]

/-- `r.sub == p.sub && pathMatch(r.obj, p.obj) && regexMatch(r.act, p.act)` (examples/pathmatch_model.conf) -/
def asShipped : List (List Cond) := [[.atom subEq, .atom objPath, .atom actRegex]]

/-- `regexMatch(r.act, p.act) && pathMatch(r.obj, p.obj) && r.sub == p.sub` -/
def reordered : List (List Cond) := [[.atom actRegex, .atom objPath, .atom subEq]]

def args : List Str := [s% "sub", s% "obj", s% "act"]

/-- The rule has three fields, the last of which is a regular expression. -/
def Compiles (std : StdLib) (rule : Rule) : Prop :=
  ∃ sub pat re, rule = [sub, pat, re] ∧ ∀ x, std.regex x re ≠ none

/-- What a rule says about a request. -/
def Permits (std : StdLib) (sub obj act : Str) (rule : Rule) : Prop :=
  ∃ pat re, rule = [sub, pat, re] ∧ StarMatch Colon (splitC '/' obj) (splitC '/' pat) ∧ std.regex act re = some true

/-- The definitions of the model and the functions the matcher calls: the built-in ones. -/
structure Defined (std : StdLib) (s : FnModel) : Prop where
  r : s.model.rDefs.get (s% "r") = some (s% "sub, obj, act")
  p : s.model.pDefs.get (s% "p") = some (newPolicyDef (s% "p") (s% "sub, obj, act"))
  e : s.model.eDefs.get (s% "e") = some SOME_ALLOW
  path : s.own (s% "pathMatch") = (FnModel.new std []).functions (s% "pathMatch")
  regex : s.own (s% "regexMatch") = (FnModel.new std []).functions (s% "regexMatch")
  noRole : s.model.gDefs.get (s% "pathMatch") = none ∧ s.model.gDefs.get (s% "regexMatch") = none
  free : ∀ x ∈ args, s.own (qual (s% "r") x) = none ∧ s.own (qual (s% "p") x) = none

theorem holds_iff (std : StdLib) (s : FnModel) (D : Defined std s) (gov : Gov) (sub obj act : Str) (rule : Rule)
    (hl : rule.length = 3) :
    (subEq.holds (Ref.val args args [sub, obj, act] rule) (s.model.SaysEval s.own gov (s% "r") args [sub, obj, act]) ∧
     objPath.holds (Ref.val args args [sub, obj, act] rule) (s.model.SaysEval s.own gov (s% "r") args [sub, obj, act]) ∧
     actRegex.holds (Ref.val args args [sub, obj, act] rule) (s.model.SaysEval s.own gov (s% "r") args [sub, obj, act]))
      ↔ Permits std sub obj act rule := by
  obtain ⟨f1, _, f3, _, _, e1, -, e3, -, -, h1, -, h3, -⟩ := c78_functions std
  match rule, hl with
  | [a, b, c], _ =>
    obtain ⟨v, hv, hv'⟩ := h1 obj b
    have hs : subEq.holds (Ref.val args args [sub, obj, act] [a, b, c])
        (s.model.SaysEval s.own gov (s% "r") args [sub, obj, act]) ↔ sub = a := by
      constructor
      · rintro ⟨v, h, h'⟩
        exact (Option.some.inj h).trans (Option.some.inj h').symm
      · rintro rfl; exact ⟨sub, rfl, rfl⟩
    have hp : objPath.holds (Ref.val args args [sub, obj, act] [a, b, c])
        (s.model.SaysEval s.own gov (s% "r") args [sub, obj, act]) ↔
          StarMatch Colon (splitC '/' obj) (splitC '/' b) := by
      rw [← hv']
      constructor
      · rintro ⟨vs, h, h'⟩
        have : [obj, b] = vs := Option.some.inj h
        subst this
        unfold SaysEval Says at h'
        rw [if_neg (by decide), D.noRole.1] at h'
        obtain ⟨fn, e, h'⟩ := h'
        rw [D.path, e1] at e
        cases e
        rw [hv] at h'
        exact EvalRes.bool.inj h'
      · intro hb
        refine ⟨[obj, b], rfl, ?_⟩
        unfold SaysEval Says
        rw [if_neg (by decide), D.noRole.1]
        exact ⟨f1, D.path.trans e1, by rw [hv, hb]⟩
    have hr : actRegex.holds (Ref.val args args [sub, obj, act] [a, b, c])
        (s.model.SaysEval s.own gov (s% "r") args [sub, obj, act]) ↔ std.regex act c = some true := by
      constructor
      · rintro ⟨vs, h, h'⟩
        have : [act, c] = vs := Option.some.inj h
        subst this
        unfold SaysEval Says at h'
        rw [if_neg (by decide), D.noRole.2] at h'
        obtain ⟨fn, e, h'⟩ := h'
        rw [D.regex, e3] at e
        cases e
        rw [(h3 act c).1] at h'
        cases hx : std.regex act c with
        | none => rw [hx] at h'; cases h'
        | some y => rw [hx] at h'; rw [EvalRes.bool.inj h']
      · intro hb
        refine ⟨[act, c], rfl, ?_⟩
        unfold SaysEval Says
        rw [if_neg (by decide), D.noRole.2]
        exact ⟨f3, D.regex.trans e3, by rw [(h3 act c).1, hb]; rfl⟩
    rw [hs, hp, hr]
    constructor
    · rintro ⟨rfl, h, h'⟩; exact ⟨b, c, rfl, h, h'⟩
    · rintro ⟨pat, re, e, h, h'⟩; cases e; exact ⟨rfl, h, h'⟩

theorem fits (std : StdLib) (s : FnModel) (D : Defined std s) (gov : Gov) (sub obj act : Str) :
    ∀ a ∈ [subEq, objPath, actRegex],
      a.FitsEval s.model s.own gov (s% "r") (s% "p") args args [sub, obj, act] (Compiles std) := by
  obtain ⟨f1, _, f3, _, _, e1, -, e3, -, -, h1, -, h3, -⟩ := c78_functions std
  intro a ha
  simp only [List.mem_cons, List.not_mem_nil, or_false] at ha
  rcases ha with rfl | rfl | rfl
  · exact ⟨⟨by decide, by decide⟩, by rintro _ _ ⟨⟩⟩
  · refine ⟨⟨by simp, by decide, by decide, noTailRef_iff (by decide)⟩, ?_⟩
    rintro _ _ ⟨⟩
    rw [if_neg (by decide)]
    unfold Callable
    rw [D.noRole.1]
    refine ⟨f1, D.path.trans e1, ?_⟩
    rintro r ⟨x, y, z, rfl, -⟩ - vs h
    have : [obj, y] = vs := Option.some.inj h
    subst this
    obtain ⟨b, hb, -⟩ := h1 obj y
    exact ⟨b, hb⟩
  · refine ⟨⟨by simp, by decide, by decide, noTailRef_iff (by decide)⟩, ?_⟩
    rintro _ _ ⟨⟩
    rw [if_neg (by decide)]
    unfold Callable
    rw [D.noRole.2]
    refine ⟨f3, D.regex.trans e3, ?_⟩
    rintro r ⟨x, y, z, rfl, hz⟩ - vs h
    have : [act, z] = vs := Option.some.inj h
    subst this
    rw [(h3 act z).1]
    cases hx : std.regex act z with
    | none => exact absurd hx (hz act)
    | some b => exact ⟨b, rfl⟩

theorem naming {std : StdLib} {s : FnModel} (D : Defined std s) : Naming s.own (s% "r") (s% "p") args args :=
  ⟨writable_of (by decide) (by decide +kernel) (fun x hx => (D.free x hx).1),
    writable_of (by decide) (by decide +kernel) (fun x hx => (D.free x hx).2), rfl, 'p', [], rfl, .inl rfl, by decide⟩

theorem allows {L rules : List Rule} {Q : Rule → Prop} (h : ∀ r, r ∈ L ↔ r ∈ rules ∧ Q r) :
    decision SOME_ALLOW (L.map (effectOf args)) = true ↔ ∃ r ∈ rules, Q r := by
  have he : ∀ r, effectOf args r = .allow := fun r => by
    unfold effectOf attr
    rw [if_neg (by decide)]
  unfold decision
  rw [if_pos rfl, List.contains_iff_mem, List.mem_map]
  constructor
  · rintro ⟨r, hr, -⟩; exact ⟨r, (h r).mp hr⟩
  · rintro ⟨r, hr⟩; exact ⟨r, (h r).mpr hr, he r⟩

/-- **C78**, the part that holds of the matcher as shipped.  In any program in which no rule for `p` is removed one by
one, if the policy is not empty or the request has a subject: a request is allowed if and only if a stored rule
permits it. -/
theorem c78_shipped_partial (std : StdLib) (build : FnBuild) (u : Str → Res Stage) (hc : build.Coherent u)
    (hbin : ∀ e s, u e = .ok s → s.Binary) (grow : Nat → Nat) (root : Stage)
    (hroot : buildMatcherDef grow (Cond.formula (s% "r") (s% "p") asShipped).toks = .ok root)
    (s : FnModel) (h : FnModel.FnGiven build (s% "m") root (Compiles std) True s) (D : Defined std s)
    (gov : Gov) (hgov : gov.Ok) (hsc : gov.Scoped) (hre : ∀ x, std.regex x [] ≠ none)
    (sub obj act : Str) (hsub : sub ≠ [] ∨ s.model.policyRules (s% "p") ≠ some [])
    (ord : Order) (hord : ord.Valid) (depth : Nat) (hdep : 0 < depth) :
    ∃ rules answer, s.model.policyRules (s% "p") = some rules ∧
      (s.enforce build gov depth ord ([sub, obj, act].map .val)).2 = .ok answer ∧
      (answer = true ↔ ∃ rule ∈ rules, Permits std sub obj act rule) := by
  obtain ⟨rules, L, h1, h0, h2, -, h3⟩ := FnModel.c77_program_partial build u hc hbin grow (s% "r") (s% "m") (s% "e")
    (s% "p") (s% "sub, obj, act") SOME_ALLOW args args asShipped root (by decide) (by decide) hroot (Compiles std)
    True s h (by decide) (by decide) D.r (by decide) _ D.p (by decide +kernel) D.e gov hgov hsc (naming D)
    [sub, obj, act] (.of_len (by rfl))
    (fun a ha => fits std s D gov sub obj act a (by
      simpa [asShipped, Cond.anyAtoms, Cond.allAtoms, Cond.atoms] using ha))
    (.inl rfl) (fun _ => ⟨[], [], [], rfl, hre⟩) (fun h => absurd trivial h)
    (by
      intro he hh
      obtain ⟨pat, re, e, -⟩ := (holds_iff std s D gov sub obj act _ rfl).mp (by
        simpa [asShipped, Cond.anyHolds, Cond.allHold, Cond.holds] using hh)
      rcases hsub with hs | hs
      · exact hs (List.cons.inj e).1.symm
      · exact hs he)
    (fun h => absurd h (by decide)) ord hord depth hdep
  refine ⟨rules, _, h1, h3 rfl rfl rfl, ?_⟩
  rw [allows h2]
  constructor
  · rintro ⟨r, hr, h⟩
    refine ⟨r, hr, (holds_iff std s D gov sub obj act r (h0 r hr).2).mp ?_⟩
    simpa [asShipped, Cond.anyHolds, Cond.allHold, Cond.holds] using h
  · rintro ⟨r, hr, h⟩
    refine ⟨r, hr, ?_⟩
    simpa [asShipped, Cond.anyHolds, Cond.allHold, Cond.holds] using
      (holds_iff std s D gov sub obj act r (h0 r hr).2).mpr h

/-- **C78**, with the comparison at the end: also if rules are removed, for requests with a subject. -/
theorem c78_reordered_partial (std : StdLib) (build : FnBuild) (u : Str → Res Stage) (hc : build.Coherent u)
    (hbin : ∀ e s, u e = .ok s → s.Binary) (grow : Nat → Nat) (root : Stage)
    (hroot : buildMatcherDef grow (Cond.formula (s% "r") (s% "p") reordered).toks = .ok root)
    (s : FnModel) (h : FnModel.FnGiven build (s% "m") root (Compiles std) False s) (D : Defined std s)
    (gov : Gov) (hgov : gov.Ok) (hsc : gov.Scoped) (hre : ∀ x, std.regex x [] ≠ none)
    (sub obj act : Str) (hsub : sub ≠ [])
    (ord : Order) (hord : ord.Valid) (depth : Nat) (hdep : 0 < depth) :
    ∃ rules answer, s.model.policyRules (s% "p") = some rules ∧
      (s.enforce build gov depth ord ([sub, obj, act].map .val)).2 = .ok answer ∧
      (answer = true ↔ ∃ rule ∈ rules, Permits std sub obj act rule) := by
  have hblank : ¬ subEq.holds (Ref.val args args [sub, obj, act] (List.replicate 3 []))
      (s.model.SaysEval s.own gov (s% "r") args [sub, obj, act]) := by
    rintro ⟨v, e1, e2⟩
    exact hsub ((Option.some.inj e1).trans (Option.some.inj e2).symm)
  obtain ⟨rules, L, h1, h0, h2, -, h3⟩ := FnModel.c77_program_partial build u hc hbin grow (s% "r") (s% "m") (s% "e")
    (s% "p") (s% "sub, obj, act") SOME_ALLOW args args reordered root (by decide) (by decide) hroot (Compiles std)
    False s h (by decide) (by decide) D.r (by decide) _ D.p (by decide +kernel) D.e gov hgov hsc (naming D)
    [sub, obj, act] (.of_len (by rfl))
    (fun a ha => fits std s D gov sub obj act a (by
      have : a = actRegex ∨ a = objPath ∨ a = subEq := by
        simpa [reordered, Cond.anyAtoms, Cond.allAtoms, Cond.atoms] using ha
      rcases this with rfl | rfl | rfl <;> simp))
    (.inl rfl) (fun _ => ⟨[], [], [], rfl, hre⟩)
    (by
      intro _ a ha
      have : a = subEq := by simpa [reordered, Cond.anyLasts, Cond.allLasts, Cond.lasts] using ha
      subst this
      exact hblank)
    (by
      intro he hh
      rcases hh with hh | hh
      · exact hblank hh.2.2.1
      · exact hh)
    (fun h => absurd h (by decide)) ord hord depth hdep
  refine ⟨rules, _, h1, h3 rfl rfl rfl, ?_⟩
  rw [allows h2]
  constructor
  · rintro ⟨r, hr, h⟩
    refine ⟨r, hr, (holds_iff std s D gov sub obj act r (h0 r hr).2).mp ?_⟩
    rcases h with h | h
    · exact ⟨h.2.2.1, h.2.1, h.1⟩
    · exact h.elim
  · rintro ⟨r, hr, h⟩
    refine ⟨r, hr, ?_⟩
    have := (holds_iff std s D gov sub obj act r (h0 r hr).2).mpr h
    simpa [reordered, Cond.anyHolds, Cond.allHold, Cond.holds] using
      And.intro this.2.2 (And.intro this.2.1 this.1)

/-! ## Cases that meet the hypotheses, and what is missing -/

def rootOf (f : List (List Cond)) : Stage := .mk [] (Operand.trD (Cond.formula (s% "r") (s% "p") f) [])

def fbuild : FnBuild := fun known e =>
  if known (s% "pathMatch") && known (s% "regexMatch") then
    if e = s% "shipped" then .ok (rootOf asShipped) else if e = s% "reordered" then .ok (rootOf reordered) else .err
  else .err

def reading (e : Str) : Res Stage :=
  if e = s% "shipped" then .ok (rootOf asShipped) else if e = s% "reordered" then .ok (rootOf reordered) else .err

theorem coherent : fbuild.Coherent reading := by
  intro known e
  unfold fbuild reading
  split
  · exact .inl rfl
  · exact .inr rfl

theorem binary : ∀ e s, reading e = .ok s → s.Binary := by
  intro e s h
  unfold reading at h
  split at h
  · cases h
    simp [rootOf, asShipped, subEq, objPath, actRegex, Cond.formula, Cond.operands, Cond.operand, Atom.operand, eqAtom,
      callAtom, Operand.trD, Operand.trC, Operand.trU, Stage.Binary, Stage.All, Stage.AllIn, Stage.children]
  · split at h
    · cases h
      simp [rootOf, reordered, subEq, objPath, actRegex, Cond.formula, Cond.operands, Cond.operand, Atom.operand,
        eqAtom, callAtom, Operand.trD, Operand.trC, Operand.trU, Stage.Binary, Stage.All, Stage.AllIn, Stage.children]
    · cases h

/-- a library in which regular expressions are plain texts: the text is contained as a whole, or is empty -/
def std : StdLib := ⟨fun x re => some (re == [] || x == re), fun _ _ => none, fun _ _ => none⟩

def defs (text : Str) : FnModel :=
  (((((FnModel.new std []).setDef 'r' (s% "r") (s% "sub, obj, act")).1.setDef
    'p' (s% "p") (s% "sub, obj, act")).1.setDef 'e' (s% "e") SOME_ALLOW).1.setDef 'm' (s% "m") text).1

def add (s : FnModel) (rule : Rule) : FnModel := { s with model := (s.model.addRule rule).1 }
def remove (s : FnModel) (rule : Rule) : FnModel := { s with model := (s.model.removeRule rule).1 }

def aliceRule : Rule := [s% "p", s% "alice", s% "/alice_data/*", s% "GET"]
def bobRule : Rule := [s% "p", s% "bob", s% "/bob_data/:id", s% "POST"]

def program (text : Str) : FnModel := add (add ((defs text).buildMatcher fbuild (s% "m")).1 aliceRule) bobRule

theorem compiles (r : Rule) (h : r.length = 3) : Compiles std r := by
  match r, h with
  | [a, b, c], _ => exact ⟨a, b, c, rfl, by intro x h; cases h⟩

theorem built {text : Str} {root : Stage} {keep : Prop} (ht : reading text = .ok root)
    (hd : (defs text).model.mDefs.get (s% "m") = some text)
    (hk : root.policyKey = s% "p") (hok : ((defs text).buildMatcher fbuild (s% "m")).2 = .ok ())
    (hr : (defs text).model.policyRules (s% "p") = some []) :
    FnModel.FnGiven fbuild (s% "m") root (Compiles std) keep ((defs text).buildMatcher fbuild (s% "m")).1 := by
  refine .built (.setDef (.setDef (.setDef (.setDef (.new _ _) _ _ _) _ _ _) _ _ _) _ _ _) text hd ?_ hok ?_
  · rw [← ht]; rfl
  · intro rules h r hm
    rw [hk, hr] at h
    cases h
    cases hm

theorem shippedGiven : FnModel.FnGiven fbuild (s% "m") (rootOf asShipped) (Compiles std) True
    (program (s% "shipped")) := by
  refine .add (.add (built rfl (by decide +kernel) (by decide +kernel) (by decide +kernel) (by decide +kernel)) _
    (by decide +kernel) ?_) _ (by decide +kernel) ?_ <;>
  · intro f e; cases e; exact compiles _ rfl

theorem reorderedGiven : FnModel.FnGiven fbuild (s% "m") (rootOf reordered) (Compiles std) False
    (remove (program (s% "reordered")) aliceRule) := by
  refine .remove (.add (.add (built rfl (by decide +kernel) (by decide +kernel) (by decide +kernel)
    (by decide +kernel)) _ (by decide +kernel) ?_) _ (by decide +kernel) ?_) _ (by decide +kernel) (fun h => h.elim) <;>
  · intro f e; cases e; exact compiles _ rfl

/-- The hypotheses hold for every request: of the matcher as shipped … -/
example (sub obj act : Str) : ∃ rules answer, (program (s% "shipped")).model.policyRules (s% "p") = some rules ∧
    ((program (s% "shipped")).enforce fbuild EvalExample.gov 1 Order.fwd ([sub, obj, act].map .val)).2 = .ok answer ∧
    (answer = true ↔ ∃ rule ∈ rules, Permits std sub obj act rule) :=
  c78_shipped_partial std fbuild reading coherent binary (fun _ => 0) (rootOf asShipped)
    (buildMatcherDef_formula _ _ (by decide) (by decide)) _ shippedGiven
    ⟨by decide +kernel, by rfl, by decide +kernel, rfl, rfl, by decide +kernel, by decide +kernel⟩
    EvalExample.gov EvalExample.gov_ok (Gov.scope_scoped _) (by intro x h; cases h) sub obj act
    (.inr (by decide +kernel)) Order.fwd Order.fwd_valid 1 (by decide)

/-- … and, after a rule was removed, of the reordered matcher. -/
example (sub obj act : Str) (hsub : sub ≠ []) : ∃ rules answer,
    (remove (program (s% "reordered")) aliceRule).model.policyRules (s% "p") = some rules ∧
    ((remove (program (s% "reordered")) aliceRule).enforce fbuild EvalExample.gov 1 Order.fwd
      ([sub, obj, act].map .val)).2 = .ok answer ∧
    (answer = true ↔ ∃ rule ∈ rules, Permits std sub obj act rule) :=
  c78_reordered_partial std fbuild reading coherent binary (fun _ => 0) (rootOf reordered)
    (buildMatcherDef_formula _ _ (by decide) (by decide)) _ reorderedGiven
    ⟨by decide +kernel, by rfl, by decide +kernel, rfl, rfl, by decide +kernel, by decide +kernel⟩
    EvalExample.gov EvalExample.gov_ok (Gov.scope_scoped _) (by intro x h; cases h) sub obj act hsub
    Order.fwd Order.fwd_valid 1 (by decide)

def ask (s : FnModel) (vals : List Str) : Res Bool := (s.enforce fbuild EvalExample.gov 1 Order.fwd (vals.map .val)).2

example : ask (program (s% "shipped")) [s% "alice", s% "/alice_data/x/y", s% "GET"] = .ok true ∧
    ask (program (s% "shipped")) [s% "alice", s% "/alice_data/x", s% "POST"] = .ok false ∧
    ask (program (s% "shipped")) [s% "bob", s% "/bob_data/7", s% "POST"] = .ok true ∧
    ask (program (s% "shipped")) [s% "bob", s% "/bob_data/7/8", s% "POST"] = .ok false := by
  decide +kernel

/-- **C78 fails** of the matcher as shipped once a rule is removed: the rule of alice is gone, only bob has one, and
alice may still do anything under `/alice_data`, even what the rule never allowed.  The empty text, which the index
tries in place of the missing rule, is a regular expression that matches everything.  Reordered, alice may not. -/
theorem c78_fails :
    (remove (program (s% "shipped")) aliceRule).model.policyRules (s% "p") = some [bobRule.tail] ∧
    ask (remove (program (s% "shipped")) aliceRule) [s% "alice", s% "/alice_data/x", s% "GET"] = .ok true ∧
    ask (remove (program (s% "shipped")) aliceRule) [s% "alice", s% "/alice_data/x", s% "DELETE"] = .ok true ∧
    (∀ rule ∈ [bobRule.tail], ¬ Permits std (s% "alice") (s% "/alice_data/x") (s% "DELETE") rule) ∧
    ask (remove (program (s% "reordered")) aliceRule) [s% "alice", s% "/alice_data/x", s% "GET"] = .ok false := by
  refine ⟨by decide +kernel, by decide +kernel, by decide +kernel, ?_, by decide +kernel⟩
  intro rule hr
  rw [List.mem_singleton] at hr
  subst hr
  rintro ⟨pat, re, e, -⟩
  exact absurd (List.cons.inj e).1 (by decide)

end PathRules

end Fastac
