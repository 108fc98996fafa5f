import Verif.Props.Exact
import Verif.Props.PathRules

/-!
# C84: shipped models, in any program

`examples/basic_model.conf`, `examples/basic_with_root_model.conf` and `examples/pathmatch_model.conf`.
-/

namespace Fastac

open Model

theorem last_eq {α : Type} {way : List α} {last a b c : α} (h : way ++ [last] = [a, b, c]) :
    way = [a, b] ∧ last = c := by
  match way, h with
  | [], h => simp at h
  | [_], h => simp at h
  | [_, _], h => simp at h; obtain ⟨rfl, rfl, rfl⟩ := h; exact ⟨rfl, rfl⟩
  | _ :: _ :: _ :: l, h => simp at h

namespace RootRules

def subEq : Atom := .eq (.req (s% "sub")) (.pol (s% "sub"))
def objEq : Atom := .eq (.req (s% "obj")) (.pol (s% "obj"))
def actEq : Atom := .eq (.req (s% "act")) (.pol (s% "act"))
def isRoot : Atom := .eq (.req (s% "sub")) (.lit (s% "root"))

/-- `r.sub == p.sub && r.obj == p.obj && r.act == p.act` (examples/basic_model.conf) -/
def basic : List (List Cond) := [[.atom subEq, .atom objEq, .atom actEq]]

/-- `r.sub == p.sub && r.obj == p.obj && r.act == p.act || r.sub == "root"` (examples/basic_with_root_model.conf) -/
def withRoot : List (List Cond) := [[.atom subEq, .atom objEq, .atom actEq], [.atom isRoot]]

def args : List Str := [s% "sub", s% "obj", s% "act"]

/-- The definitions of the model. -/
structure Defined (s : FnModel) : Prop where
  r : s.model.rDefs.get (s% "r") = some (s% "sub, obj, act")
  p : s.model.pDefs.get (s% "p") = some (newPolicyDef (s% "p") (s% "sub, obj, act"))
  e : s.model.eDefs.get (s% "e") = some SOME_ALLOW
  free : ∀ x ∈ args, s.functions (qual (s% "r") x) = none ∧ s.functions (qual (s% "p") x) = none

theorem naming {s : FnModel} (D : Defined s) : Naming s.functions (s% "r") (s% "p") args args :=
  ⟨writable_of (by decide) (by decide +kernel) (fun x hx => (D.free x hx).1),
    writable_of (by decide) (by decide +kernel) (fun x hx => (D.free x hx).2), rfl, 'p', [], rfl, .inl rfl, by decide⟩

theorem fits (s : FnModel) (gov : Gov) (vals : List Str) (P : Rule → Prop) :
    ∀ a ∈ [subEq, objEq, actEq, isRoot], a.FitsNow s gov (s% "r") (s% "p") args args vals P := by
  intro a ha
  simp only [List.mem_cons, List.not_mem_nil, or_false] at ha
  rcases ha with rfl | rfl | rfl | rfl
  · exact ⟨⟨by decide, by decide⟩, by rintro _ _ ⟨⟩⟩
  · exact ⟨⟨by decide, by decide⟩, by rintro _ _ ⟨⟩⟩
  · exact ⟨⟨by decide, by decide⟩, by rintro _ _ ⟨⟩⟩
  · exact ⟨⟨by decide, by decide⟩, by rintro _ _ ⟨⟩⟩

theorem holds_eq {says : Str → List Str → Prop} (sub obj act a b c : Str) :
    (subEq.holds (Ref.val args args [sub, obj, act] [a, b, c]) says ↔ sub = a) ∧
    (objEq.holds (Ref.val args args [sub, obj, act] [a, b, c]) says ↔ obj = b) ∧
    (actEq.holds (Ref.val args args [sub, obj, act] [a, b, c]) says ↔ act = c) ∧
    (isRoot.holds (Ref.val args args [sub, obj, act] [a, b, c]) says ↔ sub = s% "root") := by
  have key : ∀ x y : Str, (∃ v, some x = some v ∧ some y = some v) ↔ x = y := by
    intro x y
    constructor
    · rintro ⟨v, h, h'⟩
      exact (Option.some.inj h).trans (Option.some.inj h').symm
    · rintro rfl; exact ⟨x, rfl, rfl⟩
  exact ⟨key sub a, key obj b, key act c, key sub _⟩

theorem allow_all (r : Rule) : effectOf args r = .allow := by
  unfold effectOf attr
  rw [if_neg (by decide)]

theorem together (r r' : Rule) :
    (∀ a ∈ [subEq, objEq], a.Together args r r') ↔
      (attr args r (s% "sub") = attr args r' (s% "sub") ∧ attr args r (s% "obj") = attr args r' (s% "obj")) := by
  constructor
  · intro h
    have h1 := h subEq (by simp)
    have h2 := h objEq (by simp)
    constructor
    · rcases h1 with ⟨-, h1⟩ | rfl
      · exact h1 _ (by simp [subEq, Atom.refs])
      · rfl
    · rcases h2 with ⟨-, h2⟩ | rfl
      · exact h2 _ (by simp [objEq, Atom.refs])
      · rfl
  · rintro ⟨h1, h2⟩ a ha
    simp only [List.mem_cons, List.not_mem_nil, or_false] at ha
    rcases ha with rfl | rfl
    · exact .inl ⟨⟨_, by simp [subEq, Atom.refs]; rfl⟩, by
        intro y hy
        simp [subEq, Atom.refs] at hy
        rw [hy]; exact h1⟩
    · exact .inl ⟨⟨_, by simp [objEq, Atom.refs]; rfl⟩, by
        intro y hy
        simp [objEq, Atom.refs] at hy
        rw [hy]; exact h2⟩

/-- What is left over of removed rules: the request has no action, and the matcher has seen a rule for the subject and
the object, but none is stored. -/
def Trace (H : Rule → Prop) (rules : List Rule) (sub obj act : Str) : Prop :=
  act = [] ∧ (((∀ r, ¬ H r) ∧ sub = [] ∧ obj = []) ∨
    (∃ x, H [sub, obj, x]) ∧ ¬ ∃ x, [sub, obj, x] ∈ rules)

theorem three {r : Rule} (h : r.length = 3) : ∃ a b c, r = [a, b, c] := by
  match r, h with
  | [a, b, c], _ => exact ⟨a, b, c, rfl⟩

theorem trace_iff {says : Str → List Str → Prop} {H : Rule → Prop} {rules : List Rule} (sub obj act : Str)
    (hsub : ∀ r ∈ rules, H r) (hlen : ∀ r, H r → r.length = 3) :
    (act = [] ∧ ∃ seen, H seen ∧ (∀ a ∈ [subEq, objEq], a.holds (Ref.val args args [sub, obj, act] seen) says) ∧
      ∀ r ∈ rules, ¬ ∀ a ∈ [subEq, objEq], a.Together args seen r) ↔
    (act = [] ∧ (∃ x, H [sub, obj, x]) ∧ ¬ ∃ x, [sub, obj, x] ∈ rules) := by
  refine and_congr_right (fun _ => ?_)
  constructor
  · rintro ⟨seen, h1, h2, h3⟩
    obtain ⟨a, b, c, rfl⟩ := three (hlen _ h1)
    obtain ⟨e1, e2, -, -⟩ := holds_eq (says := says) sub obj act a b c
    obtain rfl := e1.1 (h2 subEq (by simp))
    obtain rfl := e2.1 (h2 objEq (by simp))
    refine ⟨⟨c, h1⟩, ?_⟩
    rintro ⟨x, hx⟩
    exact h3 _ hx ((together _ _).2 ⟨rfl, rfl⟩)
  · rintro ⟨⟨x, hx⟩, hno⟩
    obtain ⟨e1, e2, -, -⟩ := holds_eq (says := says) sub obj act sub obj x
    refine ⟨_, hx, ?_, ?_⟩
    · intro a ha
      simp only [List.mem_cons, List.not_mem_nil, or_false] at ha
      rcases ha with rfl | rfl
      · exact e1.2 rfl
      · exact e2.2 rfl
    · intro r hr ht
      obtain ⟨a, b, c, rfl⟩ := three (hlen _ (hsub _ hr))
      obtain ⟨t1, t2⟩ := (together _ _).1 ht
      have q1 : sub = a := Option.some.inj t1
      have q2 : obj = b := Option.some.inj t2
      subst q1 q2
      exact hno ⟨c, hr⟩

/-- **C84**, examples/basic_model.conf.  In any program, whatever rules are added, removed or cleared: a request is
allowed if and only if it is one of the stored rules, or it has no action and the matcher has a trace of a
removed rule for its subject and object. -/
theorem c84_basic (build : FnBuild) (u : Str → Res Stage) (hc : build.Coherent u)
    (hbin : ∀ e s, u e = .ok s → s.Binary) (grow : Nat → Nat) (root : Stage)
    (hroot : buildMatcherDef grow (Cond.formula (s% "r") (s% "p") basic).toks = .ok root)
    (H : Rule → Prop) (s : FnModel) (h : FnModel.FnSeen build (s% "m") root H s) (D : Defined s)
    (gov : Gov) (hgov : gov.Ok) (hsc : gov.Scoped) (sub obj act : Str)
    (ord : Order) (hord : ord.Valid) (depth : Nat) (hdep : 0 < depth) :
    ∃ rules answer, s.model.policyRules (s% "p") = some rules ∧
      (s.enforce build gov depth ord ([sub, obj, act].map .val)).2 = .ok answer ∧
      (answer = true ↔ [sub, obj, act] ∈ rules ∨ Trace H rules sub obj act) := by
  obtain ⟨rules, answer, h1, h0, hlen, -, h3, h4, -⟩ := FnModel.c83_verdict_partial build u hc hbin grow (s% "r")
    (s% "m") (s% "e") (s% "p") (s% "sub, obj, act") SOME_ALLOW args args basic root (by decide) (by decide) hroot
    (fun _ => True) H s h (by decide) (by decide) D.r (by decide) _ D.p (by decide +kernel) D.e gov hgov hsc (naming D)
    [sub, obj, act] (.of_len (by rfl))
    (fun a ha => fits s gov _ _ a (by
      have : a = subEq ∨ a = objEq ∨ a = actEq := by
        simpa [basic, Cond.anyAtoms, Cond.allAtoms, Cond.atoms] using ha
      rcases this with rfl | rfl | rfl <;> simp))
    (.inl rfl) (fun _ _ => trivial) (fun _ => trivial) (fun h => absurd h (by decide)) ord hord depth hdep _
    (fun _ => Iff.rfl)
  refine ⟨rules, answer, h1, h3 rfl rfl rfl, (h4 rfl).trans (or_congr ?_ ?_)⟩
  · simp only [basic, Cond.anyHolds, Cond.allHold, Cond.holds, and_true, or_false, allow_all]
    constructor
    · rintro ⟨r, hr, hh⟩
      obtain ⟨a, b, c, rfl⟩ := three (hlen _ (h0 r hr))
      obtain ⟨e1, e2, e3, -⟩ := holds_eq (says := s.SaysNow gov (s% "r") args [sub, obj, act]) sub obj act a b c
      obtain rfl := e1.1 hh.1
      obtain rfl := e2.1 hh.2.1
      obtain rfl := e3.1 hh.2.2
      exact hr
    · intro hr
      obtain ⟨e1, e2, e3, -⟩ := holds_eq (says := s.SaysNow gov (s% "r") args [sub, obj, act]) sub obj act sub obj act
      exact ⟨_, hr, e1.2 rfl, e2.2 rfl, e3.2 rfl⟩
  · obtain ⟨e1, e2, e3, -⟩ := holds_eq (says := s.SaysNow gov (s% "r") args [sub, obj, act]) sub obj act [] [] []
    unfold LeftOver Trace
    rw [and_or_left, ← trace_iff (says := s.SaysNow gov (s% "r") args [sub, obj, act]) sub obj act h0 hlen]
    refine or_congr ?_ ?_
    · simp only [basic, Cond.anyHolds, Cond.allHold, Cond.holds, and_true, or_false]
      have : (List.replicate args.length ([] : Str)) = [[], [], []] := rfl
      rw [this, e1, e2, e3]
      constructor
      · rintro ⟨a, b, c, d⟩; exact ⟨d, a, b, c⟩
      · rintro ⟨d, a, b, c⟩; exact ⟨a, b, c, d⟩
    · constructor
      · rintro ⟨way, last, hm, seen, q1, q2, q3, q4⟩
        have hm' : way ++ [last] = [subEq, objEq, actEq] := by
          simpa [basic, Cond.anyWays, Cond.allWays, Cond.ways] using hm
        obtain ⟨rfl, rfl⟩ := last_eq hm'
        exact ⟨e3.1 q3, seen, q1, q2, q4⟩
      · rintro ⟨q3, seen, q1, q2, q4⟩
        exact ⟨[subEq, objEq], actEq, by simp [basic, Cond.anyWays, Cond.allWays, Cond.ways], seen, q1, q2, e3.2 q3, q4⟩

/-- **C84**, examples/basic_with_root_model.conf.  In any program, whatever rules are added, removed or cleared: `root`
may do everything, also if the policy is empty, and everybody else is treated as by the basic model. -/
theorem c84_root (build : FnBuild) (u : Str → Res Stage) (hc : build.Coherent u)
    (hbin : ∀ e s, u e = .ok s → s.Binary) (grow : Nat → Nat) (root : Stage)
    (hroot : buildMatcherDef grow (Cond.formula (s% "r") (s% "p") withRoot).toks = .ok root)
    (H : Rule → Prop) (s : FnModel) (h : FnModel.FnSeen build (s% "m") root H s) (D : Defined s)
    (gov : Gov) (hgov : gov.Ok) (hsc : gov.Scoped) (sub obj act : Str)
    (ord : Order) (hord : ord.Valid) (depth : Nat) (hdep : 0 < depth) :
    ∃ rules answer, s.model.policyRules (s% "p") = some rules ∧
      (s.enforce build gov depth ord ([sub, obj, act].map .val)).2 = .ok answer ∧
      (answer = true ↔ sub = s% "root" ∨ [sub, obj, act] ∈ rules ∨ Trace H rules sub obj act) := by
  obtain ⟨rules, answer, h1, h0, hlen, -, h3, h4, -⟩ := FnModel.c83_verdict_partial build u hc hbin grow (s% "r")
    (s% "m") (s% "e") (s% "p") (s% "sub, obj, act") SOME_ALLOW args args withRoot root (by decide) (by decide) hroot
    (fun _ => True) H s h (by decide) (by decide) D.r (by decide) _ D.p (by decide +kernel) D.e gov hgov hsc (naming D)
    [sub, obj, act] (.of_len (by rfl))
    (fun a ha => fits s gov _ _ a (by
      have : a = subEq ∨ a = objEq ∨ a = actEq ∨ a = isRoot := by
        simpa [withRoot, Cond.anyAtoms, Cond.allAtoms, Cond.atoms] using ha
      rcases this with rfl | rfl | rfl | rfl <;> simp))
    (.inl rfl) (fun _ _ => trivial) (fun _ => trivial) (fun h => absurd h (by decide)) ord hord depth hdep _
    (fun _ => Iff.rfl)
  refine ⟨rules, answer, h1, h3 rfl rfl rfl, (h4 rfl).trans ?_⟩
  obtain ⟨e1, e2, e3, e4⟩ := holds_eq (says := s.SaysNow gov (s% "r") args [sub, obj, act]) sub obj act [] [] []
  have hrepl : (List.replicate args.length ([] : Str)) = [[], [], []] := rfl
  constructor
  · rintro (⟨r, hr, hh, -⟩ | hleft)
    · obtain ⟨a, b, c, rfl⟩ := three (hlen _ (h0 r hr))
      obtain ⟨f1, f2, f3, f4⟩ := holds_eq (says := s.SaysNow gov (s% "r") args [sub, obj, act]) sub obj act a b c
      simp only [withRoot, Cond.anyHolds, Cond.allHold, Cond.holds, and_true, or_false] at hh
      rw [f1, f2, f3, f4] at hh
      rcases hh with ⟨rfl, rfl, rfl⟩ | hh
      · exact .inr (.inl hr)
      · exact .inl hh
    · unfold LeftOver at hleft
      rcases hleft with ⟨hno, hh⟩ | ⟨way, last, hm, seen, q1, q2, q3, q4⟩
      · simp only [withRoot, Cond.anyHolds, Cond.allHold, Cond.holds, and_true, or_false] at hh
        rw [hrepl, e1, e2, e3, e4] at hh
        rcases hh with ⟨a, b, c⟩ | hh
        · exact .inr (.inr ⟨c, .inl ⟨hno, a, b⟩⟩)
        · exact .inl hh
      · have hm' : way ++ [last] = [subEq, objEq, actEq] ∨ way ++ [last] = [isRoot] := by
          simpa [withRoot, Cond.anyWays, Cond.allWays, Cond.ways] using hm
        rcases hm' with hm' | hm'
        · obtain ⟨rfl, rfl⟩ := last_eq hm'
          have := (trace_iff (says := s.SaysNow gov (s% "r") args [sub, obj, act]) sub obj act h0 hlen).1
            ⟨e3.1 q3, seen, q1, q2, q4⟩
          exact .inr (.inr ⟨this.1, .inr this.2⟩)
        · have : last = isRoot := by
            have := congrArg List.getLast? hm'
            simpa using this
          subst this
          exact .inl (e4.1 q3)
  · rintro (rfl | hr | ⟨rfl, ht⟩)
    · by_cases hne : rules = []
      · right
        by_cases hH : ∃ r, H r
        · obtain ⟨r, hr⟩ := hH
          exact .inr ⟨[], isRoot, by simp [withRoot, Cond.anyWays, Cond.allWays, Cond.ways], r, hr, by simp, e4.2 rfl,
            by simp [hne]⟩
        · refine .inl ⟨fun r hr => hH ⟨r, hr⟩, ?_⟩
          simp only [withRoot, Cond.anyHolds, Cond.allHold, Cond.holds, and_true, or_false]
          exact .inr (e4.2 rfl)
      · left
        obtain ⟨r, hr⟩ := List.exists_mem_of_ne_nil _ hne
        obtain ⟨a, b, c, rfl⟩ := three (hlen _ (h0 r hr))
        refine ⟨_, hr, ?_, allow_all _⟩
        simp only [withRoot, Cond.anyHolds, Cond.allHold, Cond.holds, and_true, or_false]
        exact .inr ((holds_eq _ obj act a b c).2.2.2.2 rfl)
    · left
      refine ⟨_, hr, ?_, allow_all _⟩
      simp only [withRoot, Cond.anyHolds, Cond.allHold, Cond.holds, and_true, or_false]
      obtain ⟨f1, f2, f3, -⟩ := holds_eq (says := s.SaysNow gov (s% "r") args [sub, obj, act]) sub obj act sub obj act
      exact .inl ⟨f1.2 rfl, f2.2 rfl, f3.2 rfl⟩
    · right
      rcases ht with ⟨hno, rfl, rfl⟩ | ht
      · refine .inl ⟨hno, ?_⟩
        simp only [withRoot, Cond.anyHolds, Cond.allHold, Cond.holds, and_true, or_false]
        exact .inl ⟨e1.2 rfl, e2.2 rfl, e3.2 rfl⟩
      · obtain ⟨-, seen, q1, q2, q4⟩ := (trace_iff (says := s.SaysNow gov (s% "r") args [sub, obj, []]) sub obj [] h0 hlen).2
          ⟨rfl, ht⟩
        exact .inr ⟨[subEq, objEq], actEq, by simp [withRoot, Cond.anyWays, Cond.allWays, Cond.ways], seen, q1, q2,
          e3.2 rfl, q4⟩

/-! ## Cases that meet the hypotheses -/

def rootOf (f : List (List Cond)) : Stage := .mk [] (Operand.trD (Cond.formula (s% "r") (s% "p") f) [])

def reading (e : Str) : Res Stage :=
  if e = s% "basic" then .ok (rootOf basic) else if e = s% "withRoot" then .ok (rootOf withRoot) else .err

def fbuild : FnBuild := fun _ e => reading e

theorem coherent : fbuild.Coherent reading := fun _ _ => .inl rfl

theorem binary : ∀ e s, reading e = .ok s → s.Binary := by
  intro e s h
  unfold reading at h
  split at h
  · cases h
    simp [rootOf, basic, subEq, objEq, actEq, Cond.formula, Cond.operands, Cond.operand, Atom.operand, eqAtom,
      Operand.trD, Operand.trC, Operand.trU, Stage.Binary, Stage.All, Stage.AllIn, Stage.children]
  · split at h
    · cases h
      simp [rootOf, withRoot, subEq, objEq, actEq, isRoot, Cond.formula, Cond.operands, Cond.operand, Atom.operand,
        eqAtom, Operand.trD, Operand.trC, Operand.trU, Stage.Binary, Stage.All, Stage.AllIn, Stage.children]
    · cases h

def std : StdLib := ⟨fun _ _ => none, fun _ _ => none, fun _ _ => none⟩

def defs (text : Str) : FnModel :=
  (((((FnModel.new std []).setDef 'r' (s% "r") (s% "sub, obj, act")).1.setDef
    'p' (s% "p") (s% "sub, obj, act")).1.setDef 'e' (s% "e") SOME_ALLOW).1.setDef 'm' (s% "m") text).1

def start (text : Str) : FnModel := ((defs text).buildMatcher fbuild (s% "m")).1
def add (s : FnModel) (rule : Rule) : FnModel := { s with model := (s.model.addRule rule).1 }
def remove (s : FnModel) (rule : Rule) : FnModel := { s with model := (s.model.removeRule rule).1 }
def clear (s : FnModel) : FnModel := { s with model := (s.model.clearPolicy (s% "p")).1 }

def aliceRule : Rule := [s% "p", s% "alice", s% "data1", s% "read"]
def bobRule : Rule := [s% "p", s% "bob", s% "data2", s% "write"]

/-- alice's rule is added and removed again, bob's stays -/
def program (text : Str) : FnModel := remove (add (add (start text) aliceRule) bobRule) aliceRule

theorem started {text : Str} {root : Stage} (ht : reading text = .ok root)
    (hd : (defs text).model.mDefs.get (s% "m") = some text)
    (hok : ((defs text).buildMatcher fbuild (s% "m")).2 = .ok ()) :
    FnModel.FnSeen fbuild (s% "m") root
      (fun r => ∃ rules, (defs text).model.policyRules root.policyKey = some rules ∧ r ∈ rules) (start text) :=
  .built (.setDef (.setDef (.setDef (.setDef (.new _ _) _ _ _) _ _ _) _ _ _) _ _ _) text hd ht hok

/-- The hypotheses hold for every request, after rules have been added and removed … -/
example (sub obj act : Str) : ∃ H rules answer, (program (s% "basic")).model.policyRules (s% "p") = some rules ∧
    ((program (s% "basic")).enforce fbuild EvalExample.gov 1 Order.fwd ([sub, obj, act].map .val)).2 = .ok answer ∧
    (answer = true ↔ [sub, obj, act] ∈ rules ∨ Trace H rules sub obj act) :=
  ⟨_, c84_basic fbuild reading coherent binary (fun _ => 0) (rootOf basic)
    (buildMatcherDef_formula _ _ (by decide) (by decide)) _ _
    (.remove (.add (.add (started rfl (by decide +kernel) (by decide +kernel)) _ (by decide +kernel)) _
      (by decide +kernel)) _ (by decide +kernel))
    ⟨by decide +kernel, by rfl, by decide +kernel, by decide +kernel⟩
    EvalExample.gov EvalExample.gov_ok (Gov.scope_scoped _) sub obj act Order.fwd Order.fwd_valid 1 (by decide)⟩

/-- … and of the model with a superuser, after the policy has been cleared. -/
example (sub obj act : Str) : ∃ H rules answer,
    (clear (program (s% "withRoot"))).model.policyRules (s% "p") = some rules ∧
    ((clear (program (s% "withRoot"))).enforce fbuild EvalExample.gov 1 Order.fwd ([sub, obj, act].map .val)).2 =
      .ok answer ∧
    (answer = true ↔ sub = s% "root" ∨ [sub, obj, act] ∈ rules ∨ Trace H rules sub obj act) :=
  ⟨_, c84_root fbuild reading coherent binary (fun _ => 0) (rootOf withRoot)
    (buildMatcherDef_formula _ _ (by decide) (by decide)) _ _
    (.clear (.remove (.add (.add (started rfl (by decide +kernel) (by decide +kernel)) _ (by decide +kernel)) _
      (by decide +kernel)) _ (by decide +kernel)) _)
    ⟨by decide +kernel, by rfl, by decide +kernel, by decide +kernel⟩
    EvalExample.gov EvalExample.gov_ok (Gov.scope_scoped _) sub obj act Order.fwd Order.fwd_valid 1 (by decide)⟩

def ask (s : FnModel) (vals : List Str) : Res Bool := (s.enforce fbuild EvalExample.gov 1 Order.fwd (vals.map .val)).2

/-- Without its action, the request of the removed rule is allowed; without another rule there is no such thing. -/
example : ask (program (s% "basic")) [s% "bob", s% "data2", s% "write"] = .ok true ∧
    ask (program (s% "basic")) [s% "alice", s% "data1", s% "read"] = .ok false ∧
    ask (program (s% "basic")) [s% "alice", s% "data1", s% ""] = .ok true ∧
    ask (program (s% "basic")) [s% "alice", s% "data2", s% ""] = .ok false ∧
    ask (program (s% "basic")) [s% "bob", s% "data2", s% ""] = .ok false ∧
    ask (start (s% "basic")) [s% "", s% "", s% ""] = .ok true ∧
    ask (program (s% "basic")) [s% "", s% "", s% ""] = .ok false ∧
    ask (clear (program (s% "basic"))) [s% "alice", s% "data1", s% ""] = .ok false := by
  decide +kernel

/-- `root` may do everything, before any rule is added, while there are rules, and after all are removed. -/
example : ask (start (s% "withRoot")) [s% "root", s% "data1", s% "read"] = .ok true ∧
    ask (program (s% "withRoot")) [s% "root", s% "data1", s% "read"] = .ok true ∧
    ask (remove (program (s% "withRoot")) bobRule) [s% "root", s% "data1", s% "read"] = .ok true ∧
    ask (clear (program (s% "withRoot"))) [s% "root", s% "", s% ""] = .ok true ∧
    ask (program (s% "withRoot")) [s% "alice", s% "data1", s% "read"] = .ok false ∧
    ask (program (s% "withRoot")) [s% "bob", s% "data2", s% "write"] = .ok true := by
  decide +kernel

end RootRules

namespace PathRules

/-- The definitions of the model and the functions the matcher calls: the built-in ones, or the same. -/
structure DefinedNow (std : StdLib) (s : FnModel) : Prop where
  r : s.model.rDefs.get (s% "r") = some (s% "sub, obj, act")
  p : s.model.pDefs.get (s% "p") = some (newPolicyDef (s% "p") (s% "sub, obj, act"))
  e : s.model.eDefs.get (s% "e") = some SOME_ALLOW
  path : s.functions (s% "pathMatch") = (FnModel.new std []).functions (s% "pathMatch")
  regex : s.functions (s% "regexMatch") = (FnModel.new std []).functions (s% "regexMatch")
  free : ∀ x ∈ args, s.functions (qual (s% "r") x) = none ∧ s.functions (qual (s% "p") x) = none

theorem naming_now {std : StdLib} {s : FnModel} (D : DefinedNow std s) :
    Naming s.functions (s% "r") (s% "p") args args :=
  ⟨writable_of (by decide) (by decide +kernel) (fun x hx => (D.free x hx).1),
    writable_of (by decide) (by decide +kernel) (fun x hx => (D.free x hx).2), rfl, 'p', [], rfl, .inl rfl, by decide⟩

theorem holds_now (std : StdLib) (s : FnModel) (D : DefinedNow std s) (gov : Gov) (sub obj act a b c : Str) :
    (subEq.holds (Ref.val args args [sub, obj, act] [a, b, c]) (s.SaysNow gov (s% "r") args [sub, obj, act]) ↔
      sub = a) ∧
    (objPath.holds (Ref.val args args [sub, obj, act] [a, b, c]) (s.SaysNow gov (s% "r") args [sub, obj, act]) ↔
      StarMatch Colon (splitC '/' obj) (splitC '/' b)) ∧
    (actRegex.holds (Ref.val args args [sub, obj, act] [a, b, c]) (s.SaysNow gov (s% "r") args [sub, obj, act]) ↔
      std.regex act c = some true) := by
  obtain ⟨f1, _, f3, _, _, e1, -, e3, -, -, h1, -, h3, -⟩ := c78_functions std
  obtain ⟨v, hv, hv'⟩ := h1 obj b
  refine ⟨?_, ?_, ?_⟩
  · constructor
    · rintro ⟨v, h, h'⟩
      exact (Option.some.inj h).trans (Option.some.inj h').symm
    · rintro rfl; exact ⟨sub, rfl, rfl⟩
  · rw [← hv']
    constructor
    · rintro ⟨vs, h, h'⟩
      have : [obj, b] = vs := Option.some.inj h
      subst this
      unfold FnModel.SaysNow at h'
      rw [if_neg (by decide)] at h'
      obtain ⟨fn, e, h'⟩ := h'
      rw [D.path, e1] at e
      cases e
      rw [hv] at h'
      exact EvalRes.bool.inj h'
    · intro hb
      refine ⟨[obj, b], rfl, ?_⟩
      unfold FnModel.SaysNow
      rw [if_neg (by decide)]
      exact ⟨f1, D.path.trans e1, by rw [hv, hb]⟩
  · constructor
    · rintro ⟨vs, h, h'⟩
      have : [act, c] = vs := Option.some.inj h
      subst this
      unfold FnModel.SaysNow at h'
      rw [if_neg (by decide)] at h'
      obtain ⟨fn, e, h'⟩ := h'
      rw [D.regex, e3] at e
      cases e
      rw [(h3 act c).1] at h'
      cases hx : std.regex act c with
      | none => rw [hx] at h'; cases h'
      | some y => rw [hx] at h'; rw [EvalRes.bool.inj h']
    · intro hb
      refine ⟨[act, c], rfl, ?_⟩
      unfold FnModel.SaysNow
      rw [if_neg (by decide)]
      exact ⟨f3, D.regex.trans e3, by rw [(h3 act c).1, hb]; rfl⟩

theorem fits_now (std : StdLib) (s : FnModel) (D : DefinedNow std s) (gov : Gov) (sub obj act : Str) :
    ∀ a ∈ [subEq, objPath, actRegex],
      a.FitsNow s gov (s% "r") (s% "p") args args [sub, obj, act] (Compiles std) := by
  obtain ⟨f1, _, f3, _, _, e1, -, e3, -, -, h1, -, h3, -⟩ := c78_functions std
  intro a ha
  simp only [List.mem_cons, List.not_mem_nil, or_false] at ha
  rcases ha with rfl | rfl | rfl
  · exact ⟨⟨by decide, by decide⟩, by rintro _ _ ⟨⟩⟩
  · refine ⟨⟨by simp, by decide, by decide, noTailRef_iff (by decide)⟩, ?_⟩
    rintro _ _ ⟨⟩
    rw [if_neg (by decide)]
    refine ⟨f1, D.path.trans e1, ?_⟩
    rintro r ⟨x, y, z, rfl, -⟩ - vs h
    have : [obj, y] = vs := Option.some.inj h
    subst this
    obtain ⟨b, hb, -⟩ := h1 obj y
    exact ⟨b, hb⟩
  · refine ⟨⟨by simp, by decide, by decide, noTailRef_iff (by decide)⟩, ?_⟩
    rintro _ _ ⟨⟩
    rw [if_neg (by decide)]
    refine ⟨f3, D.regex.trans e3, ?_⟩
    rintro r ⟨x, y, z, rfl, hz⟩ - vs h
    have : [act, z] = vs := Option.some.inj h
    subst this
    rw [(h3 act z).1]
    cases hx : std.regex act z with
    | none => exact absurd hx (hz act)
    | some b => exact ⟨b, rfl⟩

theorem together (r r' : Rule) :
    (∀ a ∈ [subEq, objPath], a.Together args r r') ↔
      (attr args r (s% "sub") = attr args r' (s% "sub") ∧ attr args r (s% "obj") = attr args r' (s% "obj")) := by
  constructor
  · intro h
    have h1 := h subEq (by simp)
    have h2 := h objPath (by simp)
    constructor
    · rcases h1 with ⟨-, h1⟩ | rfl
      · exact h1 _ (by simp [subEq, Atom.refs])
      · rfl
    · rcases h2 with ⟨-, h2⟩ | rfl
      · exact h2 _ (by simp [objPath, Atom.refs])
      · rfl
  · rintro ⟨h1, h2⟩ a ha
    simp only [List.mem_cons, List.not_mem_nil, or_false] at ha
    rcases ha with rfl | rfl
    · exact .inl ⟨⟨_, by simp [subEq, Atom.refs]; rfl⟩, by
        intro y hy
        simp [subEq, Atom.refs] at hy
        rw [hy]; exact h1⟩
    · exact .inl ⟨⟨_, by simp [objPath, Atom.refs]; rfl⟩, by
        intro y hy
        simp [objPath, Atom.refs] at hy
        rw [hy]; exact h2⟩

/-- What is left over of removed rules: the action matches the empty expression, and the matcher has seen a rule for the
subject and a path that matches the object, but none for this subject and path is stored.  (Or the matcher has seen no
rule at all, and the request is the empty one.) -/
def Trace (std : StdLib) (H : Rule → Prop) (rules : List Rule) (sub obj act : Str) : Prop :=
  std.regex act [] = some true ∧ (((∀ r, ¬ H r) ∧ sub = [] ∧ obj = []) ∨
    ∃ pat, StarMatch Colon (splitC '/' obj) (splitC '/' pat) ∧ (∃ x, H [sub, pat, x]) ∧
      ¬ ∃ x, [sub, pat, x] ∈ rules)

/-- **C84**, examples/pathmatch_model.conf as shipped.  In any program whose rules have regular expressions that compile,
whatever rules are added, removed or cleared: a request is allowed if and only if a stored rule permits it, or the
matcher has a trace of a removed rule. -/
theorem c84_path (std : StdLib) (build : FnBuild) (u : Str → Res Stage) (hc : build.Coherent u)
    (hbin : ∀ e s, u e = .ok s → s.Binary) (grow : Nat → Nat) (root : Stage)
    (hroot : buildMatcherDef grow (Cond.formula (s% "r") (s% "p") asShipped).toks = .ok root)
    (H : Rule → Prop) (s : FnModel) (h : FnModel.FnSeen build (s% "m") root H s) (D : DefinedNow std s)
    (gov : Gov) (hgov : gov.Ok) (hsc : gov.Scoped) (hre : ∀ x, std.regex x [] ≠ none)
    (hH : ∀ r, H r → Compiles std r) (sub obj act : Str)
    (ord : Order) (hord : ord.Valid) (depth : Nat) (hdep : 0 < depth) :
    ∃ rules answer, s.model.policyRules (s% "p") = some rules ∧
      (s.enforce build gov depth ord ([sub, obj, act].map .val)).2 = .ok answer ∧
      (answer = true ↔ (∃ rule ∈ rules, Permits std sub obj act rule) ∨ Trace std H rules sub obj act) := by
  obtain ⟨rules, answer, h1, h0, hlen, -, h3, h4, -⟩ := FnModel.c83_verdict_partial build u hc hbin grow (s% "r")
    (s% "m") (s% "e") (s% "p") (s% "sub, obj, act") SOME_ALLOW args args asShipped root (by decide) (by decide) hroot
    (Compiles std) H s h (by decide) (by decide) D.r (by decide) _ D.p (by decide +kernel) D.e gov hgov hsc
    (naming_now D) [sub, obj, act] (.of_len (by rfl))
    (fun a ha => fits_now std s D gov sub obj act a (by
      simpa [asShipped, Cond.anyAtoms, Cond.allAtoms, Cond.atoms] using ha))
    (.inl rfl) hH (fun _ => ⟨[], [], [], rfl, hre⟩) (fun h => absurd h (by decide)) ord hord depth hdep _
    (fun _ => Iff.rfl)
  refine ⟨rules, answer, h1, h3 rfl rfl rfl, (h4 rfl).trans (or_congr ?_ ?_)⟩
  · simp only [asShipped, Cond.anyHolds, Cond.allHold, Cond.holds, and_true, or_false]
    constructor
    · rintro ⟨r, hr, hh, -⟩
      obtain ⟨a, b, c, rfl⟩ := RootRules.three (hlen _ (h0 r hr))
      obtain ⟨e1, e2, e3⟩ := holds_now std s D gov sub obj act a b c
      rw [e1, e2, e3] at hh
      obtain ⟨rfl, g2, g3⟩ := hh
      exact ⟨_, hr, b, c, rfl, g2, g3⟩
    · rintro ⟨_, hr, pat, re, rfl, g2, g3⟩
      obtain ⟨e1, e2, e3⟩ := holds_now std s D gov sub obj act sub pat re
      exact ⟨_, hr, ⟨e1.2 rfl, e2.2 g2, e3.2 g3⟩, RootRules.allow_all _⟩
  · obtain ⟨e1, e2, e3⟩ := holds_now std s D gov sub obj act [] [] []
    have hrepl : (List.replicate args.length ([] : Str)) = [[], [], []] := rfl
    have hempty : StarMatch Colon (splitC '/' obj) (splitC '/' []) ↔ obj = [] := by
      have hs : splitC '/' [] = [[]] := rfl
      rw [hs]
      constructor
      · generalize hx : splitC '/' obj = xs
        generalize hq : [([] : Str)] = qs
        intro hm
        have hj := join_splitC '/' obj
        cases hm with
        | nil => cases hq
        | lit t hm =>
          cases hq
          cases hm
          rw [hx] at hj
          rw [← hj]; rfl
        | any hd hm => cases hq; obtain ⟨x, hx⟩ := hd; cases hx
        | star _ _ _ => cases hq
        | rest _ => cases hq
      · rintro rfl
        exact .lit [] .nil
    rw [hempty] at e2
    constructor
    · rintro (⟨hno, hh⟩ | ⟨way, last, hm, seen, q1, q2, q3, q4⟩)
      · simp only [asShipped, Cond.anyHolds, Cond.allHold, Cond.holds, and_true, or_false] at hh
        rw [hrepl, e1, e2, e3] at hh
        exact ⟨hh.2.2, .inl ⟨hno, hh.1, hh.2.1⟩⟩
      · have hm' : way ++ [last] = [subEq, objPath, actRegex] := by
          simpa [asShipped, Cond.anyWays, Cond.allWays, Cond.ways] using hm
        obtain ⟨rfl, rfl⟩ := last_eq hm'
        obtain ⟨a, b, c, rfl⟩ := RootRules.three (hlen _ q1)
        obtain ⟨f1, f2, -⟩ := holds_now std s D gov sub obj act a b c
        obtain rfl := f1.1 (q2 subEq (by simp))
        refine ⟨e3.1 q3, .inr ⟨b, f2.1 (q2 objPath (by simp)), ⟨c, q1⟩, ?_⟩⟩
        rintro ⟨x, hx⟩
        exact q4 _ hx ((together _ _).2 ⟨rfl, rfl⟩)
    · rintro ⟨g3, ⟨hno, g1, g2⟩ | ⟨pat, g2, ⟨x, hx⟩, hno⟩⟩
      · refine .inl ⟨hno, ?_⟩
        simp only [asShipped, Cond.anyHolds, Cond.allHold, Cond.holds, and_true, or_false]
        rw [hrepl, e1, e2, e3]
        exact ⟨g1, g2, g3⟩
      · obtain ⟨f1, f2, -⟩ := holds_now std s D gov sub obj act sub pat x
        refine .inr ⟨[subEq, objPath], actRegex, by simp [asShipped, Cond.anyWays, Cond.allWays, Cond.ways], _, hx, ?_,
          e3.2 g3, ?_⟩
        · intro a ha
          simp only [List.mem_cons, List.not_mem_nil, or_false] at ha
          rcases ha with rfl | rfl
          · exact f1.2 rfl
          · exact f2.2 g2
        · intro r hr ht
          obtain ⟨a, b, c, rfl⟩ := RootRules.three (hlen _ (h0 _ hr))
          obtain ⟨t1, t2⟩ := (together _ _).1 ht
          have q1 : sub = a := Option.some.inj t1
          have q2 : pat = b := Option.some.inj t2
          subst q1 q2
          exact hno ⟨c, hr⟩

/-- The hypotheses hold for every request, in the program of `c78_fails`, in which alice's rule has been removed. -/
example (sub obj act : Str) : ∃ H rules answer,
    (remove (program (s% "shipped")) aliceRule).model.policyRules (s% "p") = some rules ∧
    ((remove (program (s% "shipped")) aliceRule).enforce fbuild EvalExample.gov 1 Order.fwd
      ([sub, obj, act].map .val)).2 = .ok answer ∧
    (answer = true ↔ (∃ rule ∈ rules, Permits std sub obj act rule) ∨ Trace std H rules sub obj act) := by
  refine ⟨_, c84_path std fbuild reading coherent binary (fun _ => 0) (rootOf asShipped)
    (buildMatcherDef_formula _ _ (by decide) (by decide)) _ _
    (.remove (.add (.add (.built (.setDef (.setDef (.setDef (.setDef (.new _ _) _ _ _) _ _ _) _ _ _) _ _ _)
      (s% "shipped") (by decide +kernel) (by rfl) (by decide +kernel)) _ (by decide +kernel)) _
      (by decide +kernel)) _ (by decide +kernel))
    ⟨by decide +kernel, by rfl, by decide +kernel, by rfl, by rfl, by decide +kernel⟩
    EvalExample.gov EvalExample.gov_ok (Gov.scope_scoped _) (by intro x h; cases h) ?_ sub obj act
    Order.fwd Order.fwd_valid 1 (by decide)⟩
  have hk : (rootOf asShipped).policyKey = s% "p" := by decide +kernel
  rintro r ((⟨rules, h, hr⟩ | h) | h)
  · rw [hk] at h
    cases (show some ([] : List Rule) = some rules from h)
    cases hr
  · cases h; exact compiles _ rfl
  · cases h; exact compiles _ rfl

end PathRules

end Fastac
