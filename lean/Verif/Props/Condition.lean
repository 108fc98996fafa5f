import Verif.Lemmas.CondDecide
import Verif.Props.MatcherDef
import Verif.Props.EndToEnd

/-!
# C72: what a matcher says is what is decided
-/

namespace Fastac

namespace Model

/-- Histories as in `Bound` are histories as in `Given` without requirements. -/
theorem Bound.given {build : Str → Res Stage} {key : Str} {root : Stage} {m : Model} (h : Bound build key root m) :
    Given build key root (fun _ => True) False m := by
  induction h with
  | built h expr hd hb hok => exact .built h expr hd hb hok (fun _ _ _ _ => trivial)
  | setDef _ sec k value hk ih => exact .setDef ih sec k value hk
  | removeDef _ sec k hk hm ih => exact .removeDef ih sec k hk hm
  | build _ k hk ih => exact .build ih k hk
  | inline _ expr ih => exact .inline ih expr
  | add _ rule hs ih => exact .add ih rule hs (fun _ _ => trivial)
  | remove _ rule hs ih => exact .remove ih rule hs (fun h => h.elim)
  | clear _ k hk ih => exact .clear ih k hk

/-- **C72**, the part that holds.  Take any model after any history of changes, and a matcher that says `f`:
comparisons of attributes and calls of functions, combined with `&&`, `||` and brackets.  `Enforce` decides on
exactly the stored rules of which `f` is true, where `f` is read as written: attributes by their names, role
functions as reachability over the stored links, other functions as registered.

The functions have to answer on the rules the policy was given (property `P`).  The rule with empty fields
matters if the policy is empty (then `f` must not hold of it) or if rules have been removed one by one (`¬ keep`;
then no last atom of `f` may hold of it). -/
theorem c72_condition_partial (build : Str → Res Stage) (hbin : ∀ e s, build e = .ok s → s.Binary)
    (grow : Nat → Nat) (rk mk ek pk rText eff : Str) (rArgs pArgs : List Str) (f : List (List Cond)) (root : Stage)
    (hw : (Cond.formula rk pk f).wf = true) (hs : (Cond.formula rk pk f).safe = true)
    (hroot : buildMatcherDef grow (Cond.formula rk pk f).toks = .ok root)
    (P : Rule → Prop) (keep : Prop)
    (m : Model) (h : Given build mk root P keep m) (hmk : mk ≠ []) (hek : ek ≠ [])
    (hr : m.rDefs.get rk = some rText) (hrA : splitC ',' (removeSpaces rText) = rArgs)
    (d : PolicyDef) (hp : m.pDefs.get pk = some d) (hpA : d.args = pArgs) (he : m.eDefs.get ek = some eff)
    (gov : Gov) (hgov : gov.Ok) (base : Str → Option Fn) (N : Naming base rk pk rArgs pArgs)
    (rvals : List Str) (hrl : Cond.Given rArgs rvals f)
    (hf : ∀ a ∈ Cond.anyAtoms f, a.Fits m base rArgs pArgs rvals P)
    (huse : pk = s% "p" ∨ ∃ a ∈ Cond.anyAtoms f, ∃ y, Ref.pol y ∈ a.refs)
    (hP0 : ¬ keep ∨ m.policyRules pk = some [] → P (List.replicate pArgs.length []))
    (hlast : ¬ keep → ∀ a ∈ Cond.anyLasts f,
      ¬ a.holds (Ref.val rArgs pArgs rvals (List.replicate pArgs.length [])) (m.Says base))
    (hempty : m.policyRules pk = some [] → ¬ Cond.anyHolds
      (fun a => a.holds (Ref.val rArgs pArgs rvals (List.replicate pArgs.length [])) (m.Says base)) f)
    (hdet : eff = SOME_ALLOW_NO_DENY → ∀ rules, m.policyRules pk = some rules → ∀ r ∈ rules,
      effectOf pArgs r ≠ .indeterminate)
    (ord : Order) (hord : ord.Valid) :
    ∃ rules L : List Rule, m.policyRules pk = some rules ∧
      (∀ r, r ∈ L ↔ r ∈ rules ∧
        Cond.anyHolds (fun a => a.holds (Ref.val rArgs pArgs rvals r) (m.Says base)) f) ∧
      m.enforceParams build base gov ord (named rk mk ek ++ rvals.map .val) =
        (m, .ok (decision eff (L.map (effectOf pArgs)))) ∧
      (rk = s% "r" → mk = s% "m" → ek = s% "e" →
        m.enforceParams build base gov ord (rvals.map .val) = (m, .ok (decision eff (L.map (effectOf pArgs))))) := by
  obtain ⟨rules, L, h1, -, h2, h3⟩ := decided build hbin grow rk mk ek pk rText eff rArgs pArgs f root hw hs hroot P
    keep m h hmk hek hr hrA d hp hpA he gov base N rvals (fun a ha => (hf a ha).1) huse _ rfl
    (fun a r => a.holds (Ref.val rArgs pArgs rvals r) (m.Says base))
    (fun a ha => Atom.eval h.bound.tied.1.made hgov N (.inl (h.bound.tied.1.made.wellKeyed.p pk d hp).1) hrl.1 (hrl.2 a ha) (hf a ha) rfl)
    (fun a _ r r' _ _ _ _ hag => a.holds_own hag) hP0 hlast hempty hdet ord hord
  exact ⟨rules, L, h1, h2, h3⟩

/-! ## A case that meets the hypotheses -/

theorem noTailRef_iff {start : Char → Bool} : ∀ {w : Str}, noTailRef start w = true →
    ∀ u v, w = u ++ v → ¬ IsRef start v
  | [], _, u, v, e, h => by
    have : v = [] := (List.append_eq_nil_iff.1 e.symm).2
    rw [this, ← isRefB_iff] at h
    exact absurd h (by simp [isRefB])
  | c :: w, h, [], v, e, hv => by
    rw [noTailRef, Bool.and_eq_true, Bool.not_eq_true'] at h
    rw [List.nil_append] at e
    rw [← e, ← isRefB_iff, h.1] at hv
    cases hv
  | c :: w, h, d :: u, v, e, hv => by
    rw [noTailRef, Bool.and_eq_true] at h
    rw [List.cons_append] at e
    injection e with _ e
    exact noTailRef_iff h.2 u v e hv

theorem inner_of {start : Char → Bool} {w : Str} (h : noTailRef start w.tail = true) (u v : Str) (e : w = u ++ v)
    (hv : IsRef start v) : u = [] := by
  cases u with
  | nil => rfl
  | cons c u =>
    rw [e, List.cons_append, List.tail_cons] at h
    exact absurd hv (noTailRef_iff h u v rfl)

theorem writable_of {base : Str → Option Fn} {key : Str} {names : List Str} (g : GoodNames names)
    (h1 : ∀ x ∈ names, x ≠ [] ∧ isIdent (qual key x) ∧
      noTailRef (fun c => c == 'p' || c == 'g') (qual key x).tail = true)
    (h2 : ∀ x ∈ names, base (qual key x) = none) : Writable base key names :=
  ⟨g, fun x hx => (h1 x hx).1, fun x hx => (h1 x hx).2.1, h2, fun x hx => inner_of (h1 x hx).2.2⟩

namespace ConditionExample

/-- `(g(r.sub, p.sub) || r.sub == p.owner) && g2(r.obj, p.obj) && r.act == p.act`, on the policy `p2` -/
def cond : List (List Cond) :=
  [[.paren [[.atom (.call (s% "g") [.req (s% "sub"), .pol (s% "sub")])],
      [.atom (.eq (.req (s% "sub")) (.pol (s% "owner")))]],
    .atom (.call (s% "g2") [.req (s% "obj"), .pol (s% "obj")]),
    .atom (.eq (.req (s% "act")) (.pol (s% "act")))]]

def toks : Toks := (Cond.formula (s% "r") (s% "p2") cond).toks

def root : Stage := .mk [] (Operand.trD (Cond.formula (s% "r") (s% "p2") cond) [])

theorem root_eq : buildMatcherDef (fun _ => 0) toks = .ok root :=
  buildMatcherDef_formula _ _ (by decide) (by decide)

def build (e : Str) : Res Stage := if e = s% "text" then .ok root else .err

theorem binary : ∀ e s, build e = .ok s → s.Binary := by
  intro e s h
  unfold build at h
  split at h
  · cases h
    simp [root, cond, Cond.formula, Cond.operands, Cond.operand, Atom.operand, eqAtom, callAtom, Operand.trD,
      Operand.trC, Operand.trU, Stage.Binary, Stage.All, Stage.AllIn, Stage.children]
  · cases h

def defs : Model :=
  (((((((Model.new.setDef 'r' (s% "r") (s% "sub, obj, act")).1.setDef 'p' (s% "p") (s% "sub, obj")).1.setDef
    'p' (s% "p2") (s% "sub, obj, act, owner, eft")).1.setDef 'g' (s% "g") (s% "_, _")).1.setDef
    'g' (s% "g2") (s% "_, _")).1.setDef 'e' (s% "e2") (s% "some(where (p.eft == allow)) && !some(where (p.eft == deny))")).1.setDef
    'm' (s% "m2") (s% "text")).1

theorem kept : Kept build defs :=
  .setDef (.setDef (.setDef (.setDef (.setDef (.setDef (.setDef .new _ _ _) _ _ _) _ _ _) _ _ _) _ _ _) _ _ _) _ _ _

def built : Model := (defs.buildMatcher build (s% "m2")).1

/-- Editors may write `data`, of which `data1` is a part; bob is an editor but may not write `data1`. -/
def model : Model :=
  (((((built.addRule [s% "p2", s% "editor", s% "data", s% "write", s% "carol", s% "allow"]).1.addRule
    [s% "p2", s% "bob", s% "data1", s% "write", s% "nobody", s% "deny"]).1.addRule
    [s% "g", s% "alice", s% "editor"]).1.addRule [s% "g", s% "bob", s% "editor"]).1.addRule
    [s% "g2", s% "data1", s% "data"]).1

theorem bound : Bound build (s% "m2") root model := by
  refine .add (.add (.add (.add (.add (.built kept (s% "text") (by decide) rfl (by decide +kernel)) _ ?_) _ ?_) _
    ?_) _ ?_) _ ?_ <;> decide +kernel

def rArgs : List Str := [s% "sub", s% "obj", s% "act"]
def pArgs : List Str := [s% "sub", s% "obj", s% "act", s% "owner", s% "eft"]

theorem naming : Naming EndToEnd.noFns (s% "r") (s% "p2") rArgs pArgs :=
  ⟨writable_of (by decide) (by decide +kernel) (fun _ _ => rfl),
    writable_of (by decide) (by decide +kernel) (fun _ _ => rfl), rfl, 'p', [ '2' ], rfl, .inl rfl, by decide⟩

theorem callable (f : Str) {x y : Ref} {rvals : List Str} {P : Rule → Prop} (h : model.gDefs.get f = some 2) :
    model.Callable EndToEnd.noFns rArgs pArgs rvals P f [x, y] := by
  unfold Callable
  rw [h]
  exact ⟨by simp, fun h => absurd rfl h⟩

theorem rules : model.policyRules (s% "p2") = some [
    [s% "editor", s% "data", s% "write", s% "carol", s% "allow"],
    [s% "bob", s% "data1", s% "write", s% "nobody", s% "deny"]] := by decide +kernel

theorem fits (rvals : List Str) (P : Rule → Prop) : ∀ a ∈ Cond.anyAtoms cond,
    a.Fits model EndToEnd.noFns rArgs pArgs rvals P := by
  intro a ha
  simp only [cond, Cond.anyAtoms, Cond.allAtoms, Cond.atoms, List.append_nil, List.cons_append, List.nil_append,
    List.mem_cons, List.not_mem_nil, or_false] at ha
  rcases ha with rfl | rfl | rfl | rfl
  · refine ⟨⟨by simp, by decide, by decide, noTailRef_iff (by decide)⟩, ?_⟩
    rintro _ _ ⟨⟩
    exact callable _ (by decide +kernel)
  · exact ⟨⟨by decide, by decide⟩, by rintro _ _ ⟨⟩⟩
  · refine ⟨⟨by simp, by decide, by decide, noTailRef_iff (by decide)⟩, ?_⟩
    rintro _ _ ⟨⟩
    exact callable _ (by decide +kernel)
  · exact ⟨⟨by decide, by decide⟩, by rintro _ _ ⟨⟩⟩

/-- No rule has been removed since the matcher was built. -/
theorem given : Given build (s% "m2") root (fun _ => True) True model := by
  refine .add (.add (.add (.add (.add (.built kept (s% "text") (by decide) rfl (by decide +kernel)
    (fun _ _ _ _ => trivial)) _ ?_ (fun _ _ => trivial)) _ ?_ (fun _ _ => trivial)) _ ?_ (fun _ _ => trivial)) _ ?_
    (fun _ _ => trivial)) _ ?_ (fun _ _ => trivial) <;> decide +kernel

/-- The hypotheses hold for every request. -/
example (sub obj act : Str) :
    ∃ rules L : List Rule, model.policyRules (s% "p2") = some rules ∧
      (∀ r, r ∈ L ↔ r ∈ rules ∧ Cond.anyHolds (fun a => a.holds (Ref.val rArgs pArgs [sub, obj, act] r)
        (model.Says EndToEnd.noFns)) cond) ∧
      model.enforceParams build EndToEnd.noFns EndToEnd.miniGov Order.fwd
        (named (s% "r") (s% "m2") (s% "e2") ++ [sub, obj, act].map .val) =
          (model, .ok (decision SOME_ALLOW_NO_DENY (L.map (effectOf pArgs)))) := by
  obtain ⟨rules, L, h1, h2, h3, -⟩ := c72_condition_partial build binary (fun _ => 0) (s% "r") (s% "m2") (s% "e2")
    (s% "p2") (s% "sub, obj, act") SOME_ALLOW_NO_DENY rArgs pArgs cond root (by decide) (by decide) root_eq _ True model
    given (by decide) (by decide) (by decide +kernel) (by decide) _ rfl (by decide +kernel) (by decide +kernel)
    EndToEnd.miniGov EndToEnd.miniGov_ok EndToEnd.noFns naming [sub, obj, act] (.of_len (by rfl)) (fits _ _)
    (.inr ⟨.eq (.req (s% "act")) (.pol (s% "act")), by decide, s% "act", by decide⟩)
    (fun _ => trivial) (fun h => absurd trivial h) (by rw [rules]; simp)
    (by
      intro _ rs h
      rw [rules] at h
      cases h
      decide)
    Order.fwd Order.fwd_valid
  exact ⟨rules, L, h1, h2, h3⟩

/-- If rules have been removed too, the hypotheses hold for every request with an action. -/
example (sub obj act : Str) (hact : act ≠ []) :
    ∃ rules L : List Rule, model.policyRules (s% "p2") = some rules ∧
      (∀ r, r ∈ L ↔ r ∈ rules ∧ Cond.anyHolds (fun a => a.holds (Ref.val rArgs pArgs [sub, obj, act] r)
        (model.Says EndToEnd.noFns)) cond) ∧
      model.enforceParams build EndToEnd.noFns EndToEnd.miniGov Order.fwd
        (named (s% "r") (s% "m2") (s% "e2") ++ [sub, obj, act].map .val) =
          (model, .ok (decision SOME_ALLOW_NO_DENY (L.map (effectOf pArgs)))) := by
  obtain ⟨rules, L, h1, h2, h3, -⟩ := c72_condition_partial build binary (fun _ => 0) (s% "r") (s% "m2") (s% "e2")
    (s% "p2") (s% "sub, obj, act") SOME_ALLOW_NO_DENY rArgs pArgs cond root (by decide) (by decide) root_eq _ False
    model bound.given (by decide) (by decide) (by decide +kernel) (by decide) _ rfl (by decide +kernel)
    (by decide +kernel) EndToEnd.miniGov EndToEnd.miniGov_ok EndToEnd.noFns naming [sub, obj, act] (.of_len (by rfl)) (fits _ _)
    (.inr ⟨.eq (.req (s% "act")) (.pol (s% "act")), by decide, s% "act", by decide⟩)
    (fun _ => trivial)
    (by
      intro _ a ha
      have : a = .eq (.req (s% "act")) (.pol (s% "act")) := by
        simpa [cond, Cond.anyLasts, Cond.allLasts, Cond.lasts] using ha
      subst this
      rintro ⟨v, e1, e2⟩
      cases e1
      exact hact (Option.some.inj e2).symm)
    (by rw [rules]; simp)
    (by
      intro _ rs h
      rw [rules] at h
      cases h
      decide)
    Order.fwd Order.fwd_valid
  exact ⟨rules, L, h1, h2, h3⟩

/-- alice writes `data1` as an editor, carol as the owner, bob is denied -/
example : ∀ x ∈ [(s% "alice", true), (s% "carol", true), (s% "bob", false), (s% "dave", false)],
    (model.enforceParams build EndToEnd.noFns EndToEnd.miniGov Order.fwd
      (named (s% "r") (s% "m2") (s% "e2") ++ [x.1, s% "data1", s% "write"].map .val)).2 = .ok x.2 := by
  decide +kernel

/-- **C72 fails** if the blank rule satisfies the condition: without any rule, the request with empty values
is allowed. -/
theorem c72_fails : Bound build (s% "m2") root built ∧ built.policyRules (s% "p2") = some [] ∧
    (built.enforceParams build EndToEnd.noFns EndToEnd.miniGov Order.fwd
      (named (s% "r") (s% "m2") (s% "e2") ++ [[], [], []].map .val)).2 = .ok true ∧
    decision SOME_ALLOW_NO_DENY [] = false :=
  ⟨.built kept (s% "text") (by decide) rfl (by decide +kernel), by decide +kernel, by decide +kernel, rfl⟩

end ConditionExample

end Model

end Fastac
