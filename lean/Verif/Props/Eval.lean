import Verif.Lemmas.Eval
import Verif.Lemmas.CondDecide
import Verif.Props.Condition

/-!
# C75: conditions stored in rules
-/

namespace Fastac

namespace Model

/-- **C75**, the part that holds.  As `c72_condition_partial`, for matchers that call `eval` with an attribute:
`eval(p.rule)` is true of a rule if the condition stored in the attribute is true of the request.  The conditions
stored in the rules given to the policy have to be about the request only, may not call `eval`, and must compile
and be true or false of the request. -/
theorem c75_eval_partial (build : Str → Res Stage) (hbin : ∀ e s, build e = .ok s → s.Binary)
    (grow : Nat → Nat) (rk mk ek pk rText eff : Str) (rArgs pArgs : List Str) (f : List (List Cond)) (root : Stage)
    (hw : (Cond.formula rk pk f).wf = true) (hs : (Cond.formula rk pk f).safe = true)
    (hroot : buildMatcherDef grow (Cond.formula rk pk f).toks = .ok root)
    (P : Rule → Prop) (keep : Prop)
    (m : Model) (h : Given build mk root P keep m) (hmk : mk ≠ []) (hek : ek ≠ [])
    (hr : m.rDefs.get rk = some rText) (hrA : splitC ',' (removeSpaces rText) = rArgs)
    (d : PolicyDef) (hp : m.pDefs.get pk = some d) (hpA : d.args = pArgs) (he : m.eDefs.get ek = some eff)
    (gov : Gov) (hgov : gov.Ok) (hsc : gov.Scoped) (base : Str → Option Fn) (N : Naming base rk pk rArgs pArgs)
    (rvals : List Str) (hrl : Cond.Given rArgs rvals f)
    (hf : ∀ a ∈ Cond.anyAtoms f, a.FitsEval m base gov rk pk rArgs pArgs rvals P)
    (huse : pk = s% "p" ∨ ∃ a ∈ Cond.anyAtoms f, ∃ y, Ref.pol y ∈ a.refs)
    (hP0 : ¬ keep ∨ m.policyRules pk = some [] → P (List.replicate pArgs.length []))
    (hlast : ¬ keep → ∀ a ∈ Cond.anyLasts f,
      ¬ a.holds (Ref.val rArgs pArgs rvals (List.replicate pArgs.length [])) (m.SaysEval base gov rk rArgs rvals))
    (hempty : m.policyRules pk = some [] → ¬ Cond.anyHolds (fun a => a.holds
      (Ref.val rArgs pArgs rvals (List.replicate pArgs.length [])) (m.SaysEval base gov rk rArgs rvals)) f)
    (hdet : eff = SOME_ALLOW_NO_DENY → ∀ rules, m.policyRules pk = some rules → ∀ r ∈ rules,
      effectOf pArgs r ≠ .indeterminate)
    (ord : Order) (hord : ord.Valid) (depth : Nat) (hdep : 0 < depth) :
    ∃ rules L : List Rule, m.policyRules pk = some rules ∧ (∀ r ∈ rules, P r ∧ r.length = pArgs.length) ∧
      (∀ r, r ∈ L ↔ r ∈ rules ∧ Cond.anyHolds
        (fun a => a.holds (Ref.val rArgs pArgs rvals r) (m.SaysEval base gov rk rArgs rvals)) f) ∧
      m.enforceParams build base (gov.withEval depth) ord (named rk mk ek ++ rvals.map .val) =
        (m, .ok (decision eff (L.map (effectOf pArgs)))) ∧
      (rk = s% "r" → mk = s% "m" → ek = s% "e" →
        m.enforceParams build base (gov.withEval depth) ord (rvals.map .val) =
          (m, .ok (decision eff (L.map (effectOf pArgs))))) := by
  obtain ⟨n, rfl⟩ : ∃ n, depth = n + 1 := ⟨depth - 1, by omega⟩
  obtain ⟨rules, L, h1, h0, h2, h3⟩ := decided build hbin grow rk mk ek pk rText eff rArgs pArgs f root hw hs hroot P
    keep m h hmk hek hr hrA d hp hpA he (gov.withEval (n + 1)) base N rvals (fun a ha => (hf a ha).1) huse _ rfl
    (fun a r => a.holds (Ref.val rArgs pArgs rvals r) (m.SaysEval base gov rk rArgs rvals))
    (fun a ha => Atom.eval_eval h.bound.tied.1.made hgov hsc N (.inl (h.bound.tied.1.made.wellKeyed.p pk d hp).1) hrl.1 (hrl.2 a ha) (hf a ha) n rfl)
    (fun a _ r r' _ _ _ _ hag => a.holds_own hag) hP0 hlast hempty hdet ord hord
  exact ⟨rules, L, h1, h0, h2, h3⟩

end Model

/-! ## A library that meets the expectations -/

/-- A map restricted to some names. -/
def only {α : Type} (ws : List Str) (f : Str → Option α) : Str → Option α := fun w => if w ∈ ws then f w else none

/-- A library that shows an expression only the functions and parameters named in it. -/
def Gov.scope (gov : Gov) : Gov := fun fns par =>
  { compiles := fun e => (gov (only (words e) fns) (fun _ _ => none)).compiles e
    eval := fun e r => (gov (only (words e) fns) (fun _ => only (words e) (par r))).eval e [] }

theorem only_congr {α : Type} {ws : List Str} {f g : Str → Option α} (h : ∀ w ∈ ws, f w = g w) :
    only ws f = only ws g := by
  funext w
  unfold only
  by_cases hw : w ∈ ws
  · rw [if_pos hw, if_pos hw, h w hw]
  · rw [if_neg hw, if_neg hw]

theorem Gov.scope_scoped (gov : Gov) : gov.scope.Scoped := by
  intro fns fns' par par' e _ hf
  simp only [Gov.scope]
  rw [only_congr hf]
  refine ⟨rfl, fun r r' hr => ?_⟩
  rw [only_congr hr]

theorem only_ok {ws : List Str} {fns : Str → Option Fn} {x : GovTerm} (h : x.Ok fns) : x.Ok (only ws fns) := by
  cases x with
  | var x =>
    refine ⟨h.1, ?_⟩
    unfold only
    split
    · exact h.2
    · rfl
  | lit s => exact h

theorem only_val {ws : List Str} {fns : Str → Option Fn} {x : GovTerm} (h : x.Ok fns)
    (hw : ∀ w ∈ words x.text, w ∈ ws) (par : Str → Option Str) : x.val (only ws par) = x.val par := by
  cases x with
  | var x =>
    have h2 := words_single h.1.2.1 h.1.1
    exact if_pos (hw x (by rw [GovTerm.text, h2]; simp))
  | lit s => rfl

theorem Gov.scope_ok {gov : Gov} (h : gov.Ok) : gov.scope.Ok := by
  constructor
  · intro fns par x y hx hy
    have hw := words_eq x.text y.text
    have h1 := fun p => h.eqT (only (words (x.text ++ s% " == " ++ y.text)) fns) p x y (only_ok hx) (only_ok hy)
    refine ⟨(h1 _).1, fun r => ?_⟩
    simp only [Gov.scope]
    rw [(h1 _).2, only_val hx (by rw [hw]; intro w h; simp [h]), only_val hy (by rw [hw]; intro w h; simp [h])]
  · intro fns par f fn args hf ff hne ha
    have hw : words (f ++ s% "(" ++ join (s% ", ") (args.map GovTerm.text) ++ s% ")") = _ :=
      words_call (args.map GovTerm.text) hf
    have hff : only (words (f ++ s% "(" ++ join (s% ", ") (args.map GovTerm.text) ++ s% ")")) fns f = some fn := by
      rw [hw]; unfold only; simp [ff]
    have h1 := fun p => h.callT (only (words (f ++ s% "(" ++ join (s% ", ") (args.map GovTerm.text) ++ s% ")")) fns) p
      f fn args hf hff hne (fun a h => only_ok (ha a h))
    refine ⟨(h1 _).1, fun r => ?_⟩
    simp only [Gov.scope]
    rw [(h1 _).2]
    have : args.mapM (fun a => a.val (only (words (f ++ s% "(" ++ join (s% ", ") (args.map GovTerm.text) ++ s% ")"))
        (par r))) = args.mapM (fun a => a.val (par r)) := by
      apply mapM_congr'
      intro a hm
      apply only_val (ha a hm)
      rw [hw]
      intro w h
      exact List.mem_cons_of_mem _ (List.mem_flatMap.2 ⟨a.text, List.mem_map.2 ⟨a, hm, rfl⟩, h⟩)
    rw [this]

/-! ## A case that meets the hypotheses, and what is missing -/

namespace Model

namespace EvalExample

/-- `eval(p.rule) && r.act == p.act` -/
def cond : List (List Cond) :=
  [[.atom (.call (s% "eval") [.pol (s% "rule")]), .atom (.eq (.req (s% "act")) (.pol (s% "act")))]]

def root : Stage := .mk [] (Operand.trD (Cond.formula (s% "r") (s% "p") cond) [])

theorem root_eq : buildMatcherDef (fun _ => 0) (Cond.formula (s% "r") (s% "p") cond).toks = .ok root :=
  buildMatcherDef_formula _ _ (by decide) (by decide)

def build (e : Str) : Res Stage := if e = s% "text" then .ok root else .err

theorem binary : ∀ e s, build e = .ok s → s.Binary := by
  intro e s h
  unfold build at h
  split at h
  · cases h
    simp [root, cond, Cond.formula, Cond.operands, Cond.operand, Atom.operand, eqAtom, callAtom, Operand.trD,
      Operand.trC, Operand.trU, Stage.Binary, Stage.All, Stage.AllIn, Stage.children]
  · cases h

def defs : Model :=
  ((((Model.new.setDef 'r' (s% "r") (s% "sub, owner, obj, act")).1.setDef 'p' (s% "p") (s% "rule, obj, act")).1.setDef
    'e' (s% "e") SOME_ALLOW).1.setDef 'm' (s% "m") (s% "text")).1

theorem kept : Kept build defs := .setDef (.setDef (.setDef (.setDef .new _ _ _) _ _ _) _ _ _) _ _ _

def built : Model := (defs.buildMatcher build (s% "m")).1

/-- owners may read, `root` may write -/
def model : Model :=
  ((built.addRule [s% "p", s% "r.sub == r.owner", s% "data1", s% "read"]).1.addRule
    [s% "p", s% "isRoot(r.sub)", s% "data1", s% "write"]).1

/-- the conditions are these two -/
def Known (r : Rule) : Prop := r.head? = some (s% "r.sub == r.owner") ∨ r.head? = some (s% "isRoot(r.sub)")

theorem given : Given build (s% "m") root Known True model := by
  refine .add (.add (.built kept (s% "text") rfl rfl rfl ?_) _ (by decide) ?_) _ (by decide) ?_
  · intro rules h
    cases h
    intro r hr
    cases hr
  · intro f e; cases e; unfold Known; decide
  · intro f e; cases e; unfold Known; decide

def gov : Gov := EndToEnd.miniGov.scope

theorem gov_ok : gov.Ok := Gov.scope_ok EndToEnd.miniGov_ok

/-- one function, which can only be called with one argument -/
def base : Str → Option Fn := fun f => if f = s% "isRoot" then some (fun
  | [x] => .bool (x == s% "root")
  | _ => .panic) else none

def rArgs : List Str := [s% "sub", s% "owner", s% "obj", s% "act"]
def pArgs : List Str := [s% "rule", s% "obj", s% "act"]

theorem naming : Naming base (s% "r") (s% "p") rArgs pArgs :=
  ⟨writable_of (by decide) (by decide +kernel) (by decide), writable_of (by decide) (by decide +kernel) (by decide),
    rfl, 'p', [], rfl, .inl rfl, by decide⟩

theorem good (sub owner obj act text : Str) (h : text = s% "r.sub == r.owner" ∨ text = s% "isRoot(r.sub)") :
    GoodCondition gov (model.functions base) (s% "r") (s% "p") rArgs pArgs [sub, owner, obj, act] text := by
  rcases h with rfl | rfl
  · have e : replaceArgs (s% "r.sub == r.owner") = s% "r_sub" ++ s% " == " ++ s% "r_owner" := by decide +kernel
    obtain ⟨h1, h2⟩ := gov_ok.eq (model.functions base) (requestPar (s% "r") rArgs [sub, owner, obj, act])
      (s% "r_sub") (s% "r_owner") (by decide) (by decide) (by decide) (by decide)
    exact ⟨by decide +kernel, by decide +kernel, by decide +kernel, by rw [e]; exact h1,
      ⟨sub == owner, by rw [e, h2]; rfl⟩⟩
  · have e : replaceArgs (s% "isRoot(r.sub)") = s% "isRoot" ++ s% "(" ++ join (s% ", ") [s% "r_sub"] ++ s% ")" := by
      decide +kernel
    obtain ⟨h1, h2⟩ := gov_ok.call (model.functions base) (requestPar (s% "r") rArgs [sub, owner, obj, act])
      (s% "isRoot") _ [s% "r_sub"] (by decide) rfl (by simp) (by decide)
    exact ⟨by decide +kernel, by decide +kernel, by decide +kernel, by rw [e]; exact h1,
      ⟨sub == s% "root", by rw [e, h2]; rfl⟩⟩

/-- The hypotheses hold for every request. -/
example (sub owner obj act : Str) :
    ∃ rules L : List Rule, model.policyRules (s% "p") = some rules ∧
      (∀ r, r ∈ L ↔ r ∈ rules ∧ Cond.anyHolds (fun a => a.holds (Ref.val rArgs pArgs [sub, owner, obj, act] r)
        (model.SaysEval base gov (s% "r") rArgs [sub, owner, obj, act])) cond) ∧
      model.enforceParams build base (gov.withEval 1) Order.fwd ([sub, owner, obj, act].map .val) =
          (model, .ok (decision SOME_ALLOW (L.map (effectOf pArgs)))) := by
  obtain ⟨rules, L, h1, -, h2, -, h3⟩ := c75_eval_partial build binary (fun _ => 0) (s% "r") (s% "m") (s% "e")
    (s% "p") (s% "sub, owner, obj, act") SOME_ALLOW rArgs pArgs cond root (by decide) (by decide) root_eq Known True
    model given (by decide) (by decide) (by decide +kernel) (by decide) _ rfl (by decide +kernel) (by decide +kernel)
    gov gov_ok (Gov.scope_scoped _) base naming [sub, owner, obj, act] (.of_len (by rfl)) (by
      intro a ha
      simp only [cond, Cond.anyAtoms, Cond.allAtoms, Cond.atoms, List.append_nil, List.cons_append, List.nil_append,
        List.mem_cons, List.not_mem_nil, or_false] at ha
      rcases ha with rfl | rfl
      · refine ⟨⟨by simp, by decide, by decide, noTailRef_iff (by decide)⟩, ?_⟩
        rintro _ _ ⟨⟩
        rw [if_pos rfl]
        refine ⟨_, rfl, ?_⟩
        intro r hP hl text ht
        apply good
        match r, hl with
        | [a, b, c], _ =>
          have : a = text := Option.some.inj ht
          subst this
          simpa [Known] using hP
      · exact ⟨⟨by decide, by decide⟩, by rintro _ _ ⟨⟩⟩)
    (.inl rfl)
    (by rintro (h | h); exact absurd trivial h; exact absurd h (by decide +kernel))
    (fun h => absurd trivial h) (fun h => absurd h (by decide +kernel)) (fun h => absurd h (by decide))
    Order.fwd Order.fwd_valid 1 (by decide)
  exact ⟨rules, L, h1, h2, h3 rfl rfl rfl⟩

/-- the owner reads, others do not; `root` writes -/
example : ∀ x ∈ [([s% "alice", s% "alice", s% "data1", s% "read"], true),
      ([s% "bob", s% "alice", s% "data1", s% "read"], false),
      ([s% "root", s% "alice", s% "data1", s% "write"], true),
      ([s% "alice", s% "alice", s% "data1", s% "write"], false)],
    (model.enforceParams build base (gov.withEval 1) Order.fwd (x.1.map .val)).2 = .ok x.2 := by
  decide +kernel

/-- two rules with the same condition on different objects -/
def twice : Model :=
  ((built.addRule [s% "p", s% "r.obj == p.obj", s% "data1", s% "read"]).1.addRule
    [s% "p", s% "r.obj == p.obj", s% "data2", s% "read"]).1

/-- two rules, the first with a condition that cannot be evaluated -/
def broken : Model :=
  ((built.addRule [s% "p", s% "missing(r.sub)", s% "data1", s% "read"]).1.addRule
    [s% "p", s% "r.sub == r.owner", s% "data1", s% "write"]).1

/-- the library, with texts that it cannot read -/
def strict : Gov := fun fns par =>
  { compiles := fun e => e.head? != some ')', eval := fun e r => (gov fns par).eval e r }

/-- a stored condition that cannot be compiled is an error, not an answer -/
example : ((built.addRule [s% "p", s% ")r.sub == r.owner", s% "data1", s% "read"]).1.enforceParams build base
    (strict.withEval 1) Order.fwd ([s% "alice", s% "alice", s% "data1", s% "read"].map .val)).2 = .err ∧
    (model.enforceParams build base (strict.withEval 1) Order.fwd
      ([s% "alice", s% "alice", s% "data1", s% "read"].map .val)).2 = .ok true := by
  decide +kernel

/-- `eval` is the built-in function, also if another one has been registered under its name -/
example : (model.enforceParams build (withFn base (s% "eval") (fun _ => .bool true)) (gov.withEval 1) Order.fwd
      ([s% "bob", s% "alice", s% "data1", s% "read"].map .val)).2 = .ok false := by
  decide +kernel

/-- `eval` takes one argument -/
example :
    let E := gov.withEval 1 base (MatchParams.get ⟨declare (s% "p") pArgs, declare (s% "r") rArgs,
      [s% "alice", s% "alice", s% "data1", s% "read"]⟩)
    E.eval (s% "eval(p_rule)") [s% "r.sub == r.owner", s% "data1", s% "read"] = .bool true ∧
    E.eval (s% "eval(p_rule, p_obj)") [s% "r.sub == r.owner", s% "data1", s% "read"] = .err := by
  decide +kernel

/-- a condition that evaluates itself -/
def loop : Model := (built.addRule [s% "p", s% "eval(p.rule)", s% "data1", s% "read"]).1

/-- what the library says of the matcher, for one rule -/
def holdsAlone (rvals : List Str) (r : Rule) : Prop :=
  let E := gov.withEval 1 base (MatchParams.get ⟨declare (s% "p") pArgs, declare (s% "r") rArgs, rvals⟩)
  E.eval (s% "eval(p_rule)") r = .bool true ∧ E.eval (s% "r_act == p_act") r = .bool true

instance (rvals : List Str) (r : Rule) : Decidable (holdsAlone rvals r) := by unfold holdsAlone; infer_instance

end EvalExample

open EvalExample

/-- **C75 fails** for conditions that mention the rule: two rules have the same condition `r.obj == p.obj` and
different objects; the request for the second object is denied, although the second rule satisfies the matcher. -/
theorem c75_fails_policy :
    [s% "r.obj == p.obj", s% "data2", s% "read"] ∈ (twice.policyRules (s% "p")).getD [] ∧
    holdsAlone [s% "alice", s% "alice", s% "data2", s% "read"] [s% "r.obj == p.obj", s% "data2", s% "read"] ∧
    (twice.enforceParams build base (gov.withEval 1) Order.fwd
      ([s% "alice", s% "alice", s% "data2", s% "read"].map .val)).2 = .ok false := by
  decide +kernel

/-- **C75 fails** for conditions that cannot be evaluated: one such rule is stored, and the request that another
rule allows ends with an error. -/
theorem c75_fails_error :
    [s% "r.sub == r.owner", s% "data1", s% "write"] ∈ (broken.policyRules (s% "p")).getD [] ∧
    holdsAlone [s% "alice", s% "alice", s% "data1", s% "write"] [s% "r.sub == r.owner", s% "data1", s% "write"] ∧
    (broken.enforceParams build base (gov.withEval 1) Order.fwd
      ([s% "alice", s% "alice", s% "data1", s% "write"].map .val)).2 = .err := by
  decide +kernel

end Model

/-- `eval` of a condition that evaluates itself uses up the stack. -/
theorem evalFn_loop {gov : Gov} (hg : gov.Ok) {fns : Str → Option Fn} {par : Rule → Str → Option Str} {r : Rule}
    (hp : par r (s% "p_rule") = some (s% "eval(p.rule)")) (hn : fns (s% "p_rule") = none) :
    ∀ n, evalFn gov fns par r n [s% "eval(p.rule)"] = .panic
  | 0 => rfl
  | n + 1 => by
    have e : replaceArgs (s% "eval(p.rule)") = s% "eval" ++ s% "(" ++ join (s% ", ") [s% "p_rule"] ++ s% ")" := by
      decide +kernel
    obtain ⟨h1, h2⟩ := hg.call (withFn fns (s% "eval") (evalFn gov fns par r n)) par (s% "eval") _ [s% "p_rule"]
      (by decide) withFn_self (by simp) (by
        intro a ha
        rw [List.mem_singleton] at ha
        subst ha
        exact ⟨by decide, by rw [withFn_ne (by decide)]; exact hn⟩)
    simp only [evalFn]
    rw [e, h1, if_pos rfl, h2]
    simp only [List.mapM_cons, List.mapM_nil, hp]
    exact evalFn_loop hg hp hn n

namespace Model

open EvalExample in
/-- **C75 fails** for conditions that call `eval`: with the rule `eval(p.rule)` stored, every request kills the
program, whatever the size of the stack. -/
theorem c75_fails_loop (gov : Gov) (hg : gov.Ok) (depth : Nat) (sub owner obj act : Str) :
    (EvalExample.loop.enforceParams build base (gov.withEval depth) Order.fwd ([sub, owner, obj, act].map .val)).2 = .panic := by
  obtain ⟨E, hE⟩ : ∃ E, E = gov.withEval depth (EvalExample.loop.functions base)
      (MatchParams.get ⟨newPolicyDef (s% "p") (s% "rule, obj, act"),
        newPolicyDef (s% "r") (s% "sub, owner, obj, act"), [sub, owner, obj, act]⟩) := ⟨_, rfl⟩
  have key : ∀ r, _ := fun r => hg.call (withFn (EvalExample.loop.functions base) (s% "eval") (evalFn gov (EvalExample.loop.functions base)
      (MatchParams.get ⟨newPolicyDef (s% "p") (s% "rule, obj, act"),
        newPolicyDef (s% "r") (s% "sub, owner, obj, act"), [sub, owner, obj, act]⟩) r depth))
      (MatchParams.get ⟨newPolicyDef (s% "p") (s% "rule, obj, act"),
        newPolicyDef (s% "r") (s% "sub, owner, obj, act"), [sub, owner, obj, act]⟩) (s% "eval") _ [s% "p_rule"]
      (by decide) withFn_self (by simp) (by
        intro a ha
        rw [List.mem_singleton] at ha
        subst ha
        exact ⟨by decide, by rw [withFn_ne (by decide)]; decide⟩)
  have h1 : E.compiles (s% "eval(p_rule)") = true := by rw [hE]; exact (key []).1
  have h2 : E.eval (s% "eval(p_rule)") [s% "eval(p.rule)", s% "data1", s% "read"] = .panic := by
    rw [hE]
    refine ((key _).2 _).trans ?_
    exact evalFn_loop hg (r := [s% "eval(p.rule)", s% "data1", s% "read"]) (by rfl) (by decide) depth
  have h3 : E = ⟨fun e => if e = s% "eval(p_rule)" then true else E.compiles e,
      fun e r => if e = s% "eval(p_rule)" ∧ r = [s% "eval(p.rule)", s% "data1", s% "read"] then .panic
        else E.eval e r⟩ := by
    cases E with
    | mk c ev =>
      simp only [Evaluator.mk.injEq]
      constructor
      · funext e
        split
        · next h => rw [h]; exact h1
        · rfl
      · funext e r
        split
        · next h => rw [h.1, h.2]; exact h2
        · rfl
  have h4 : (EvalExample.loop.enforceParams build base (gov.withEval depth) Order.fwd ([sub, owner, obj, act].map .val)).2 =
      (EvalExample.loop.enforceParams build base (fun _ _ => E) Order.fwd ([sub, owner, obj, act].map .val)).2 := by
    rw [hE]; rfl
  rw [h4, h3]
  rfl

end Model

end Fastac
