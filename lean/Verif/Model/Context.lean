import Verif.Model.Model
import Verif.Model.Enforce

/-!
# Contexts and the calls of the enforcer that decide (context.go, enforcer.go, model/matcher/matcher.go)

Request values are strings here; in Go they may be anything (Model/Values.lean), and an attribute of a struct is read by
govaluate.
-/

namespace Fastac

/-! ## Parameters, functions and the expression library -/

/-- `MatchParameters` (matcher.go:51-56) without the rule, which changes during a call. -/
structure MatchParams where
  pDef : PolicyDef
  rDef : PolicyDef
  rvals : List Str

/-- `MatchParameters.Get` (matcher.go:67-76) while the rule is `pvals`; `none` is an error.  The name is
never empty. -/
def MatchParams.get (ps : MatchParams) (pvals : Rule) (name : Str) : Option Str :=
  match name with
  | [] => none
  | c :: _ =>
    if c = 'p' ∨ c = 'g' then ps.pDef.getParameter pvals name
    else if c = 'r' then ps.rDef.getParameter ps.rvals name
    else none

/-- A function that matchers can call, on string arguments. -/
abbrev Fn := List Str → EvalRes

/-- `GenerateGFunction` (rbac/role_manager_api.go:53-71); with fewer than two arguments an index is out
of range.  What `HasLink` changes in the manager is left out here.  Nothing changes (C23, C86) except in a
domain manager that is asked about a pattern domain (`c31_fails`). -/
def gFunction (mgr : Mgr) : Fn
  | u :: r :: ds =>
    match mgr.hasLink u r ds with
    | .ok (_, b) => .bool b
    | .err => .err
    | .panic => .panic
  | _ => .panic

/-- The function map of the model: the functions of the role definitions (handlers.go:36-50) and `base`,
the built-in ones and those set by the user. -/
def Model.functions (m : Model) (base : Str → Option Fn) (name : Str) : Option Fn :=
  match m.rpMap.get name with
  | some rp => some (gFunction rp.mgr)
  | none => base name

/-- The library govaluate: what it compiles and computes, given functions and parameters. -/
abbrev Gov := (Str → Option Fn) → (Rule → Str → Option Str) → Evaluator

/-! ## Matchers that are built for one call -/

/-- `BuildMatcherFromDef` (model.go:220-246) with `NewMatcher` for a matcher that is not stored in the
model.  It listens to the policy from now on, also after the call for which it was built. -/
def Model.buildFromExpr (build : Str → Res Stage) (m : Model) (expr : Str) : Model × Res MEntry :=
  match build expr with
  | .err => (m, .err)
  | .panic => (m, .panic)
  | .ok root =>
    match m.matcherPolicyDef root.policyKey with
    | .err => (m, .err)
    | .panic => (m, .panic)
    | .ok pDef =>
      match m.pMap.get root.policyKey with
      | some p =>
        match newMatcher pDef root p.policy.rules with
        | .err => (m, .err)
        | .panic => (m, .panic)
        | .ok mt =>
          ({ m with pMap := m.pMap.set root.policyKey ⟨p.policy, p.listeners ++ [mt]⟩ },
            .ok (.live root.policyKey p.listeners.length))
      | none =>
        match m.rpMap.get root.policyKey with
        | none => (m, .err)
        | some rp =>
          match newMatcher pDef root rp.rules with
          | .err => (m, .err)
          | .panic => (m, .panic)
          | .ok mt =>
            ({ m with rpMap := m.rpMap.set root.policyKey ⟨rp.mgr, rp.listeners ++ [mt]⟩ },
              .ok (.live root.policyKey rp.listeners.length))

/-! ## Contexts -/

/-- The argument of `SetMatcher` (context.go:15-43): a string, a `*MatcherDef` (by its expression), a
matcher, or something of another type, which is ignored. -/
inductive MArg where
  | str (s : Str)
  | ofDef (expr : Str)
  | obj (x : MEntry)
  | other

/-- The argument of `SetRequestDef` (context.go:45-62). -/
inductive RArg where
  | str (s : Str)
  | obj (d : PolicyDef)
  | other

/-- The argument of `SetEffector` (context.go:64-85): a string, an effect definition or effector (by its
expression), or something else. -/
inductive EArg where
  | str (s : Str)
  | obj (expr : Str)
  | other

inductive CtxOpt where
  | matcher (a : MArg)
  | request (a : RArg)
  | effector (a : EArg)

/-- `Context` (context.go:87-93). -/
structure Ctx where
  rDef : Option PolicyDef
  matcher : Option MEntry
  effector : Option Str

/-- `GetRequestDef` (model.go:348-351): the type assertion on a missing definition panics. -/
def Model.getRequestDef (m : Model) (key : Str) : Res PolicyDef :=
  match m.rDefs.get key with
  | some text => .ok (newPolicyDef key text)
  | none => .panic

/-- The option made by `SetMatcher` (context.go:15-43). -/
def setMatcherOpt (build : Str → Res Stage) (m : Model) (ctx : Ctx) : MArg → Model × Res Ctx
  | .str s =>
    if s = [] then (m, .ok ctx)
    else
      match m.mMap.get s with
      | some x => (m, .ok { ctx with matcher := some x })
      | none =>
        ((m.buildFromExpr build s).1,
          (m.buildFromExpr build s).2.map fun x => { ctx with matcher := some x })
  | .ofDef expr =>
    ((m.buildFromExpr build expr).1,
      (m.buildFromExpr build expr).2.map fun x => { ctx with matcher := some x })
  | .obj x => (m, .ok { ctx with matcher := some x })
  | .other => (m, .ok ctx)

/-- The option made by `SetRequestDef` (context.go:45-62).  The error of line 54 is never reached, since
`GetRequestDef` panics first. -/
def setRequestOpt (m : Model) (ctx : Ctx) : RArg → Res Ctx
  | .str s =>
    if s = [] then .ok ctx
    else (m.getRequestDef s).map fun d => { ctx with rDef := some d }
  | .obj d => .ok { ctx with rDef := some d }
  | .other => .ok ctx

/-- The option made by `SetEffector` (context.go:64-85). -/
def setEffectorOpt (m : Model) (ctx : Ctx) : EArg → Ctx
  | .str s =>
    if s = [] then ctx
    else
      match m.eDefs.get s with
      | some e => { ctx with effector := some e }
      | none => { ctx with effector := some (effectExpr s) }
  | .obj e => { ctx with effector := some e }
  | .other => ctx

/-- Calling an option. -/
def applyOpt (build : Str → Res Stage) (m : Model) (ctx : Ctx) : CtxOpt → Model × Res Ctx
  | .matcher a => setMatcherOpt build m ctx a
  | .request a => (m, setRequestOpt m ctx a)
  | .effector a => (m, .ok (setEffectorOpt m ctx a))

/-- The loop over the options (context.go:99-103): the first error ends it. -/
def applyOpts (build : Str → Res Stage) : Model → Ctx → List CtxOpt → Model × Res Ctx
  | m, ctx, [] => (m, .ok ctx)
  | m, ctx, o :: os =>
    match applyOpt build m ctx o with
    | (m', .ok ctx') => applyOpts build m' ctx' os
    | (m', .err) => (m', .err)
    | (m', .panic) => (m', .panic)

/-- The default for a missing request definition (context.go:105-107); it cannot return an error. -/
def defaultRequest (m : Model) (ctx : Ctx) : Res Ctx :=
  if ctx.rDef.isNone then setRequestOpt m ctx (.str (s% "r")) else .ok ctx

/-- The default for a missing matcher (context.go:108-110); an error is ignored. -/
def defaultMatcher (build : Str → Res Stage) (m : Model) (ctx : Ctx) : Model × Res Ctx :=
  if ctx.matcher.isNone then
    match setMatcherOpt build m ctx (.str (s% "m")) with
    | (m', .ok ctx') => (m', .ok ctx')
    | (m', .err) => (m', .ok ctx)
    | (m', .panic) => (m', .panic)
  else (m, .ok ctx)

/-- The default for a missing effector (context.go:111-113). -/
def defaultEffector (m : Model) (ctx : Ctx) : Ctx :=
  if ctx.effector.isNone then setEffectorOpt m ctx (.str (s% "e")) else ctx

/-- `NewContext` (context.go:95-116). -/
def newContext (build : Str → Res Stage) (m : Model) (opts : List CtxOpt) : Model × Res Ctx :=
  match applyOpts build m ⟨none, none, none⟩ opts with
  | (m', .err) => (m', .err)
  | (m', .panic) => (m', .panic)
  | (m', .ok ctx) =>
    match defaultRequest m' ctx with
    | .err => (m', .err)
    | .panic => (m', .panic)
    | .ok ctx1 =>
      match defaultMatcher build m' ctx1 with
      | (m'', .ok ctx2) => (m'', .ok (defaultEffector m'' ctx2))
      | (m'', .err) => (m'', .err)
      | (m'', .panic) => (m'', .panic)

/-! ## Deciding -/

/-- The evaluator of a call (matcher.go:222-225) with the given matcher. -/
def Model.evaluator (m : Model) (base : Str → Option Fn) (gov : Gov) (mt : Matcher) (rDef : PolicyDef)
    (rvals : List Str) : Evaluator :=
  gov (m.functions base) (MatchParams.get ⟨mt.pDef, rDef, rvals⟩)

/-- `EnforceWithContext` (enforcer.go:258-272, 311-344).  A missing matcher, request definition or
effector is a nil dereference, a matcher whose policy key has no `p` definition a failed type
assertion. -/
def Model.enforceCtx (m : Model) (base : Str → Option Fn) (gov : Gov) (ord : Order) (ctx : Ctx)
    (rvals : List Str) : Res Bool :=
  match ctx.matcher.bind m.resolve, ctx.rDef, ctx.effector with
  | some mt, some rDef, some eff =>
    match m.pDefs.get mt.pDef.key with
    | none => .panic
    | some pDef => enforce mt pDef (m.evaluator base gov mt rDef rvals) ord eff
  | _, _, _ => .panic

/-- A parameter of `Enforce`: an option or a request value. -/
inductive Param where
  | opt (o : CtxOpt)
  | val (v : Str)

/-- `splitParams` (enforcer.go:231-247): options and request values in their order. -/
def splitParams : List Param → List CtxOpt × List Str
  | [] => ([], [])
  | .opt o :: ps => (o :: (splitParams ps).1, (splitParams ps).2)
  | .val v :: ps => ((splitParams ps).1, v :: (splitParams ps).2)

/-- `Enforcer.Enforce` (enforcer.go:251-257). -/
def Model.enforceParams (build : Str → Res Stage) (m : Model) (base : Str → Option Fn) (gov : Gov)
    (ord : Order) (params : List Param) : Model × Res Bool :=
  match newContext build m (splitParams params).1 with
  | (m', .ok ctx) => (m', m'.enforceCtx base gov ord ctx (splitParams params).2)
  | (m', .err) => (m', .err)
  | (m', .panic) => (m', .panic)

/-! ## Configuration -/

/-- The model after the definitions of a configuration (model.go:149-164 before `BuildMatchers`). -/
def Model.define : List (Char × Str × Str) → Model
  | defs => defs.foldl (fun m d => (m.setDef d.1 d.2.1 d.2.2).1) Model.new

/-- What a call of a role function does to its manager: `HasLink` may create roles or domains. -/
def Model.ask (m : Model) (key u r : Str) (ds : List Str) : Model :=
  match m.rpMap.get key with
  | none => m
  | some rp =>
    match rp.mgr.hasLink u r ds with
    | .ok (mgr, _) => { m with rpMap := m.rpMap.set key ⟨mgr, rp.listeners⟩ }
    | _ => m

end Fastac
