import Verif.Model.Context

/-!
# `Filter` and `RangeMatches` of the enforcer (enforcer.go:274-309)

The methods of the enforcer themselves are in Model/Functions.  As for `Enforce`, request values are strings.  A call returns what the callback has made of its variables, and
whether the call returned an error; the rules that were reported before an error are still there.
-/

namespace Fastac

/-- The error that `RangeMatches` returns (matcher.go:222-233): that the callback stopped, or that an error
of a nested stage was swallowed, is not an error. -/
def Status.result : Status → Res Unit
  | .cont => .ok ()
  | .stop => .ok ()
  | .err => .err
  | .panic => .panic

/-- `RangeMatchesWithContext` (enforcer.go:307-309) with `Model.RangeMatches` (model.go:366-371).  A missing matcher
or request definition is a nil dereference; the effector and the policy definitions are not looked at. -/
def Model.rangeCtx {σ : Type} (m : Model) (base : Str → Option Fn) (gov : Gov) (ord : Order) (ctx : Ctx)
    (rvals : List Str) (fn : σ → Rule → σ × Bool) (s : σ) : σ × Res Unit :=
  match ctx.matcher.bind m.resolve, ctx.rDef with
  | some mt, some rDef =>
    let r := mt.rangeMatches (m.evaluator base gov mt rDef rvals) ord fn s
    (r.1, r.2.result)
  | _, _ => (s, .panic)

/-- `Enforcer.RangeMatches` (enforcer.go:299-305). -/
def Model.rangeParams {σ : Type} (build : Str → Res Stage) (m : Model) (base : Str → Option Fn) (gov : Gov)
    (ord : Order) (params : List Param) (fn : σ → Rule → σ × Bool) (s : σ) : Model × σ × Res Unit :=
  match newContext build m (splitParams params).1 with
  | (m', .ok ctx) => (m', m'.rangeCtx base gov ord ctx (splitParams params).2 fn s)
  | (m', .err) => (m', s, .err)
  | (m', .panic) => (m', s, .panic)

end Fastac
