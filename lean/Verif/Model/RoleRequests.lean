import Verif.Model.RoleThreads
import Verif.Model.Enforce

/-!
# Requests that ask a role manager, at the same time

An expression of a matcher may call `g`, which is `HasLink` of the role manager (role_manager_api.go:53-71).  Model/Enforce
takes `g` as a function; here the evaluation of an expression asks, and the question runs on the shared role manager, next
to the questions of other requests.

Simplified: one role manager without domains; the function `eval` (whose sharing is in Model/Concurrent) is not used.
-/

namespace Fastac

/-- A computation that calls functions for roles; `Q` is what such a call consists of, `Str × Str` for `g(u, r)`. -/
inductive Asks (Q α : Type) where
  | done (a : α)
  /-- the call; the rest depends on the answer -/
  | ask (q : Q) (k : Bool → Asks Q α)

namespace Asks

variable {Q α β : Type}

def bind : Asks Q α → (α → Asks Q β) → Asks Q β
  | .done a, f => f a
  | .ask q k, f => .ask q (fun b => (k b).bind f)

/-- The result if the calls are answered by the function `g`. -/
def value (g : Q → Bool) : Asks Q α → α
  | .done a => a
  | .ask q k => (k (g q)).value g

/-- The computation with a role manager in the place of `g`. -/
def thread (c : RConf) : Asks (Str × Str) α → Thread RHeap α
  | .done a => .ret a
  | .ask q k => (c.hasLink q.1 q.2).bind fun b => (k b).thread c

end Asks

/-- The evaluator of one request, with its calls of `g`. -/
structure AskEvaluator (Q : Type) where
  compiles : Str → Bool
  eval : Str → Rule → Asks Q EvalRes

/-- The evaluator with a function for `g`. -/
def AskEvaluator.under {Q : Type} (E : AskEvaluator Q) (g : Q → Bool) : Evaluator where
  compiles := E.compiles
  eval := fun e r => (E.eval e r).value g

/-- `rangeEntries` (matcher.go:183-196) with its calls of `g`. -/
def rangeEntriesA {Q σ : Type} (E : AskEvaluator Q) (expr : Str) (cb : Str → Node → σ → Asks Q (σ × Status)) :
    GoMap Str Node → σ → Asks Q (σ × Status)
  | [], s => .done (s, .cont)
  | (k, child) :: es, s =>
    (E.eval expr child.rule).bind fun
      | .err => .done (s, .err)
      | .panic => .done (s, .panic)
      | .other => rangeEntriesA E expr cb es s
      | .bool false => rangeEntriesA E expr cb es s
      | .bool true =>
        (cb k child s).bind fun
          | (s', .cont) => rangeEntriesA E expr cb es s'
          | (s', .panic) => .done (s', .panic)
          | (s', _) => .done (s', .stop)

mutual
/-- `rangeMatchesHelper` (matcher.go:199-220) with its calls of `g`. -/
def rangeStageA {Q σ : Type} (E : AskEvaluator Q) (nargs : Nat) (ord : Order)
    (fn : σ → Rule → σ × Bool) : Stage → List (Nat × Str) → Node → σ → Asks Q (σ × Status)
  | .mk _ cs, path, node, s => rangeChildrenA E nargs ord fn cs 0 path node s
/-- The loop of `rangeMatchesHelper` with `Matcher.rangeMatches` (matcher.go:170-197) inlined. -/
def rangeChildrenA {Q σ : Type} (E : AskEvaluator Q) (nargs : Nat) (ord : Order)
    (fn : σ → Rule → σ × Bool) :
    List Stage → Nat → List (Nat × Str) → Node → σ → Asks Q (σ × Status)
  | [], _, _, _, s => .done (s, .cont)
  | st :: rest, i, path, node, s =>
    match node.children[i]? with
    | none => .done (s, .panic)
    | some m =>
      if E.compiles st.expr = false then .done (s, .err)
      else
        (rangeEntriesA E st.expr (fun k child s =>
          match (if st.isLeaf then fn s child.rule else (s, true)) with
          | (s', false) => .done (s', .stop)
          | (s', true) =>
            (rangeStageA E nargs ord fn st (path ++ [(i, k)]) child s').bind fun
              | (s'', .cont) => .done (s'', .cont)
              | (s'', .panic) => .done (s'', .panic)
              | (s'', _) => .done (s'', .stop))
          (if m.isEmpty then [([], newNode (List.replicate nargs []))] else ord path i m) s).bind fun
          | (s', .cont) => rangeChildrenA E nargs ord fn rest (i + 1) path node s'
          | r => .done r
end

/-- `Enforcer.enforce` (enforcer.go:311-344) through `RangeMatches` (matcher.go:222-233) with its calls of `g`. -/
def enforceA {Q : Type} (m : Matcher) (pDef : PolicyDef) (E : AskEvaluator Q) (ord : Order) (expr : Str) : Asks Q (Res Bool) :=
  (rangeStageA E m.pDef.args.length ord (fun s rule => enforceVisit pDef expr s (m.pDef.key :: rule)) m.exprRoot []
    m.root EnfState.init).bind fun r => .done (enforceFinish expr r)

/-- A request: matcher, policy definition, evaluator (which knows the values of the request), map order and effect. -/
structure RoleRequest where
  matcher : Matcher
  pDef : PolicyDef
  E : AskEvaluator (Str × Str)
  ord : Order
  expr : Str

/-- The request as a call next to others. -/
def RoleRequest.thread (q : RoleRequest) (c : RConf) : Thread RHeap (Res Bool) :=
  (enforceA q.matcher q.pDef q.E q.ord q.expr).thread c

/-- The decision of `Enforce` (Model/Enforce) with a function for `g`. -/
def RoleRequest.decision (q : RoleRequest) (g : Str → Str → Bool) : Res Bool :=
  enforce q.matcher q.pDef (q.E.under fun x => g x.1 x.2) q.ord q.expr

end Fastac
