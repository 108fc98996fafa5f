import Verif.Model.Functions

/-!
# What a request changes (matcher.go:164-256, role_manager_api.go:53-71, enforcer.go:251-272, 311-344)

`FnModel.enforce` takes the functions of role definitions as functions of the managers.  But `HasLink` can change the
manager it asks: a domain manager notes a pattern domain it is asked about (domain_manager.go:147-149).  Here every
call of a function is made in the order in which the code makes it, and finds the managers as the calls before left
them.
-/

namespace Fastac

/-- The evaluation of an expression by govaluate, as far as the functions can see it: it comes to an end with a
result, or it calls a function and goes on with what this returns. -/
inductive Ask where
  | ret (x : EvalRes)
  | call (f : Str) (args : List Str) (k : EvalRes → Ask)

/-- The library govaluate: which texts compile, given the functions there are, and how a text is evaluated with given
parameters. -/
structure GovI where
  compiles : (Str → Bool) → Str → Bool
  eval : (Str → Bool) → Str → (Str → Option Str) → Ask

namespace Ask

/-- One evaluation after the other; a panic is not caught. -/
def bind : Ask → (EvalRes → Ask) → Ask
  | .ret .panic, _ => .ret .panic
  | .ret x, k => k x
  | .call f args next, k => .call f args (fun x => (next x).bind k)

/-- The evaluation with functions that change nothing. -/
def run (fns : Str → Option Fn) : Ask → EvalRes
  | .ret x => x
  | .call f args k =>
    match (fns f).elim .err (fun fn => fn args) with
    | .panic => .panic
    | x => (k x).run fns

/-- The evaluation with functions that change a state. -/
def runE {τ : Type} (call : Str → List Str → τ → τ × EvalRes) : Ask → τ → τ × EvalRes
  | .ret x, s => (s, x)
  | .call f args k, s =>
    match call f args s with
    | (s', .panic) => (s', .panic)
    | (s', x) => (k x).runE call s'

/-- The evaluation where `eval` is the given function. -/
def handle (ev : List Str → Ask) : Ask → Ask
  | .ret x => .ret x
  | .call f args k =>
    if f = s% "eval" then (ev args).bind (fun x => (k x).handle ev)
    else .call f args (fun x => (k x).handle ev)

end Ask

namespace GovI

/-- The functions there are when `RangeMatches` has set `eval` (matcher.go:224). -/
def withEvalName (known : Str → Bool) : Str → Bool := fun x => x = s% "eval" || known x

/-- `generateEvalFunction` (matcher.go:243-256); see `evalFn`. -/
def evalAsk (gi : GovI) (known : Str → Bool) (par : Str → Option Str) : Nat → List Str → Ask
  | 0 => fun _ => .ret .panic
  | n + 1 => fun
    | [text] =>
      if gi.compiles (withEvalName known) (replaceArgs text) then
        (gi.eval (withEvalName known) (replaceArgs text) par).handle (gi.evalAsk known par n)
      else .ret .err
    | _ => .ret .err

/-- The evaluation of the text of a stage (matcher.go:184-185). -/
def stageAsk (gi : GovI) (known : Str → Bool) (depth : Nat) (e : Str) (par : Str → Option Str) : Ask :=
  (gi.eval (withEvalName known) e par).handle (gi.evalAsk known par depth)

/-- The library as it appears if functions change nothing. -/
def toGov (gi : GovI) : Gov := fun fns par =>
  { compiles := gi.compiles (fun x => (fns x).isSome)
    eval := fun e r => (gi.eval (fun x => (fns x).isSome) e (par r)).run fns }

end GovI

/-- govaluate during one call of `RangeMatches`, with functions that change a state. -/
structure EvaluatorE (τ : Type) where
  compiles : Str → Bool
  eval : Str → Rule → τ → τ × EvalRes

/-- The loop over the entries of a map in `Matcher.rangeMatches` (matcher.go:183-196). -/
def rangeEntriesE {τ σ : Type} (E : EvaluatorE τ) (expr : Str) (cb : Str → Node → τ × σ → (τ × σ) × Status) :
    GoMap Str Node → τ × σ → (τ × σ) × Status
  | [], s => (s, .cont)
  | (k, child) :: es, (t, s) =>
    match E.eval expr child.rule t with
    | (t', .err) => ((t', s), .err)
    | (t', .panic) => ((t', s), .panic)
    | (t', .other) => rangeEntriesE E expr cb es (t', s)
    | (t', .bool false) => rangeEntriesE E expr cb es (t', s)
    | (t', .bool true) =>
      match cb k child (t', s) with
      | (s', .cont) => rangeEntriesE E expr cb es s'
      | (s', .panic) => (s', .panic)
      | (s', _) => (s', .stop)

mutual
/-- `Matcher.rangeMatchesHelper` (matcher.go:199-220). -/
def rangeStageE {τ σ : Type} (E : EvaluatorE τ) (nargs : Nat) (ord : Order) (fn : σ → Rule → σ × Bool) :
    Stage → List (Nat × Str) → Node → τ × σ → (τ × σ) × Status
  | .mk _ cs, path, node, s => rangeChildrenE E nargs ord fn cs 0 path node s
/-- The loop of `rangeMatchesHelper` with `Matcher.rangeMatches` (matcher.go:170-197) inlined. -/
def rangeChildrenE {τ σ : Type} (E : EvaluatorE τ) (nargs : Nat) (ord : Order) (fn : σ → Rule → σ × Bool) :
    List Stage → Nat → List (Nat × Str) → Node → τ × σ → (τ × σ) × Status
  | [], _, _, _, s => (s, .cont)
  | st :: rest, i, path, node, s =>
    match node.children[i]? with
    | none => (s, .panic)
    | some m =>
      if E.compiles st.expr = false then (s, .err)
      else
        match rangeEntriesE E st.expr (fun k child s =>
            match (if st.isLeaf then fn s.2 child.rule else (s.2, true)) with
            | (s', false) => ((s.1, s'), .stop)
            | (s', true) =>
              match rangeStageE E nargs ord fn st (path ++ [(i, k)]) child (s.1, s') with
              | (s'', .cont) => (s'', .cont)
              | (s'', .panic) => (s'', .panic)
              | (s'', _) => (s'', .stop))
            (if m.isEmpty then [([], newNode (List.replicate nargs []))] else ord path i m) s with
        | (s', .cont) => rangeChildrenE E nargs ord fn rest (i + 1) path node s'
        | r => r
end

namespace FnModel

/-- govaluate calls a function of the model: an entry of the function map, or, for the function of a role definition
(`GenerateGFunction`, role_manager_api.go:53-71), `HasLink` of its manager, which may change it.  Simplified: if `HasLink`
panics, what it had written before the panic (a new role, a noted pattern) is not recorded. -/
def call (f : Str) (args : List Str) (s : FnModel) : FnModel × EvalRes :=
  match s.fns.get f with
  | some (.fn fn) => (s, fn args)
  | some .role =>
    match s.model.rpMap.get f with
    | none => (s, .err)
    | some rp =>
      match args with
      | u :: r :: ds =>
        match rp.mgr.hasLink u r ds with
        | .ok (mgr, b) => (s.onManager f (fun _ => mgr), .bool b)
        | .err => (s, .err)
        | .panic => (s, .panic)
      | _ => (s, .panic)
  | _ => (s, .err)

/-- The functions there are. -/
def has (s : FnModel) : Str → Bool := fun x => (s.functions x).isSome

/-- The evaluator of a call of `RangeMatches` (matcher.go:222-233) on the model. -/
def evaluatorE (s : FnModel) (gi : GovI) (depth : Nat) (mt : Matcher) (rDef : PolicyDef) (rvals : List Str) :
    EvaluatorE FnModel where
  compiles := gi.compiles (GovI.withEvalName s.has)
  eval := fun e r t => (gi.stageAsk s.has depth e (MatchParams.get ⟨mt.pDef, rDef, rvals⟩ r)).runE call t

/-- `Enforce` (enforcer.go:251-272, 311-344): the answer, and the model as the call leaves it. -/
def enforceE (build : FnBuild) (s : FnModel) (gi : GovI) (depth : Nat) (ord : Order) (params : List Param) :
    FnModel × Res Bool :=
  match newContext (build s.knows) s.model (splitParams params).1 with
  | (m', .err) => (⟨m', s.fns⟩, .err)
  | (m', .panic) => (⟨m', s.fns⟩, .panic)
  | (m', .ok ctx) =>
    match ctx.matcher.bind m'.resolve, ctx.rDef, ctx.effector with
    | some mt, some rDef, some eff =>
      match m'.pDefs.get mt.pDef.key with
      | none => (⟨m', s.fns⟩, .panic)
      | some pDef =>
        match rangeStageE (s.evaluatorE gi depth mt rDef (splitParams params).2) mt.pDef.args.length ord
            (fun s rule => enforceVisit pDef eff s (mt.pDef.key :: rule)) mt.exprRoot [] mt.root
            ((⟨m', s.fns.set (s% "eval") .eval⟩ : FnModel), EnfState.init) with
        | ((t, e), st) => (t, enforceFinish eff (e, st))
    | _, _, _ => (⟨m', if s.reaches build params then s.fns.set (s% "eval") .eval else s.fns⟩, .panic)

end FnModel

end Fastac
