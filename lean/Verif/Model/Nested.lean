import Verif.Model.Enforce
import Verif.Model.Eval

/-!
# Requests that are made by the callback of `RangeMatches`

`Matcher.RangeMatches` (model/matcher/matcher.go:222-233) makes new `MatchParameters`, puts a function `eval` that uses them
into the function map of the model, and goes through the stages; every stage is compiled when the traversal comes to it
(matcher.go:171), with the function `eval` that is in the map at that moment.  The map is the same for all calls on a model
(fm/function.go:22-24, 63-66).  So a call that is made by the callback of another call replaces the function `eval` of that
call for all stages which are compiled later.

Model/Concurrent.lean has the same for calls in several goroutines.  Not modelled here: policies that change during the
calls (Model/Callbacks.lean), the functions found by an `eval` inside an `eval`, and panics of an inner call that the
callback does not recover from.
-/

namespace Fastac

/-- What the evaluation of a call depends on: its request is in `own` and `eval`. -/
structure Asker where
  /-- Whether a stage can be compiled. -/
  compiles : Str → Bool
  /-- The function `eval` that the call puts into the map (matcher.go:243-256), while `pvals` of its parameters is the given
  rule. -/
  own : Rule → Fn
  /-- The value of the expression of a stage for a rule, with the function `eval` that was found when it was compiled. -/
  eval : Str → Rule → Fn → EvalRes

/-- The evaluator of a call with which no other call interferes. -/
def Asker.alone (a : Asker) : Evaluator where
  compiles := a.compiles
  eval := fun e r => a.eval e r (a.own r)

/-- The evaluation with the library: functions `fns`, parameters `par` (cf. `Gov.withEval`). -/
def Asker.of (gov : Gov) (depth : Nat) (fns : Str → Option Fn) (par : Rule → Str → Option Str) : Asker where
  compiles := fun e => (gov (withFn fns (s% "eval") (evalFn gov fns par [] depth)) par).compiles e
  own := fun r => evalFn gov fns par r depth
  eval := fun e r f => (gov (withFn fns (s% "eval") f) par).eval e r

/-- The shared state: the function stored under `eval` and the number of the `MatchParameters` it uses; `pvals` of all
`MatchParameters`; the number of the next ones; the variables of the program. -/
structure Desk (σ : Type) where
  slot : Nat × (Rule → Fn)
  pvals : Nat → Rule
  next : Nat
  vars : σ

namespace Desk

variable {σ : Type}

/-- The function `eval` that was found at compile time, when it is called now (matcher.go:246-255). -/
def found (d : Desk σ) (o : Nat × (Rule → Fn)) : Fn := o.2 (d.pvals o.1)

/-- `params.pvals = child.rule` (matcher.go:184). -/
def setRule (d : Desk σ) (me : Nat) (r : Rule) : Desk σ := { d with pvals := fun i => if i = me then r else d.pvals i }

/-- `NewMatchParameters` and `fMap.SetFunction("eval", …)` (matcher.go:223-224). -/
def enter (d : Desk σ) (own : Rule → Fn) : Desk σ := { d with slot := (d.next, own), next := d.next + 1 }

end Desk

/-- `rangeEntries` (matcher.go:183-196): `o` is the function `eval` that was found when the stage was compiled. -/
def deskEntries {σ : Type} (a : Asker) (expr : Str) (me : Nat) (o : Nat × (Rule → Fn))
    (cb : Str → Node → Desk σ → Desk σ × Status) : GoMap Str Node → Desk σ → Desk σ × Status
  | [], d => (d, .cont)
  | (k, child) :: es, d =>
    match a.eval expr child.rule ((d.setRule me child.rule).found o) with
    | .err => (d.setRule me child.rule, .err)
    | .panic => (d.setRule me child.rule, .panic)
    | .other => deskEntries a expr me o cb es (d.setRule me child.rule)
    | .bool false => deskEntries a expr me o cb es (d.setRule me child.rule)
    | .bool true =>
      match cb k child (d.setRule me child.rule) with
      | (d', .cont) => deskEntries a expr me o cb es d'
      | (d', .panic) => (d', .panic)
      | (d', _) => (d', .stop)

mutual
/-- `rangeMatchesHelper` (matcher.go:199-220). -/
def deskStage {σ : Type} (a : Asker) (nargs : Nat) (ord : Order) (me : Nat) (fn : Desk σ → Rule → Desk σ × Bool) :
    Stage → List (Nat × Str) → Node → Desk σ → Desk σ × Status
  | .mk _ cs, path, node, d => deskChildren a nargs ord me fn cs 0 path node d
/-- The loop of `rangeMatchesHelper` with `Matcher.rangeMatches` (matcher.go:170-197) inlined. -/
def deskChildren {σ : Type} (a : Asker) (nargs : Nat) (ord : Order) (me : Nat) (fn : Desk σ → Rule → Desk σ × Bool) :
    List Stage → Nat → List (Nat × Str) → Node → Desk σ → Desk σ × Status
  | [], _, _, _, d => (d, .cont)
  | st :: rest, i, path, node, d =>
    match node.children[i]? with
    | none => (d, .panic)
    | some m =>
      if a.compiles st.expr = false then (d, .err)
      else
        match deskEntries a st.expr me d.slot (fun k child d =>
            match (if st.isLeaf then fn d child.rule else (d, true)) with
            | (d', false) => (d', .stop)
            | (d', true) =>
              match deskStage a nargs ord me fn st (path ++ [(i, k)]) child d' with
              | (d'', .cont) => (d'', .cont)
              | (d'', .panic) => (d'', .panic)
              | (d'', _) => (d'', .stop))
            (if m.isEmpty then [([], newNode (List.replicate nargs []))] else ord path i m) d with
        | (d', .cont) => deskChildren a nargs ord me fn rest (i + 1) path node d'
        | r => r
end

/-- A call of `RangeMatches`: the matcher, the request (and the functions), the order of iteration. -/
structure Asking where
  matcher : Matcher
  asker : Asker
  ord : Order

/-- `Matcher.RangeMatches` (matcher.go:222-233) through `Model.RangeMatches` (model.go:366-371). -/
def Asking.range {σ : Type} (c : Asking) (fn : Desk σ → Rule → Desk σ × Bool) (d : Desk σ) : Desk σ × Status :=
  deskStage c.asker c.matcher.pDef.args.length c.ord d.next (fun d rule => fn d (c.matcher.pDef.key :: rule))
    c.matcher.exprRoot [] c.matcher.root (d.enter c.asker.own)

/-- `Enforcer.enforce` (enforcer.go:311-344): the callback has its own variables and makes no calls. -/
def Asking.enforce {σ : Type} (c : Asking) (pDef : PolicyDef) (expr : Str) (d : Desk σ) : Desk σ × Res Bool :=
  match c.range (fun d rule => ({ d with vars := (enforceVisit pDef expr d.vars rule).1 },
      (enforceVisit pDef expr d.vars rule).2))
      (⟨d.slot, d.pvals, d.next, EnfState.init⟩ : Desk EnfState) with
  | (d', st) => (⟨d'.slot, d'.pvals, d'.next, d.vars⟩, enforceFinish expr (d'.vars, st))

/-- The code of a client, in particular of a callback: it reads and changes its variables, asks requests, and calls
`RangeMatches` with callbacks of its own; at the end it returns true or false.  A panic of a call is handed to it. -/
inductive Client (σ : Type) where
  | ret (go : Bool)
  | look (k : σ → Client σ)
  | set (f : σ → σ) (next : Client σ)
  | enforce (c : Asking) (pDef : PolicyDef) (expr : Str) (k : Res Bool → Client σ)
  | range (c : Asking) (cb : Rule → Client σ) (k : Status → Client σ)

/-- The client runs. -/
def Client.exec {σ : Type} : Client σ → Desk σ → Desk σ × Bool
  | .ret go, d => (d, go)
  | .look k, d => (k d.vars).exec d
  | .set f next, d => next.exec { d with vars := f d.vars }
  | .enforce c pDef expr k, d => (k (c.enforce pDef expr d).2).exec (c.enforce pDef expr d).1
  | .range c cb k, d =>
    (k (c.range (fun d r => (cb r).exec d) d).2).exec (c.range (fun d r => (cb r).exec d) d).1

end Fastac
