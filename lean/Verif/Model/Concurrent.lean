import Verif.Model.Enforce

/-!
# Enforce calls that run at the same time (`model/matcher/matcher.go`, `model/fm/function.go`)

`Matcher.RangeMatches` stores the function `eval` of the current call in the function map of the
model (matcher.go:224).  `FunctionMap` is passed by value but holds a Go map (fm/function.go:22-24), so
that all calls on one model write to and read from the same entry.  The entry is read whenever a stage
is compiled (matcher.go:171), and the function found there reads, when it is called, the `MatchParameters`
of the call that stored it (matcher.go:243-255): its request and the rule it is looking at.

A call is given here as a program whose steps are the accesses to this shared state.  Everything
between two steps is local to the call.  Not modelled: Go's memory model (an unsynchronised map write
next to another access is a data race, which the runtime may answer by ending the process), the
functions found by an `eval` inside an `eval`, and the locks of the role managers.
-/

namespace Fastac

/-- What a call does next to the shared state. -/
inductive Prog (α : Type) where
  /-- The call has returned. -/
  | done (a : α)
  /-- `fMap.SetFunction("eval", …)` with the function of this call (matcher.go:224). -/
  | setEval (next : Prog α)
  /-- Compiling a stage finds the function that the call with the given number has stored
  (matcher.go:171). -/
  | getEval (k : Nat → Prog α)
  /-- `params.pvals = child.rule` (matcher.go:184). -/
  | setRule (r : Rule) (next : Prog α)
  /-- Reading `pvals` in the parameters of this call: the values of `p_…` in a stage
  (matcher.go:185 through matcher.go:67-70). -/
  | getOwn (k : Rule → Prog α)
  /-- Reading `pvals` in the parameters of the call with number `o`: the values of `p_…` inside
  `eval` (matcher.go:253 through matcher.go:67-70). -/
  | getRule (o : Nat) (k : Rule → Prog α)

namespace Prog

/-- Sequential composition. -/
def bind {α β : Type} : Prog α → (α → Prog β) → Prog β
  | .done a, f => f a
  | .setEval p, f => .setEval (p.bind f)
  | .getEval k, f => .getEval (fun o => (k o).bind f)
  | .setRule r p, f => .setRule r (p.bind f)
  | .getOwn k, f => .getOwn (fun r => (k r).bind f)
  | .getRule o k, f => .getRule o (fun r => (k r).bind f)

end Prog

/-- The evaluator of one call.  The value of an expression depends on the current rule, and, if it calls
`eval`, on the number of the call whose `eval` was found and the rule this call is looking at. -/
structure SharedEvaluator where
  compiles : Str → Bool
  eval : Str → Rule → (owner : Nat) → (ownerRule : Rule) → EvalRes

/-- The evaluator of call `me` when no other call interferes: `eval` is its own. -/
def SharedEvaluator.alone (E : SharedEvaluator) (me : Nat) : Evaluator where
  compiles := E.compiles
  eval := fun e r => E.eval e r me r

/-- `rangeEntries` (matcher.go:183-196) with its accesses to shared state. -/
def rangeEntriesP {σ : Type} (E : SharedEvaluator) (expr : Str) (o : Nat)
    (cb : Str → Node → σ → Prog (σ × Status)) : GoMap Str Node → σ → Prog (σ × Status)
  | [], s => .done (s, .cont)
  | (k, child) :: es, s =>
    .setRule child.rule (.getOwn fun r => .getRule o fun r' =>
      match E.eval expr r o r' with
      | .err => .done (s, .err)
      | .panic => .done (s, .panic)
      | .other => rangeEntriesP E expr o cb es s
      | .bool false => rangeEntriesP E expr o cb es s
      | .bool true =>
        (cb k child s).bind fun
          | (s', .cont) => rangeEntriesP E expr o cb es s'
          | (s', .panic) => .done (s', .panic)
          | (s', _) => .done (s', .stop))

mutual
/-- `rangeMatchesHelper` (matcher.go:199-220) with its accesses to shared state. -/
def rangeStageP {σ : Type} (E : SharedEvaluator) (nargs : Nat) (ord : Order)
    (fn : σ → Rule → σ × Bool) : Stage → List (Nat × Str) → Node → σ → Prog (σ × Status)
  | .mk _ cs, path, node, s => rangeChildrenP E nargs ord fn cs 0 path node s
/-- The loop of `rangeMatchesHelper` with `Matcher.rangeMatches` (matcher.go:170-197) inlined. -/
def rangeChildrenP {σ : Type} (E : SharedEvaluator) (nargs : Nat) (ord : Order)
    (fn : σ → Rule → σ × Bool) :
    List Stage → Nat → List (Nat × Str) → Node → σ → Prog (σ × Status)
  | [], _, _, _, s => .done (s, .cont)
  | st :: rest, i, path, node, s =>
    match node.children[i]? with
    | none => .done (s, .panic)
    | some m =>
      .getEval fun o =>
        if E.compiles st.expr = false then .done (s, .err)
        else
          (rangeEntriesP E st.expr o (fun k child s =>
            match (if st.isLeaf then fn s child.rule else (s, true)) with
            | (s', false) => .done (s', .stop)
            | (s', true) =>
              (rangeStageP E nargs ord fn st (path ++ [(i, k)]) child s').bind fun
                | (s'', .cont) => .done (s'', .cont)
                | (s'', .panic) => .done (s'', .panic)
                | (s'', _) => .done (s'', .stop))
            (if m.isEmpty then [([], newNode (List.replicate nargs []))] else ord path i m) s).bind fun
            | (s', .cont) => rangeChildrenP E nargs ord fn rest (i + 1) path node s'
            | r => .done r
end

/-- `Enforcer.enforce` (enforcer.go:311-344) through `RangeMatches` (matcher.go:222-233) as a
program. -/
def enforceP (m : Matcher) (pDef : PolicyDef) (E : SharedEvaluator) (ord : Order) (expr : Str) :
    Prog (Res Bool) :=
  .setEval ((rangeStageP E m.pDef.args.length ord
      (fun s rule => enforceVisit pDef expr s (m.pDef.key :: rule)) m.exprRoot [] m.root
      EnfState.init).bind fun r => .done (enforceFinish expr r))

/-- The shared state, and what each call still has to do. -/
structure World (α : Type) where
  /-- The call whose function is stored under `eval`. -/
  owner : Nat
  /-- `pvals` of the parameters of each call. -/
  rules : Nat → Rule
  progs : Nat → Prog α

/-- Replace the entry of call `i`. -/
def put {β : Type} (f : Nat → β) (i : Nat) (b : β) : Nat → β := fun j => if j = i then b else f j

/-- Call `i` performs its next access to the shared state. -/
def World.step {α : Type} (w : World α) (i : Nat) : World α :=
  match w.progs i with
  | .done _ => w
  | .setEval p => { w with owner := i, progs := put w.progs i p }
  | .getEval k => { w with progs := put w.progs i (k w.owner) }
  | .setRule r p => { w with rules := put w.rules i r, progs := put w.progs i p }
  | .getOwn k => { w with progs := put w.progs i (k (w.rules i)) }
  | .getRule o k => { w with progs := put w.progs i (k (w.rules o)) }

/-- The calls take steps in the order given by the schedule. -/
def World.run {α : Type} (w : World α) : List Nat → World α
  | [] => w
  | i :: sched => (w.step i).run sched

end Fastac
