import Verif.Model.Model

/-!
# Storage controller (storage/controller.go) and the storage part of the enforcer (enforcer.go)

An adapter is user code: it is an arbitrary state machine over a type `σ`.  Each of its calls may succeed,
return an error or panic, and may change its state in all three cases.  An adapter that calls back into
the enforcer is not modelled.  Event handlers run synchronously (go-event-emitter).
-/

namespace Fastac

/-- `opcode` (controller.go:25-30). -/
inductive Opc where
  | add | remove
deriving DecidableEq, Repr

/-- `operation` (controller.go:32-35). -/
structure Operation where
  opc : Opc
  rule : Rule
deriving DecidableEq, Repr

/-- A call of the adapter: `AddRule`/`RemoveRule` or `AddRules`/`RemoveRules`. -/
inductive Call where
  | one (opc : Opc) (rule : Rule)
  | batch (opc : Opc) (rules : List Rule)
deriving DecidableEq, Repr

/-- What the type switch in `Flush` (controller.go:175-182) sees.  A type with both interfaces is a
batch adapter; a nil interface is neither. -/
inductive AdapterKind where
  | batch | simple | other
deriving DecidableEq, Repr

/-- What an adapter's `LoadPolicy` does to the model: a sequence of `AddRule` calls, each of which may
depend on the answers (the flag, or an error) to the earlier ones. -/
inductive LoadProg (σ : Type) where
  | done (s : σ) (r : Res Unit)
  | add (rule : Rule) (next : Option Bool → LoadProg σ)

/-- An adapter (storage/adapter.go). -/
structure Adapter (σ : Type) where
  kind : AdapterKind
  step : σ → Call → σ × Res Unit
  load : σ → LoadProg σ
  save : σ → List Rule → σ × Res Unit

/-- `StorageController` (controller.go:42-49) without its adapter and emitter; `enabled` stands for the
registered listeners. -/
structure SC where
  enabled : Bool
  autosave : Bool
  q : List Operation
  wait : Int
deriving DecidableEq, Repr

/-- What happened during a flush: the queue left over, the adapter's state, the calls that the adapter
got with their results, and the outcome. -/
structure FlushOut (σ : Type) where
  q : List Operation
  st : σ
  trace : List (Call × Res Unit)
  res : Res Unit

/-- Put a call in front of a trace. -/
def FlushOut.after {σ : Type} (c : Call × Res Unit) (o : FlushOut σ) : FlushOut σ :=
  { o with trace := c :: o.trace }

namespace SC

/-- `NewStorageController` (controller.go:51-62). -/
def new (autosave : Bool) : SC := ⟨true, autosave, [], 0⟩

/-- `flush` (controller.go:128-137): the operation leaves the queue before it is run. -/
def flushSimple {σ : Type} (A : Adapter σ) : List Operation → σ → FlushOut σ
  | [], s => ⟨[], s, [], .ok ()⟩
  | op :: q, s =>
    let call := Call.one op.opc op.rule
    match A.step s call with
    | (s', .ok ()) => (flushSimple A q s').after (call, .ok ())
    | (s', .err) => ⟨q, s', [(call, .err)], .err⟩
    | (s', .panic) => ⟨q, s', [(call, .panic)], .panic⟩

/-- The loop of `batchFlush` (controller.go:148-170) with `currentOpc` and `rules`. -/
def batchLoop {σ : Type} (A : Adapter σ) : Opc → List Rule → List Operation → σ → FlushOut σ
  | cur, rules, [], s =>
    if rules.length > 0 then
      let call := Call.batch cur rules
      match A.step s call with
      | (s', r) => ⟨[], s', [(call, r)], r⟩
    else ⟨[], s, [], .ok ()⟩
  | cur, rules, op :: q, s =>
    if cur = op.opc then batchLoop A cur (rules ++ [op.rule]) q s
    else
      let call := Call.batch cur rules
      match A.step s call with
      | (s', .ok ()) => (batchLoop A op.opc [op.rule] q s').after (call, .ok ())
      | (s', .err) => ⟨q, s', [(call, .err)], .err⟩
      | (s', .panic) => ⟨q, s', [(call, .panic)], .panic⟩

/-- `batchFlush` (controller.go:139-170); `currentOpc` starts as `add`, the zero value. -/
def batchFlush {σ : Type} (A : Adapter σ) (q : List Operation) (s : σ) : FlushOut σ :=
  match q with
  | [] => batchLoop A .add [] [] s
  | op :: q => batchLoop A op.opc [] (op :: q) s

/-- The switch of `Flush` (controller.go:175-182). -/
def drain {σ : Type} (A : Adapter σ) (q : List Operation) (s : σ) : FlushOut σ :=
  match A.kind with
  | .batch => batchFlush A q s
  | .simple => flushSimple A q s
  | .other => ⟨q, s, [], .err⟩

/-- `Flush` (controller.go:172-186): a panic of the adapter skips the last line. -/
def flush {σ : Type} (A : Adapter σ) (c : SC) (s : σ) : SC × FlushOut σ :=
  let o := drain A c.q s
  ({ c with q := o.q, wait := if o.res = .panic then c.wait else 0 }, o)

/-- `addOp` (controller.go:103-114): a failing flush panics. -/
def addOp {σ : Type} (A : Adapter σ) (c : SC) (s : σ) (op : Operation) : SC × FlushOut σ :=
  let c := { c with q := c.q ++ [op] }
  if c.autosave then
    let c := { c with wait := c.wait - 1 }
    if c.wait ≤ 0 then
      let (c', o) := c.flush A s
      (c', { o with res := if o.res = .ok () then .ok () else .panic })
    else (c, ⟨c.q, s, [], .ok ()⟩)
  else (c, ⟨c.q, s, [], .ok ()⟩)

end SC

/-- The operation queued for an event (controller.go:82-88). -/
def ModEvent.op : ModEvent → Operation
  | .added r => ⟨.add, r⟩
  | .removed r => ⟨.remove, r⟩

/-- `Enforcer` (enforcer.go:31-35); `st` is the state of the adapter, `hooked` says that the controller
listens to the current model (`SetModel` leaves it with the old one). -/
structure Enforcer (σ : Type) where
  model : Model
  adapter : Adapter σ
  st : σ
  sc : SC
  hooked : Bool

/-- The enforcer after a call, the calls that the adapter got, and the result. -/
structure Out (σ α : Type) where
  e : Enforcer σ
  trace : List (Call × Res Unit)
  res : Res α

namespace Enforcer

variable {σ : Type}

/-- The storage controller's listener for an event of the model. -/
def onEvent (e : Enforcer σ) : Option ModEvent → Out σ Unit
  | none => ⟨e, [], .ok ()⟩
  | some ev =>
    if e.hooked && e.sc.enabled then
      let (c, o) := e.sc.addOp e.adapter e.st ev.op
      ⟨{ e with sc := c, st := o.st }, o.trace, o.res⟩
    else ⟨e, [], .ok ()⟩

/-- A call of the model that answers `res` and emits `ev`. -/
def withModel (e : Enforcer σ) (x : Model × Res Bool × Option ModEvent) : Out σ Bool :=
  let o := onEvent { e with model := x.1 } x.2.2
  ⟨o.e, o.trace, if o.res = .ok () then x.2.1 else .panic⟩

/-- `AddRule` (enforcer.go:178-180). -/
def addRule (e : Enforcer σ) (rule : Rule) : Out σ Bool := e.withModel (e.model.addRule rule)

/-- `RemoveRule` (enforcer.go:189-191). -/
def removeRule (e : Enforcer σ) (rule : Rule) : Out σ Bool := e.withModel (e.model.removeRule rule)

/-- `Flush` (enforcer.go:167-169). -/
def flush (e : Enforcer σ) : Out σ Unit :=
  let (c, o) := e.sc.flush e.adapter e.st
  ⟨{ e with sc := c, st := o.st }, o.trace, o.res⟩

/-- The loops of `AddRules` and `RemoveRules` (enforcer.go:204-209, 223-228), up to the first error. -/
def each (call : Enforcer σ → Rule → Out σ Bool) (e : Enforcer σ) : List Rule → Out σ Unit
  | [] => ⟨e, [], .ok ()⟩
  | r :: rs =>
    let o := call e r
    match o.res with
    | .ok _ => let o' := each call o.e rs; ⟨o'.e, o.trace ++ o'.trace, o'.res⟩
    | .err => ⟨o.e, o.trace, .err⟩
    | .panic => ⟨o.e, o.trace, .panic⟩

/-- `EnableAutosave`/`DisableAutosave` (controller.go:116-122, `OptionAutosave` enforcer.go:45-54). -/
def setAutosave (e : Enforcer σ) (b : Bool) : Enforcer σ := { e with sc := { e.sc with autosave := b } }

/-- `OptionStorage` (enforcer.go:58-68) with `Enable`/`Disable` (controller.go:77-101). -/
def setStorage (e : Enforcer σ) (b : Bool) : Enforcer σ := { e with sc := { e.sc with enabled := b } }

/-- `AddWait` (controller.go:214-216). -/
def addWait (e : Enforcer σ) (i : Int) : Enforcer σ := { e with sc := { e.sc with wait := e.sc.wait + i } }

/-- `AddRules`/`RemoveRules` (enforcer.go:194-229): with autosave on, it is switched off during the loop;
the deferred function switches it on and flushes, also after an error or a panic. -/
def many (call : Enforcer σ → Rule → Out σ Bool) (e : Enforcer σ) (rules : List Rule) : Out σ Unit :=
  if e.sc.autosave then
    let o := each call (e.setAutosave false) rules
    let f := (o.e.setAutosave true).flush
    ⟨f.e, o.trace ++ f.trace, if f.res = .ok () then o.res else .panic⟩
  else each call e rules

/-- `AddRules` (enforcer.go:194-210). -/
def addRules (e : Enforcer σ) (rules : List Rule) : Out σ Unit := many addRule e rules

/-- `RemoveRules` (enforcer.go:213-229). -/
def removeRules (e : Enforcer σ) (rules : List Rule) : Out σ Unit := many removeRule e rules

/-- An adapter's `LoadPolicy` running against the enforcer's model, with the listeners as they are. -/
def runLoad (e : Enforcer σ) : LoadProg σ → Out σ Unit
  | .done s r => ⟨{ e with st := s }, [], r⟩
  | .add rule next =>
    let o := e.addRule rule
    match o.res with
    | .ok b => let o' := runLoad o.e (next (some b)); ⟨o'.e, o.trace ++ o'.trace, o'.res⟩
    | .err => let o' := runLoad o.e (next none); ⟨o'.e, o.trace ++ o'.trace, o'.res⟩
    | .panic => ⟨o.e, o.trace, .panic⟩

/-- `LoadPolicy` (enforcer.go:149-155): the deferred `Enable` also runs after an error or a panic. -/
def loadPolicy (e : Enforcer σ) : Out σ Unit :=
  if e.sc.enabled then
    let o := (e.setStorage false).runLoad (e.adapter.load e.st)
    ⟨o.e.setStorage true, o.trace, o.res⟩
  else e.runLoad (e.adapter.load e.st)

/-- `SavePolicy` (enforcer.go:158-160); the adapter's callback does not stop `RangeRules`. -/
def savePolicy (e : Enforcer σ) : Out σ Unit :=
  let (s, r) := e.adapter.save e.st e.model.rules
  ⟨{ e with st := s }, [], r⟩

/-- `SetAdapter` (enforcer.go:131-139): the new controller listens and has an empty queue. -/
def setAdapter (e : Enforcer σ) (A : Adapter σ) (s : σ) : Enforcer σ :=
  ⟨e.model, A, s, SC.new e.sc.autosave, true⟩

/-- `SetModel` (enforcer.go:346-348); the given model is another one. -/
def setModel (e : Enforcer σ) (m : Model) : Enforcer σ := { e with model := m, hooked := false }

/-- The nil adapter: a method call on it panics. -/
def nilAdapter : Adapter σ :=
  ⟨.other, fun s _ => (s, .panic), fun s => .done s .panic, fun s _ => (s, .panic)⟩

/-- `NoopAdapter` (storage/adapter/noop_adapter.go). -/
def noopAdapter : Adapter σ :=
  ⟨.simple, fun s _ => (s, .ok ()), fun s => .done s (.ok ()), fun s _ => (s, .ok ())⟩

/-- The `adapter` argument of `NewEnforcer`: a file name, with the file adapter for it, an adapter, or
something else. -/
inductive AdapterArg (σ : Type) where
  | file (A : Adapter σ) (s : σ)
  | adapter (A : Adapter σ) (s : σ)
  | none (s : σ)

/-- `Option` (enforcer.go:37): autosave or storage. -/
inductive Opt where
  | autosave (b : Bool)
  | storage (b : Bool)

def setOption (e : Enforcer σ) : Opt → Enforcer σ
  | .autosave b => e.setAutosave b
  | .storage b => e.setStorage b

/-- `NewEnforcer` (enforcer.go:80-119) for a given model.  With a file name the rules are loaded, but the
`a3` declared in that branch shadows the outer one (line 99), so that the enforcer's adapter is nil. -/
def new (m : Model) (arg : AdapterArg σ) (opts : List Opt) : Res (Enforcer σ) :=
  let start (m : Model) (A : Adapter σ) (s : σ) : Enforcer σ := ⟨m, A, s, SC.new false, true⟩
  match arg with
  | .file A s =>
    -- nobody listens to the model yet
    let o := runLoad { start m A s with hooked := false } (A.load s)
    match o.res with
    | .ok () => .ok (opts.foldl setOption (start o.e.model nilAdapter o.e.st))
    | .err => .err
    | .panic => .panic
  | .adapter A s => .ok (opts.foldl setOption (start m A s))
  | .none s => .ok ((Opt.storage false :: opts).foldl setOption (start m noopAdapter s))

/-- A call that changes rules or settings. -/
inductive Op where
  | add (rule : Rule)
  | remove (rule : Rule)
  | addMany (rules : List Rule)
  | removeMany (rules : List Rule)
  | flush
  | autosave (b : Bool)
  | wait (i : Int)

def step (e : Enforcer σ) : Op → Enforcer σ × List (Call × Res Unit)
  | .add r => ((e.addRule r).e, (e.addRule r).trace)
  | .remove r => ((e.removeRule r).e, (e.removeRule r).trace)
  | .addMany rs => ((e.addRules rs).e, (e.addRules rs).trace)
  | .removeMany rs => ((e.removeRules rs).e, (e.removeRules rs).trace)
  | .flush => (e.flush.e, e.flush.trace)
  | .autosave b => (e.setAutosave b, [])
  | .wait i => (e.addWait i, [])

/-- A history; calls that fail or panic are part of it. -/
def run (e : Enforcer σ) : List Op → Enforcer σ × List (Call × Res Unit)
  | [] => (e, [])
  | op :: ops =>
    let (e', t) := e.step op
    let (e'', t') := e'.run ops
    (e'', t ++ t')

end Enforcer

end Fastac
