import Verif.Model.Storage

/-!
# Several enforcers on one model (`enforcer.go`, `storage/controller.go`, `model/model.go`)

Every enforcer has its own adapter and its own storage controller; the controllers listen to the same model.
-/

namespace Fastac

/-- An enforcer (enforcer.go:31-35) without the model, which it shares.  `got` are the calls that its adapter has had, for stating what
happens; no code reads it. -/
structure Seat (σ : Type) where
  adapter : Adapter σ
  st : σ
  sc : SC
  got : List (Call × Res Unit)

/-- A model and the enforcers made for it, by number.  `listeners` are the controllers registered with the model's emitter
(controller.go:64-71), in the order of registration; a controller registers for both events at the same time (controller.go:90-92), so that
one list stands for the listeners of both. -/
structure Site (σ : Type) where
  model : Model
  seats : Nat → Seat σ
  listeners : List Nat

namespace Site

variable {σ : Type}

def setSeat (w : Site σ) (i : Nat) (s : Seat σ) : Site σ := { w with seats := fun j => if j = i then s else w.seats j }

/-- `EmitEvent` (model.go:262, 281): the listeners run one after the other (controller.go:65-68); a panic of one of them ends this. -/
def emit (w : Site σ) (ev : ModEvent) : List Nat → Site σ × Res Unit
  | [] => (w, .ok ())
  | i :: is =>
    let s := w.seats i
    let (c, o) := s.sc.addOp s.adapter s.st ev.op
    let w' := w.setSeat i ⟨s.adapter, o.st, c, s.got ++ o.trace⟩
    if o.res = .ok () then emit w' ev is else (w', .panic)

/-- A call of the model that answers `x.2.1` and emits `x.2.2`. -/
def withModel (w : Site σ) (x : Model × Res Bool × Option ModEvent) : Site σ × Res Bool :=
  let w1 := { w with model := x.1 }
  match x.2.2 with
  | none => (w1, x.2.1)
  | some ev =>
    let o := w1.emit ev w.listeners
    (o.1, if o.2 = .ok () then x.2.1 else .panic)

/-- `AddRule` (enforcer.go:178-180), of any of the enforcers. -/
def addRule (w : Site σ) (r : Rule) : Site σ × Res Bool := w.withModel (w.model.addRule r)

/-- `RemoveRule` (enforcer.go:189-191), of any of the enforcers. -/
def removeRule (w : Site σ) (r : Rule) : Site σ × Res Bool := w.withModel (w.model.removeRule r)

/-- `Flush` (enforcer.go:167-169) of enforcer `i`. -/
def flush (w : Site σ) (i : Nat) : Site σ × Res Unit :=
  let s := w.seats i
  let (c, o) := s.sc.flush s.adapter s.st
  (w.setSeat i ⟨s.adapter, o.st, c, s.got ++ o.trace⟩, o.res)

/-- The loops of `AddRules` and `RemoveRules` (enforcer.go:204-209, 223-228), up to the first error. -/
def each (call : Site σ → Rule → Site σ × Res Bool) (w : Site σ) : List Rule → Site σ × Res Unit
  | [] => (w, .ok ())
  | r :: rs =>
    let o := call w r
    match o.2 with
    | .ok _ => each call o.1 rs
    | .err => (o.1, .err)
    | .panic => (o.1, .panic)

/-- `EnableAutosave`/`DisableAutosave` (controller.go:116-122). -/
def setAutosave (w : Site σ) (i : Nat) (b : Bool) : Site σ :=
  w.setSeat i { w.seats i with sc := { (w.seats i).sc with autosave := b } }

/-- `AddRules`/`RemoveRules` (enforcer.go:194-229) of enforcer `i`: its own autosave is off during the loop. -/
def many (call : Site σ → Rule → Site σ × Res Bool) (i : Nat) (w : Site σ) (rules : List Rule) : Site σ × Res Unit :=
  if (w.seats i).sc.autosave then
    let o := each call (w.setAutosave i false) rules
    let f := (o.1.setAutosave i true).flush i
    (f.1, if f.2 = .ok () then o.2 else .panic)
  else each call w rules

/-- `Enable` (controller.go:77-93): registers at the end. -/
def enable (w : Site σ) (i : Nat) : Site σ :=
  if (w.seats i).sc.enabled then w
  else { w.setSeat i { w.seats i with sc := { (w.seats i).sc with enabled := true } } with listeners := w.listeners ++ [i] }

/-- `Disable` (controller.go:95-100). -/
def disable (w : Site σ) (i : Nat) : Site σ :=
  { w.setSeat i { w.seats i with sc := { (w.seats i).sc with enabled := false } } with listeners := w.listeners.filter (· ≠ i) }

/-- `OptionStorage` (enforcer.go:58-68). -/
def setStorage (w : Site σ) (i : Nat) (b : Bool) : Site σ := if b then w.enable i else w.disable i

/-- The adapter's `LoadPolicy` of enforcer `i` against the model, with the listeners as they are. -/
def runLoad (w : Site σ) (i : Nat) : LoadProg σ → Site σ × Res Unit
  | .done s r => (w.setSeat i { w.seats i with st := s }, r)
  | .add rule next =>
    let o := w.addRule rule
    match o.2 with
    | .ok b => runLoad o.1 i (next (some b))
    | .err => runLoad o.1 i (next none)
    | .panic => (o.1, .panic)

/-- `LoadPolicy` (enforcer.go:149-155) of enforcer `i`: only its own controller does not listen. -/
def loadPolicy (w : Site σ) (i : Nat) : Site σ × Res Unit :=
  let prog := (w.seats i).adapter.load (w.seats i).st
  if (w.seats i).sc.enabled then
    let o := (w.disable i).runLoad i prog
    (o.1.enable i, o.2)
  else w.runLoad i prog

/-- `SavePolicy` (enforcer.go:158-160) of enforcer `i`. -/
def savePolicy (w : Site σ) (i : Nat) : Site σ × Res Unit :=
  let (s, r) := (w.seats i).adapter.save (w.seats i).st w.model.rules
  (w.setSeat i { w.seats i with st := s }, r)

/-- `SetAdapter` (enforcer.go:131-139) of enforcer `i`; for a number not used before, `NewEnforcer` (enforcer.go:80-119) with the model and an
adapter.  The old controller is disabled, the new one registers at the end. -/
def setAdapter (w : Site σ) (i : Nat) (A : Adapter σ) (s : σ) : Site σ :=
  let w1 := w.disable i
  { w1.setSeat i ⟨A, s, SC.new (w.seats i).sc.autosave, (w.seats i).got⟩ with listeners := w1.listeners ++ [i] }

end Site

/-- A call of enforcer `i`. -/
inductive SiteOp (σ : Type) where
  | call (i : Nat) (op : Enforcer.Op)
  | load (i : Nat)
  | save (i : Nat)
  | storage (i : Nat) (b : Bool)
  | adapter (i : Nat) (A : Adapter σ) (s : σ)

/-- The outcome of a call without the flag. -/
def Res.unit : Res Bool → Res Unit
  | .ok _ => .ok ()
  | .err => .err
  | .panic => .panic

namespace Site

variable {σ : Type}

/-- A call of one of the enforcers; a panic is recovered by the caller. -/
def step (w : Site σ) : SiteOp σ → Site σ × Res Unit
  | .call _ (.add r) => ((w.addRule r).1, (w.addRule r).2.unit)
  | .call _ (.remove r) => ((w.removeRule r).1, (w.removeRule r).2.unit)
  | .call i (.addMany rs) => many addRule i w rs
  | .call i (.removeMany rs) => many removeRule i w rs
  | .call i .flush => w.flush i
  | .call i (.autosave b) => (w.setAutosave i b, .ok ())
  | .call i (.wait n) => (w.setSeat i { w.seats i with sc := { (w.seats i).sc with wait := (w.seats i).sc.wait + n } }, .ok ())
  | .load i => w.loadPolicy i
  | .save i => w.savePolicy i
  | .storage i b => (w.setStorage i b, .ok ())
  | .adapter i A s => (w.setAdapter i A s, .ok ())

/-- A history. -/
def run (w : Site σ) : List (SiteOp σ) → Site σ
  | [] => w
  | op :: ops => (w.step op).1.run ops

end Site

end Fastac
