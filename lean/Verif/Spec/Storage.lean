import Verif.Model.Storage
import Verif.Spec.Model

/-!
# What storage is for: operations, adapters that keep a rule set, and rule changes one by one
-/

namespace Fastac

/-- The single operations that a call of the adapter asks for. -/
def Call.ops : Call → List Operation
  | .one o r => [⟨o, r⟩]
  | .batch o rs => rs.map (fun r => ⟨o, r⟩)

/-- The operations of a sequence of calls, in order. -/
def opsOf (t : List (Call × Res Unit)) : List Operation := t.flatMap (fun c => c.1.ops)

/-- Whether a set holds a rule after the operations, given whether it did before. -/
def held (x : Rule) : Bool → List Operation → Bool
  | now, [] => now
  | now, ⟨.add, r⟩ :: ops => held x (now || r == x) ops
  | now, ⟨.remove, r⟩ :: ops => held x (now && r != x) ops

/-- An adapter that stores a set of rules, when its state is one of `I` and the rules are ones of `R`: a
call that succeeds has the asked effect on the set.  A call that fails may do anything. -/
def Adapter.Keeps {σ : Type} (A : Adapter σ) (I : σ → Prop) (R : Rule → Prop) (view : σ → Rule → Bool) : Prop :=
  ∀ s c s', I s → (∀ o ∈ c.ops, R o.rule) → A.step s c = (s', .ok ()) →
    I s' ∧ ∀ x, view s' x = held x (view s x) c.ops

/-- The store and the model hold the same rules. -/
def Enforcer.Agree {σ : Type} (view : σ → Rule → Bool) (e : Enforcer σ) : Prop :=
  ∀ x, view e.st x = true ↔ x ∈ e.model.rules

/-- The rules given to a call. -/
def Enforcer.Op.rules : Enforcer.Op → List Rule
  | .add r | .remove r => [r]
  | .addMany rs | .removeMany rs => rs
  | _ => []

/-- One call of the model per rule, up to the first error: the model, the outcome and the events. -/
def Model.each (call : Model → Rule → Model × Res Bool × Option ModEvent) (m : Model) :
    List Rule → Model × Res Unit × List ModEvent
  | [] => (m, .ok (), [])
  | r :: rs =>
    let x := call m r
    match x.2.1 with
    | .ok _ => let y := Model.each call x.1 rs; (y.1, y.2.1, x.2.2.toList ++ y.2.2)
    | .err => (x.1, .err, x.2.2.toList)
    | .panic => (x.1, .panic, x.2.2.toList)

/-- Loading into a model that nobody listens to. -/
def Model.load {σ : Type} (m : Model) : LoadProg σ → Model × σ × Res Unit → Model × σ × Res Unit
  | .done s r, _ => (m, s, r)
  | .add rule next, d =>
    let x := m.addRule rule
    match x.2.1 with
    | .ok b => Model.load x.1 (next (some b)) d
    | .err => Model.load x.1 (next none) d
    | .panic => (x.1, d.2.1, .panic)

/-- The load program of an adapter that holds a list of rules and stops at the first error, as
`FileAdapter.LoadPolicy` does; `r` is the outcome after the last rule (e.g. a read error). -/
def LoadProg.ofList {σ : Type} (s : σ) (r : Res Unit) : List Rule → LoadProg σ
  | [] => .done s r
  | x :: xs => .add x (fun b => if b.isSome then LoadProg.ofList s r xs else .done s .err)

end Fastac
