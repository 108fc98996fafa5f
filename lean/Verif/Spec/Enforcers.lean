import Verif.Model.Enforcers
import Verif.Spec.Saving

/-!
# What each of several enforcers on one model should see
-/

namespace Fastac

variable {σ : Type}

/-- What enforcer `i` looks like to somebody who does not know that there are others. -/
def Site.view (w : Site σ) (i : Nat) : Enforcer σ := ⟨w.model, (w.seats i).adapter, (w.seats i).st, (w.seats i).sc, true⟩

/-- Only controllers that are switched on are registered, once. -/
structure Site.Ok (w : Site σ) : Prop where
  nodup : w.listeners.Nodup
  iff : ∀ i, i ∈ w.listeners ↔ (w.seats i).sc.enabled = true

/-- The enforcer a call is made on. -/
def SiteOp.seat : SiteOp σ → Nat
  | .call i _ | .load i | .save i | .storage i _ | .adapter i _ _ => i

/-- What the call does to an enforcer that is alone with its model, and which calls the adapter gets. -/
def SiteOp.alone (e : Enforcer σ) : SiteOp σ → Enforcer σ × List (Call × Res Unit)
  | .call _ op => e.step op
  | .load _ => (e.loadPolicy.e, e.loadPolicy.trace)
  | .save _ => (e.savePolicy.e, e.savePolicy.trace)
  | .storage _ b => (e.setStorage b, [])
  | .adapter _ A s => (e.setAdapter A s, [])

/-- What the call returns to an enforcer that is alone with its model. -/
def SiteOp.answer (e : Enforcer σ) : SiteOp σ → Res Unit
  | .call _ (.add r) => (e.addRule r).res.unit
  | .call _ (.remove r) => (e.removeRule r).res.unit
  | .call _ (.addMany rs) => (e.addRules rs).res
  | .call _ (.removeMany rs) => (e.removeRules rs).res
  | .call _ .flush => e.flush.res
  | .load _ => e.loadPolicy.res
  | .save _ => e.savePolicy.res
  | _ => .ok ()

/-- The rules up to and including the first one for which the call fails. -/
def Model.tried (call : Model → Rule → Model × Res Bool × Option ModEvent) (m : Model) : List Rule → List Rule
  | [] => []
  | r :: rs => r :: match (call m r).2.1 with
    | .ok _ => Model.tried call (call m r).1 rs
    | _ => []

/-- The rules that an adapter adds to the model when it loads. -/
def LoadProg.asked (m : Model) : LoadProg σ → List Rule
  | .done _ _ => []
  | .add r next => r :: match (m.addRule r).2.1 with
    | .ok b => (next (some b)).asked (m.addRule r).1
    | .err => (next none).asked (m.addRule r).1
    | .panic => []

/-- What the other enforcers notice of a call: the rules are added and removed one by one, as if they had been asked to. -/
def Site.overheard (w : Site σ) : SiteOp σ → List Enforcer.Op
  | .call _ (.add r) => [.add r]
  | .call _ (.remove r) => [.remove r]
  | .call _ (.addMany rs) => (Model.tried Model.addRule w.model rs).map .add
  | .call _ (.removeMany rs) => (Model.tried Model.removeRule w.model rs).map .remove
  | .load i => (((w.seats i).adapter.load (w.seats i).st).asked w.model).map .add
  | _ => []

/-- A history of the enforcers in which no call panics, saves succeed, and an enforcer loads only when the model has every rule of its store.
Rules given to calls and loaded ones are rules of `R`. -/
inductive SiteStory (R : Rule → Prop) (view : σ → Rule → Bool) (w : Site σ) : Site σ → Prop
  | start : SiteStory R view w w
  | call {w1} (h : SiteStory R view w w1) (i : Nat) (op : Enforcer.Op) (hr : ∀ r ∈ op.rules, R r)
      (hp : (w1.step (.call i op)).2 ≠ .panic) : SiteStory R view w (w1.step (.call i op)).1
  | save {w1} (h : SiteStory R view w w1) (i : Nat) (hr : (w1.savePolicy i).2 = .ok ()) : SiteStory R view w (w1.savePolicy i).1
  | load {w1} (h : SiteStory R view w w1) (i : Nat)
      (hr : ∀ r ∈ ((w1.seats i).adapter.load (w1.seats i).st).asked w1.model, R r)
      (hm : ∀ x, view (w1.seats i).st x = true → x ∈ w1.model.rules)
      (hp : (w1.loadPolicy i).2 ≠ .panic) : SiteStory R view w (w1.loadPolicy i).1

end Fastac
