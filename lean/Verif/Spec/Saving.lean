import Verif.Spec.Storage

/-!
# Adapters that save and load a set of rules, and histories in which a program does so
-/

namespace Fastac

/-- A `SavePolicy` of the adapter that succeeds leaves the store with exactly the given rules. -/
def Adapter.Saves {σ : Type} (A : Adapter σ) (I : σ → Prop) (R : Rule → Prop) (view : σ → Rule → Bool) : Prop :=
  ∀ s rs s', I s → (∀ r ∈ rs, R r) → A.save s rs = (s', .ok ()) → I s' ∧ ∀ x, view s' x = true ↔ x ∈ rs

/-- The adapter's `LoadPolicy` adds the rules of the store one by one up to the first error. -/
def Adapter.Lists {σ : Type} (A : Adapter σ) (I : σ → Prop) (R : Rule → Prop) (view : σ → Rule → Bool) : Prop :=
  ∀ s, I s → ∃ rs, A.load s = LoadProg.ofList s (.ok ()) rs ∧ (∀ r ∈ rs, R r) ∧ ∀ x, x ∈ rs ↔ view s x = true

/-- A history of the enforcer: calls that change rules, flush or change settings, during which no storage call fails;
`SavePolicy` calls that succeed; and `LoadPolicy` calls, whatever they return, at moments when the model has every
stored rule. -/
inductive Enforcer.Story {σ : Type} (R : Rule → Prop) (view : σ → Rule → Bool) (e : Enforcer σ) : Enforcer σ → Prop
  | start : Story R view e e
  | call {e1} (h : Story R view e e1) (op : Enforcer.Op) (hr : ∀ r ∈ op.rules, R r)
      (ht : ∀ c ∈ (e1.step op).2, c.2 = .ok ()) : Story R view e (e1.step op).1
  | save {e1} (h : Story R view e e1) (hr : e1.savePolicy.res = .ok ()) : Story R view e e1.savePolicy.e
  | load {e1} (h : Story R view e e1) (hr : ∀ x, view e1.st x = true → x ∈ e1.model.rules) :
      Story R view e e1.loadPolicy.e

end Fastac
