import Verif.Spec.Saving

/-!
# Storage calls that fail, seen from one rule
-/

namespace Fastac

/-- A call of the adapter, whatever comes of it, leaves alone the rules it is not about. -/
def Adapter.Frames {σ : Type} (A : Adapter σ) (I : σ → Prop) (R : Rule → Prop) (view : σ → Rule → Bool) : Prop :=
  ∀ s c s' res, I s → (∀ o ∈ c.ops, R o.rule) → A.step s c = (s', res) →
    I s' ∧ ∀ x, (∀ o ∈ c.ops, o.rule ≠ x) → view s' x = view s x

/-- A history of the enforcer, seen from the rule `x`: calls without a failing storage call; calls with any outcome that
are not about `x`, at moments when no change of `x` is queued; `SavePolicy` calls that succeed; and `LoadPolicy` calls,
whatever they return, at moments when `x` is in the model if it is in the store. -/
inductive Enforcer.StoryOf {σ : Type} (R : Rule → Prop) (view : σ → Rule → Bool) (x : Rule) (e : Enforcer σ) :
    Enforcer σ → Prop
  | start : StoryOf R view x e e
  | call {e1} (h : StoryOf R view x e e1) (op : Enforcer.Op) (hr : ∀ r ∈ op.rules, R r)
      (ht : ∀ c ∈ (e1.step op).2, c.2 = .ok ()) : StoryOf R view x e (e1.step op).1
  | failing {e1} (h : StoryOf R view x e e1) (op : Enforcer.Op) (hr : ∀ r ∈ op.rules, R r) (hx : x ∉ op.rules)
      (hq : ∀ o ∈ e1.sc.q, o.rule ≠ x) : StoryOf R view x e (e1.step op).1
  | save {e1} (h : StoryOf R view x e e1) (hr : e1.savePolicy.res = .ok ()) : StoryOf R view x e e1.savePolicy.e
  | load {e1} (h : StoryOf R view x e e1) (hr : view e1.st x = true → x ∈ e1.model.rules) :
      StoryOf R view x e e1.loadPolicy.e

end Fastac
