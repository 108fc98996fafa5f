import Verif.Model.Callbacks
import Verif.Spec.Matching
import Verif.Spec.History

/-!
# A callback that changes the policy, said without the index

`Report`, `Callback`: what the callback got, and what it does.  Here they are used with the rules of the policy only.
-/

namespace Fastac

variable {σ : Type}

/-- The calls are made one after another until the callback returns false: each call gets its rule (with the key in front)
and the variables that the call before left, and what it does is done to the policy that the call before left.  At the end
the variables are `vars'`, the policy is `pol'`; `go` says that the callback has not returned false. -/
def Played (cb : Callback σ) (key : Str) : σ → Policy → List Report → σ → Policy → Bool → Prop
  | vars, pol, [], vars', pol', go => vars' = vars ∧ pol' = pol ∧ go = true
  | vars, pol, c :: cs, vars', pol', go =>
    c.before = pol.rules ∧ c.after = (pol.run (cb vars (key :: c.rule)).2.1).rules ∧
      if (cb vars (key :: c.rule)).2.2 = true then
        Played cb key (cb vars (key :: c.rule)).1 (pol.run (cb vars (key :: c.rule)).2.1) cs vars' pol' go
      else cs = [] ∧ vars' = (cb vars (key :: c.rule)).1 ∧ pol' = pol.run (cb vars (key :: c.rule)).2.1 ∧ go = false

/-- The callback adds and removes rules the index is meant for; it does not clear the policy. -/
def Callback.Edits (pDef : PolicyDef) (cb : Callback σ) : Prop :=
  ∀ (vars : σ) (r : Rule), r.length = pDef.args.length → (∀ f ∈ r, ',' ∉ f) →
    ∀ op ∈ (cb vars (pDef.key :: r)).2.1, op.Good pDef ∧ op ≠ .clear

/-- The callback never returns false. -/
def Callback.GoesOn (cb : Callback σ) : Prop := ∀ vars r, (cb vars r).2.2 = true

/-- A rule satisfies the matcher. -/
def Stage.Matches (E : Evaluator) (root : Stage) (r : Rule) : Prop := Stage.satAny E r root.children = true

/-- The callback that removes every rule that it gets. -/
def removing : Callback Unit := fun _ r => ((), [.remove r.tail], true)

end Fastac
