import Verif.Model.Functions
import Verif.Spec.Seen

/-!
# What `Filter` should list
-/

namespace Fastac

/-- The arguments of `Filter` or `Enforce` with `SetRequestDef(rk)` and `SetMatcher(x)`, and the values of the
request. -/
def asking (rk x : Str) (rvals : List Str) : List Param :=
  .opt (.request (.str rk)) :: .opt (.matcher (.str x)) :: rvals.map .val

/-- `rows` are, in any order, the rules, each as often as `times` says, and `n` times the rule with `width` empty
fields; all with the key of the policy in front. -/
def Lists (pk : Str) (times : Rule → Nat) (rules : List Rule) (n width : Nat) (rows : List Rule) : Prop :=
  rows.Perm (rules.flatMap (fun r => List.replicate (times r) (pk :: r)) ++
    List.replicate n (pk :: List.replicate width []))

/-- Whether a callback stops a loop over the rows. -/
def stopsAt {σ : Type} (fn : σ → Rule → σ × Bool) : List Rule → σ → Bool
  | [], _ => false
  | r :: rs, s => if (fn s r).2 then stopsAt fn rs (fn s r).1 else true

/-- How many matchers listen to the policy of the key. -/
def Model.listening (m : Model) (key : Str) : Nat :=
  match m.pMap.get key with
  | some p => p.listeners.length
  | none => ((m.rpMap.get key).map (fun rp => rp.listeners.length)).getD 0

namespace FnModel

/-- The names of the fields of a rule, as a matcher reads them: for a policy those of its definition, for a role
definition `user`, `role` and `domain`, whatever the definition says. -/
def FieldsOf (s : FnModel) (pk : Str) (names : List Str) : Prop :=
  (∃ d, s.model.pDefs.get pk = some d ∧ d.args = names) ∨
  (pk.head? = some 'g' ∧ names = [s% "user", s% "role", s% "domain"])

end FnModel

end Fastac
