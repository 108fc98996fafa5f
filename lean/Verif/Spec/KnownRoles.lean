import Verif.Spec.RoleObjects
import Verif.Spec.RoleRequests

/-!
# Questions and requests about names in use
-/

namespace Fastac

/-- What may be remembered after the calls. -/
def Memory.Leads : Memory → List RoleOp → Memory → Prop
  | s, [], s' => s' = s
  | s, x :: xs, s'' => ∃ s', s.Next s' x ∧ s'.Leads xs s''

/-- `g` says who has which role by what is remembered. -/
def Memory.Says (s : Memory) (level : Nat) (g : Str → Str → Bool) : Prop :=
  ∀ u r, g u r = true ↔ roleAnswerIn level s.links s.used u r s.matcher

/-- Whenever the computation calls `g`, both names are among the names `K`; the answers are those of `g`. -/
def Asks.Within {α : Type} (K : Str → Prop) (g : Str → Str → Bool) : Asks (Str × Str) α → Prop
  | .done _ => True
  | .ask q k => K q.1 ∧ K q.2 ∧ (k (g q.1 q.2)).Within K g

/-- A question about names in use, or a request that only asks about such names. -/
def Job.Known (s : Memory) (level : Nat) : Job → Prop
  | .question x => x.asks = true ∧ ∀ n ∈ x.about, n ∈ s.used
  | .request q => ∀ g, s.Says level g → (enforceA q.matcher q.pDef q.E q.ord q.expr).Within (· ∈ s.used) g

/-- The right answer by what is remembered. -/
def Job.RightBy (s : Memory) (level : Nat) : Job → JobAns → Prop
  | .question (.hasLink u r), .answer (.bool b) => s.Right level (.hasLink u r) (.bool b)
  | .question (.getRoles n), .answer (.names ns) => s.Right level (.getRoles n) (.names ns)
  | .question (.getUsers n), .answer (.names ns) => s.Right level (.getUsers n) (.names ns)
  | .request q, .decision d => ∀ g, s.Says level g → d = q.decision g
  | _, _ => False

/-- The role manager with the heap and the matcher, in which maps are ranged over in the order `ord`. -/
def HeapRM.conf (y : HeapRM) (ord : GoMap Str Nat → GoMap Str Nat) : RConf := ⟨y.level, y.matcher, ord⟩

end Fastac
