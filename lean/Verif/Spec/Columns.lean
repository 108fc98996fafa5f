import Verif.Spec.Seen

/-!
# Matchers that compare column by column

Nearly all models in /repo/examples have a matcher of this kind: every condition compares one attribute of the request
with the attribute of the same name of the rule, with `==` or with a function.
-/

namespace Fastac

/-- A condition of the matcher: `r.x == p.x`, or `f(r.x, p.x, r.y, …)`. -/
inductive Column where
  | same (x : Str)
  | call (f x : Str) (more : List Str)
deriving DecidableEq

namespace Column

/-- The attribute that is compared. -/
def name : Column → Str
  | same x => x
  | .call _ x _ => x

def atom : Column → Atom
  | same x => .eq (.req x) (.pol x)
  | .call f x more => .call f (.req x :: .pol x :: more.map .req)

/-- The conjunction of the conditions. -/
def matcher (cols : List Column) : List (List Cond) := [cols.map (fun c => .atom c.atom)]

/-- How a column compares.  `R v w` says whether the value `v` of the request goes with the value `w` of the rule; the
function answers with true or false on values `w` with the property `ok`. -/
def Compares (s : FnModel) (rArgs rvals : List Str) (ok : Str → Prop) (R : Str → Str → Prop) : Column → Prop
  | same _ => ∀ v w, R v w ↔ v = w
  | .call f x more => ∃ fn ws, s.functions f = some fn ∧ more.mapM (attr rArgs rvals) = some ws ∧
      ∀ v w, attr rArgs rvals x = some v → ok w → ∃ b, fn (v :: w :: ws) = .bool b ∧ (b = true ↔ R v w)

/-- The attributes exist, and the name of the function can be written in a matcher. -/
def Written (rArgs pArgs : List Str) (c : Column) : Prop :=
  c.atom.Uses rArgs pArgs ∧ ∀ f x more, c = .call f x more → f ≠ s% "eval"

/-- The rule goes with the request in this column. -/
def Agrees (R : Column → Str → Str → Prop) (rArgs pArgs rvals : List Str) (rule : Rule) (c : Column) : Prop :=
  ∃ v w, attr rArgs rvals c.name = some v ∧ attr pArgs rule c.name = some w ∧ R c v w

/-- What is left of removed rules.  Either the matcher has seen no rule, and the rule with empty fields goes with the
request in all columns.  Or it has seen a rule that does in all columns but the last, an empty field does in the
last column, and no stored rule is like that rule in all columns but the last. -/
def Trace (R : Column → Str → Str → Prop) (rArgs pArgs rvals : List Str) (H : Rule → Prop) (rules : List Rule)
    (front : List Column) (last : Column) : Prop :=
  Agrees R rArgs pArgs rvals (List.replicate pArgs.length []) last ∧
  (((∀ r, ¬ H r) ∧ ∀ c ∈ front, Agrees R rArgs pArgs rvals (List.replicate pArgs.length []) c) ∨
   ∃ seen, H seen ∧ (∀ c ∈ front, Agrees R rArgs pArgs rvals seen c) ∧
     ¬ ∃ r ∈ rules, ∀ c ∈ front, attr pArgs seen c.name = attr pArgs r c.name)

end Column

end Fastac
