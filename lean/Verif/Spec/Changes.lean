import Verif.Model.Changes
import Verif.Spec.Matching
import Verif.Spec.DomainHistory
import Verif.Spec.Condition

/-!
# Which functions an evaluation calls
-/

namespace Fastac

/-- Whatever the functions return, only calls with `P` are made. -/
def Ask.Only (P : Str → List Str → Prop) : Ask → Prop
  | .ret _ => True
  | .call f args k => P f args ∧ ∀ x, (k x).Only P

/-- A name is no function's name. -/
def GovTerm.Free (known : Str → Bool) : GovTerm → Prop
  | .var x => isIdent x ∧ known x = false
  | .lit s => PlainLit s

/-- What is expected of govaluate for the two forms of expressions of `Gov.Ok`: `x == y` calls no function, and
`f(a, …, z)` calls `f` once, and returns what it returns. -/
structure GovI.Ok (gi : GovI) : Prop where
  eqT : ∀ (known : Str → Bool) (x y : GovTerm), x.Free known → y.Free known →
    gi.compiles known (x.text ++ s% " == " ++ y.text) = true ∧
    ∀ par, gi.eval known (x.text ++ s% " == " ++ y.text) par =
      match x.val par, y.val par with
      | some a, some b => .ret (.bool (a == b))
      | _, _ => .ret .err
  callT : ∀ (known : Str → Bool) (f : Str) (args : List GovTerm),
    isIdent f → known f = true → args ≠ [] → (∀ a ∈ args, a.Free known) →
    gi.compiles known (f ++ s% "(" ++ join (s% ", ") (args.map GovTerm.text) ++ s% ")") = true ∧
    ∀ par, gi.eval known (f ++ s% "(" ++ join (s% ", ") (args.map GovTerm.text) ++ s% ")") par =
      match args.mapM (fun a => a.val par) with
      | some vs => .call f vs .ret
      | none => .ret .err

/-- The value may be that of the operand: attributes of rules have any value. -/
def Ref.MayBe (rArgs rvals : List Str) : Ref → Str → Prop
  | .req x, v => attr rArgs rvals x = some v
  | .pol _, _ => True
  | .lit s, v => v = s

/-- The values may be those of the operands. -/
def Ref.MayBeAll (rArgs rvals : List Str) : List Ref → List Str → Prop
  | [], [] => True
  | a :: as, v :: vs => a.MayBe rArgs rvals v ∧ Ref.MayBeAll rArgs rvals as vs
  | _, _ => False

namespace FnModel

/-- The request makes only calls with `P`, whatever the rules are: the evaluations of all the texts that the
matcher used is made of do. -/
def Asks (build : FnBuild) (s : FnModel) (gi : GovI) (depth : Nat) (params : List Param) (P : Str → List Str → Prop) :
    Prop :=
  ∀ m' ctx mt rDef, newContext (build s.knows) s.model (splitParams params).1 = (m', .ok ctx) →
    ctx.matcher.bind m'.resolve = some mt → ctx.rDef = some rDef →
    mt.exprRoot.All fun st => ∀ r,
      (gi.stageAsk s.has depth st.expr (MatchParams.get ⟨mt.pDef, rDef, (splitParams params).2⟩ r)).Only P

/-- A question that changes nothing: about a manager without domains, or about at most one domain, which is no pattern
of the domain matcher in use and has none of the two reserved names. -/
def QuietAbout (build : FnBuild) (s : FnModel) (key : Str) (ds : List Str) : Prop :=
  key.head? = some 'g' ∧
  ((∃ level pm L O, RolesAre build key s level pm L O) ∨
    ∃ level m dmm cs, DomainsAre build key s level m dmm cs ∧ DM.Clean ds ∧ ds.length ≤ 1 ∧
      ∀ pm, DM.nowDomain dmm cs = some pm → ∀ d ∈ ds, pm.isPattern d = false)

end FnModel

end Fastac
