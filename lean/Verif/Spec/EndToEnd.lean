import Verif.Model.Context
import Verif.Model.MatcherDef
import Verif.Spec.Model
import Verif.Spec.Links
import Verif.Spec.History
import Verif.Spec.Formula

/-!
# Models of the examples directory, histories of rules, and what is expected of govaluate
-/

namespace Fastac

/-! ## Histories -/

/-- Whether a rule (with its key) is stored after a history of calls, given whether it was before. -/
def isHeldAfter (x : Rule) : Bool → List Model.Op → Bool
  | now, [] => now
  | now, .add r :: ops => isHeldAfter x (now || r == x) ops
  | now, .remove r :: ops => isHeldAfter x (now && r != x) ops
  | now, .clear k :: ops => isHeldAfter x (now && x.head? != some k) ops

/-- Whether a rule is stored after a history of calls on a model without rules. -/
def isHeld (ops : List Model.Op) (x : Rule) : Bool := isHeldAfter x false ops

/-- The rule of the operation suits the model: it fits if its key is known, and it is good for the policy
of the matcher. -/
def Model.Op.Okay (pkey : Str) (pDef : PolicyDef) (m : Model) : Model.Op → Prop
  | .add (k :: f) | .remove (k :: f) => m.Knows k → m.Fits (k :: f) ∧ (k = pkey → GoodRule pDef f)
  | _ => True

/-- Rules for `p` have `n` fields without commas.  Rules with other keys are not restricted. -/
def Model.Op.PGood (n : Nat) : Model.Op → Prop
  | .add (k :: f) | .remove (k :: f) => k = s% "p" → f.length = n ∧ ∀ x ∈ f, ',' ∉ x
  | _ => True

/-- Rules for `g` have two fields. -/
def Model.Op.GGood : Model.Op → Prop
  | .add (k :: f) | .remove (k :: f) => k = s% "g" → f.length = 2
  | _ => True

/-- Rules for `g` have two fields and a domain, which is not one of the two reserved names. -/
def Model.Op.DGood : Model.Op → Prop
  | .add (k :: f) | .remove (k :: f) => k = s% "g" → f.length = 3 ∧ DM.Clean (f.drop 2)
  | _ => True

/-! ## govaluate -/

/-- Letters, digits and underscores, not beginning with a digit. -/
def isIdent (x : Str) : Prop := x ≠ [] ∧ (∀ c ∈ x, isWordC c = true) ∧ ∀ c ∈ x.head?, isDigitC c = false

instance (x : Str) : Decidable (isIdent x) := by unfold isIdent; infer_instance

/-- An operand of an expression: the name of a parameter, or a string. -/
inductive GovTerm where
  | var (x : Str)
  | lit (s : Str)

/-- Strings that can be written between quotes and are not read as dates: letters, digits, and `_/.*@:-`, not
beginning with a digit. -/
def PlainLit (s : Str) : Prop :=
  (∀ c ∈ s, isWordC c = true ∨ c ∈ s% "/.*@:-") ∧ ∀ c ∈ s.head?, isDigitC c = false

instance (s : Str) : Decidable (PlainLit s) := by unfold PlainLit; infer_instance

def quoted (s : Str) : Str := '\'' :: s ++ ['\'']

namespace GovTerm

def text : GovTerm → Str
  | var x => x
  | lit s => quoted s

/-- A name is no function's name. -/
def Ok (fns : Str → Option Fn) : GovTerm → Prop
  | var x => isIdent x ∧ fns x = none
  | lit s => PlainLit s

def val (par : Str → Option Str) : GovTerm → Option Str
  | var x => par x
  | lit s => some s

end GovTerm

/-- What is expected of govaluate for two forms of expressions: `x == y` compares two operands, which are
parameters or strings, `f(a, …, z)` calls a function with operands.  A missing parameter is an error. -/
structure Gov.Ok (gov : Gov) : Prop where
  eqT : ∀ (fns : Str → Option Fn) (par : Rule → Str → Option Str) (x y : GovTerm), x.Ok fns → y.Ok fns →
    (gov fns par).compiles (x.text ++ s% " == " ++ y.text) = true ∧
    ∀ r, (gov fns par).eval (x.text ++ s% " == " ++ y.text) r =
      match x.val (par r), y.val (par r) with
      | some a, some b => .bool (a == b)
      | _, _ => .err
  callT : ∀ (fns : Str → Option Fn) (par : Rule → Str → Option Str) (f : Str) (fn : Fn) (args : List GovTerm),
    isIdent f → fns f = some fn → args ≠ [] → (∀ a ∈ args, a.Ok fns) →
    (gov fns par).compiles (f ++ s% "(" ++ join (s% ", ") (args.map GovTerm.text) ++ s% ")") = true ∧
    ∀ r, (gov fns par).eval (f ++ s% "(" ++ join (s% ", ") (args.map GovTerm.text) ++ s% ")") r =
      match args.mapM (fun a => a.val (par r)) with
      | some vs => fn vs
      | none => .err

/-! ## The models -/

/-- A configuration with one request definition, one policy definition, some role definitions, one effect
and one matcher, under their usual names. -/
def conf (rText pText : Str) (gs : List (Str × Str)) (eText mText : Str) : List (Char × Str × Str) :=
  ('r', s% "r", rText) :: ('p', s% "p", pText) ::
    (gs.map (fun g => ('g', g.1, g.2)) ++ [('e', s% "e", eText), ('m', s% "m", mText)])

/-- The model after loading a configuration: the definitions, then `BuildMatchers` (model.go:149-164,
196-203) for the matcher `m`. -/
def Model.configured (build : Str → Res Stage) (defs : List (Char × Str × Str)) : Model :=
  ((Model.define defs).buildMatcher build (s% "m")).1

def allowText : Str := s% "some(where (p.eft == allow))"

/-- examples/basic_model.conf -/
def aclText : Str := s% "r.sub == p.sub && r.obj == p.obj && r.act == p.act"

def aclConf : List (Char × Str × Str) :=
  conf (s% "sub, obj, act") (s% "sub, obj, act") [] allowText aclText

/-- examples/rbac_model.conf -/
def rbacText : Str := s% "g(r.sub, p.sub) && r.obj == p.obj && r.act == p.act"

def rbacConf : List (Char × Str × Str) :=
  conf (s% "sub, obj, act") (s% "sub, obj, act") [(s% "g", s% "_, _")] allowText rbacText

/-- examples/rbac_with_domains_model.conf -/
def domText : Str := s% "g(r.sub, p.sub, r.dom) && r.dom == p.dom && r.obj == p.obj && r.act == p.act"

def domConf : List (Char × Str × Str) :=
  conf (s% "sub, dom, obj, act") (s% "sub, dom, obj, act") [(s% "g", s% "_, _, _")] allowText domText

/-! ### The matchers as formulas, atoms as govaluate's lexer delivers them -/

def Tok.var (s : Str) : Tok := ⟨.other, s⟩
def Tok.cmp : Tok := ⟨.other, s% "=="⟩
def Tok.comma : Tok := ⟨.separator, s% ","⟩

/-- `x == y` -/
def eqAtom (x y : Str) : Operand := .atom [.var x, .cmp, .var y]

def commaToks : List Str → Toks
  | [] => []
  | [a] => [.var a]
  | a :: b :: as => .var a :: .comma :: commaToks (b :: as)

/-- `f(a, …, z)` -/
def callAtom (f : Str) (args : List Str) : Operand :=
  .atom (⟨.function, f⟩ :: .lp :: (commaToks args ++ [.rp]))

def aclFormula : Formula :=
  [[eqAtom (s% "r_sub") (s% "p_sub"), eqAtom (s% "r_obj") (s% "p_obj"), eqAtom (s% "r_act") (s% "p_act")]]

def rbacFormula : Formula :=
  [[callAtom (s% "g") [s% "r_sub", s% "p_sub"], eqAtom (s% "r_obj") (s% "p_obj"),
    eqAtom (s% "r_act") (s% "p_act")]]

def domFormula : Formula :=
  [[callAtom (s% "g") [s% "r_sub", s% "p_sub", s% "r_dom"], eqAtom (s% "r_dom") (s% "p_dom"),
    eqAtom (s% "r_obj") (s% "p_obj"), eqAtom (s% "r_act") (s% "p_act")]]

end Fastac
