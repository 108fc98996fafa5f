import Verif.Model.Context
import Verif.Spec.EndToEnd
import Verif.Spec.Words
import Verif.Lemmas.Defs

/-!
# Conditions on a request and a rule

What a matcher says in terms of the attributes of the request and of the rule, without stages, tokens or
expressions: comparisons and calls of functions, combined with "and", "or" and brackets.
-/

namespace Fastac

/-- An attribute of the request or of the rule, or a string. -/
inductive Ref where
  | req (x : Str)
  | pol (y : Str)
  | lit (s : Str)
deriving DecidableEq, Repr

/-- A comparison of two attributes (or strings), or the call of a function with attributes (or strings). -/
inductive Atom where
  | eq (a b : Ref)
  | call (f : Str) (args : List Ref)
deriving DecidableEq, Repr

/-- An atom, or alternatives in brackets, each of which is a conjunction. -/
inductive Cond where
  | atom (a : Atom)
  | paren (alts : List (List Cond))

/-! ## Truth -/

/-- The value of an attribute, given the names and the values in the same order. -/
def attr (names : List Str) (vals : List Str) (x : Str) : Option Str :=
  if x ∈ names then vals[names.idxOf x]? else none

/-- The value of an attribute, given the request and the rule. -/
def Ref.val (rArgs pArgs : List Str) (rvals : List Str) (rule : Rule) : Ref → Option Str
  | .req x => attr rArgs rvals x
  | .pol y => attr pArgs rule y
  | .lit s => some s

/-- `val` gives the attributes, `fn f vs` says whether the function `f` is true of `vs`. -/
def Atom.holds (val : Ref → Option Str) (fn : Str → List Str → Prop) : Atom → Prop
  | .eq a b => ∃ v, val a = some v ∧ val b = some v
  | .call f args => ∃ vs, args.mapM val = some vs ∧ fn f vs

mutual
def Cond.holds (P : Atom → Prop) : Cond → Prop
  | .atom a => P a
  | .paren alts => Cond.anyHolds P alts
/-- All members hold. -/
def Cond.allHold (P : Atom → Prop) : List Cond → Prop
  | [] => True
  | c :: cs => c.holds P ∧ Cond.allHold P cs
/-- All members of one of the alternatives hold. -/
def Cond.anyHolds (P : Atom → Prop) : List (List Cond) → Prop
  | [] => False
  | c :: cs => Cond.allHold P c ∨ Cond.anyHolds P cs
end

mutual
/-- The atoms of a condition. -/
def Cond.atoms : Cond → List Atom
  | .atom a => [a]
  | .paren alts => Cond.anyAtoms alts
def Cond.allAtoms : List Cond → List Atom
  | [] => []
  | c :: cs => c.atoms ++ Cond.allAtoms cs
def Cond.anyAtoms : List (List Cond) → List Atom
  | [] => []
  | c :: cs => Cond.allAtoms c ++ Cond.anyAtoms cs
end

mutual
/-- The atoms that stand last in a conjunction which is not continued behind its brackets. -/
def Cond.lasts : Cond → List Atom
  | .atom a => [a]
  | .paren alts => Cond.anyLasts alts
def Cond.allLasts : List Cond → List Atom
  | [] => []
  | c :: cs => if cs.isEmpty then c.lasts else Cond.allLasts cs
def Cond.anyLasts : List (List Cond) → List Atom
  | [] => []
  | c :: cs => Cond.allLasts c ++ Cond.anyLasts cs
end

/-- The attributes of an atom. -/
def Atom.refs : Atom → List Ref
  | .eq a b => [a, b]
  | .call _ args => args

/-- The request has values for the attributes that the atom uses. -/
def Atom.Given (rArgs rvals : List Str) (a : Atom) : Prop :=
  ∀ x ∈ rArgs, Ref.req x ∈ a.refs → ∃ v, attr rArgs rvals x = some v

/-- The request has as many values as the definition has attributes, or fewer, but those that the condition uses. -/
def Cond.Given (rArgs rvals : List Str) (f : List (List Cond)) : Prop :=
  rvals.length ≤ rArgs.length ∧ ∀ a ∈ Cond.anyAtoms f, a.Given rArgs rvals

/-- The effect of a rule: the attribute `eft` of the policy, if it has one. -/
def effectOf (pArgs : List Str) (rule : Rule) : Effect :=
  match attr pArgs rule (s% "eft") with
  | none => .allow
  | some e => if e = [] ∨ e = s% "allow" then .allow else if e = s% "deny" then .deny else .indeterminate

/-! ## The text -/

/-- `r.sub` as it is written in a stage: `r_sub`. -/
def Ref.name (rk pk : Str) : Ref → Str
  | .req x => qual rk x
  | .pol y => qual pk y
  | .lit s => quoted s

/-- The token govaluate's lexer delivers. -/
def Ref.tok (rk pk : Str) : Ref → Tok
  | .req x => .var (qual rk x)
  | .pol y => .var (qual pk y)
  | .lit s => ⟨.string, s⟩

def sepToks : List Tok → Toks
  | [] => []
  | [a] => [a]
  | a :: b :: as => a :: .comma :: sepToks (b :: as)

def Atom.operand (rk pk : Str) : Atom → Operand
  | .eq a b => .atom [a.tok rk pk, .cmp, b.tok rk pk]
  | .call f args => .atom (⟨.function, f⟩ :: .lp :: (sepToks (args.map (Ref.tok rk pk)) ++ [.rp]))

mutual
/-- The condition as a formula of tokens; `rk` and `pk` are the keys of the request and of the policy. -/
def Cond.operand (rk pk : Str) : Cond → Operand
  | .atom a => a.operand rk pk
  | .paren alts => .paren (Cond.formula rk pk alts)
def Cond.operands (rk pk : Str) : List Cond → List Operand
  | [] => []
  | c :: cs => c.operand rk pk :: Cond.operands rk pk cs
def Cond.formula (rk pk : Str) : List (List Cond) → Formula
  | [] => []
  | c :: cs => Cond.operands rk pk c :: Cond.formula rk pk cs
end

/-! ## Functions -/

namespace Model

/-- Whether a function is true of its arguments.  A role definition with two arguments: the first argument
is the second, or is linked to it over at most nine stored links.  A role definition with domains: likewise
with the links of the domain, at most eight less the number of domains.  Any other name: what the function
registered under it says. -/
def Says (m : Model) (base : Str → Option Fn) (f : Str) (vs : List Str) : Prop :=
  match m.gDefs.get f with
  | none => ∃ fn, base f = some fn ∧ fn vs = .bool true
  | some n =>
    ∃ u v ds links, vs = u :: v :: ds ∧ m.policyRules f = some links ∧ (u = v ∨
      if n = 2 then ∃ k, k ≤ 9 ∧ Reach (fun a b => [a, b] ∈ links) k u v
      else ∃ k, k + 1 + ds.length ≤ 9 ∧ Reach (fun a b => a :: b :: ds ∈ links) k u v)

/-- A function call that cannot fail on rules with the property `P`: a role definition with two arguments is
called with two or more arguments, one with domains with domains that are not reserved names, and a registered
function answers with true or false. -/
def Callable (m : Model) (base : Str → Option Fn) (rArgs pArgs rvals : List Str) (P : Rule → Prop) (f : Str)
    (args : List Ref) : Prop :=
  match m.gDefs.get f with
  | none => ∃ fn, base f = some fn ∧ ∀ r, P r → r.length = pArgs.length →
      ∀ vs, args.mapM (Ref.val rArgs pArgs rvals r) = some vs → ∃ b, fn vs = .bool b
  | some n => 2 ≤ args.length ∧ (n ≠ 2 → ∀ r, P r → r.length = pArgs.length →
      ∀ vs, args.mapM (Ref.val rArgs pArgs rvals r) = some vs → DM.Clean (vs.drop 2))

end Model

/-! ## Names -/

/-- The attribute exists; a string contains no reference to a policy. -/
def Ref.Known (rArgs pArgs : List Str) : Ref → Prop
  | .req x => x ∈ rArgs
  | .pol y => y ∈ pArgs
  | .lit s => PlainLit s ∧ ∀ w ∈ words s, ∀ k < w.length, ¬ IsPolicyRef (w.drop k)

instance (rArgs pArgs : List Str) : (a : Ref) → Decidable (a.Known rArgs pArgs)
  | .req x => inferInstanceAs (Decidable (x ∈ rArgs))
  | .pol y => inferInstanceAs (Decidable (y ∈ pArgs))
  | .lit s => inferInstanceAs (Decidable (PlainLit s ∧ ∀ w ∈ words s, ∀ k < w.length, ¬ IsPolicyRef (w.drop k)))

/-- The atom uses attributes that exist, and functions whose names look like names of functions. -/
def Atom.Uses (rArgs pArgs : List Str) : Atom → Prop
  | .eq a b => a.Known rArgs pArgs ∧ b.Known rArgs pArgs
  | .call f args => args ≠ [] ∧ (∀ a ∈ args, a.Known rArgs pArgs) ∧ isIdent f ∧
      (∀ u v, f = u ++ v → ¬ IsPolicyRef v)

/-- The atom uses attributes and functions that exist, and can be evaluated on rules with the property `P`. -/
def Atom.Fits (m : Model) (base : Str → Option Fn) (rArgs pArgs rvals : List Str) (P : Rule → Prop) (a : Atom) : Prop :=
  a.Uses rArgs pArgs ∧ ∀ f args, a = .call f args → m.Callable base rArgs pArgs rvals P f args

/-- The attributes can be written in a matcher: `key_name` is an identifier for govaluate, is not the name
of a function, and does not contain a reference to a policy other than itself. -/
structure Writable (base : Str → Option Fn) (key : Str) (names : List Str) : Prop where
  good : GoodNames names
  ne : ∀ x ∈ names, x ≠ []
  ident : ∀ x ∈ names, isIdent (qual key x)
  free : ∀ x ∈ names, base (qual key x) = none
  inner : ∀ x ∈ names, ∀ u v, qual key x = u ++ v → IsPolicyRef v → u = []

/-- The keys and names of a matcher: the request's key begins with `r`, the policy's key is `p` or `g` followed by
digits. -/
structure Naming (base : Str → Option Fn) (rk pk : Str) (rArgs pArgs : List Str) : Prop where
  r : Writable base rk rArgs
  p : Writable base pk pArgs
  rHead : rk.head? = some 'r'
  pKey : ∃ c ds, pk = c :: ds ∧ (c = 'p' ∨ c = 'g') ∧ ∀ d ∈ ds, isDigitC d = true

end Fastac
