import Verif.Model.Values
import Verif.Spec.Expressions

/-!
# What requests with values of any type mean
-/

namespace Fastac

variable {O : Type}

/-! ## Values of attributes -/

/-- The value of an attribute of the request, given the names and the values in the same order. -/
def valueAt (names : List Str) (vals : List (Val O)) (x : Str) : Option (Val O) :=
  if x ∈ names then vals[names.idxOf x]? else none

/-- The value of an attribute: those of the rule are strings. -/
def Ref.value (rArgs pArgs : List Str) (rvals : List (Val O)) (rule : Rule) : Ref → Option (Val O)
  | .req x => valueAt rArgs rvals x
  | .pol y => (attr pArgs rule y).map .str
  | .lit s => some (.str s)

/-- The attributes of the request, and nothing else. -/
def requestValues (rk : Str) (rArgs : List Str) (rvals : List (Val O)) : Rule → Str → Option (Val O) := fun _ w =>
  (rArgs.find? (fun x => qual rk x = w)).bind (valueAt rArgs rvals)

/-- The attributes of the rule and of the request, under the names by which conditions refer to them. -/
def allValues (rk pk : Str) (rArgs pArgs : List Str) (rvals : List (Val O)) : Rule → Str → Option (Val O) := fun r w =>
  match pArgs.find? (fun y => qual pk y = w) with
  | some y => (attr pArgs r y).map .str
  | none => requestValues rk rArgs rvals r w

/-! ## What is expected of govaluate -/

/-- `==` (`reflect.DeepEqual`): values of different types differ; for two values that are neither strings nor truth
values, `alike` says whether they are equal. -/
def Val.same (alike : O → O → Bool) : Val O → Val O → Bool
  | .str a, .str b => a == b
  | .bool a, .bool b => a == b
  | .other a, .other b => alike a b
  | _, _ => false

/-- A name is no function's name. -/
def GovTerm.NoFn (fns : Str → Option (VFn O)) : GovTerm → Prop
  | var x => isIdent x ∧ fns x = none
  | lit s => PlainLit s

def GovTerm.value (par : Str → Option (Val O)) : GovTerm → Option (Val O)
  | var x => par x
  | lit s => some (.str s)

/-- As `Gov.Ok`. -/
structure VGov.Ok (alike : O → O → Bool) (gov : VGov O) : Prop where
  eqT : ∀ (fns : Str → Option (VFn O)) (par : Rule → Str → Option (Val O)) (x y : GovTerm), x.NoFn fns → y.NoFn fns →
    (gov fns par).compiles (x.text ++ s% " == " ++ y.text) = true ∧
    ∀ r, (gov fns par).eval (x.text ++ s% " == " ++ y.text) r =
      match x.value (par r), y.value (par r) with
      | some a, some b => .val (.bool (a.same alike b))
      | _, _ => .err
  callT : ∀ (fns : Str → Option (VFn O)) (par : Rule → Str → Option (Val O)) (f : Str) (fn : VFn O)
      (args : List GovTerm), isIdent f → fns f = some fn → args ≠ [] → (∀ a ∈ args, a.NoFn fns) →
    (gov fns par).compiles (f ++ s% "(" ++ join (s% ", ") (args.map GovTerm.text) ++ s% ")") = true ∧
    ∀ r, (gov fns par).eval (f ++ s% "(" ++ join (s% ", ") (args.map GovTerm.text) ++ s% ")") r =
      match args.mapM (fun a => a.value (par r)) with
      | some vs => fn vs
      | none => .err

/-- As `Gov.Scoped`. -/
def VGov.Scoped (gov : VGov O) : Prop :=
  ∀ (fns fns' : Str → Option (VFn O)) (par par' : Rule → Str → Option (Val O)) (e : Str), PlainText e →
    (∀ w ∈ words e, fns w = fns' w) →
    (gov fns par).compiles e = (gov fns' par').compiles e ∧
    ∀ r r', (∀ w ∈ words e, par r w = par' r' w) → (gov fns par).eval e r = (gov fns' par').eval e r'

/-! ## What conditions come to -/

/-- A condition is true or false only if it comes to a truth value. -/
def VRes.asCond : VRes O → EvalRes
  | .val (.bool b) => .bool b
  | .val (.str _) => .other
  | .val (.other _) => .other
  | .err => .err
  | .panic => .panic

/-- What an atom comes to: `val` gives the attributes, `fn f vs` is what the function `f` answers. -/
def Atom.comes (alike : O → O → Bool) (val : Ref → Option (Val O)) (fn : Str → List (Val O) → EvalRes) : Atom → EvalRes
  | .eq a b =>
    match val a, val b with
    | some v, some w => .bool (v.same alike w)
    | _, _ => .err
  | .call f args =>
    match args.mapM val with
    | some vs => fn f vs
    | none => .err

namespace VModel

/-- What a function answers now, as far as it matters for a condition.  `eval` of something else than a text that
compiles is an error. -/
def answers (s : VModel O) (gov : VGov O) (rk : Str) (rArgs : List Str) (rvals : List (Val O)) (f : Str)
    (vs : List (Val O)) : EvalRes :=
  if f = s% "eval" then
    match vs with
    | [.str text] =>
      if (gov s.functions (requestValues rk rArgs rvals)).compiles (replaceArgs text) then
        ((gov s.functions (requestValues rk rArgs rvals)).eval (replaceArgs text) []).asCond
      else .err
    | _ => .err
  else
    match s.functions f with
    | some fn => (fn vs).asCond
    | none => .err

/-- What a condition comes to: govaluate's answer, given the functions that the model has now and the attributes of
the request and of the rule.  A condition that cannot be compiled is an error. -/
def comesTo (s : VModel O) (gov : VGov O) (rk pk : Str) (rArgs pArgs : List Str) (rvals : List (Val O)) (e : Str)
    (r : Rule) : EvalRes :=
  if (gov s.functions (allValues rk pk rArgs pArgs rvals)).compiles e then
    ((gov s.functions (allValues rk pk rArgs pArgs rvals)).eval e r).asCond
  else .err

end VModel

/-- As `Atom.ReadsNow`: a text that is given to `eval` is about the request only and does not call `eval`. -/
def Atom.Reads (s : VModel O) (pk : Str) (rArgs pArgs : List Str) (rvals : List (Val O)) (P : Rule → Prop)
    (a : Atom) : Prop :=
  a.Uses rArgs pArgs ∧ ∀ f args, a = .call f args →
    if f = s% "eval" then ∃ x, args = [x] ∧ ∀ r, P r → r.length = pArgs.length → ∀ text,
      x.value rArgs pArgs rvals r = some (.str text) →
        PlainText (replaceArgs text) ∧ s% "eval" ∉ words (replaceArgs text) ∧
          ∀ y ∈ pArgs, qual pk y ∉ words (replaceArgs text)
    else ∃ fn, s.functions f = some fn

/-- `Q` says what the condition `e` comes to: either `e` does not call `eval`, and it comes to what govaluate answers;
or it is an atom, possibly with `eval`, and comes to what the atom comes to. -/
def VModel.Explains (s : VModel O) (alike : O → O → Bool) (gov : VGov O) (rk pk : Str) (rArgs pArgs : List Str)
    (rvals : List (Val O)) (P : Rule → Prop) (Q : Str → Rule → EvalRes) (e : Str) : Prop :=
  (PlainText e ∧ Legible pk pArgs e ∧ s% "eval" ∉ words e ∧
    ∀ r, Q e r = s.comesTo gov rk pk rArgs pArgs rvals e r) ∨
  ∃ a : Atom, a.Reads s pk rArgs pArgs rvals P ∧ (∃ ts, a.operand rk pk = .atom ts ∧ e = tokensToExpr ts) ∧
    ∀ r, Q e r = a.comes alike (Ref.value rArgs pArgs rvals r) (s.answers gov rk rArgs rvals)

/-! ## Programs with strings -/

/-- A function on strings. -/
def VFn.plain (f : VFn O) : Fn := fun vs => (f (vs.map .str)).asCond

def VFnVal.plain : VFnVal O → FnVal
  | .role => .role
  | .fn f => .fn (VFn.plain f)
  | .eval => .eval

/-- The model with its functions on strings. -/
def VModel.plain (s : VModel O) : FnModel := ⟨s.model, s.fns.map (fun e => (e.1, e.2.plain))⟩

/-- The parameter, with the empty string for a value that is no string. -/
def VParam.plain : VParam O → Param
  | .opt o => .opt o
  | .val (.str s) => .val s
  | .val _ => .val []

/-- The call with strings.  Which library evaluates the conditions does not matter for what the call leaves
behind. -/
def VOp.plain : VOp O → FnOp
  | .setFunction n f => .setFunction n (VFn.plain f)
  | .removeFunction n => .removeFunction n
  | .setDef sec k v => .setDef sec k v
  | .removeDef sec k => .removeDef sec k
  | .setRoleManager k g => .setRoleManager k g
  | .onManager k f => .onManager k f
  | .buildMatcher k => .buildMatcher k
  | .rule op => .rule op
  | .enforce _ depth ord params => .enforce (fun _ _ => ⟨fun _ => true, fun _ _ => .other⟩) depth ord
      (params.map VParam.plain)
  | .filter _ depth ord params => .filter (fun _ _ => ⟨fun _ => true, fun _ _ => .other⟩) depth ord
      (params.map VParam.plain)

/-- The parameters that name the definitions, in front of the request. -/
def namedV (rk mk ek : Str) : List (VParam O) :=
  [.opt (.request (.str rk)), .opt (.matcher (.str mk)), .opt (.effector (.str ek))]

/-- The ways to ask: with names, or without if the definitions have the default names. -/
def askings (rk mk ek : Str) (rvals : List (Val O)) : List (List (VParam O)) :=
  [namedV rk mk ek ++ rvals.map .val] ++
    (if rk = s% "r" ∧ mk = s% "m" ∧ ek = s% "e" then [rvals.map .val] else [])

end Fastac
