import Verif.Model.Functions

/-!
# Request values of any type

Elsewhere request values are strings.  In Go they are `interface{}`: whatever the caller passes to `Enforce` reaches
govaluate (model/matcher/matcher.go:66-76, model/defs/defs.go:143-172), and functions get what govaluate hands them.
Here is the same code with values of any type.  The code looks at the type of a value in few places: arguments of
functions that must be strings, and results of conditions that must be truth values.
-/

namespace Fastac

/-- A value: a string, a truth value, or a value of another type, of which there may be any (`O`). -/
inductive Val (O : Type) where
  | str (s : Str)
  | bool (b : Bool)
  | other (o : O)
deriving DecidableEq

/-- What a function or an expression returns. -/
inductive VRes (O : Type) where
  | val (v : Val O)
  | err
  | panic
deriving DecidableEq

/-- What `rangeMatches` makes of a result (matcher.go:187-192): anything but a truth value is passed over. -/
def VRes.seen {O : Type} : VRes O → EvalRes
  | .val (.bool b) => .bool b
  | .val _ => .other
  | .err => .err
  | .panic => .panic

/-- `govaluate.ExpressionFunction`. -/
abbrev VFn (O : Type) := List (Val O) → VRes O

/-- The type assertion `v.(string)`. -/
def Val.str? {O : Type} : Val O → Option Str
  | .str s => some s
  | _ => none

/-! ## Functions -/

/-- `ValidateVariadicArgs` (util/builtin_operators.go:72-86): `none` is an error, otherwise the arguments. -/
def validateVariadicArgs {O : Type} (expected : Nat) (args : List (Val O)) : Option (List Str) :=
  if args.length ≠ expected then none else args.mapM Val.str?

/-- `WrapMatchingFunc` (builtin_operators.go:129-143); `none` is a panic of the function. -/
def wrapMatchingV {O : Type} (fn : Str → Str → Option Bool) : VFn O := fun args =>
  match validateVariadicArgs 2 args with
  | some [a, b] =>
    match fn a b with
    | some r => .val (.bool r)
    | none => .panic
  | _ => .err

/-- `GlobMatchFunc` (builtin_operators.go:115-126). -/
def globMatchV {O : Type} (lib : StdLib) : VFn O := fun args =>
  match validateVariadicArgs 2 args with
  | some [a, b] =>
    match lib.glob a b with
    | some r => .val (.bool r)
    | none => .err
  | _ => .err

/-- The functions set by `DefaultFunctionMap` (model/fm/function.go:37-42); what `eval` returns there is nil. -/
def builtinFnsV {O : Type} (lib : StdLib) (nil : O) : List (Str × VFn O) :=
  [(s% "eval", fun _ => .val (.other nil)),
   (s% "pathMatch", wrapMatchingV (fun a b => PathMatchF (a.length + 2) a b)),
   (s% "pathMatch2", wrapMatchingV (fun a b => PathMatch2F (a.length + 2) a b)),
   (s% "regexMatch", wrapMatchingV lib.regex),
   (s% "ipMatch", wrapMatchingV lib.ip),
   (s% "globMatch", globMatchV lib)]

/-- `GenerateGFunction` (rbac/role_manager_api.go:53-71): with fewer than two arguments an index is out of range, and
for an argument that is no string the type assertion panics (lines 56, 57, 66). -/
def gFunctionV {O : Type} (mgr : Mgr) : VFn O := fun args =>
  match args.mapM Val.str? with
  | some (u :: r :: ds) =>
    match mgr.hasLink u r ds with
    | .ok (_, b) => .val (.bool b)
    | .err => .err
    | .panic => .panic
  | _ => .panic

/-! ## Parameters and the evaluation library -/

/-- `MatchParameters` (matcher.go:51-56) without the rule. -/
structure VMatchParams (O : Type) where
  pDef : PolicyDef
  rDef : PolicyDef
  rvals : List (Val O)

/-- `MatchParameters.Get` (matcher.go:66-76) while the rule is `pvals`; the fields of a rule are strings, the values of
the request anything (`RequestDef.GetParameter`, defs.go:143-157). -/
def VMatchParams.get {O : Type} (ps : VMatchParams O) (pvals : Rule) (name : Str) : Option (Val O) :=
  match name with
  | [] => none
  | c :: _ =>
    if c = 'p' ∨ c = 'g' then (ps.pDef.getParameter pvals name).map .str
    else if c = 'r' then ps.rDef.getParameter ps.rvals name
    else none

/-- govaluate with the functions and parameters of one call. -/
structure VEvaluator (O : Type) where
  compiles : Str → Bool
  eval : Str → Rule → VRes O

/-- What `rangeMatches` sees of it. -/
def VEvaluator.seen {O : Type} (E : VEvaluator O) : Evaluator :=
  ⟨E.compiles, fun e r => (E.eval e r).seen⟩

/-- The library govaluate. -/
abbrev VGov (O : Type) := (Str → Option (VFn O)) → (Rule → Str → Option (Val O)) → VEvaluator O

/-- A map with one entry set (`FunctionMap.SetFunction`, fm/function.go:53-55). -/
def withFnV {O : Type} (fns : Str → Option (VFn O)) (name : Str) (fn : VFn O) : Str → Option (VFn O) :=
  fun x => if x = name then some fn else fns x

/-- `generateEvalFunction` (matcher.go:243-256) with `eval` (matcher.go:235-241), as `evalFn`; an argument that is no
string is an error, and the result is whatever the expression comes to. -/
def evalFnV {O : Type} (gov : VGov O) (fns : Str → Option (VFn O)) (par : Rule → Str → Option (Val O)) (r : Rule) :
    Nat → VFn O
  | 0 => fun _ => .panic
  | n + 1 => fun args =>
    match validateVariadicArgs 1 args with
    | some [text] =>
      let E := gov (withFnV fns (s% "eval") (evalFnV gov fns par r n)) par
      if E.compiles (replaceArgs text) then E.eval (replaceArgs text) r else .err
    | _ => .err

/-- The library as `RangeMatches` uses it (matcher.go:222-225). -/
def VGov.withEval {O : Type} (gov : VGov O) (depth : Nat) : VGov O := fun fns par =>
  { compiles := fun e => (gov (withFnV fns (s% "eval") (evalFnV gov fns par [] depth)) par).compiles e
    eval := fun e r => (gov (withFnV fns (s% "eval") (evalFnV gov fns par r depth)) par).eval e r }

/-! ## Models -/

/-- An entry of the function map, as `FnVal`. -/
inductive VFnVal (O : Type) where
  | role
  | fn (f : VFn O)
  | eval

/-- A model with its function map (model.go:72-86). -/
structure VModel (O : Type) where
  model : Model
  fns : GoMap Str (VFnVal O)

/-- A parameter of `Enforce`: an option or a request value. -/
inductive VParam (O : Type) where
  | opt (o : CtxOpt)
  | val (v : Val O)

/-- `splitParams` (enforcer.go:231-247): options and request values in their order. -/
def splitParamsV {O : Type} : List (VParam O) → List CtxOpt × List (Val O)
  | [] => ([], [])
  | .opt o :: ps => (o :: (splitParamsV ps).1, (splitParamsV ps).2)
  | .val v :: ps => ((splitParamsV ps).1, v :: (splitParamsV ps).2)

namespace VModel

variable {O : Type}

/-- `NewModel` (model.go:88-112) with `DefaultFunctionMap` (function.go:34-50). -/
def new (std : StdLib) (nil : O) (globals : GoMap Str (VFn O)) : VModel O :=
  ⟨Model.new, globals.foldl (fun m e => m.set e.1 (.fn e.2))
    ((builtinFnsV std nil).foldl (fun m e => m.set e.1 (.fn e.2)) [])⟩

/-- The function under a name, as `FnModel.functions`. -/
def functions (s : VModel O) (name : Str) : Option (VFn O) :=
  match s.fns.get name with
  | some (.fn f) => some f
  | some .role => (s.model.rpMap.get name).map (fun rp => gFunctionV rp.mgr)
  | _ => none

/-- Whether there is a function of the name. -/
def knows (s : VModel O) (name : Str) : Bool := s.fns.has name

/-- `SetFunction` (model.go:373-375). -/
def setFunction (s : VModel O) (name : Str) (f : VFn O) : VModel O := { s with fns := s.fns.set name (.fn f) }

/-- `RemoveFunction` (model.go:377-379). -/
def removeFunction (s : VModel O) (name : Str) : VModel O := { s with fns := s.fns.del name }

/-- `SetDef` (model.go:166-178, handlers.go:47). -/
def setDef (s : VModel O) (sec : Char) (key value : Str) : VModel O :=
  ⟨(s.model.setDef sec key value).1,
    if sec = 'g' ∧ (s.model.setDef sec key value).2 = .ok () then s.fns.set key .role else s.fns⟩

/-- `RemoveDef` (model.go:185-194, handlers.go:52-57). -/
def removeDef (s : VModel O) (sec : Char) (key : Str) : VModel O :=
  ⟨(s.model.removeDef sec key).1, if sec = 'g' then s.fns.del key else s.fns⟩

/-- `SetRoleManager` (model.go:334-337). -/
def setRoleManager (s : VModel O) (key : Str) (mgr : Mgr) : VModel O :=
  ⟨{ s.model with
      mMap := if s.model.rpMap.has key then s.model.freeze key else s.model.mMap
      rpMap := s.model.rpMap.set key ⟨mgr, []⟩ }, s.fns.set key .role⟩

/-- Calls on the role manager that `GetRoleManager` (model.go:329-332) returns. -/
def onManager (s : VModel O) (key : Str) (change : Mgr → Mgr) : VModel O :=
  match s.model.rpMap.get key with
  | none => s
  | some rp => { s with model := { s.model with rpMap := s.model.rpMap.set key ⟨change rp.mgr, rp.listeners⟩ } }

/-- `BuildMatcher` (model.go:205-218). -/
def buildMatcher (build : FnBuild) (s : VModel O) (key : Str) : VModel O :=
  { s with model := (s.model.buildMatcher (build s.knows) key).1 }

/-- The evaluator of a call (matcher.go:222-225). -/
def evaluator (s : VModel O) (gov : VGov O) (depth : Nat) (mt : Matcher) (rDef : PolicyDef) (rvals : List (Val O)) :
    VEvaluator O :=
  gov.withEval depth s.functions (VMatchParams.get ⟨mt.pDef, rDef, rvals⟩)

/-- `EnforceWithContext` (enforcer.go:258-272, 311-344), as `Model.enforceCtx`; `m` is the model after the context has
been made. -/
def enforceCtx (s : VModel O) (m : Model) (gov : VGov O) (depth : Nat) (ord : Order) (ctx : Ctx)
    (rvals : List (Val O)) : Res Bool :=
  match ctx.matcher.bind m.resolve, ctx.rDef, ctx.effector with
  | some mt, some rDef, some eff =>
    match m.pDefs.get mt.pDef.key with
    | none => .panic
    | some pDef => Fastac.enforce mt pDef (s.evaluator gov depth mt rDef rvals).seen ord eff
  | _, _, _ => .panic

/-- Whether `Enforce` gets as far as `RangeMatches`, which sets `eval` (enforcer.go:311-319). -/
def reaches (m : Model) (ctx : Ctx) : Bool :=
  match ctx.matcher.bind m.resolve with
  | some mt => m.pDefs.has mt.pDef.key
  | none => false

/-- `Enforce` (enforcer.go:251-257). -/
def enforce (build : FnBuild) (s : VModel O) (gov : VGov O) (depth : Nat) (ord : Order) (params : List (VParam O)) :
    VModel O × Res Bool :=
  match newContext (build s.knows) s.model (splitParamsV params).1 with
  | (m, .ok ctx) =>
    (⟨m, if reaches m ctx then s.fns.set (s% "eval") .eval else s.fns⟩,
      s.enforceCtx m gov depth ord ctx (splitParamsV params).2)
  | (m, .err) => (⟨m, s.fns⟩, .err)
  | (m, .panic) => (⟨m, s.fns⟩, .panic)

/-- `Enforcer.Filter` with `FilterWithContext` (enforcer.go:282-309). -/
def filter (build : FnBuild) (s : VModel O) (gov : VGov O) (depth : Nat) (ord : Order) (params : List (VParam O)) :
    VModel O × List Rule × Res Unit :=
  match newContext (build s.knows) s.model (splitParamsV params).1 with
  | (m, .ok ctx) =>
    match ctx.matcher.bind m.resolve, ctx.rDef with
    | some mt, some rDef =>
      (⟨m, s.fns.set (s% "eval") .eval⟩,
        (Fastac.filter mt (s.evaluator gov depth mt rDef (splitParamsV params).2).seen ord).1,
        (Fastac.filter mt (s.evaluator gov depth mt rDef (splitParamsV params).2).seen ord).2.result)
    | _, _ => (⟨m, s.fns⟩, [], .panic)
  | (m, .err) => (⟨m, s.fns⟩, [], .err)
  | (m, .panic) => (⟨m, s.fns⟩, [], .panic)

end VModel

/-- A call on a model. -/
inductive VOp (O : Type) where
  | setFunction (name : Str) (f : VFn O)
  | removeFunction (name : Str)
  | setDef (sec : Char) (key value : Str)
  | removeDef (sec : Char) (key : Str)
  | setRoleManager (key : Str) (mgr : Mgr)
  | onManager (key : Str) (change : Mgr → Mgr)
  | buildMatcher (key : Str)
  | rule (op : Model.Op)
  | enforce (gov : VGov O) (depth : Nat) (ord : Order) (params : List (VParam O))
  | filter (gov : VGov O) (depth : Nat) (ord : Order) (params : List (VParam O))

def VModel.step {O : Type} (build : FnBuild) (s : VModel O) : VOp O → VModel O
  | .setFunction n f => s.setFunction n f
  | .removeFunction n => s.removeFunction n
  | .setDef sec k v => s.setDef sec k v
  | .removeDef sec k => s.removeDef sec k
  | .setRoleManager k g => s.setRoleManager k g
  | .onManager k f => s.onManager k f
  | .buildMatcher k => s.buildMatcher build k
  | .rule op => { s with model := (s.model.step op).1 }
  | .enforce gov depth ord params => (s.enforce build gov depth ord params).1
  | .filter gov depth ord params => (s.filter build gov depth ord params).1

end Fastac
