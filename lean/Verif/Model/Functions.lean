import Verif.Model.Eval
import Verif.Model.Filter
import Verif.Model.PathMatch

/-!
# The functions matchers can call (`model/fm`, `util/builtin_operators.go`, model.go:220-246, 334-379)

`Model.functions` (Model/Context.lean) takes the functions that are not those of role definitions as given.
Here is the map itself: a model starts with the built-in functions and those registered globally; role
definitions and the user change entries.  The function map also decides which matchers can be built.
-/

namespace Fastac

/-- An entry of the function map.  `role` is the function `GenerateGFunction` makes for the manager in the
entry of `rpMap` with the same key: both are always set together (handlers.go:46-47, model.go:335-336).
`eval` is the function `eval` left behind by a call of `RangeMatches` (matcher.go:220), which changes the map of
the model although it gets the `FunctionMap` by value. -/
inductive FnVal where
  | role
  | fn (f : Fn)
  | eval

/-- `WrapMatchingFunc` (builtin_operators.go:129-143); `none` is a panic of the function. -/
def wrapMatching (fn : Str → Str → Option Bool) : Fn
  | [a, b] =>
    match fn a b with
    | some r => .bool r
    | none => .panic
  | _ => .err

/-- What the standard library computes for `RegexMatch`, `IPMatch` (`none`: panic) and `GlobMatch` (`none`:
error) (builtin_operators.go:73-106). -/
structure StdLib where
  regex : Str → Str → Option Bool
  ip : Str → Str → Option Bool
  glob : Str → Str → Option Bool

/-- `GlobMatchFunc` (builtin_operators.go:109-118). -/
def globMatchFn (lib : StdLib) : Fn
  | [a, b] =>
    match lib.glob a b with
    | some r => .bool r
    | none => .err
  | _ => .err

/-- The functions set by `DefaultFunctionMap` (function.go:37-42).  `PathMatch` calls itself at most as often
inside itself as the path is long (C48). -/
def builtinFns (lib : StdLib) : List (Str × Fn) :=
  [(s% "eval", fun _ => .other),
   (s% "pathMatch", wrapMatching (fun a b => PathMatchF (a.length + 2) a b)),
   (s% "pathMatch2", wrapMatching (fun a b => PathMatch2F (a.length + 2) a b)),
   (s% "regexMatch", wrapMatching lib.regex),
   (s% "ipMatch", wrapMatching lib.ip),
   (s% "globMatch", globMatchFn lib)]

/-- `DefaultFunctionMap` (function.go:34-50): the built-in functions, then all that are registered globally;
the loop over the global map is in an arbitrary order, which does not matter since the keys differ. -/
def defaultFunctionMap (lib : StdLib) (globals : GoMap Str Fn) : GoMap Str FnVal :=
  globals.foldl (fun m e => m.set e.1 (.fn e.2))
    ((builtinFns lib).foldl (fun m e => m.set e.1 (.fn e.2)) [])

/-- A model with its function map (model.go:72-86). -/
structure FnModel where
  model : Model
  fns : GoMap Str FnVal

/-- `MatcherDef.Build` (defs/matcher_def.go) depends on which functions there are: govaluate reads a name as a
function if it is in the map. -/
abbrev FnBuild := (Str → Bool) → Str → Res Stage

namespace FnModel

/-- `NewModel` (model.go:88-112). -/
def new (std : StdLib) (globals : GoMap Str Fn) : FnModel := ⟨Model.new, defaultFunctionMap std globals⟩

/-- The function under a name, as govaluate finds it, except `eval`: this is set by `RangeMatches` before anything
is evaluated (`Gov.withEval`), so what is here for a left behind `eval` does not matter. -/
def functions (s : FnModel) (name : Str) : Option Fn :=
  match s.fns.get name with
  | some (.fn f) => some f
  | some .role => (s.model.rpMap.get name).map (fun rp => gFunction rp.mgr)
  | _ => none

/-- Whether there is a function of the name. -/
def knows (s : FnModel) (name : Str) : Bool := s.fns.has name

/-- `SetFunction` (model.go:373-375). -/
def setFunction (s : FnModel) (name : Str) (f : Fn) : FnModel := { s with fns := s.fns.set name (.fn f) }

/-- `RemoveFunction` (model.go:377-379, function.go:57-61). -/
def removeFunction (s : FnModel) (name : Str) : FnModel × Bool :=
  ({ s with fns := s.fns.del name }, s.fns.has name)

/-- `SetDef` (model.go:166-178): a role definition sets the function (handlers.go:47). -/
def setDef (s : FnModel) (sec : Char) (key value : Str) : FnModel × Res Unit :=
  (⟨(s.model.setDef sec key value).1,
    if sec = 'g' ∧ (s.model.setDef sec key value).2 = .ok () then s.fns.set key .role else s.fns⟩,
    (s.model.setDef sec key value).2)

/-- `RemoveDef` (model.go:185-194): in the section of role definitions it removes the function of this name,
whatever it is and whether or not there is such a role definition (handlers.go:52-57). -/
def removeDef (s : FnModel) (sec : Char) (key : Str) : FnModel × Res Unit :=
  (⟨(s.model.removeDef sec key).1, if sec = 'g' then s.fns.del key else s.fns⟩, (s.model.removeDef sec key).2)

/-- `SetRoleManager` (model.go:334-337): a new policy object, to which no matcher listens. -/
def setRoleManager (s : FnModel) (key : Str) (mgr : Mgr) : FnModel :=
  ⟨{ s.model with
      mMap := if s.model.rpMap.has key then s.model.freeze key else s.model.mMap
      rpMap := s.model.rpMap.set key ⟨mgr, []⟩ }, s.fns.set key .role⟩

/-- Calls on the role manager that `GetRoleManager` (model.go:329-332) returns: `change` is what they do to it.
With an unknown key this panics. -/
def onManager (s : FnModel) (key : Str) (change : Mgr → Mgr) : FnModel :=
  match s.model.rpMap.get key with
  | none => s
  | some rp => { s with model := { s.model with rpMap := s.model.rpMap.set key ⟨change rp.mgr, rp.listeners⟩ } }

/-- `BuildMatcher` (model.go:205-218) with the current functions. -/
def buildMatcher (build : FnBuild) (s : FnModel) (key : Str) : FnModel × Res Unit :=
  ({ s with model := (s.model.buildMatcher (build s.knows) key).1 },
    (s.model.buildMatcher (build s.knows) key).2)

/-- The library as a call on this model uses it: with the functions of the map, where `eval` is replaced during
the call (matcher.go:220). -/
def lib (s : FnModel) (gov : Gov) (depth : Nat) : Gov := fun _ par => gov.withEval depth s.functions par

/-- Whether `Enforce` gets as far as `RangeMatches` (enforcer.go:311-319). -/
def reaches (build : FnBuild) (s : FnModel) (params : List Param) : Bool :=
  match newContext (build s.knows) s.model (splitParams params).1 with
  | (m', .ok ctx) =>
    match ctx.matcher.bind m'.resolve with
    | some mt => m'.pDefs.has mt.pDef.key
    | none => false
  | _ => false

/-- `Enforce` (enforcer.go:251-272, 311-344). -/
def enforce (build : FnBuild) (s : FnModel) (gov : Gov) (depth : Nat) (ord : Order) (params : List Param) :
    FnModel × Res Bool :=
  (⟨(s.model.enforceParams (build s.knows) (fun _ => none) (s.lib gov depth) ord params).1,
    if s.reaches build params then s.fns.set (s% "eval") .eval else s.fns⟩,
    (s.model.enforceParams (build s.knows) (fun _ => none) (s.lib gov depth) ord params).2)

/-- Whether the call gets as far as setting `eval` (matcher.go:224). -/
def ranges (build : FnBuild) (s : FnModel) (params : List Param) : Bool :=
  match newContext (build s.knows) s.model (splitParams params).1 with
  | (m', .ok ctx) => (ctx.matcher.bind m'.resolve).isSome && ctx.rDef.isSome
  | _ => false

/-- `Enforcer.RangeMatches` (enforcer.go:299-309) with the functions of the model. -/
def rangeMatches {σ : Type} (build : FnBuild) (s : FnModel) (gov : Gov) (depth : Nat) (ord : Order)
    (params : List Param) (fn : σ → Rule → σ × Bool) (a : σ) : FnModel × σ × Res Unit :=
  let r := s.model.rangeParams (build s.knows) (fun _ => none) (s.lib gov depth) ord params fn a
  (⟨r.1, if s.ranges build params then s.fns.set (s% "eval") .eval else s.fns⟩, r.2)

/-- `Enforcer.Filter` with `FilterWithContext` (enforcer.go:282-297), with the functions of the model.  When there is
no context, the Go code returns nil instead of the empty list. -/
def filter (build : FnBuild) (s : FnModel) (gov : Gov) (depth : Nat) (ord : Order) (params : List Param) :
    FnModel × List Rule × Res Unit :=
  s.rangeMatches build gov depth ord params (fun rules rule => (rules ++ [rule], true)) []

end FnModel

/-! ## Programs -/

/-- A call on a model. -/
inductive FnOp where
  | setFunction (name : Str) (f : Fn)
  | removeFunction (name : Str)
  | setDef (sec : Char) (key value : Str)
  | removeDef (sec : Char) (key : Str)
  | setRoleManager (key : Str) (mgr : Mgr)
  | onManager (key : Str) (change : Mgr → Mgr)
  | buildMatcher (key : Str)
  | rule (op : Model.Op)
  | enforce (gov : Gov) (depth : Nat) (ord : Order) (params : List Param)
  | filter (gov : Gov) (depth : Nat) (ord : Order) (params : List Param)

def FnModel.step (build : FnBuild) (s : FnModel) : FnOp → FnModel
  | .setFunction n f => s.setFunction n f
  | .removeFunction n => (s.removeFunction n).1
  | .setDef sec k v => (s.setDef sec k v).1
  | .removeDef sec k => (s.removeDef sec k).1
  | .setRoleManager k g => s.setRoleManager k g
  | .onManager k f => s.onManager k f
  | .buildMatcher k => (s.buildMatcher build k).1
  | .rule op => { s with model := (s.model.step op).1 }
  | .enforce gov depth ord params => (s.enforce build gov depth ord params).1
  | .filter gov depth ord params => (s.filter build gov depth ord params).1

/-- All models of a program and the global function map (fm/global.go). -/
structure FnWorld where
  globals : GoMap Str Fn
  models : List FnModel

/-- A call of a program: `fm.SetFunction` (global.go:14-16), `NewModel`, or a call on the model with the given
number. -/
inductive FnCall where
  | global (name : Str) (f : Fn)
  | create
  | on (i : Nat) (op : FnOp)

def FnWorld.step (lib : StdLib) (build : FnBuild) (w : FnWorld) : FnCall → FnWorld
  | .global n f => { w with globals := w.globals.set n f }
  | .create => { w with models := w.models ++ [FnModel.new lib w.globals] }
  | .on i op => { w with models := w.models.modify i (fun s => s.step build op) }

def FnWorld.run (lib : StdLib) (build : FnBuild) (w : FnWorld) (calls : List FnCall) : FnWorld :=
  calls.foldl (FnWorld.step lib build) w

end Fastac
