import Verif.Model.Functions

/-!
# Which function a name stands for

Spec: the last call of the program that is about the name on this model decides; before the first such call, the
function registered globally when the model was created, and otherwise the built-in one.
-/

namespace Fastac

/-- What a call on a model says about the name: `none` is nothing, `some none` that there is no such function
from now on. -/
def FnOp.about (name : Str) : FnOp → Option (Option FnVal)
  | .setFunction n f => if n = name then some (some (.fn f)) else none
  | .removeFunction n => if n = name then some none else none
  | .setDef sec k _ => if sec = 'g' ∧ k = name ∧ k.head? = some 'g' then some (some .role) else none
  | .removeDef sec k => if sec = 'g' ∧ k = name then some none else none
  | .setRoleManager k _ => if k = name then some (some .role) else none
  | _ => none

/-- The calls on model `i`. -/
def callsOn (i : Nat) (calls : List FnCall) : List FnOp :=
  calls.filterMap fun
    | .on j op => if j = i then some op else none
    | _ => none

/-- The last call about the name. -/
def lastAbout (name : Str) (ops : List FnOp) : Option (Option FnVal) := ops.reverse.findSome? (FnOp.about name)

/-- The function registered globally last. -/
def lastGlobal (name : Str) (calls : List FnCall) : Option Fn :=
  calls.reverse.findSome? fun
    | .global n f => if n = name then some f else none
    | _ => none

/-- The number of models created. -/
def created (calls : List FnCall) : Nat := calls.countP fun
  | .create => true
  | _ => false

/-- The function of the name that is known when a model is created after `before`. -/
def initially (lib : StdLib) (name : Str) (before : List FnCall) : Option FnVal :=
  match lastGlobal name before with
  | some f => some (.fn f)
  | none => ((builtinFns lib).lookup name).map .fn

/-- The function of the name in the model created after `before`, when `after` has happened since. -/
def entryOf (lib : StdLib) (name : Str) (before after : List FnCall) : Option FnVal :=
  match lastAbout name (callsOn (created before) after) with
  | some v => v
  | none => initially lib name before

/-- The functions that are not those of role definitions. -/
def registered (lib : StdLib) (before after : List FnCall) (name : Str) : Option Fn :=
  match entryOf lib name before after with
  | some (.fn f) => some f
  | _ => none

end Fastac
