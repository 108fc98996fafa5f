import Verif.Spec.Functions
import Verif.Spec.Given

/-!
# Programs on a model with its function map
-/

namespace Fastac

/-- What is expected of govaluate when the functions change: a text has one reading `u`, in which a name followed
by a bracket is a function and other names are not; if the functions known do not fit, the text does not
compile. -/
def FnBuild.Coherent (build : FnBuild) (u : Str → Res Stage) : Prop :=
  ∀ known e, build known e = u e ∨ build known e = .err

namespace FnModel

/-- The functions of the map that are not those of role definitions. -/
def own (s : FnModel) (name : Str) : Option Fn :=
  match s.fns.get name with
  | some (.fn f) => some f
  | _ => none

/-- Models after any history of calls, with suitable rules (`Model.Suits`), where functions of role definitions
are not set or removed. -/
inductive FnKept (build : FnBuild) : FnModel → Prop
  | new (std : StdLib) (globals : GoMap Str Fn) : FnKept build (FnModel.new std globals)
  | setFunction {s} (h : FnKept build s) (name : Str) (f : Fn) (hn : s.model.rpMap.has name = false) :
      FnKept build (s.setFunction name f)
  | removeFunction {s} (h : FnKept build s) (name : Str) (hn : s.model.rpMap.has name = false) :
      FnKept build (s.removeFunction name).1
  | setDef {s} (h : FnKept build s) (sec : Char) (key value : Str) : FnKept build (s.setDef sec key value).1
  | removeDef {s} (h : FnKept build s) (sec : Char) (key : Str) : FnKept build (s.removeDef sec key).1
  | build {s} (h : FnKept build s) (key : Str) : FnKept build (s.buildMatcher build key).1
  | request {s} (h : FnKept build s) (gov : Gov) (depth : Nat) (ord : Order) (params : List Param) :
      FnKept build (s.enforce build gov depth ord params).1
  | filter {s} (h : FnKept build s) (gov : Gov) (depth : Nat) (ord : Order) (params : List Param) :
      FnKept build (s.filter build gov depth ord params).1
  | add {s} (h : FnKept build s) (rule : Rule) (hs : s.model.Suits rule) :
      FnKept build { s with model := (s.model.addRule rule).1 }
  | remove {s} (h : FnKept build s) (rule : Rule) (hs : s.model.Suits rule) :
      FnKept build { s with model := (s.model.removeRule rule).1 }
  | clear {s} (h : FnKept build s) (key : Str) (hk : key.head? ≠ some 'g') :
      FnKept build { s with model := (s.model.clearPolicy key).1 }

/-- As `Model.Given`: the matcher `key` was built with the stages `root`, then anything may have happened except
redefining this matcher or its policy; the rules given to the policy have the property `P`, and if `keep` none were
removed. -/
inductive FnGiven (build : FnBuild) (key : Str) (root : Stage) (P : Rule → Prop) (keep : Prop) : FnModel → Prop
  | built {s} (h : FnKept build s) (expr : Str) (hd : s.model.mDefs.get key = some expr)
      (hb : build s.knows expr = .ok root) (hok : (s.buildMatcher build key).2 = .ok ())
      (hP : ∀ rules, s.model.policyRules root.policyKey = some rules → ∀ r ∈ rules, P r) :
      FnGiven build key root P keep (s.buildMatcher build key).1
  | setFunction {s} (h : FnGiven build key root P keep s) (name : Str) (f : Fn)
      (hn : s.model.rpMap.has name = false) : FnGiven build key root P keep (s.setFunction name f)
  | removeFunction {s} (h : FnGiven build key root P keep s) (name : Str) (hn : s.model.rpMap.has name = false) :
      FnGiven build key root P keep (s.removeFunction name).1
  | setDef {s} (h : FnGiven build key root P keep s) (sec : Char) (k value : Str) (hk : k ≠ root.policyKey) :
      FnGiven build key root P keep (s.setDef sec k value).1
  | removeDef {s} (h : FnGiven build key root P keep s) (sec : Char) (k : Str) (hk : k ≠ root.policyKey)
      (hm : k ≠ key) : FnGiven build key root P keep (s.removeDef sec k).1
  | build {s} (h : FnGiven build key root P keep s) (k : Str) (hk : k ≠ key) :
      FnGiven build key root P keep (s.buildMatcher build k).1
  | request {s} (h : FnGiven build key root P keep s) (gov : Gov) (depth : Nat) (ord : Order)
      (params : List Param) : FnGiven build key root P keep (s.enforce build gov depth ord params).1
  | filter {s} (h : FnGiven build key root P keep s) (gov : Gov) (depth : Nat) (ord : Order)
      (params : List Param) : FnGiven build key root P keep (s.filter build gov depth ord params).1
  | add {s} (h : FnGiven build key root P keep s) (rule : Rule) (hs : s.model.Suits rule)
      (hP : ∀ fields, rule = root.policyKey :: fields → P fields) :
      FnGiven build key root P keep { s with model := (s.model.addRule rule).1 }
  | remove {s} (h : FnGiven build key root P keep s) (rule : Rule) (hs : s.model.Suits rule)
      (hk : keep → ∀ fields, rule ≠ root.policyKey :: fields) :
      FnGiven build key root P keep { s with model := (s.model.removeRule rule).1 }
  | clear {s} (h : FnGiven build key root P keep s) (k : Str) (hk : k.head? ≠ some 'g') :
      FnGiven build key root P keep { s with model := (s.model.clearPolicy k).1 }

end FnModel

end Fastac
