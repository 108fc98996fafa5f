import Verif.Spec.Program
import Verif.Spec.Eval

/-!
# Programs that also work on the role managers themselves

Role managers may be replaced (`SetRoleManager`), and they may be changed directly, since `GetRoleManager` hands
them out: matchers for names and domains, links that bypass the model, questions.  Functions of any name may be set
and removed, also those of role definitions.
-/

namespace Fastac

namespace FnModel

/-- The rule suits the `p` definition it is for, if any.  Nothing is asked of rules for role definitions. -/
def SuitsP (s : FnModel) : Rule → Prop
  | [] => True
  | key :: fields => key.head? = some 'p' →
    Plain fields ∧ ∀ d, s.model.pDefs.get key = some d → GoodRule d fields

instance SuitsP.dec (s : FnModel) (rule : Rule) : Decidable (s.SuitsP rule) := by
  cases rule with
  | nil => exact isTrue trivial
  | cons k f =>
    unfold SuitsP
    exact decidable_of_iff (k.head? = some 'p' → (f ≠ [] ∧ ∀ x ∈ f, ',' ∉ x) ∧
      (s.model.pDefs.get k).all (fun d => decide (GoodRule d f)) = true) (by
      have : (f ≠ [] ∧ ∀ x ∈ f, ',' ∉ x) ↔ Plain f := ⟨fun h => ⟨h.1, h.2⟩, fun h => ⟨h.1, h.2⟩⟩
      rw [this]
      cases hd : s.model.pDefs.get k <;> simp [hd])

/-- Models after any history of calls, where rules of `p` policies suit their definitions. -/
inductive FnFree (build : FnBuild) : FnModel → Prop
  | new (std : StdLib) (globals : GoMap Str Fn) : FnFree build (FnModel.new std globals)
  | setFunction {s} (h : FnFree build s) (name : Str) (f : Fn) : FnFree build (s.setFunction name f)
  | removeFunction {s} (h : FnFree build s) (name : Str) : FnFree build (s.removeFunction name).1
  | setRoleManager {s} (h : FnFree build s) (key : Str) (mgr : Mgr) : FnFree build (s.setRoleManager key mgr)
  | onManager {s} (h : FnFree build s) (key : Str) (change : Mgr → Mgr) : FnFree build (s.onManager key change)
  | setDef {s} (h : FnFree build s) (sec : Char) (key value : Str) : FnFree build (s.setDef sec key value).1
  | removeDef {s} (h : FnFree build s) (sec : Char) (key : Str) : FnFree build (s.removeDef sec key).1
  | build {s} (h : FnFree build s) (key : Str) : FnFree build (s.buildMatcher build key).1
  | request {s} (h : FnFree build s) (gov : Gov) (depth : Nat) (ord : Order) (params : List Param) :
      FnFree build (s.enforce build gov depth ord params).1
  | filter {s} (h : FnFree build s) (gov : Gov) (depth : Nat) (ord : Order) (params : List Param) :
      FnFree build (s.filter build gov depth ord params).1
  | add {s} (h : FnFree build s) (rule : Rule) (hs : s.SuitsP rule) :
      FnFree build { s with model := (s.model.addRule rule).1 }
  | remove {s} (h : FnFree build s) (rule : Rule) (hs : s.SuitsP rule) :
      FnFree build { s with model := (s.model.removeRule rule).1 }
  | clear {s} (h : FnFree build s) (key : Str) : FnFree build { s with model := (s.model.clearPolicy key).1 }

/-- The matcher `key` was built with the stages `root`, then anything may have happened except redefining this
matcher or its policy; the rules given to the policy have the property `P`, and if `keep` none were removed. -/
inductive FnHeld (build : FnBuild) (key : Str) (root : Stage) (P : Rule → Prop) (keep : Prop) : FnModel → Prop
  | built {s} (h : FnFree build s) (expr : Str) (hd : s.model.mDefs.get key = some expr)
      (hb : build s.knows expr = .ok root) (hok : (s.buildMatcher build key).2 = .ok ())
      (hP : ∀ rules, s.model.policyRules root.policyKey = some rules → ∀ r ∈ rules, P r) :
      FnHeld build key root P keep (s.buildMatcher build key).1
  | setFunction {s} (h : FnHeld build key root P keep s) (name : Str) (f : Fn) :
      FnHeld build key root P keep (s.setFunction name f)
  | removeFunction {s} (h : FnHeld build key root P keep s) (name : Str) :
      FnHeld build key root P keep (s.removeFunction name).1
  | setRoleManager {s} (h : FnHeld build key root P keep s) (k : Str) (mgr : Mgr) (hk : k ≠ root.policyKey) :
      FnHeld build key root P keep (s.setRoleManager k mgr)
  | onManager {s} (h : FnHeld build key root P keep s) (k : Str) (change : Mgr → Mgr) :
      FnHeld build key root P keep (s.onManager k change)
  | setDef {s} (h : FnHeld build key root P keep s) (sec : Char) (k value : Str) (hk : k ≠ root.policyKey) :
      FnHeld build key root P keep (s.setDef sec k value).1
  | removeDef {s} (h : FnHeld build key root P keep s) (sec : Char) (k : Str) (hk : k ≠ root.policyKey)
      (hm : k ≠ key) : FnHeld build key root P keep (s.removeDef sec k).1
  | build {s} (h : FnHeld build key root P keep s) (k : Str) (hk : k ≠ key) :
      FnHeld build key root P keep (s.buildMatcher build k).1
  | request {s} (h : FnHeld build key root P keep s) (gov : Gov) (depth : Nat) (ord : Order)
      (params : List Param) : FnHeld build key root P keep (s.enforce build gov depth ord params).1
  | filter {s} (h : FnHeld build key root P keep s) (gov : Gov) (depth : Nat) (ord : Order)
      (params : List Param) : FnHeld build key root P keep (s.filter build gov depth ord params).1
  | add {s} (h : FnHeld build key root P keep s) (rule : Rule) (hs : s.SuitsP rule)
      (hP : ∀ fields, rule = root.policyKey :: fields → P fields) :
      FnHeld build key root P keep { s with model := (s.model.addRule rule).1 }
  | remove {s} (h : FnHeld build key root P keep s) (rule : Rule) (hs : s.SuitsP rule)
      (hk : keep → ∀ fields, rule ≠ root.policyKey :: fields) :
      FnHeld build key root P keep { s with model := (s.model.removeRule rule).1 }
  | clear {s} (h : FnHeld build key root P keep s) (k : Str) :
      FnHeld build key root P keep { s with model := (s.model.clearPolicy k).1 }

/-- Whether a function is true of its arguments now: `eval` of a condition if this is true of the request, other
functions if what is registered under the name says so. -/
def SaysNow (s : FnModel) (gov : Gov) (rk : Str) (rArgs rvals : List Str) (f : Str) (vs : List Str) : Prop :=
  if f = s% "eval" then ∃ text, vs = [text] ∧ ConditionHolds gov s.functions rk rArgs rvals text
  else ∃ fn, s.functions f = some fn ∧ fn vs = .bool true

end FnModel

/-- The atom uses attributes and functions that exist now; functions answer with true or false on rules with the
property `P`, and `eval` is called with one attribute, which is a good condition in these rules. -/
def Atom.FitsNow (s : FnModel) (gov : Gov) (rk pk : Str) (rArgs pArgs rvals : List Str) (P : Rule → Prop)
    (a : Atom) : Prop :=
  a.Uses rArgs pArgs ∧ ∀ f args, a = .call f args →
    if f = s% "eval" then ∃ x, args = [x] ∧ ∀ r, P r → r.length = pArgs.length → ∀ text,
      x.val rArgs pArgs rvals r = some text → GoodCondition gov s.functions rk pk rArgs pArgs rvals text
    else ∃ fn, s.functions f = some fn ∧ ∀ r, P r → r.length = pArgs.length →
      ∀ vs, args.mapM (Ref.val rArgs pArgs rvals r) = some vs → ∃ b, fn vs = .bool b

end Fastac
