import Verif.Spec.AnyManager
import Verif.Spec.RoleOrder

/-!
# The role manager of a role definition in a program

Level bound, pattern matcher, links and names of the manager behind a key, as they follow from the calls of a
program.
-/

namespace Fastac

/-- A change of a role manager; the calls are those of `RoleManager` (rbac/role_manager.go), on managers with domains
nothing is said. -/
def Mgr.onRM (f : RM → RM) : Mgr → Mgr
  | .rm m => .rm (f m)
  | .dm d => .dm d

/-- The call is not about the role definition `key`. -/
def FnOp.Leaves (key : Str) : FnOp → Prop
  | .setFunction n _ | .removeFunction n => n ≠ key
  | .setDef sec k _ | .removeDef sec k => sec ≠ 'g' ∨ k ≠ key
  | .setRoleManager k _ | .onManager k _ => k ≠ key
  | .buildMatcher _ | .enforce _ _ _ _ | .filter _ _ _ _ => True
  | .rule (.add r) | .rule (.remove r) => r.head? ≠ some key
  | .rule (.clear k) => k ≠ key

namespace FnModel

/-- The manager behind `key` has the level bound, pattern matcher, links and names in use as given: it was made by a
role definition with two arguments or put there with `SetRoleManager`, and then links were added and removed, through
the model or directly, and matchers set, which adds the links anew in some order.  All other calls may come in
between. -/
inductive RolesAre (build : FnBuild) (key : Str) :
    FnModel → Nat → Option PMatcher → (Str → Str → Prop) → List Str → Prop
  | defined (s : FnModel) (hp : s.model.pMap.get key = none) (value : Str) (h2 : roleDefNArgs value = 2) :
      RolesAre build key (s.setDef 'g' key value).1 10 none (fun _ _ => False) []
  | replaced (s : FnModel) (hp : s.model.pMap.get key = none) (level : Nat) (pm : Option PMatcher) :
      RolesAre build key (s.setRoleManager key (.rm (RM.new level pm))) level pm (fun _ _ => False) []
  | setMatcher {s level pm L O} (h : RolesAre build key s level pm L O) (pm' : Option PMatcher)
      (ls : List (Str × Str)) (hn : ls.Nodup) (hls : ∀ u r, (u, r) ∈ ls ↔ L u r) :
      RolesAre build key (s.onManager key (Mgr.onRM (RM.setMatcher · pm' (fun _ => ls)))) level pm' L (namesIn ls)
  | direct {s level pm L O} (h : RolesAre build key s level pm L O) (op : LinkOp) :
      RolesAre build key (s.onManager key (Mgr.onRM (RM.step · op))) level pm (op.links L) (op.uses O)
  | add {s level pm L O} (h : RolesAre build key s level pm L O) (u r : Str) (ds : List Str)
      (hd : ds.head? ≠ some redundantRole) :
      RolesAre build key { s with model := (s.model.addRule (key :: u :: r :: ds)).1 } level pm
        ((LinkOp.add u r).links L) ((LinkOp.add u r).uses O)
  | remove {s level pm L O} (h : RolesAre build key s level pm L O) (u r : Str) (ds : List Str)
      (hd : ds.head? ≠ some redundantRole) :
      RolesAre build key { s with model := (s.model.removeRule (key :: u :: r :: ds)).1 } level pm
        ((LinkOp.del u r).links L) ((LinkOp.del u r).uses O)
  | clear {s level pm L O} (h : RolesAre build key s level pm L O) :
      RolesAre build key { s with model := (s.model.clearPolicy key).1 } level pm (fun _ _ => False) []
  | other {s level pm L O} (h : RolesAre build key s level pm L O) (op : FnOp) (ho : op.Leaves key) :
      RolesAre build key (s.step build op) level pm L O

end FnModel

end Fastac
