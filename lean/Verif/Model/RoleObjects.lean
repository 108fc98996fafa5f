import Verif.Model.RoleThreads

/-!
# Role managers with pointers, one call after the other (rbac/role.go, rbac/role_manager.go)

All calls of a role manager on roles that are objects with addresses, where Model/RoleManager has names in their place, and
with maps that are ranged over in any order, where Model/RoleManager has lists.  The calls of Model/RoleThreads are used for
what they do alone.

Simplified: within one call a map with certain entries is always ranged over in the same order; `rebuild` reads all links
before it adds the first one.  (The links are in maps that `Clear` has put aside and in roles that `AddLink` does not
change.)
-/

namespace Fastac

namespace RConf

variable (c : RConf)

/-- `AddLink` (role_manager.go:163-172) with the argument `domains` -/
def addLinkD (u r : Str) (ds : List Str) : Thread RHeap Bool :=
  (c.getRole u).bind fun x =>
  (c.getRole r).bind fun y =>
  (if ds.head? = some redundantRole then
    Thread.write fun s => s.upd x.1 fun o => { o with redundant := sins o.redundant r } else .ret ()).bind fun _ =>
  (Thread.read fun s => (s.role x.1).roles.has r).bind fun
  | true => .ret false
  | false =>
    (Thread.write fun s => s.upd x.1 fun o => { o with roles := o.roles.set r y.1 }).bind fun _ =>
    (Thread.write fun s => s.upd y.1 fun o => { o with users := o.users.set u x.1 }).bind fun _ =>
    .ret true

/-- `DeleteLink` (role_manager.go:176-185) with the argument `domains` -/
def deleteLinkD (u r : Str) (ds : List Str) : Thread RHeap Bool :=
  (c.getRole u).bind fun x =>
  (c.getRole r).bind fun y =>
  (if ds.head? = some redundantRole then
    Thread.write fun s => s.upd x.1 fun o => { o with redundant := sdel o.redundant r } else .ret ()).bind fun _ =>
  (Thread.read fun s => (s.role x.1).roles.has r).bind fun
  | false => .ret false
  | true =>
    (Thread.write fun s => s.upd x.1 fun o => { o with roles := o.roles.del r }).bind fun _ =>
    (Thread.write fun s => s.upd y.1 fun o => { o with users := o.users.del u }).bind fun _ =>
    .ret true

/-- `rangeLinks` (role_manager.go:254-266) and `Range` (268-270) with a callback that always goes on -/
def range : Thread RHeap (List (Str × Str)) :=
  Thread.read fun s => (c.ord s.all).flatMap fun e =>
    ((c.ord (s.role e.2).roles).filter fun l => l.1 ∉ (s.role e.2).redundant).map fun l => ((s.role e.2).name, l.1)

/-- `Clear` (role_manager.go:154-159) -/
def clear : Thread RHeap Unit := Thread.write fun s => { s with all := [], patterns := [] }

/-- `rebuild` (role_manager.go:53-60), when the new matcher is set -/
def rebuild : Thread RHeap Unit :=
  c.range.bind fun ls =>
  clear.bind fun _ =>
  Thread.each (fun l : Str × Str => (c.addLinkD l.1 l.2 []).bind fun _ => .ret ()) ls

end RConf

/-- A call of a role manager. -/
inductive RoleOp where
  | add (u r : Str) (ds : List Str)
  | del (u r : Str) (ds : List Str)
  | hasLink (u r : Str)
  | getRoles (n : Str)
  | getUsers (n : Str)
  | range
  | clear
  | setMatcher (m : Option PMatcher)

/-- What it returns. -/
inductive RoleAns where
  | bool (b : Bool)
  | names (ns : List Str)
  | links (ls : List (Str × Str))
  | done
deriving DecidableEq

/-- `RoleManager` (role_manager.go:27-34): the maps with their roles, `maxHierarchyLevel` and the matcher. -/
structure HeapRM where
  heap : RHeap
  level : Nat
  matcher : Option PMatcher

/-- `newRoleManagerWithMatchingFunc` (role_manager.go:46-50) -/
def HeapRM.new (level : Nat) (m : Option PMatcher) : HeapRM := ⟨RHeap.new, level, m⟩

/-- A call, in which maps are ranged over in the order `ord`; the answer is `none` if it panics. -/
def HeapRM.call (y : HeapRM) (ord : GoMap Str Nat → GoMap Str Nat) (x : RoleOp) : HeapRM × Option RoleAns :=
  match x with
  | .setMatcher m =>
    let r := (RConf.mk y.level m ord).rebuild.exec y.heap
    (⟨r.1, y.level, m⟩, r.2.map fun _ => .done)
  | x =>
    let c : RConf := ⟨y.level, y.matcher, ord⟩
    let t : Thread RHeap RoleAns :=
      match x with
      | .add u r ds => (c.addLinkD u r ds).bind fun b => .ret (.bool b)
      | .del u r ds => (c.deleteLinkD u r ds).bind fun b => .ret (.bool b)
      | .hasLink u r => (c.hasLink u r).bind fun b => .ret (.bool b)
      | .getRoles n => (c.getRoles n).bind fun ns => .ret (.names ns)
      | .getUsers n => (c.getUsers n).bind fun ns => .ret (.names ns)
      | .range => c.range.bind fun ls => .ret (.links ls)
      | _ => RConf.clear.bind fun _ => .ret .done
    ({ y with heap := (t.exec y.heap).1 }, (t.exec y.heap).2)

/-- Calls one after the other, each with the order in which it ranges over maps: the answers. -/
def HeapRM.run (y : HeapRM) : List ((GoMap Str Nat → GoMap Str Nat) × RoleOp) → HeapRM × List (Option RoleAns)
  | [] => (y, [])
  | (ord, x) :: xs =>
    let r := y.call ord x
    let q := r.1.run xs
    (q.1, r.2 :: q.2)

end Fastac
