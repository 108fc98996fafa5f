import Verif.Model.RoleManager

/-!
# Calls of a role manager that run at the same time (rbac/role.go, rbac/role_manager.go)

The maps of roles and of role managers are `sync.Map`s, so that calls of several goroutines may meet in them.  Here a call
is a program whose steps are the single accesses to these maps; everything between two steps is local to the call.  Roles
are objects with addresses: the map `allRoles` leads from a name to an address, and two calls may well make two objects
for one name.

Simplified: `Range` of a `sync.Map` sees the entries that are there at one moment, in any order.  (Go promises less if
there are writes while it runs; where the theorems need it, there are none to the maps that are ranged over.)  A match is
computed in no time, without the cache (C54, C55, C115).  Left out: `Clear` and `SetMatcher`, which replace the maps by an
unprotected write to a field, and the argument `domains`, with which a domain manager marks copied links.
-/

namespace Fastac

/-- A call that runs next to others: `ret` it has returned, `crash` it has panicked, `act f k` its next access to the
shared state `s` makes it `f s`, after which it goes on as `k s`. -/
inductive Thread (S α : Type) where
  | ret (a : α)
  | crash
  | act (f : S → S) (k : S → Thread S α)

namespace Thread

variable {S α β : Type}

/-- Sequential composition. -/
def bind : Thread S α → (α → Thread S β) → Thread S β
  | .ret a, g => g a
  | .crash, _ => .crash
  | .act f k, g => .act f (fun s => (k s).bind g)

/-- An access that only reads. -/
def read (g : S → α) : Thread S α := .act id (fun s => .ret (g s))

/-- An access that writes. -/
def write (f : S → S) : Thread S Unit := .act f (fun _ => .ret ())

/-- The body for every element, one after the other. -/
def each (body : β → Thread S Unit) : List β → Thread S Unit
  | [] => .ret ()
  | x :: xs => (body x).bind fun _ => each body xs

/-- The results of the body for every element, one behind the other. -/
def collect (body : β → Thread S (List α)) : List β → Thread S (List α)
  | [] => .ret []
  | x :: xs => (body x).bind fun ys => (collect body xs).bind fun zs => .ret (ys ++ zs)

/-- The call runs alone; `none` if it panics. -/
def exec : Thread S α → S → S × Option α
  | .ret a, s => (s, some a)
  | .crash, s => (s, none)
  | .act f k, s => (k s).exec (f s)

/-- The next step of the call. -/
def step : Thread S α → S → S × Thread S α
  | .ret a, s => (s, .ret a)
  | .crash, s => (s, .crash)
  | .act f k, s => (f s, k s)

end Thread

/-- `Role` (role.go:23-30); the other roles by their addresses. -/
structure RObj where
  name : Str
  roles : GoMap Str Nat := []
  users : GoMap Str Nat := []
  matched : GoMap Str Nat := []
  matchedBy : GoMap Str Nat := []
  redundant : List Str := []

/-- The roles that were ever made, by address, and the maps `allRoles` and `patternRoles` (role_manager.go:27-29). -/
structure RHeap where
  objs : List RObj
  all : GoMap Str Nat
  patterns : List Str

/-- What does not change: `maxHierarchyLevel`, the matcher (role_manager.go:30-31), and the order in which maps are
ranged over. -/
structure RConf where
  level : Nat
  matcher : Option PMatcher
  ord : GoMap Str Nat → GoMap Str Nat

namespace RHeap

/-- `NewRoleManager` (role_manager.go:38-43) -/
def new : RHeap := ⟨[], [], []⟩

/-- The role at an address. -/
def role (s : RHeap) (a : Nat) : RObj := s.objs[a]?.getD { name := [] }

/-- Writing to the role at an address. -/
def upd (s : RHeap) (a : Nat) (g : RObj → RObj) : RHeap := { s with objs := s.objs.modify a g }

end RHeap

namespace RConf

variable (c : RConf)

/-- `rm.matcher != nil && rm.match(str, pattern)` (role_manager.go:62-71, 189, 213) -/
def «matches» (str pattern : Str) : Bool :=
  match c.matcher with
  | none => false
  | some m => m.match str pattern

/-- The order of a map without values. -/
def ordSet (ps : List Str) : List Str := (c.ord (ps.map fun p => (p, 0))).map Prod.fst

/-- `Role.addMatch` (role.go:76-79): the name `pn` at `p`, `rn` at `r` -/
def addMatch (pn : Str) (p : Nat) (rn : Str) (r : Nat) : Thread RHeap Unit :=
  (Thread.write fun s => s.upd p fun o => { o with matched := o.matched.set rn r }).bind fun _ =>
  Thread.write fun s => s.upd r fun o => { o with matchedBy := o.matchedBy.set pn p }

/-- `Role.removeMatch` (role.go:81-84) -/
def removeMatch (pn : Str) (p : Nat) (rn : Str) (r : Nat) : Thread RHeap Unit :=
  (Thread.write fun s => s.upd p fun o => { o with matched := o.matched.del rn }).bind fun _ =>
  Thread.write fun s => s.upd r fun o => { o with matchedBy := o.matchedBy.del pn }

/-- `newRole` and `allRoles.Store` (role_manager.go:106-107): the address of the new role.  (The role is known to nobody
before it is stored.) -/
def create (n : Str) : Thread RHeap Nat :=
  .act (fun s => { s with objs := s.objs ++ [{ name := n }], all := s.all.set n s.objs.length })
    (fun s => .ret s.objs.length)

/-- `getRole` (role_manager.go:102-125) with `rangeMatchingRoles` and `rangeMatchingPatterns` (73-92).  A pattern that is
no longer in `allRoles` is a nil interface, whose conversion panics (line 88). -/
def getRole (n : Str) : Thread RHeap (Nat × Bool) :=
  (Thread.read fun s => s.all.get n).bind fun
  | some a => .ret (a, false)
  | none =>
    (create n).bind fun a =>
    match c.matcher with
    | none => .ret (a, true)
    | some m =>
      if m.isPattern n then
        (Thread.write fun s => { s with patterns := sins s.patterns n }).bind fun _ =>
        (Thread.read fun s => c.ord s.all).bind fun es =>
        (Thread.each (fun e => addMatch n a e.1 e.2) (es.filter fun e => n ≠ e.1 && m.match e.1 n)).bind fun _ =>
        .ret (a, true)
      else
        (Thread.read fun s => c.ordSet s.patterns).bind fun ps =>
        (Thread.each (fun p =>
            (Thread.read fun s => s.all.get p).bind fun
            | none => .crash
            | some b => addMatch p b n a)
          (ps.filter fun p => p ≠ n && m.match n p)).bind fun _ =>
        .ret (a, true)

/-- `Role.removeMatches` (role.go:86-95) -/
def removeMatches (n : Str) (a : Nat) : Thread RHeap Unit :=
  (Thread.read fun s => c.ord (s.role a).matched).bind fun es =>
  (Thread.each (fun e => removeMatch n a e.1 e.2) es).bind fun _ =>
  (Thread.read fun s => c.ord (s.role a).matchedBy).bind fun es =>
  Thread.each (fun e => removeMatch e.1 e.2 n a) es

/-- `removeRole` (role_manager.go:135-140) after `Load` in `loadAndDelete` (127-133) -/
def removeLoaded (n : Str) : Option Nat → Thread RHeap Unit
  | none => .ret ()
  | some a =>
    (Thread.write fun s => { s with all := s.all.del n }).bind fun _ => c.removeMatches n a

/-- `removeRole` (role_manager.go:135-140) -/
def removeRole (n : Str) : Thread RHeap Unit :=
  (Thread.read fun s => s.all.get n).bind fun x =>
  (c.removeLoaded n x).bind fun _ =>
  Thread.write fun s => { s with patterns := sdel s.patterns n }

/-- `AddLink` (role_manager.go:163-172) with `Role.addRole` (role.go:43-55, 67-69) -/
def addLink (u r : Str) : Thread RHeap Bool :=
  (c.getRole u).bind fun x =>
  (c.getRole r).bind fun y =>
  (Thread.read fun s => (s.role x.1).roles.has r).bind fun
  | true => .ret false
  | false =>
    (Thread.write fun s => s.upd x.1 fun o => { o with roles := o.roles.set r y.1 }).bind fun _ =>
    (Thread.write fun s => s.upd y.1 fun o => { o with users := o.users.set u x.1 }).bind fun _ =>
    .ret true

/-- `DeleteLink` (role_manager.go:176-185) with `Role.removeRole` (role.go:57-64, 72-74) -/
def deleteLink (u r : Str) : Thread RHeap Bool :=
  (c.getRole u).bind fun x =>
  (c.getRole r).bind fun y =>
  (Thread.read fun s => (s.role x.1).roles.has r).bind fun
  | false => .ret false
  | true =>
    (Thread.write fun s => s.upd x.1 fun o => { o with roles := o.roles.del r }).bind fun _ =>
    (Thread.write fun s => s.upd y.1 fun o => { o with users := o.users.del u }).bind fun _ =>
    .ret true

/-- `Role.rangeRoles` (role.go:97-109) with a callback that always goes on: what it is called with -/
def rangeRoles (a : Nat) : Thread RHeap (List (Str × Nat)) :=
  (Thread.read fun s => c.ord (s.role a).roles).bind fun r1 =>
  (Thread.read fun s => c.ord (s.role a).roles).bind fun r2 =>
  (Thread.collect (fun e => Thread.read fun s => c.ord (s.role e.2).matched) r2).bind fun ms =>
  (Thread.read fun s => c.ord (s.role a).matchedBy).bind fun bs =>
  (Thread.collect (fun e => Thread.read fun s => c.ord (s.role e.2).roles) bs).bind fun rs =>
  .ret (r1 ++ ms ++ rs)

/-- `Role.rangeUsers` (role.go:111-123) -/
def rangeUsers (a : Nat) : Thread RHeap (List (Str × Nat)) :=
  (Thread.read fun s => c.ord (s.role a).users).bind fun r1 =>
  (Thread.read fun s => c.ord (s.role a).users).bind fun r2 =>
  (Thread.collect (fun e => Thread.read fun s => c.ord (s.role e.2).matched) r2).bind fun ms =>
  (Thread.read fun s => c.ord (s.role a).matchedBy).bind fun bs =>
  (Thread.collect (fun e => Thread.read fun s => c.ord (s.role e.2).users) bs).bind fun rs =>
  .ret (r1 ++ ms ++ rs)

/-- The loop of `hasLinkHelper` (role_manager.go:212-220): `none` if the target was found, or `nextRoles`. -/
def visit (target : Str) : List (Str × Nat) → GoMap Str Nat → Thread RHeap (Option (GoMap Str Nat))
  | [], next => .ret (some next)
  | (n, a) :: es, next =>
    if target = n ∨ c.matches n target = true then .ret none
    else (c.rangeRoles a).bind fun xs => visit target es (xs.foldl (fun m e => m.set e.1 e.2) next)

/-- `hasLinkHelper` (role_manager.go:206-223) -/
def helper (target : Str) : Nat → GoMap Str Nat → Thread RHeap Bool
  | 0, _ => .ret false
  | level + 1, roles =>
    if roles.isEmpty then .ret false
    else (c.visit target (c.ord roles) []).bind fun
      | none => .ret true
      | some next => helper target level next

/-- A deferred `removeRole` (role_manager.go:196-201, 228-230, 238-240) -/
def removeIf (b : Bool) (n : Str) : Thread RHeap Unit := if b then c.removeRole n else .ret ()

/-- `HasLink` (role_manager.go:188-204); the deferred calls run in reverse order. -/
def hasLink (u r : Str) : Thread RHeap Bool :=
  if u = r ∨ c.matches u r = true then .ret true
  else
    (c.getRole u).bind fun x =>
    (c.getRole r).bind fun y =>
    (c.helper r c.level [(u, x.1)]).bind fun b =>
    (c.removeIf y.2 r).bind fun _ =>
    (c.removeIf x.2 u).bind fun _ =>
    .ret b

/-- `GetRoles` (role_manager.go:226-232) with `Role.getRoles` (role.go:155-162) -/
def getRoles (n : Str) : Thread RHeap (List Str) :=
  (c.getRole n).bind fun x =>
  (c.rangeRoles x.1).bind fun es =>
  (c.removeIf x.2 n).bind fun _ =>
  .ret (es.map Prod.fst)

/-- `GetUsers` (role_manager.go:236-242) with `Role.getUsers` (role.go:164-171) -/
def getUsers (n : Str) : Thread RHeap (List Str) :=
  (c.getRole n).bind fun x =>
  (c.rangeUsers x.1).bind fun es =>
  (c.removeIf x.2 n).bind fun _ =>
  .ret (es.map Prod.fst)

end RConf

/-- A call of a role manager, without `Clear`. -/
inductive RCall where
  | add (u r : Str)
  | del (u r : Str)
  | hasLink (u r : Str)
  | getRoles (n : Str)
  | getUsers (n : Str)
deriving DecidableEq

/-- What it returns. -/
inductive RAns where
  | bool (b : Bool)
  | names (ns : List Str)
deriving DecidableEq

/-- The program of a call. -/
def RConf.thread (c : RConf) : RCall → Thread RHeap RAns
  | .add u r => (c.addLink u r).bind fun b => .ret (.bool b)
  | .del u r => (c.deleteLink u r).bind fun b => .ret (.bool b)
  | .hasLink u r => (c.hasLink u r).bind fun b => .ret (.bool b)
  | .getRoles n => (c.getRoles n).bind fun ns => .ret (.names ns)
  | .getUsers n => (c.getUsers n).bind fun ns => .ret (.names ns)

/-- The shared state and the calls that run, some of which may have returned. -/
structure RSystem (α : Type) where
  heap : RHeap
  calls : List (Thread RHeap α)

namespace RSystem

variable {α : Type}

/-- The `i`-th call makes its next step. -/
def step (y : RSystem α) (i : Nat) : RSystem α :=
  match y.calls[i]? with
  | none => y
  | some t => ⟨(t.step y.heap).1, y.calls.set i (t.step y.heap).2⟩

/-- Steps in the order of a schedule. -/
def run (y : RSystem α) : List Nat → RSystem α
  | [] => y
  | i :: is => (y.step i).run is

/-- What the `i`-th call has returned, if it has. -/
def answer (y : RSystem α) (i : Nat) : Option α :=
  match y.calls[i]? with
  | some (.ret a) => some a
  | _ => none

/-- Whether the `i`-th call has panicked, which ends the process. -/
def crashed (y : RSystem α) (i : Nat) : Bool :=
  match y.calls[i]? with
  | some .crash => true
  | _ => false

/-- All calls have returned. -/
def Over (y : RSystem α) : Prop := ∀ i, i < y.calls.length → (y.answer i).isSome = true

end RSystem

/-- The calls one after the other. -/
def RConf.after (c : RConf) (h : RHeap) : List RCall → RHeap
  | [] => h
  | x :: xs => c.after ((c.thread x).exec h).1 xs

end Fastac
