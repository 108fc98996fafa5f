import Verif.Model.RoleThreads
import Verif.Model.DomainManager

/-!
# Calls of a domain manager that run at the same time (rbac/domain_manager.go)

`rmMap` is a `sync.Map` as well.  A call goes down the domain path, one access to the `rmMap` of every domain manager it
comes to, and then runs on the role manager that it has found there (Model/RoleThreads).  Managers are objects with
addresses, as two calls may well make two of them for one domain.

Left out: a domain matcher (so `patternMap` is empty and nothing is copied), and with it `redundant_role` and the name
`RoleManager` in the place of a domain; `Clear`, `SetMatcher`, `SetDomainMatcher`, which replace maps by an unprotected
write to a field; `Range` and the listing of domains.
-/

namespace Fastac

/-- The `rmMap` of a domain manager (domain_manager.go:27): the role manager under `"RoleManager"` and the domain managers
under other names (128-144), by their addresses. -/
structure DObj where
  dflt : Option Nat := none
  subs : GoMap Str Nat := []

/-- The domain managers and the role managers that were ever stored, by address.  The domain manager that is called has
address 0. -/
structure DHeap where
  dms : List DObj
  rms : List RHeap

namespace DHeap

/-- `NewDomainManager` (domain_manager.go:37-42) -/
def new : DHeap := ⟨[{}], []⟩

/-- The domain manager at an address. -/
def dm (s : DHeap) (a : Nat) : DObj := s.dms[a]?.getD {}

/-- The role manager at an address. -/
def rm (s : DHeap) (j : Nat) : RHeap := s.rms[j]?.getD RHeap.new

/-- A call of the role manager at `j` writes. -/
def updRM (s : DHeap) (j : Nat) (f : RHeap → RHeap) : DHeap := { s with rms := s.rms.modify j f }

end DHeap

/-- The steps of a call of the role manager at `j`. -/
def Thread.inRM {α : Type} (j : Nat) : Thread RHeap α → Thread DHeap α
  | .ret a => .ret a
  | .crash => .crash
  | .act f k => .act (fun s => s.updRM j f) (fun s => (k (s.rm j)).inRM j)

namespace RConf

/-- `getRoleManager` (domain_manager.go:129-158) for a domain other than the default one, of the domain manager at `a`.
If there is none, a new one is made and, if `store`, stored; `none`: it is known to this call alone. -/
def subManager (store : Bool) (a : Nat) (d : Str) : Thread DHeap (Option Nat) :=
  (Thread.read fun s => (s.dm a).subs.get d).bind fun
  | some b => .ret (some b)
  | none =>
    if store then
      .act (fun s => { s with dms := s.dms.modify a (fun o => { o with subs := o.subs.set d s.dms.length }) ++ [{}] })
        (fun s => .ret (some s.dms.length))
    else .ret none

/-- `getRoleManager` (domain_manager.go:129-158) for the default domain. -/
def dfltManager (store : Bool) (a : Nat) : Thread DHeap (Option Nat) :=
  (Thread.read fun s => (s.dm a).dflt).bind fun
  | some j => .ret (some j)
  | none =>
    if store then
      .act (fun s => { dms := s.dms.modify a (fun o => { o with dflt := some s.rms.length }), rms := s.rms ++ [RHeap.new] })
        (fun s => .ret (some s.rms.length))
    else .ret none

/-- Down the path to its role manager (domain_manager.go:162-224: every manager calls the one of the first domain with the
rest of the path). -/
def descend (store : Bool) : Nat → List Str → Thread DHeap (Option Nat)
  | a, [] => dfltManager store a
  | a, d :: ds => (subManager store a d).bind fun
    | some b => descend store b ds
    | none => .ret none

/-- The configuration of role managers below a path: every manager is made with the level of the one above less one
(domain_manager.go:135, 139). -/
def below (c : RConf) (ds : List Str) : RConf := { c with level := c.level - (ds.length + 1) }

/-- A call on a role manager that nobody else knows: it runs as if alone. -/
def private_ (c : RConf) (x : RCall) : Thread DHeap RAns :=
  match ((c.thread x).exec RHeap.new).2 with
  | some a => .ret a
  | none => .crash

/-- The argument `store` of `getRoleManager` (domain_manager.go:167, 185, 202, 212, 222) -/
def _root_.Fastac.RCall.stores : RCall → Bool
  | .add _ _ => true
  | .del _ _ => true
  | .hasLink _ _ => false
  | .getRoles _ => false
  | .getUsers _ => false

/-- `AddLink`, `DeleteLink`, `HasLink`, `GetRoles`, `GetUsers` (domain_manager.go:162-224) with a domain path. -/
def domainThread (c : RConf) (x : RCall) (ds : List Str) : Thread DHeap RAns :=
  (descend x.stores 0 ds).bind fun
  | some j => ((c.below ds).thread x).inRM j
  | none => (c.below ds).private_ x

end RConf

/-- The shared state and the calls that run, some of which may have returned. -/
structure DSystem where
  heap : DHeap
  calls : List (Thread DHeap RAns)

namespace DSystem

/-- The `i`-th call makes its next step. -/
def step (y : DSystem) (i : Nat) : DSystem :=
  match y.calls[i]? with
  | none => y
  | some t => ⟨(t.step y.heap).1, y.calls.set i (t.step y.heap).2⟩

/-- Steps in the order of a schedule. -/
def run (y : DSystem) : List Nat → DSystem
  | [] => y
  | i :: is => (y.step i).run is

/-- What the `i`-th call has returned, if it has. -/
def answer (y : DSystem) (i : Nat) : Option RAns :=
  match y.calls[i]? with
  | some (.ret a) => some a
  | _ => none

/-- Whether the `i`-th call has panicked, which ends the process. -/
def crashed (y : DSystem) (i : Nat) : Bool :=
  match y.calls[i]? with
  | some .crash => true
  | _ => false

/-- All calls have returned. -/
def Over (y : DSystem) : Prop := ∀ i, i < y.calls.length → (y.answer i).isSome = true

end DSystem

end Fastac
