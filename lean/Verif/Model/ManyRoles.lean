import Verif.Model.RoleRequests
import Verif.Model.DomainThreads

/-!
# Requests that ask the managers of several role definitions, at the same time

A model may have any number of role definitions.  One with two arguments has a role manager, one with more a domain manager
(model/handlers.go:38-51), and for each there is a function that the matchers can call (rbac/role_manager_api.go:53-71).
Model/RoleRequests has one role manager; here a request may ask all of them, with domains, and calls of them run next to
it.

Simplified as in Model/RoleThreads and Model/DomainThreads: no domain matcher, `eval` is not used, and the domain
`redundant_role` given to a role manager without domains, which would hide a link from `Range`, is ignored like any other.
-/

namespace Fastac

/-- A call on a part of the state: `get` finds the part, `upd` writes to it. -/
def Thread.within {S T α : Type} (get : S → T) (upd : S → (T → T) → S) : Thread T α → Thread S α
  | .ret a => .ret a
  | .crash => .crash
  | .act f k => .act (fun s => upd s f) (fun s => (k (get s)).within get upd)

/-- The managers of a role definition: the first is used if it has two arguments, the second otherwise. -/
structure GObj where
  roles : RHeap := RHeap.new
  doms : DHeap := DHeap.new

/-- The managers of all role definitions, by number. -/
abbrev GHeap := List GObj

/-- A role definition: whether it has domains (handlers.go:42-46), and what does not change of its manager. -/
structure GDefn where
  domains : Bool
  conf : RConf

namespace GHeap

/-- The managers of the definition `i`. -/
def obj (s : GHeap) (i : Nat) : GObj := s[i]?.getD {}

def updRoles (s : GHeap) (i : Nat) (f : RHeap → RHeap) : GHeap := s.modify i fun o => { o with roles := f o.roles }

def updDoms (s : GHeap) (i : Nat) (f : DHeap → DHeap) : GHeap := s.modify i fun o => { o with doms := f o.doms }

/-- `addRoleDef` (handlers.go:38-51) for every definition -/
def new (D : List GDefn) : GHeap := D.map fun _ => {}

end GHeap

/-- A call of the role manager of the definition `i`. -/
def Thread.inRoles {α : Type} (i : Nat) (t : Thread RHeap α) : Thread GHeap α :=
  t.within (fun s => (s.obj i).roles) (fun s f => s.updRoles i f)

/-- A call of the domain manager of the definition `i`. -/
def Thread.inDoms {α : Type} (i : Nat) (t : Thread DHeap α) : Thread GHeap α :=
  t.within (fun s => (s.obj i).doms) (fun s f => s.updDoms i f)

/-- A call of a manager: the number of its definition, the call, and the domains. -/
structure GCall where
  defn : Nat
  call : RCall
  path : List Str

/-- The call of the manager of the definition `i`; a role manager ignores the domains (role_manager.go:162-231). -/
def GDefn.thread (d : GDefn) (i : Nat) (x : RCall) (ds : List Str) : Thread GHeap RAns :=
  if d.domains then (d.conf.domainThread x ds).inDoms i else (d.conf.thread x).inRoles i

/-- The call next to others; without the definition `GetRoleManager` panics (model.go:329-332). -/
def GCall.thread (D : List GDefn) (x : GCall) : Thread GHeap RAns :=
  match D[x.defn]? with
  | some d => d.thread x.defn x.call x.path
  | none => .crash

/-- A call of the function of a role definition in a matcher: `g(user, role, path...)`. -/
structure GAsk where
  defn : Nat
  user : Str
  role : Str
  path : List Str

def RAns.yes : RAns → Bool
  | .bool b => b
  | .names _ => false

/-- `GenerateGFunction` (rbac/role_manager_api.go:53-71): `HasLink` of the manager, or whether the names are equal if there is
none. -/
def GAsk.thread (D : List GDefn) (q : GAsk) : Thread GHeap Bool :=
  match D[q.defn]? with
  | some d => (d.thread q.defn (.hasLink q.user q.role) q.path).bind fun a => .ret a.yes
  | none => .ret (q.user == q.role)

/-- The computation with the managers in the place of the functions. -/
def Asks.among {α : Type} (D : List GDefn) : Asks GAsk α → Thread GHeap α
  | .done a => .ret a
  | .ask q k => (q.thread D).bind fun b => (k b).among D

/-- A request, as `RoleRequest`. -/
structure GRequest where
  matcher : Matcher
  pDef : PolicyDef
  E : AskEvaluator GAsk
  ord : Order
  expr : Str

/-- `Enforce` (enforcer.go:311-344) with its calls of the functions for roles. -/
def GRequest.asks (q : GRequest) : Asks GAsk (Res Bool) := enforceA q.matcher q.pDef q.E q.ord q.expr

/-- The decision of `Enforce` (Model/Enforce) with a function for the calls. -/
def GRequest.decision (q : GRequest) (g : GAsk → Bool) : Res Bool :=
  enforce q.matcher q.pDef (q.E.under g) q.ord q.expr

/-- A shared state and the calls that run, some of which may have returned. -/
structure Crowd (S α : Type) where
  heap : S
  calls : List (Thread S α)

namespace Crowd

variable {S α : Type}

/-- The `i`-th call makes its next step. -/
def step (y : Crowd S α) (i : Nat) : Crowd S α :=
  match y.calls[i]? with
  | none => y
  | some t => ⟨(t.step y.heap).1, y.calls.set i (t.step y.heap).2⟩

/-- Steps in the order of a schedule. -/
def run (y : Crowd S α) : List Nat → Crowd S α
  | [] => y
  | i :: is => (y.step i).run is

/-- What the `i`-th call has returned, if it has. -/
def answer (y : Crowd S α) (i : Nat) : Option α :=
  match y.calls[i]? with
  | some (.ret a) => some a
  | _ => none

/-- Whether the `i`-th call has panicked, which ends the process. -/
def crashed (y : Crowd S α) (i : Nat) : Bool :=
  match y.calls[i]? with
  | some .crash => true
  | _ => false

/-- All calls have returned. -/
def Over (y : Crowd S α) : Prop := ∀ i, i < y.calls.length → (y.answer i).isSome = true

end Crowd

end Fastac
