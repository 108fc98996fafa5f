import Verif.Model.Defs

/-!
# The getters and setters of a model (`model/model.go`, `model/handlers.go`)

Only which object is found under which key is modelled here: an object is known by the call that created it or, if
the caller handed it over, by a number the caller gave it.  What the objects do is in the other files.  Calls that
do not change the maps of a model (`AddRule`, `RemoveRule`, `ClearPolicy`, `RangeRules`, requests) are left out, and so
are the functions (Model/Functions.lean).  `LoadModel` and `BuildMatchers` are sequences of `SetDef` and `BuildMatcher`.
-/

namespace Fastac

/-- A Go pointer or interface value: created by the library in the call with this number, handed over by the caller, or
nil (handed over as well). -/
inductive Thing where
  | made (call : Nat)
  | given (x : Nat)
  | nil
deriving DecidableEq, Repr

/-- A definition (`defs.IDef`, model/defs/defs.go): the pointer, and what `SetDef` was given.  Of a definition made by
the caller (`SetRequestDef`) only the pointer matters. -/
structure DefThing where
  ptr : Thing
  text : Option (Str × Str)
deriving DecidableEq, Repr

/-- A role manager: the pointer, and its type: `domains` is true for a manager made by `NewDomainManager`, false for one
made by `NewRoleManager`, `none` for one that the caller handed over. -/
structure MgrThing where
  ptr : Thing
  domains : Option Bool
deriving DecidableEq, Repr

/-- A role policy (`*rbac.RolePolicy`, role_policy.go:8-11), always created by the library, and its role manager. -/
structure RoleThing where
  ptr : Nat
  mgr : MgrThing
deriving DecidableEq, Repr

/-- The maps of a `Model` (model.go:72-86).  `m.defs[sec][key]` is one map with the pair as key: the inner maps of the
five sections always exist (model.go:101-105), a lookup in another section finds nothing.  `calls` numbers the calls. -/
structure Shelf where
  defs : GoMap (Char × Str) DefThing
  pMap : GoMap Str Thing
  rpMap : GoMap Str RoleThing
  mMap : GoMap Str Thing
  eMap : GoMap Str Thing
  calls : Nat

/-- `NewModel` (model.go:88-110). -/
def Shelf.new : Shelf := ⟨[], [], [], [], [], 0⟩

/-- The interface value that `GetPolicy` returns: an entry of `pMap`, or a `*RolePolicy`, which is a nil pointer in a
non-nil interface if there is none. -/
inductive PolicyFace where
  | plain (x : Thing)
  | role (p : Option Nat)
deriving DecidableEq, Repr

namespace Shelf

/-- `GetDef` (model.go:180-183); `none` is `nil, false`. -/
def getDef (s : Shelf) (sec : Char) (key : Str) : Option DefThing := s.defs.get (sec, key)

/-- `GetPolicy` (model.go:316-322): the variable of the interface type takes the value found in `rpMap`, which is a nil
pointer when nothing is found. -/
def getPolicy (s : Shelf) (key : Str) : PolicyFace × Bool :=
  match s.pMap.get key with
  | some x => (.plain x, true)
  | none => (.role ((s.rpMap.get key).map RoleThing.ptr), (s.rpMap.get key).isSome)

/-- `GetRoleManager` (model.go:328-331): `rp.GetRoleManager()` (role_policy.go:51-53) is evaluated whether or not there is
a role policy, and dereferences it. -/
def getRoleManager (s : Shelf) (key : Str) : Res (MgrThing × Bool) :=
  match s.rpMap.get key with
  | some rp => .ok (rp.mgr, true)
  | none => .panic

/-- `GetMatcher` (model.go:338-341); `none` is `nil, false`. -/
def getMatcher (s : Shelf) (key : Str) : Option Thing := s.mMap.get key

/-- `GetRequestDef` (model.go:347-350): the type assertion of a nil interface panics. -/
def getRequestDef (s : Shelf) (key : Str) : Res (Thing × Bool) :=
  match s.defs.get ('r', key) with
  | some d => .ok (d.ptr, true)
  | none => .panic

/-- `GetEffector` (model.go:356-359); `none` is `nil, false`. -/
def getEffector (s : Shelf) (key : Str) : Option Thing := s.eMap.get key

end Shelf

/-- A call of a model that changes its maps. -/
inductive ShelfCall where
  /-- `SetDef` (model.go:166-178) -/
  | setDef (sec : Char) (key value : Str)
  /-- `RemoveDef` (model.go:185-194) -/
  | removeDef (sec : Char) (key : Str)
  /-- `SetPolicy` (model.go:324-326) -/
  | setPolicy (key : Str) (x : Thing)
  /-- `SetRoleManager` (model.go:333-336) -/
  | setRoleManager (key : Str) (x : Thing)
  /-- `SetMatcher` (model.go:343-345) -/
  | setMatcher (key : Str) (x : Thing)
  /-- `SetRequestDef` (model.go:352-354) -/
  | setRequestDef (key : Str) (x : Thing)
  /-- `SetEffector` (model.go:361-363) -/
  | setEffector (key : Str) (x : Thing)
  /-- `BuildMatcher` (model.go:205-218); `pKey` is the policy that the definition, compiled at that moment, is about, or
  `none` if it does not compile -/
  | buildMatcher (key : Str) (pKey : Option Str)
deriving DecidableEq, Repr

namespace Shelf

/-- The handlers of `SetDef` (handlers.go:10-15, 23-27, 35-48, 57-60, 67-72), `n` being the number of the call. -/
def define (s : Shelf) (n : Nat) (sec : Char) (key value : Str) : Shelf :=
  let s' : Shelf := { s with defs := s.defs.set (sec, key) ⟨.made n, some (key, value)⟩ }
  if sec = 'p' then { s' with pMap := s.pMap.set key (.made n) }
  else if sec = 'g' then
    { s' with rpMap := s.rpMap.set key ⟨n, ⟨.made n, some (roleDefNArgs value ≠ 2)⟩⟩ }
  else if sec = 'e' then { s' with eMap := s.eMap.set key (.made n) }
  else s'

/-- The handlers of `RemoveDef` (handlers.go:17-21, 29-33, 50-55, 62-65, 74-78). -/
def undefine (s : Shelf) (sec : Char) (key : Str) : Shelf :=
  let s' : Shelf := { s with defs := s.defs.del (sec, key) }
  if sec = 'p' then { s' with pMap := s.pMap.del key }
  else if sec = 'g' then { s' with rpMap := s.rpMap.del key }
  else if sec = 'e' then { s' with eMap := s.eMap.del key }
  else if sec = 'm' then { s' with mMap := s.mMap.del key }
  else s'

/-- The sections (model.go:64-70). -/
def isSection (sec : Char) : Bool := sec = 'r' ∨ sec = 'p' ∨ sec = 'g' ∨ sec = 'e' ∨ sec = 'm'

/-- Whether `BuildMatcherFromDef` (model.go:220-246) finds the definition and the policy it needs. -/
def findsPolicy (s : Shelf) (pKey : Str) : Res Unit :=
  match pKey with
  | [] => .panic
  | c :: _ =>
    if c = 'p' then
      if (s.getDef 'p' pKey).isNone then .err
      else if (s.getPolicy pKey).2 then .ok () else .err
    else if c = 'g' then
      if (s.getPolicy pKey).2 then .ok () else .err
    else .err

/-- One call: the maps afterwards, and what is returned. -/
def call (s : Shelf) : ShelfCall → Shelf × Res Unit
  | .setDef sec key value =>
    if isSection sec then
      match key with
      | [] => (s, .panic)
      | c :: _ => if c = sec then (s.define s.calls sec key value, .ok ()) else (s, .err)
    else (s, .err)
  | .removeDef sec key => if isSection sec then (s.undefine sec key, .ok ()) else (s, .err)
  | .setPolicy key x => ({ s with pMap := s.pMap.set key x }, .ok ())
  | .setRoleManager key x => ({ s with rpMap := s.rpMap.set key ⟨s.calls, ⟨x, none⟩⟩ }, .ok ())
  | .setMatcher key x => ({ s with mMap := s.mMap.set key x }, .ok ())
  | .setRequestDef key x => ({ s with defs := s.defs.set ('r', key) ⟨x, none⟩ }, .ok ())
  | .setEffector key x => ({ s with eMap := s.eMap.set key x }, .ok ())
  | .buildMatcher key pKey =>
    if (s.getDef 'm' key).isNone then (s, .err)
    else
      match pKey with
      | none => (s, .err)
      | some k =>
        match s.findsPolicy k with
        | .ok _ => ({ s with mMap := s.mMap.set key (.made s.calls) }, .ok ())
        | .err => (s, .err)
        | .panic => (s, .panic)

/-- One call, and the numbering. -/
def step (s : Shelf) (c : ShelfCall) : Shelf := { (s.call c).1 with calls := s.calls + 1 }

/-- The maps after these calls of a new model. -/
def after (h : List ShelfCall) : Shelf := h.foldl step new

end Shelf

end Fastac
