import Verif.Model.Cache

/-!
# Match questions asked at the same time (util/cache.go:82-104, role_manager.go:62-71, domain_manager.go:89-98)

`HasLink` takes no lock of the manager, so any number of goroutines may ask for matches at the same time; they meet in the
cache in front of the matcher.  `SyncLRUCache.Get` holds the read lock while it moves a node to the head of the list, so
that the pointer assignments of several `Get`s mix.  `SyncLRUCache.Put` holds the write lock: no other call is in `Get` or
`Put` then.

A step of a call of `match` is the lookup in the map of the cache, one pointer assignment (`Micro`), reading the value, or
a whole `Put`.  Simplified: the reads of one assignment happen together with its write; Go's memory model is left out (the
assignments are data races).  `Clear` and `SetMatcher`, which make a new cache, do not run at the same time.
-/

namespace Fastac

/-- How far a call of `match(str, pattern)` has come. -/
inductive MatchCall where
  /-- it has not asked the cache yet -/
  | asking (str pattern : Str)
  /-- `Get` has found node `n`, holds the read lock, and has these assignments of `moveToHead` left; `loc` is `headNext` -/
  | moving (str pattern : Str) (n : Nat) (loc : Option Nat) (todo : List Micro)
  /-- `Get` has found nothing; the matcher has been asked, and `Put` waits for the write lock -/
  | missed (str pattern : Str)
  | done (b : Bool)
  | crashed
deriving DecidableEq, Repr

/-- The call holds the read lock. -/
def MatchCall.reading : MatchCall → Bool
  | .moving .. => true
  | _ => false

/-- The cache and all calls. -/
structure MatchWorld where
  cache : LRU Str Bool
  calls : List MatchCall

namespace MatchWorld

/-- A new cache (cache.go:88-92, role_manager.go:149) and the calls that will be made. -/
def start (cap : Nat) (qs : List (Str × Str)) : MatchWorld := ⟨LRU.new cap, qs.map fun q => .asking q.1 q.2⟩

/-- Call `i` has come here. -/
def goes (w : MatchWorld) (i : Nat) (c : MatchCall) : MatchWorld := { w with calls := w.calls.set i c }

/-- The next step of call `i`, with `matcher.Match = f`: the lookup (cache.go:61), an assignment (cache.go:40-41, 48-52),
reading the value with the type assertion of `match` (cache.go:64, role_manager.go:65), and `Put` (cache.go:70-81, 100-104),
which waits while others hold the read lock.  The locks are released if there is a panic (`defer`, cache.go:97, 103); what
`Put` has done before its panic is left out. -/
def step (f : Str → Str → Bool) (w : MatchWorld) (i : Nat) : MatchWorld :=
  match w.calls[i]? with
  | some (.asking s p) =>
    match w.cache.m.get (cacheKey s p) with
    | some n => w.goes i (.moving s p n none (removeMicros ++ addMicros))
    | none => w.goes i (.missed s p)
  | some (.moving s p n loc (mi :: rest)) =>
    match mi.exec w.cache.heap n loc with
    | .ok (h, loc') => { w with cache := { w.cache with heap := h } }.goes i (.moving s p n loc' rest)
    | _ => w.goes i .crashed
  | some (.moving _ _ n _ []) =>
    match (w.cache.heap n).value with
    | some b => w.goes i (.done b)
    | none => w.goes i .crashed
  | some (.missed s p) =>
    if w.calls.any MatchCall.reading then w
    else
      match w.cache.put (cacheKey s p) (f s p) with
      | .ok c => { w with cache := c }.goes i (.done (f s p))
      | _ => w.goes i .crashed
  | _ => w

/-- The calls take steps as the schedule says. -/
def run (f : Str → Str → Bool) (w : MatchWorld) : List Nat → MatchWorld
  | [] => w
  | i :: sched => (w.step f i).run f sched

end MatchWorld

end Fastac
