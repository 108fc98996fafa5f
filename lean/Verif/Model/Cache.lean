import Verif.Base

/-!
# The LRU cache (util/cache.go) and the match cache of the role managers

Nodes live in a heap: a function from addresses to nodes, `nil` is `none`.  `head` is address 0, `tail`
address 1.  Keys are not `nil`.  Pointer assignments are single steps, so that concurrent `Get`s can be
interleaved.
-/

namespace Fastac

/-- `node` (cache.go:5-10). -/
structure LNode (K V : Type) where
  key : Option K
  value : Option V
  prev : Option Nat
  next : Option Nat
deriving DecidableEq, Repr

abbrev LHeap (K V : Type) := Nat → LNode K V

variable {K V : Type} [DecidableEq K]

def LHeap.setNext (h : LHeap K V) (a : Nat) (v : Option Nat) : LHeap K V :=
  fun x => if x = a then { h x with next := v } else h x

def LHeap.setPrev (h : LHeap K V) (a : Nat) (v : Option Nat) : LHeap K V :=
  fun x => if x = a then { h x with prev := v } else h x

/-- The assignments of `remove` (cache.go:40-41) and `add` (cache.go:48-52). -/
inductive Micro where
  /-- `n.prev.next = n.next` -/
  | unlinkNext
  /-- `n.next.prev = n.prev` -/
  | unlinkPrev
  /-- `headNext := cache.head.next` -/
  | readHead
  /-- `cache.head.next = n` -/
  | linkHead
  /-- `headNext.prev = n` -/
  | linkBack
  /-- `n.next = headNext` -/
  | ownNext
  /-- `n.prev = cache.head` -/
  | ownPrev
deriving DecidableEq, Repr

/-- One assignment; `loc` is the local variable `headNext`.  A nil pointer panics. -/
def Micro.exec (h : LHeap K V) (n : Nat) (loc : Option Nat) : Micro → Res (LHeap K V × Option Nat)
  | .unlinkNext =>
    match (h n).prev with
    | none => .panic
    | some a => .ok (h.setNext a (h n).next, loc)
  | .unlinkPrev =>
    match (h n).next with
    | none => .panic
    | some b => .ok (h.setPrev b (h n).prev, loc)
  | .readHead => .ok (h, (h 0).next)
  | .linkHead => .ok (h.setNext 0 (some n), loc)
  | .linkBack =>
    match loc with
    | none => .panic
    | some b => .ok (h.setPrev b (some n), loc)
  | .ownNext => .ok (h.setNext n loc, loc)
  | .ownPrev => .ok (h.setPrev n (some 0), loc)

def runMicros (n : Nat) : LHeap K V → Option Nat → List Micro → Res (LHeap K V)
  | h, _, [] => .ok h
  | h, loc, m :: ms => (m.exec h n loc).bind fun (h', loc') => runMicros n h' loc' ms

def removeMicros : List Micro := [.unlinkNext, .unlinkPrev]

def addMicros : List Micro := [.readHead, .linkHead, .linkBack, .ownNext, .ownPrev]

/-- `LRUCache` (cache.go:12-17); `top` is the next address that is not in use. -/
structure LRU (K V : Type) where
  cap : Nat
  m : GoMap K Nat
  heap : LHeap K V
  top : Nat

/-- `NewLRUCache` (cache.go:19-34). -/
def LRU.new (cap : Nat) : LRU K V :=
  { cap := cap, m := [], top := 2,
    heap := fun x => if x = 0 then ⟨none, none, none, some 1⟩ else
      if x = 1 then ⟨none, none, some 0, none⟩ else ⟨none, none, none, none⟩ }

/-- `LRUCache.remove` (cache.go:36-42). -/
def LRU.remove (c : LRU K V) (n : Nat) (listOnly : Bool) : Res (LRU K V) :=
  let m := if listOnly then c.m else
    match (c.heap n).key with
    | none => c.m
    | some k => c.m.del k
  (runMicros n c.heap none removeMicros).map fun h => { c with m := m, heap := h }

/-- `LRUCache.add` (cache.go:44-53). -/
def LRU.add (c : LRU K V) (n : Nat) (listOnly : Bool) : Res (LRU K V) :=
  let m := if listOnly then c.m else
    match (c.heap n).key with
    | none => c.m
    | some k => c.m.set k n
  (runMicros n c.heap none addMicros).map fun h => { c with m := m, heap := h }

/-- `LRUCache.moveToHead` (cache.go:55-58). -/
def LRU.moveToHead (c : LRU K V) (n : Nat) : Res (LRU K V) :=
  (c.remove n true).bind fun c => c.add n true

/-- `LRUCache.Get` (cache.go:60-68). -/
def LRU.get (c : LRU K V) (k : K) : Res (LRU K V × Option V) :=
  match c.m.get k with
  | some n => (c.moveToHead n).map fun c' => (c', (c'.heap n).value)
  | none => .ok (c, none)

/-- `n = &node{key, value, nil, nil}` (cache.go:75). -/
def LRU.alloc (c : LRU K V) (k : K) (v : V) : LRU K V :=
  { c with top := c.top + 1, heap := fun x => if x = c.top then ⟨some k, some v, none, none⟩ else c.heap x }

/-- Make room if the cache is full (cache.go:76-78). -/
def LRU.evict (c : LRU K V) : Res (LRU K V) :=
  if c.cap ≤ c.m.length then
    match (c.heap 1).prev with
    | none => .panic
    | some l => c.remove l false
  else .ok c

/-- `LRUCache.Put` (cache.go:70-81).  For a key that is there the node is kept, with its value. -/
def LRU.put (c : LRU K V) (k : K) (v : V) : Res (LRU K V) :=
  match c.m.get k with
  | some n => (c.remove n false).bind fun c => c.add n false
  | none => (c.alloc k v).evict.bind fun c' => c'.add c.top false

/-- A call of the cache. -/
inductive CacheOp (K V : Type) where
  | get (k : K)
  | put (k : K) (v : V)
deriving DecidableEq, Repr

/-- A call and what it returned (`none`: a miss, or a `Put`). -/
def LRU.step (c : LRU K V) : CacheOp K V → Res (LRU K V × Option V)
  | .get k => c.get k
  | .put k v => (c.put k v).map fun c => (c, none)

/-- A sequence of calls, with what they returned. -/
def LRU.run (c : LRU K V) : List (CacheOp K V) → Res (LRU K V × List (CacheOp K V × Option V))
  | [] => .ok (c, [])
  | op :: ops => (c.step op).bind fun (c', o) => (c'.run ops).map fun (c'', tr) => (c'', (op, o) :: tr)

/-! ## Concurrent `Get`s of `SyncLRUCache` (cache.go:95-99)

`Get` holds the read lock, so any number of `Get`s run at the same time.  A `Get` that hits moves its
node to the head. -/

/-- A `Get` that has found its node: what it still has to do. -/
structure Getter where
  n : Nat
  loc : Option Nat
  todo : List Micro
deriving DecidableEq, Repr

def Getter.start (n : Nat) : Getter := ⟨n, none, removeMicros ++ addMicros⟩

/-- The scheduler lets getter `i` do its next assignment. -/
def getterStep (h : LHeap K V) (ts : List Getter) (i : Nat) : Res (LHeap K V × List Getter) :=
  match ts[i]? with
  | some ⟨n, loc, mi :: rest⟩ => (mi.exec h n loc).map fun (h', loc') => (h', ts.set i ⟨n, loc', rest⟩)
  | _ => .ok (h, ts)

def runGetters (h : LHeap K V) (ts : List Getter) : List Nat → Res (LHeap K V × List Getter)
  | [] => .ok (h, ts)
  | i :: sched => (getterStep h ts i).bind fun (h', ts') => runGetters h' ts' sched

/-! ## The match cache (role_manager.go:62-71, domain_manager.go:89-98) -/

/-- `strings.Join([]string{str, pattern}, "$$")` -/
def cacheKey (str pattern : Str) : Str := join (s% "$$") [str, pattern]

/-- `match` with its cache, in front of `matcher.Match`. -/
def matchCached (f : Str → Str → Bool) (c : LRU Str Bool) (str pattern : Str) : Res (LRU Str Bool × Bool) :=
  (c.get (cacheKey str pattern)).bind fun (c', o) =>
    match o with
    | some v => .ok (c', v)
    | none => (c'.put (cacheKey str pattern) (f str pattern)).map fun c'' => (c'', f str pattern)

/-- A question, or a change of the matcher; `SetMatcher` rebuilds and `Clear` makes a new cache
(role_manager.go:137-140, 54-61, 148-153; domain_manager.go:52-78). -/
inductive MatchOp where
  | ask (str pattern : Str)
  | setMatcher (f : Str → Str → Bool)

/-- The answers to a history of questions. -/
def runMatches (size : Nat) : (Str → Str → Bool) → LRU Str Bool → List MatchOp → Res (List Bool)
  | _, _, [] => .ok []
  | f, c, .ask s p :: ops => (matchCached f c s p).bind fun (c', b) => (runMatches size f c' ops).map (b :: ·)
  | _, _, .setMatcher f :: ops => runMatches size f (LRU.new size) ops

end Fastac
