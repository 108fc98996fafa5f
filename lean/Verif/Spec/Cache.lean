import Verif.Model.Cache

/-!
# What is said about caches
-/

namespace Fastac

variable {K V : Type} [DecidableEq K]

/-- The addresses form a doubly linked list in the heap. -/
def Dll (h : LHeap K V) : List Nat → Prop
  | a :: b :: l => (h a).next = some b ∧ (h b).prev = some a ∧ Dll h (b :: l)
  | _ => True

/-- The keys used in a history of calls, each once, the latest use first.  A `Put` uses its key, a `Get`
uses its key if it hits. -/
def uses (tr : List (CacheOp K V × Option V)) : List K :=
  tr.foldl (fun l c =>
    match c with
    | (.put k _, _) => k :: l.filter (· ≠ k)
    | (.get k, some _) => k :: l.filter (· ≠ k)
    | (.get _, none) => l) []

/-- The cached keys, in the order of the list, are these. -/
structure LRU.Holds (c : LRU K V) (nodes : List Nat) (keys : List K) : Prop where
  /-- from head to tail, and back, through each node once -/
  list : Dll c.heap (0 :: nodes ++ [1])
  nodup : (0 :: nodes ++ [1]).Nodup
  keys : nodes.map (fun a => (c.heap a).key) = keys.map some
  /-- the map leads to exactly the nodes of the list -/
  map : ∀ k a, c.m.get k = some a ↔ a ∈ nodes ∧ (c.heap a).key = some k
  size : c.m.length = nodes.length

/-- The key is cached. -/
def LRU.Cached (c : LRU K V) (k : K) : Prop := (c.m.get k).isSome = true

end Fastac
