import Verif.Model.RoleThreads
import Verif.Spec.Links

/-!
# Calls that run at the same time: histories and right answers
-/

namespace Fastac

/-- The call as an operation on links. -/
def RCall.op : RCall → LinkOp
  | .add u r => .add u r
  | .del u r => .del u r
  | .hasLink u r => .hasLink u r
  | .getRoles n => .getRoles n
  | .getUsers n => .getUsers n

/-- `HasLink`, `GetRoles` and `GetUsers` ask; `AddLink` and `DeleteLink` do not. -/
def RCall.asks : RCall → Bool
  | .add _ _ => false
  | .del _ _ => false
  | _ => true

/-- The names in a call. -/
def RCall.about : RCall → List Str
  | .add u r => [u, r]
  | .del u r => [u, r]
  | .hasLink u r => [u, r]
  | .getRoles n => [n]
  | .getUsers n => [n]

/-- The right answer where `L u r` says that `u` is linked to `r`.  (For `AddLink` and `DeleteLink` any boolean.) -/
def RCall.Right (level : Nat) (L : Str → Str → Prop) : RCall → RAns → Prop
  | .add _ _, .bool _ => True
  | .del _ _, .bool _ => True
  | .hasLink a b, .bool x => x = true ↔ a = b ∨ ∃ k, k < level ∧ Reach L k a b
  | .getRoles n, .names ns => ns.Nodup ∧ ∀ r, r ∈ ns ↔ L n r
  | .getUsers n, .names ns => ns.Nodup ∧ ∀ u, u ∈ ns ↔ L u n
  | _, _ => False

/-- Part of a history: a call alone, or calls that run at the same time, with the schedule of their steps. -/
inductive Round where
  | alone (x : RCall)
  | together (xs : List RCall) (sched : List Nat)

def Round.calls : Round → List RCall
  | .alone x => [x]
  | .together xs _ => xs

/-- The calls start. -/
def RConf.start (c : RConf) (h : RHeap) (xs : List RCall) : RSystem RAns := ⟨h, xs.map c.thread⟩

def RConf.round (c : RConf) (h : RHeap) : Round → RHeap
  | .alone x => ((c.thread x).exec h).1
  | .together xs sched => ((c.start h xs).run sched).heap

/-- One part of the history after the other. -/
def RConf.rounds (c : RConf) (h : RHeap) : List Round → RHeap
  | [] => h
  | R :: Rs => c.rounds (c.round h R) Rs

/-- The calls of a part have all returned when the next one begins. -/
def RConf.Ended (c : RConf) (h : RHeap) : List Round → Prop
  | [] => True
  | .alone x :: Rs => c.Ended (c.round h (.alone x)) Rs
  | .together xs sched :: Rs => ((c.start h xs).run sched).Over ∧ c.Ended (c.round h (.together xs sched)) Rs

/-- The operations of a history, in order. -/
def linkOpsOf (Rs : List Round) : List LinkOp := (Rs.flatMap Round.calls).map RCall.op

/-- The operations of a history, those that ran at the same time in some order. -/
def Merge : List Round → List LinkOp → Prop
  | [], ops => ops = []
  | R :: Rs, ops => ∃ (xs : List RCall) (ops' : List LinkOp), xs.Perm R.calls ∧ ops = xs.map RCall.op ++ ops' ∧ Merge Rs ops'

end Fastac
