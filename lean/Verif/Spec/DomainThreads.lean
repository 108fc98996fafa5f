import Verif.Model.DomainThreads
import Verif.Spec.RoleThreads

/-!
# Calls with domains that run at the same time: histories, and what one domain sees of them
-/

namespace Fastac

/-- A call with its domain path. -/
structure DCall where
  call : RCall
  path : List Str

/-- Part of a history: a call alone, or calls that run at the same time, with the schedule of their steps. -/
inductive DRound where
  | alone (x : DCall)
  | together (xs : List DCall) (sched : List Nat)

def DRound.calls : DRound → List DCall
  | .alone x => [x]
  | .together xs _ => xs

namespace RConf

/-- The calls start. -/
def startD (c : RConf) (h : DHeap) (xs : List DCall) : DSystem := ⟨h, xs.map fun x => c.domainThread x.call x.path⟩

def roundD (c : RConf) (h : DHeap) : DRound → DHeap
  | .alone x => ((c.domainThread x.call x.path).exec h).1
  | .together xs sched => ((c.startD h xs).run sched).heap

/-- One part of the history after the other. -/
def roundsD (c : RConf) (h : DHeap) : List DRound → DHeap
  | [] => h
  | R :: Rs => c.roundsD (c.roundD h R) Rs

/-- The calls of a part have all returned when the next one begins. -/
def EndedD (c : RConf) (h : DHeap) : List DRound → Prop
  | [] => True
  | .alone x :: Rs => c.EndedD (c.roundD h (.alone x)) Rs
  | .together xs sched :: Rs => ((c.startD h xs).run sched).Over ∧ c.EndedD (c.roundD h (.together xs sched)) Rs

end RConf

/-- `AddLink` or `DeleteLink` has been called with the path. -/
def PathUsed (Rs : List DRound) (P : List Str) : Prop := ∃ R ∈ Rs, ∃ y ∈ R.calls, y.call.asks = false ∧ y.path = P

/-- Calls of `AddLink` and `DeleteLink` that do not run alone have the path of an earlier one. -/
def OnlyPathsInUse (Rs : List DRound) : Prop :=
  ∀ pre xs sched post, Rs = pre ++ .together xs sched :: post → ∀ x ∈ xs, x.call.asks = false → PathUsed pre x.path

/-- The calls with the path `P`, without the path. -/
def callsAt (P : List Str) (xs : List DCall) : List RCall := (xs.filter fun x => decide (x.path = P)).map DCall.call

/-- The number of the `i`-th call among those with the path `P`. -/
def numberAt (P : List Str) (xs : List DCall) (i : Nat) : Nat := ((xs.take i).filter fun x => decide (x.path = P)).length

/-- The history `Ss` of a role manager is what `Rs` is with the other paths left out, before the first `AddLink` or
`DeleteLink` too, and with some schedules. -/
inductive SeenAt (P : List Str) : List DRound → List Round → Prop where
  | nil : SeenAt P [] []
  | alone {x : DCall} {Rs Ss} : x.path = P → SeenAt P Rs Ss → SeenAt P (.alone x :: Rs) (.alone x.call :: Ss)
  | other {x : DCall} {Rs Ss} : x.path ≠ P → SeenAt P Rs Ss → SeenAt P (.alone x :: Rs) Ss
  | together {xs sched Rs Ss} (sched') : SeenAt P Rs Ss →
      SeenAt P (.together xs sched :: Rs) (.together (callsAt P xs) sched' :: Ss)

/-- What is left of a history from the first `AddLink` or `DeleteLink` with the path on. -/
def sinceUsed (P : List Str) (Rs : List DRound) : List DRound :=
  Rs.dropWhile fun R => R.calls.all fun y => y.call.asks || decide (y.path ≠ P)

/-- The operations of a history with the path `P`, in order. -/
def linkOpsAt (P : List Str) (Rs : List DRound) : List LinkOp := (callsAt P (Rs.flatMap DRound.calls)).map RCall.op

/-- The operations of a history with the path `P`, those that ran at the same time in some order. -/
def MergeAt (P : List Str) : List DRound → List LinkOp → Prop
  | [], ops => ops = []
  | R :: Rs, ops => ∃ (xs : List RCall) (ops' : List LinkOp), xs.Perm (callsAt P R.calls) ∧
      ops = xs.map RCall.op ++ ops' ∧ MergeAt P Rs ops'

/-- `AddLink` or `DeleteLink` has been called with the path and the name. -/
def NameUsed (Rs : List DRound) (P : List Str) (n : Str) : Prop :=
  ∃ R ∈ Rs, ∃ y ∈ R.calls, y.call.asks = false ∧ y.path = P ∧ n ∈ y.call.about

/-- Calls of `AddLink` and `DeleteLink` that do not run alone use only names that have occurred in an earlier one with the
same path. -/
def OnlyNamesInUseAt (Rs : List DRound) : Prop :=
  ∀ pre xs sched post, Rs = pre ++ .together xs sched :: post → ∀ x ∈ xs, x.call.asks = false → ∀ n ∈ x.call.about,
    NameUsed pre x.path n

/-- The history has calls of `AddLink` and `DeleteLink` only alone. -/
def OnlyQuestionsTogetherAt (Rs : List DRound) : Prop :=
  ∀ xs sched, .together xs sched ∈ Rs → ∀ x ∈ xs, x.call.asks = true

end Fastac
