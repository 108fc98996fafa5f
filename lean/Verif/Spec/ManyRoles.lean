import Verif.Model.ManyRoles
import Verif.Spec.RoleRequests

/-!
# Several role definitions used at the same time: who may run next to whom, and right answers
-/

namespace Fastac

/-- A call of a manager, or a request. -/
inductive GJob where
  | call (x : GCall)
  | request (q : GRequest)

def GJob.thread (D : List GDefn) : GJob → Thread GHeap JobAns
  | .call x => (x.thread D).bind fun a => .ret (.answer a)
  | .request q => (q.asks.among D).bind fun d => .ret (.decision d)

/-- Part of a history: a call alone, or calls and requests at the same time, with the schedule of their steps. -/
inductive GPart where
  | alone (x : GCall)
  | together (js : List GJob) (sched : List Nat)

/-- The calls and requests start. -/
def beginG (D : List GDefn) (h : GHeap) (js : List GJob) : Crowd GHeap JobAns := ⟨h, js.map (GJob.thread D)⟩

def partG (D : List GDefn) (h : GHeap) : GPart → GHeap
  | .alone x => ((x.thread D).exec h).1
  | .together js sched => ((beginG D h js).run sched).heap

/-- One part of the history after the other. -/
def partsG (D : List GDefn) (h : GHeap) : List GPart → GHeap
  | [] => h
  | R :: Rs => partsG D (partG D h R) Rs

/-- The domain path a call of the definition `i` is about: a definition without domains has only one. -/
def placeOf (D : List GDefn) (i : Nat) (ds : List Str) : List Str :=
  match D[i]? with
  | some d => if d.domains then ds else []
  | none => ds

/-- The number of links that are followed there (10 or what the domains leave of it). -/
def depthOf (D : List GDefn) (i : Nat) (ds : List Str) : Nat :=
  match D[i]? with
  | some d => if d.domains then d.conf.level - (ds.length + 1) else d.conf.level
  | none => 0

/-- The call is `AddLink` or `DeleteLink` for the definition `i` and the domain path `P`. -/
def GCall.Changes (D : List GDefn) (i : Nat) (P : List Str) (x : GCall) : Prop :=
  x.call.asks = false ∧ x.defn = i ∧ placeOf D i x.path = P

instance (D : List GDefn) (i : Nat) (P : List Str) (x : GCall) : Decidable (x.Changes D i P) := by
  unfold GCall.Changes; infer_instance

/-- The call of a manager, if it is one. -/
def GJob.call? : GJob → Option GCall
  | .call x => some x
  | .request _ => none

/-- The calls of managers in a part. -/
def GPart.calls : GPart → List GCall
  | .alone x => [x]
  | .together js _ => js.filterMap GJob.call?

/-- The links added and deleted for the definition `i` and the path `P`, in order. -/
def changesAt (D : List GDefn) (i : Nat) (P : List Str) (Rs : List GPart) : List LinkOp :=
  ((Rs.flatMap GPart.calls).filter fun x => decide (x.Changes D i P)).map fun x => x.call.op

/-- Whether `u` is linked to `r` for the definition `i` and the domains `ds` after the history. -/
def linkedG (D : List GDefn) (Rs : List GPart) (i : Nat) (ds : List Str) (u r : Str) : Prop :=
  linked (changesAt D i (placeOf D i ds) Rs) u r = true

/-- `g` answers every call of a function for roles as the links of the history say. -/
def SaysRolesG (D : List GDefn) (Rs : List GPart) (g : GAsk → Bool) : Prop :=
  ∀ q, g q = true ↔ q.user = q.role ∨ ∃ k, k < depthOf D q.defn q.path ∧ Reach (linkedG D Rs q.defn q.path) k q.user q.role

/-- `AddLink` and `DeleteLink` tell whether they have changed something. -/
def RCall.Tells (L : Str → Str → Prop) : RCall → RAns → Prop
  | .add u r, a => ∃ b, a = .bool b ∧ (b = true ↔ ¬ L u r)
  | .del u r, a => ∃ b, a = .bool b ∧ (b = true ↔ L u r)
  | _, _ => True

/-- The right answer after the history: of a call the one that the links of its definition and its domains give, of a
request the decision of `Enforce` (Model/Enforce) with functions that answer as the links say. -/
def GJob.Right (D : List GDefn) (Rs : List GPart) : GJob → JobAns → Prop
  | .call x, .answer a => x.call.Right (depthOf D x.defn x.path) (linkedG D Rs x.defn x.path) a ∧
      x.call.Tells (linkedG D Rs x.defn x.path) a
  | .request q, .decision d => ∀ g, SaysRolesG D Rs g → d = q.decision g
  | _, _ => False

/-- None of the calls of functions for roles, whatever they answer, is for the definition `i` and the path `P`. -/
def Asks.Avoids {α : Type} (D : List GDefn) (i : Nat) (P : List Str) : Asks GAsk α → Prop
  | .done _ => True
  | .ask q k => ¬ (q.defn = i ∧ placeOf D i q.path = P) ∧ ∀ b, (k b).Avoids D i P

/-- The job has nothing to do with the definition `i` and the path `P`. -/
def GJob.Avoids (D : List GDefn) (i : Nat) (P : List Str) : GJob → Prop
  | .call x => ¬ (x.defn = i ∧ placeOf D i x.path = P)
  | .request q => q.asks.Avoids D i P

/-- The jobs may run at the same time after the history `Rs`: calls of managers are for definitions that exist, and if one is
`AddLink` or `DeleteLink`, then none of the others has anything to do with its domain, in which links have been added
or deleted before (if there are domains). -/
def MayMeet (D : List GDefn) (Rs : List GPart) (js : List GJob) : Prop :=
  ∀ (n : Nat) (x : GCall), js[n]? = some (.call x) → ∃ d : GDefn, D[x.defn]? = some d ∧ (x.call.asks = false →
    (d.domains = true → changesAt D x.defn x.path Rs ≠ []) ∧
    ∀ (m : Nat) (j : GJob), m ≠ n → js[m]? = some j → j.Avoids D x.defn (placeOf D x.defn x.path))

/-- The history `Rs`, of which `pre` has gone by and left `h`: jobs that run at the same time may do so, and have all returned
when the next part begins. -/
def PeacefulFrom (D : List GDefn) (pre : List GPart) (h : GHeap) : List GPart → Prop
  | [] => True
  | .alone x :: Rs => PeacefulFrom D (pre ++ [.alone x]) (partG D h (.alone x)) Rs
  | .together js sched :: Rs => MayMeet D pre js ∧ ((beginG D h js).run sched).Over ∧
      PeacefulFrom D (pre ++ [.together js sched]) (partG D h (.together js sched)) Rs

/-- The history from the start. -/
def Peaceful (D : List GDefn) (Rs : List GPart) : Prop := PeacefulFrom D [] (GHeap.new D) Rs

end Fastac
