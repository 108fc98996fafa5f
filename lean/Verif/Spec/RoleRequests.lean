import Verif.Model.RoleRequests
import Verif.Spec.RoleThreads

/-!
# Requests and questions that run at the same time: histories and right answers
-/

namespace Fastac

/-- A question to the role manager, or a request. -/
inductive Job where
  | question (x : RCall)
  | request (q : RoleRequest)

inductive JobAns where
  | answer (a : RAns)
  | decision (d : Res Bool)
deriving DecidableEq

def Job.thread (c : RConf) : Job → Thread RHeap JobAns
  | .question x => (c.thread x).bind fun a => .ret (.answer a)
  | .request q => (q.thread c).bind fun d => .ret (.decision d)

/-- `AddLink` and `DeleteLink` are not questions. -/
def Job.Fair : Job → Prop
  | .question x => x.asks = true
  | .request _ => True

/-- `g` says who has which role if `L` are the links and paths are followed up to the level. -/
def SaysRoles (level : Nat) (L : Str → Str → Prop) (g : Str → Str → Bool) : Prop :=
  ∀ u r, g u r = true ↔ u = r ∨ ∃ k, k < level ∧ Reach L k u r

/-- The right answer where `L` are the links: for a request the decision of `Enforce` (Model/Enforce) whose `g` says who has
which role. -/
def Job.Right (level : Nat) (L : Str → Str → Prop) : Job → JobAns → Prop
  | .question x, .answer a => x.Right level L a
  | .request q, .decision d => ∀ g, SaysRoles level L g → d = q.decision g
  | _, _ => False

/-- Part of a history: a call alone, or questions and requests at the same time, with the schedule of their steps. -/
inductive Episode where
  | alone (x : RCall)
  | together (js : List Job) (sched : List Nat)

def RConf.begin (c : RConf) (h : RHeap) (js : List Job) : RSystem JobAns := ⟨h, js.map (Job.thread c)⟩

def RConf.episode (c : RConf) (h : RHeap) : Episode → RHeap
  | .alone x => ((c.thread x).exec h).1
  | .together js sched => ((c.begin h js).run sched).heap

def RConf.episodes (c : RConf) (h : RHeap) : List Episode → RHeap
  | [] => h
  | R :: Rs => c.episodes (c.episode h R) Rs

/-- Questions and requests have all returned when the next part begins. -/
def RConf.EpisodesEnded (c : RConf) (h : RHeap) : List Episode → Prop
  | [] => True
  | .alone x :: Rs => c.EpisodesEnded (c.episode h (.alone x)) Rs
  | .together js sched :: Rs =>
    ((c.begin h js).run sched).Over ∧ c.EpisodesEnded (c.episode h (.together js sched)) Rs

/-- The calls of `AddLink` and `DeleteLink` of a history (and questions that were asked alone), in order. -/
def aloneOps : List Episode → List LinkOp
  | [] => []
  | .alone x :: Rs => x.op :: aloneOps Rs
  | .together _ _ :: Rs => aloneOps Rs

end Fastac
