import Verif.Spec.Domains

/-!
# Domains with patterns: what is stored, seen from outside

One level of domains.  A state says, for every domain in use, which links it has, which of them are marked
as copies of a link of a pattern domain, and which names it knows.  Domains come into use with the first
`AddLink` or `DeleteLink` about them; what the state says about a domain not in use has no meaning.
-/

namespace Fastac

namespace DM

/-- The domain of a path: no path is the domain `"RoleManager"`. -/
def domKey : List Str → Str
  | [] => defaultDomain
  | d :: _ => d

structure DomState where
  m : Option PMatcher
  dmm : Option PMatcher
  used : Str → Prop
  link : Str → Str → Str → Prop
  copied : Str → Str → Str → Prop
  name : Str → Str → Prop

namespace DomState

/-- Nothing in use. -/
def empty (m dmm : Option PMatcher) : DomState :=
  ⟨m, dmm, fun _ => False, fun _ _ _ => False, fun _ _ _ => False, fun _ _ => False⟩

/-- The domain `p` is a pattern. -/
def pattern (s : DomState) (p : Str) : Prop := ∃ pm, s.dmm = some pm ∧ pm.isPattern p = true

/-- The domain `d` is another one that matches the pattern domain `p`. -/
def covers (s : DomState) (p d : Str) : Prop := ∃ pm, s.dmm = some pm ∧ pm.covers p d

/-- The links of their own, not copies, of the domains in use. -/
def own (s : DomState) (d u r : Str) : Prop := s.used d ∧ s.link d u r ∧ ¬ s.copied d u r

/-- What a domain is given when it comes into use: the links of the pattern domains in use that it
matches; nothing if it is a pattern. -/
def given (s : DomState) (d u r : Str) : Prop := ¬ s.pattern d ∧ ∃ p, s.covers p d ∧ s.own p u r

/-- The links a call about `d` sees. -/
def linkAt (s : DomState) (d u r : Str) : Prop := (s.used d ∧ s.link d u r) ∨ (¬ s.used d ∧ s.given d u r)
/-- The marks a call about `d` sees. -/
def copiedAt (s : DomState) (d u r : Str) : Prop := (s.used d ∧ s.copied d u r) ∨ (¬ s.used d ∧ s.given d u r)
/-- The names a call about `d` sees. -/
def nameAt (s : DomState) (d n : Str) : Prop := (s.used d ∧ s.name d n) ∨ (¬ s.used d ∧ endsOf (s.given d) n)

/-- `d` comes into use, if it is not yet. -/
def use (s : DomState) (d : Str) : DomState :=
  { s with used := fun y => s.used y ∨ y = d, link := s.linkAt, copied := s.copiedAt, name := s.nameAt }

/-- `AddLink(u, r, x)`: the link in `x`, and marked as a copy in every domain in use that matches `x`. -/
def add (s : DomState) (u r x : Str) : DomState :=
  let t := s.use x
  { t with
    link := fun y a b => t.link y a b ∨ (a = u ∧ b = r ∧ (y = x ∨ s.covers x y))
    copied := fun y a b => t.copied y a b ∨ (a = u ∧ b = r ∧ s.covers x y)
    name := fun y n => t.name y n ∨ ((n = u ∨ n = r) ∧ (y = x ∨ s.covers x y)) }

/-- `DeleteLink(u, r, x)`: no such link in `x` any more, and none in the domains in use that match `x`. -/
def del (s : DomState) (u r x : Str) : DomState :=
  let t := s.use x
  { t with
    link := fun y a b => t.link y a b ∧ ¬(a = u ∧ b = r ∧ (y = x ∨ s.covers x y))
    copied := fun y a b => t.copied y a b ∧ ¬(a = u ∧ b = r ∧ s.covers x y)
    name := fun y n => t.name y n ∨ ((n = u ∨ n = r) ∧ (y = x ∨ s.covers x y)) }

/-- A call with a path. -/
def op (s : DomState) : Op → DomState
  | .add u r π => s.add u r (domKey π)
  | .del u r π => s.del u r (domKey π)
  | .clear => empty s.m s.dmm
  | _ => s

/-- `SetMatcher`: the copies are lost. -/
def setMatcher (s : DomState) (m : Option PMatcher) : DomState :=
  { s with
    m := m
    link := s.own
    copied := fun _ _ _ => False
    name := fun d => endsOf (s.own d) }

/-- What a call makes of a state.  `SetDomainMatcher` adds the links that are no copies to an empty state,
in some order. -/
inductive Step : DomState → Call → DomState → Prop
  | op (s : DomState) (o : Op) : Step s (.op o) (s.op o)
  | setMatcher (s : DomState) (m : Option PMatcher) (order) : Step s (.setMatcher m order) (s.setMatcher m)
  | setDomainMatcher (s : DomState) (m : Option PMatcher) (order) (ls : List (Str × Str × Str))
      (hn : ls.Nodup) (hl : ∀ u r d, (u, r, d) ∈ ls ↔ s.own d u r) :
      Step s (.setDomainMatcher m order) (ls.foldl (fun t l => t.add l.1 l.2.1 l.2.2) (empty s.m m))

/-- What calls make of a state. -/
inductive Steps : DomState → List Call → DomState → Prop
  | nil (s : DomState) : Steps s [] s
  | cons {s t v : DomState} {c : Call} {cs : List Call} : Step s c t → Steps t cs v → Steps s (c :: cs) v

end DomState

/-- The domain matcher in force after the calls. -/
def nowDomain (dmm : Option PMatcher) : List Call → Option PMatcher
  | [] => dmm
  | .setDomainMatcher m _ :: cs => nowDomain m cs
  | _ :: cs => nowDomain dmm cs

/-- The role matcher in force after the calls. -/
def nowRole (m : Option PMatcher) : List Call → Option PMatcher
  | [] => m
  | .setMatcher m' _ :: cs => nowRole m' cs
  | _ :: cs => nowRole m cs

/-- Calls about at most one domain: its name is none of the two reserved ones, and no question is asked
about a pattern of a matcher in force at some time. -/
def OneLevel (dmm : Option PMatcher) (cs : List Call) : Prop :=
  (∀ op, Call.op op ∈ cs → Clean op.path ∧ op.path.length ≤ 1) ∧
  (∀ pm, used dmm cs pm → pm.isPattern defaultDomain = false) ∧
  ∀ op, Call.op op ∈ cs → op.isQuery = true → ∀ pm, used dmm cs pm → ∀ d ∈ op.path, pm.isPattern d = false

end DM

end Fastac
