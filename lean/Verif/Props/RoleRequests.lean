import Verif.Lemmas.RoleRequests
import Verif.Props.RoleThreads
import Verif.Spec.Effects

/-!
# C103: requests that ask a role manager, at the same time
-/

namespace Fastac

/-- The history has calls of `AddLink` and `DeleteLink` only alone. -/
def OnlyFairTogether (Rs : List Episode) : Prop := ∀ js sched, .together js sched ∈ Rs → ∀ j ∈ js, j.Fair

/-- **C103 (partial)**: matchers call `g`, the role manager has no matcher of its own and has gone through any history: links
added and deleted one call at a time, and any number of requests and questions at the same time in between.  Now any number
of requests and questions run at the same time, and every access to a map of the role manager may be interleaved with those
of the others.  None of them panics in the role manager, and each request that has returned has the decision that `Enforce`
takes alone where `g(u, r)` is true exactly if the links of the history lead from `u` to `r`.

Missing: a role manager with a matcher, where this is false (`c103_fails`); calls of `AddLink` and `DeleteLink` at the same
time, where a decision can be one that was right at no moment (`c103_updates_fail`). -/
theorem c103_decisions_partial {c : RConf} (hm : c.matcher = none) (ho : ∀ l, (c.ord l).Perm l) {Rs : List Episode}
    (hq : OnlyFairTogether Rs) (he : c.EpisodesEnded RHeap.new Rs) {js : List Job} (hjs : ∀ j ∈ js, j.Fair)
    (sched : List Nat) {i : Nat} {j : Job} (hi : js[i]? = some j) :
    ((c.begin (c.episodes RHeap.new Rs) js).run sched).crashed i = false ∧
    ∀ a, ((c.begin (c.episodes RHeap.new Rs) js).run sched).answer i = some a →
      j.Right c.level (fun u r => linked (aloneOps Rs) u r = true) a := by
  have hc : c.Plain := ⟨hm, ho⟩
  have f := RConf.base_episodes hc Rs RConf.Fit.new hq he
  rw [List.nil_append] at f
  have s := (RConf.safe_begin hc f.base hjs).run sched
  exact ⟨s.crashed i, fun a ha => s.answer ha j hi⟩

/-- **C103, part (partial)**: every request is decided: if the schedule `σ` lets the `i`-th of them run again and again,
there comes a moment at which it has returned, with the right decision. -/
theorem c103_decided_partial {c : RConf} (hm : c.matcher = none) (ho : ∀ l, (c.ord l).Perm l) {Rs : List Episode}
    (hq : OnlyFairTogether Rs) (he : c.EpisodesEnded RHeap.new Rs) {js : List Job} (hjs : ∀ j ∈ js, j.Fair)
    {i : Nat} {j : Job} (hi : js[i]? = some j) (σ : Nat → Nat) (hσ : ∀ m, ∃ k, m ≤ k ∧ σ k = i) :
    ∃ k a, ((c.begin (c.episodes RHeap.new Rs) js).run ((List.range k).map σ)).answer i = some a ∧
      j.Right c.level (fun u r => linked (aloneOps Rs) u r = true) a := by
  have h0 : ((c.begin (c.episodes RHeap.new Rs) js).run ((List.range 0).map σ)).calls[i]? = some (j.thread c) := by
    show (js.map (Job.thread c))[i]? = _
    rw [List.getElem?_map, hi]
    rfl
  obtain ⟨k, ⟨a, ha⟩ | hk⟩ := RSystem.ends hσ _ 0 h0
  · have : ((c.begin (c.episodes RHeap.new Rs) js).run ((List.range k).map σ)).answer i = some a := by
      unfold RSystem.answer; rw [ha]
    exact ⟨k, a, this, (c103_decisions_partial hm ho hq he hjs _ hi).2 a this⟩
  · have := (c103_decisions_partial hm ho hq he hjs ((List.range k).map σ) hi).1
    unfold RSystem.crashed at this
    rw [hk] at this
    cases this

/-! ## Examples -/

namespace RoleRequestsExample

open RoleThreadsExample

/-- `p = sub, act`. -/
def pDef : PolicyDef := newPolicyDef (s% "p") (s% "sub, act")

/-- Two stages, `r.act == p.act` and `g(r.sub, p.sub)`; the rules are for admin and for root. -/
def matcher : Matcher :=
  match newMatcher pDef (.mk [] [.mk (s% "r_act == p_act") [.mk (s% "g(r_sub, p_sub)") []]])
      [[root, s% "read"], [admin, s% "read"], [root, s% "write"]] with
  | .ok m => m
  | _ => ⟨pDef, .mk [] [], newNode []⟩

/-- The evaluator of the request `sub, act`. -/
def evaluator (sub act : Str) : AskEvaluator (Str × Str) where
  compiles := fun _ => true
  eval := fun e r =>
    if e = s% "r_act == p_act" then .done (.bool (r.getD 1 [] == act))
    else .ask (sub, r.getD 0 []) fun b => .done (.bool b)

def request (sub act : Str) : RoleRequest := ⟨matcher, pDef, evaluator sub act, Order.fwd, SOME_ALLOW⟩

/-- alice → admin, bob → root; two requests and a question about the new name zoe meet; admin → root. -/
def before : List Episode :=
  [.alone (.add alice admin), .alone (.add (s% "bob") root),
   .together [.request (request zoe (s% "write")), .request (request zoe (s% "read")), .question (.getRoles zoe)]
     ((List.range 300).map (· % 3)),
   .alone (.add admin root)]

theorem before_fair : OnlyFairTogether before := by
  intro js sched h
  simp only [before, List.mem_cons, reduceCtorEq, false_or, List.not_mem_nil, or_false, Episode.together.injEq] at h
  rw [h.1]
  intro j hj
  simp only [List.mem_cons, List.not_mem_nil, or_false] at hj
  rcases hj with rfl | rfl | rfl
  · trivial
  · trivial
  · rfl

theorem before_ended : plain.EpisodesEnded RHeap.new before := by
  refine ⟨?_, trivial⟩
  show ∀ i, i < _ → _
  decide +kernel

def jobs : List Job :=
  [.request (request alice (s% "write")), .request (request zoe (s% "write")), .request (request (s% "bob") (s% "read")),
   .question (.hasLink zoe root), .request (request (s% "bob") (s% "delete"))]

theorem jobs_fair : ∀ j ∈ jobs, j.Fair := by
  intro j hj
  simp only [jobs, List.mem_cons, List.not_mem_nil, or_false] at hj
  rcases hj with rfl | rfl | rfl | rfl | rfl
  · trivial
  · trivial
  · trivial
  · rfl
  · trivial

/-- The hypotheses of C103 hold here: alice may write as an admin who is root, zoe (whose role is made and taken away by two
calls at the same time) may not, bob may read and not delete. -/
example : (List.range 5).map ((plain.begin (plain.episodes RHeap.new before) jobs).run ((List.range 500).map (· % 5))).answer =
    [some (.decision (.ok true)), some (.decision (.ok false)), some (.decision (.ok true)), some (.answer (.bool false)),
     some (.decision (.ok false))] := by
  decide +kernel

example (sched : List Nat) :=
  c103_decisions_partial (c := plain) rfl (fun l => List.reverse_perm l) before_fair before_ended jobs_fair sched (i := 0) rfl

example := c103_decided_partial (c := plain) rfl (fun l => List.reverse_perm l) before_fair before_ended jobs_fair
    (i := 1) rfl (fun k => k % 5) (fun m => ⟨5 * m + 1, by omega, by omega⟩)

/-- The decisions alone, with a function for `g`: `Enforce` depends on it. -/
example : (request zoe (s% "write")).decision (fun _ _ => true) = .ok true ∧
    (request zoe (s% "write")).decision (fun _ _ => false) = .ok false ∧
    (request zoe (s% "delete")).decision (fun _ _ => true) = .ok false ∧
    (request zoe (s% "read")).decision (fun _ r => r == admin) = .ok true ∧
    (request zoe (s% "write")).decision (fun _ r => r == admin) = .ok false := by
  decide +kernel

/-- Requests with a rule whose evaluation is an error, with a policy without rules, with two expressions side by side, and with
an effect that depends on all matches. -/
def oddDef : PolicyDef := newPolicyDef (s% "p") (s% "sub, eft")

def oddMatcher (stages : List Stage) (rules : List Rule) : Matcher :=
  match newMatcher oddDef (.mk [] stages) rules with
  | .ok m => m
  | _ => ⟨oddDef, .mk [] [], newNode []⟩

/-- `g(sub, p_sub)`, an error for the role nobody; `one` is false. -/
def oddEvaluator (sub : Str) : AskEvaluator (Str × Str) where
  compiles := fun _ => true
  eval := fun e r =>
    if e = s% "one" then .done (.bool false)
    else if r.getD 0 [] = s% "nobody" then .done .err
    else if r.getD 0 [] = [] then .done (.bool true)
    else .ask (sub, r.getD 0 []) fun b => .done (.bool b)

def odd (stages : List Str) (rules : List Rule) (eft : Str) : RoleRequest :=
  ⟨oddMatcher (stages.map fun e => .mk e []) rules, oddDef, oddEvaluator alice, Order.fwd, eft⟩

def oddJobs : List RoleRequest :=
  [odd [s% "g(r_sub, p_sub)"] [[s% "nobody", s% "allow"], [admin, s% "allow"]] SOME_ALLOW,
   odd [s% "g(r_sub, p_sub)"] [[admin, s% "allow"], [root, s% "deny"]] SOME_ALLOW_NO_DENY,
   odd [s% "g(r_sub, p_sub)"] [[admin, s% "allow"]] SOME_ALLOW_NO_DENY,
   odd [s% "g(r_sub, p_sub)"] [] SOME_ALLOW,
   odd [s% "one", s% "g(r_sub, p_sub)"] [[admin, s% "allow"]] SOME_ALLOW]

/-- The same decisions next to each other as alone. -/
example : (List.range 5).map ((plain.begin (plain.episodes RHeap.new [.alone (.add alice admin), .alone (.add admin root)])
      (oddJobs.map .request)).run ((List.range 400).map (· % 5))).answer =
    [some (.decision .err), some (.decision (.ok false)), some (.decision (.ok true)), some (.decision (.ok true)),
     some (.decision (.ok true))] ∧
    oddJobs.map (·.decision fun _ _ => true) = [.err, .ok false, .ok true, .ok true, .ok true] := by
  decide +kernel

/-- **C103 fails with a matcher.**  alice → `*`, so that every name is a role of alice.  `GetRoles("root")` has made the role
root but not yet connected it to the pattern when alice's request asks `g(alice, root)`: the answer is false and the request
is denied, alone it is granted.  In an empty role manager the request panics next to `GetRoles("*")`. -/
theorem c103_fails :
    ∃ q : RoleRequest,
      (∃ sched, ((starry.begin (starry.episodes RHeap.new [.alone (.add alice (s% "*"))])
        [.question (.getRoles root), .request q]).run sched).answer 1 = some (.decision (.ok false))) ∧
      ((starry.begin (starry.episodes RHeap.new [.alone (.add alice (s% "*"))])
        [.question (.getRoles root), .request q]).run (List.replicate 300 1)).answer 1 = some (.decision (.ok true)) ∧
      (∃ sched, ((starry.begin RHeap.new [.question (.getRoles (s% "*")), .request q]).run sched).crashed 1 = true) := by
  refine ⟨request alice (s% "write"), ⟨List.replicate 2 0 ++ List.replicate 300 1, ?_⟩, ?_,
    ⟨List.replicate 9 0 ++ List.replicate 300 1, ?_⟩⟩ <;> decide +kernel

/-- **C103 fails next to updates.**  alice is an admin, then also root, then no longer an admin: at every moment alice may
read.  A request that asks about root first and about admin last is denied. -/
theorem c103_updates_fail :
    (∃ sched, ((plain.begin (plain.episodes RHeap.new [.alone (.add alice admin)])
      [.request (request alice (s% "read")), .question (.add alice root), .question (.del alice admin)]).run sched).answer 0 =
        some (.decision (.ok false))) ∧
    (∀ hist ∈ [[RCall.add alice admin], [.add alice admin, .add alice root], [.add alice admin, .add alice root, .del alice admin]],
      ((plain.begin (plain.episodes RHeap.new (hist.map .alone)) [.request (request alice (s% "read"))]).run
        (List.replicate 100 0)).answer 0 = some (.decision (.ok true))) := by
  refine ⟨⟨List.replicate 12 0 ++ List.replicate 50 1 ++ List.replicate 50 2 ++ List.replicate 100 0, ?_⟩, ?_⟩
  all_goals decide +kernel

end RoleRequestsExample

end Fastac
