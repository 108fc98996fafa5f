import Verif.Lemmas.KnownRoles
import Verif.Props.RoleObjects
import Verif.Props.RoleRequests

/-!
# C106: with a matcher, questions and requests about names in use can run at the same time
-/

namespace Fastac

/-- **C106**: a role manager, with or without a matcher, after any sequence of calls and with any orders of the maps; `s` is
what is to be remembered from them.  Now any number of questions about names in use and of requests that only ask about such
names run at the same time, and every access to a map of the role manager may be interleaved with those of the others.  None
of them panics, the role manager stays as it is, and each answer and each decision is right for what is remembered.  Missing:
the cache in front of the matcher, see `c115_fails`. -/
theorem c106_known_partial (level : Nat) (m : Option PMatcher) (xs : List ((GoMap Str Nat → GoMap Str Nat) × RoleOp))
    (ho : ∀ x ∈ xs, ∀ l, (x.1 l).Perm l) : ∃ s, (Memory.none m).Leads (xs.map Prod.snd) s ∧
    ∀ (ord : GoMap Str Nat → GoMap Str Nat), (∀ l, (ord l).Perm l) → ∀ js : List Job, (∀ j ∈ js, j.Known s level) →
    ∀ sched : List Nat,
      let y := ((HeapRM.new level m).run xs).1
      let z := ((y.conf ord).begin y.heap js).run sched
      z.heap = y.heap ∧ ∀ (i : Nat) (j : Job), js[i]? = some j → z.crashed i = false ∧
        ∀ a, z.answer i = some a → j.RightBy s level a := by
  obtain ⟨rm, s, l, f, e⟩ := HeapRM.Fits.run_fits xs (HeapRM.Fits.new level m) ho
  refine ⟨s, l, fun ord hp js hj sched => ?_⟩
  have e' : ((HeapRM.new level m).run xs).1.level = level := e
  have t := (HeapRM.safe_known f hp (js := js) (by rw [e']; exact hj)).run sched
  rw [e'] at t
  exact ⟨t.inv, fun i j hi => ⟨t.crashed i, fun a ha => t.answer ha j hi⟩⟩

/-- **C106, part**: all of them return: if the schedule `σ` lets the `i`-th one run again and again, there comes a moment at
which it has returned, with the right answer. -/
theorem c106_returns_partial (level : Nat) (m : Option PMatcher) (xs : List ((GoMap Str Nat → GoMap Str Nat) × RoleOp))
    (ho : ∀ x ∈ xs, ∀ l, (x.1 l).Perm l) : ∃ s, (Memory.none m).Leads (xs.map Prod.snd) s ∧
    ∀ (ord : GoMap Str Nat → GoMap Str Nat), (∀ l, (ord l).Perm l) → ∀ js : List Job, (∀ j ∈ js, j.Known s level) →
    ∀ (i : Nat) (j : Job), js[i]? = some j → ∀ σ : Nat → Nat, (∀ m, ∃ k, m ≤ k ∧ σ k = i) →
      let y := ((HeapRM.new level m).run xs).1
      ∃ k a, (((y.conf ord).begin y.heap js).run ((List.range k).map σ)).answer i = some a ∧ j.RightBy s level a := by
  obtain ⟨s, l, h⟩ := c106_known_partial level m xs ho
  refine ⟨s, l, fun ord hp js hj i j hi σ hσ => ?_⟩
  intro y
  have h0 : (((y.conf ord).begin y.heap js).run ((List.range 0).map σ)).calls[i]? = some (j.thread (y.conf ord)) := by
    show (js.map (Job.thread (y.conf ord)))[i]? = _
    rw [List.getElem?_map, hi]
    rfl
  obtain ⟨k, ⟨a, ha⟩ | hk⟩ := RSystem.ends hσ _ 0 h0
  · have : (((y.conf ord).begin y.heap js).run ((List.range k).map σ)).answer i = some a := by
      unfold RSystem.answer; rw [ha]
    exact ⟨k, a, this, ((h ord hp js hj _).2 i j hi).2 a this⟩
  · have := ((h ord hp js hj ((List.range k).map σ)).2 i j hi).1
    unfold RSystem.crashed at this
    rw [hk] at this
    cases this

/-! ## Examples -/

namespace KnownRolesExample

open RoleObjectsExample

/-- `ann → d*`, `dev → bob`, and `d*` covers `dev`; a link is added and deleted, and a question is about the new name zoe. -/
def before : List RoleOp :=
  [.add ann anyD [], .add dev bob [], .add bob ann [], .hasLink (s% "zoe") bob, .del bob ann []]

/-- All names in the calls of `g`, whatever the answers are. -/
def onlyAbout {α : Type} (ns : List Str) : Asks (Str × Str) α → Bool
  | .done _ => true
  | .ask q k => ns.contains q.1 && ns.contains q.2 && onlyAbout ns (k true) && onlyAbout ns (k false)

theorem onlyAbout_within {α : Type} {ns : List Str} (g : Str → Str → Bool) : ∀ t : Asks (Str × Str) α, onlyAbout ns t = true →
    t.Within (· ∈ ns) g
  | .done _, _ => trivial
  | .ask q k, h => by
    simp only [onlyAbout, Bool.and_eq_true, List.contains_iff_mem] at h
    obtain ⟨⟨⟨h1, h2⟩, h3⟩, h4⟩ := h
    refine ⟨h1, h2, ?_⟩
    cases g q.1 q.2
    · exact onlyAbout_within g _ h4
    · exact onlyAbout_within g _ h3

/-- `r.act == p.act`, then `g(r.sub, p.sub)`; bob may write, `d*` may read. -/
def rules : Matcher :=
  match newMatcher RoleRequestsExample.pDef (.mk [] [.mk (s% "r_act == p_act") [.mk (s% "g(r_sub, p_sub)") []]])
      [[bob, s% "write"], [anyD, s% "read"]] with
  | .ok m => m
  | _ => ⟨RoleRequestsExample.pDef, .mk [] [], newNode []⟩

def ask (sub act : Str) : RoleRequest :=
  ⟨rules, RoleRequestsExample.pDef, RoleRequestsExample.evaluator sub act, Order.fwd, SOME_ALLOW⟩

def jobs : List Job :=
  [.request (ask ann (s% "write")), .question (.hasLink ann bob), .request (ask dev (s% "read")),
   .request (ask bob (s% "read")), .question (.getRoles ann), .question (.getUsers dev)]

theorem jobs_known {s : Memory} (h : ∀ n ∈ [ann, anyD, dev, bob], n ∈ s.used) (level : Nat) : ∀ j ∈ jobs, j.Known s level := by
  have mono : ∀ {α : Type} (g : Str → Str → Bool) (t : Asks (Str × Str) α), t.Within (· ∈ [ann, anyD, dev, bob]) g →
      t.Within (· ∈ s.used) g := by
    intro α g t
    induction t with
    | done _ => exact fun h => h
    | ask q k ih => exact fun w => ⟨h _ w.1, h _ w.2.1, ih _ w.2.2⟩
  intro j hj
  simp only [jobs, List.mem_cons, List.not_mem_nil, or_false] at hj
  rcases hj with rfl | rfl | rfl | rfl | rfl | rfl
  · exact fun g _ => mono g _ (onlyAbout_within g _ (by decide +kernel))
  · exact ⟨rfl, by simp only [RCall.about, List.mem_cons, List.not_mem_nil, or_false]; rintro n (rfl | rfl) <;> exact h _ (by decide)⟩
  · exact fun g _ => mono g _ (onlyAbout_within g _ (by decide +kernel))
  · exact fun g _ => mono g _ (onlyAbout_within g _ (by decide +kernel))
  · exact ⟨rfl, by simp only [RCall.about, List.mem_cons, List.not_mem_nil, or_false]; rintro n rfl; exact h _ (by decide)⟩
  · exact ⟨rfl, by simp only [RCall.about, List.mem_cons, List.not_mem_nil, or_false]; rintro n rfl; exact h _ (by decide)⟩

/-- The role manager after these calls. -/
def manager : HeapRM := ((HeapRM.new 10 (some globs)).run (inOrder List.reverse before)).1

/-- `ann` may write, since `ann → d*`, `d*` covers dev, and `dev → bob`; dev may read, since dev matches `d*`; bob may not.
(`900` steps are enough for all of them to return.) -/
example : (List.range 6).map (((manager.conf List.reverse).begin manager.heap jobs).run ((List.range 900).map (· % 6))).answer =
    [some (.decision (.ok true)), some (.answer (.bool true)), some (.decision (.ok true)), some (.decision (.ok false)),
     some (.answer (.names [anyD, dev])), some (.answer (.names [ann]))] := by
  decide +kernel

/-- The role manager is as before, also the number of its roles. -/
example : (((manager.conf List.reverse).begin manager.heap jobs).run ((List.range 900).map (· % 6))).heap.objs.length =
    manager.heap.objs.length ∧ manager.heap.objs.length = 5 ∧
    (((manager.conf List.reverse).begin manager.heap jobs).run ((List.range 900).map (· % 6))).heap.all = manager.heap.all := by
  decide +kernel

theorem before_used {s : Memory} (h : (Memory.none (some globs)).Leads before s) : s.used = [ann, anyD, dev, bob] := by
  obtain ⟨s1, ⟨-, -, u1, -⟩, s2, ⟨-, -, u2, -⟩, s3, ⟨-, -, u3, -⟩, s4, e4, s5, ⟨-, -, u5, -⟩, e⟩ := h
  have e4 : s4 = s3 := e4
  have e : s = s5 := e
  rw [e, u5, e4, u3, u2, u1]
  decide

/-- The conditions of C106 hold here. -/
example : ∃ s, (Memory.none (some globs)).Leads before s ∧ ∀ sched : List Nat, ∀ (i : Nat) (j : Job), jobs[i]? = some j →
    (((manager.conf id).begin manager.heap jobs).run sched).crashed i = false ∧
    ∀ a, (((manager.conf id).begin manager.heap jobs).run sched).answer i = some a → j.RightBy s 10 a := by
  obtain ⟨s, l, h⟩ := c106_known_partial 10 (some globs) (inOrder List.reverse before) (inOrder_perm List.reverse_perm _)
  rw [inOrder_ops] at l
  exact ⟨s, l, fun sched i j hi => (h id (fun _ => .refl _) jobs
    (jobs_known (by rw [before_used l]; exact fun _ h => h) 10) sched).2 i j hi⟩

/-- Next to a question about a name that is not in use this is false: `RoleRequestsExample.c103_fails`. -/
example := RoleRequestsExample.c103_fails

end KnownRolesExample

end Fastac
