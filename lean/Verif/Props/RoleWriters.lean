import Verif.Lemmas.RoleWriters
import Verif.Props.RoleThreads

/-!
# C102: links added and deleted at the same time
-/

namespace Fastac

/-- Calls of `AddLink` and `DeleteLink` that do not run alone use only names that have occurred in `AddLink` or
`DeleteLink` in an earlier part of the history. -/
def OnlyNamesInUse (Rs : List Round) : Prop :=
  ∀ pre xs sched post, Rs = pre ++ .together xs sched :: post → ∀ x ∈ xs, x.asks = false → ∀ n ∈ x.about,
    ∃ R ∈ pre, ∃ y ∈ R.calls, y.asks = false ∧ n ∈ y.about

/-- **C102 (partial)**: a role manager without a matcher goes through any history in which calls of all kinds run at the
same time, interleaved in any way, as long as `AddLink` and `DeleteLink` that run next to others use names in use; the
questions next to them may be about any names.  Then there is an order of the calls, which keeps the parts of the history
in their order, such that from now on every `HasLink` and `GetRoles` is answered right for the links of the calls made one
after the other in this order: no link is lost and none comes back.

Missing: new names in `AddLink` and `DeleteLink`, `GetUsers`, what the calls answer that run next to updates, and matchers
(`c102_fails`, `c101_fails`). -/
theorem c102_updates_partial {c : RConf} (hm : c.matcher = none) (ho : ∀ l, (c.ord l).Perm l) {Rs : List Round}
    (hu : OnlyNamesInUse Rs) (he : c.Ended RHeap.new Rs) :
    ∃ ops, Merge Rs ops ∧ ∀ (qs : List RCall), (∀ x ∈ qs, x.asks = true) → ∀ (sched : List Nat) (i : Nat) (x : RCall),
      qs[i]? = some x → (∀ n, x ≠ .getUsers n) → ∀ a,
      ((c.start (c.rounds RHeap.new Rs) qs).run sched).answer i = some a →
      x.Right c.level (fun u r => linked ops u r = true) a := by
  have hc : c.Plain := ⟨hm, ho⟩
  obtain ⟨ops, U, h1, f⟩ := RConf.fit_merge hc Rs [] RConf.Fit.new (fun n ⟨_, h, _⟩ => by cases h)
    (fun p xs sched q e x hx ha n hn => by
      rw [List.nil_append]
      exact hu p xs sched q e x hx ha n hn) he
  rw [List.nil_append] at f
  refine ⟨ops, h1, fun qs hqs sched i x hi hx a ha => ?_⟩
  have := ((RConf.safe_together hc f.base hqs).run sched).answer ha x hi
  cases x with
  | getUsers n => exact absurd rfl (hx n)
  | add u r => exact this
  | del u r => exact this
  | hasLink u r => exact this
  | getRoles n => exact this

/-- **C102, part (partial)**: none of these calls panics, and each one returns if it is let run again and again. -/
theorem c102_returns_partial {c : RConf} (hm : c.matcher = none) (ho : ∀ l, (c.ord l).Perm l) {Rs : List Round}
    {xs : List RCall} (hu : OnlyNamesInUse (Rs ++ [.together xs []])) (he : c.Ended RHeap.new Rs) :
    (∀ sched i, ((c.start (c.rounds RHeap.new Rs) xs).run sched).crashed i = false) ∧
    ∀ i, i < xs.length → ∀ σ : Nat → Nat, (∀ m, ∃ k, m ≤ k ∧ σ k = i) →
      ∃ k, (((c.start (c.rounds RHeap.new Rs) xs).run ((List.range k).map σ)).answer i).isSome = true := by
  have hc : c.Plain := ⟨hm, ho⟩
  have hu1 : ∀ p ys sched q, Rs = p ++ .together ys sched :: q → ∀ x ∈ ys, x.asks = false → ∀ n ∈ x.about,
      RConf.Before ([] ++ p) n := fun p ys sched q e x hx ha n hn => by
    rw [List.nil_append]
    exact hu p ys sched (q ++ [.together xs []]) (by rw [e]; simp) x hx ha n hn
  obtain ⟨ops, U, h1, f⟩ := RConf.fit_merge hc Rs [] RConf.Fit.new (fun n ⟨_, h, _⟩ => by cases h) hu1 he
  rw [List.nil_append] at f
  have all : ∀ (Rs : List Round) (ops : List LinkOp), Merge Rs ops → ∃ zs : List RCall, ops = zs.map RCall.op ∧
      ∀ R ∈ Rs, ∀ y ∈ R.calls, y ∈ zs := by
    intro Rs
    induction Rs with
    | nil => rintro ops rfl; exact ⟨[], rfl, fun R hR => by cases hR⟩
    | cons R' Rs ih =>
      rintro ops ⟨zs, ops', hz, rfl, hm'⟩
      obtain ⟨ws, rfl, hw⟩ := ih ops' hm'
      refine ⟨zs ++ ws, by rw [List.map_append], fun R hR y hy => ?_⟩
      rcases List.mem_cons.1 hR with rfl | hR
      · exact List.mem_append_left _ (hz.mem_iff.2 hy)
      · exact List.mem_append_right _ (hw R hR y hy)
  obtain ⟨zs, e, hz⟩ := all Rs ops h1
  have uses : ∀ x ∈ xs, RConf.Uses (c.rounds RHeap.new Rs) x := by
    intro x hx ha n hn
    rw [f.names, e]
    obtain ⟨R, hR, y, hy, h2, h3⟩ := hu Rs xs [] [] rfl x hx ha n hn
    have := (RConf.known_append [] n zs).2 (.inr ⟨y, hz R hR y hy, h2, h3⟩)
    rwa [List.nil_append] at this
  have crash : ∀ sched i, ((c.start (c.rounds RHeap.new Rs) xs).run sched).crashed i = false := fun sched i => by
    obtain ⟨dn, l⟩ := (RConf.lin_start hc f uses).run sched
    exact l.crashed i
  refine ⟨crash, fun i hi σ hσ => ?_⟩
  have h0 : ((c.start (c.rounds RHeap.new Rs) xs).run ((List.range 0).map σ)).calls[i]? = some (c.thread xs[i]) := by
    show (xs.map c.thread)[i]? = _
    rw [List.getElem?_map, List.getElem?_eq_getElem hi]
    rfl
  obtain ⟨k, ⟨a, ha⟩ | hk⟩ := RSystem.ends hσ _ 0 h0
  · refine ⟨k, ?_⟩
    unfold RSystem.answer
    rw [ha]
    rfl
  · have := crash ((List.range k).map σ) i
    unfold RSystem.crashed at this
    rw [hk] at this
    cases this

/-! ## Examples -/

namespace RoleWritersExample

open RoleThreadsExample

/-- Everybody is in use; then alice gets a role and loses one at the same time, next to a question about a new name. -/
def busy : List Round :=
  [.alone (.add alice admin), .alone (.add admin root), .alone (.del zoe root),
   .together [.add alice root, .del alice admin, .add zoe admin, .hasLink (s% "new") root]
     ((List.range 120).map (· % 4))]

theorem busy_in_use : OnlyNamesInUse busy := by
  intro pre xs sched post e x hx ha n hn
  have hx' : x ∈ ([.add alice root, .del alice admin, .add zoe admin, .hasLink (s% "new") root] : List RCall) ∧
      pre = busy.take 3 := by
    unfold busy at e ⊢
    rcases pre with _ | ⟨p1, _ | ⟨p2, _ | ⟨p3, _ | ⟨p4, pre⟩⟩⟩⟩ <;>
      simp only [List.nil_append, List.cons_append, List.cons.injEq, reduceCtorEq, false_and, and_false,
        Round.together.injEq, List.nil_eq, List.append_eq_nil_iff] at e
    obtain ⟨rfl, rfl, rfl, ⟨rfl, rfl⟩, -⟩ := e
    exact ⟨hx, rfl⟩
  obtain ⟨hx', rfl⟩ := hx'
  simp only [List.mem_cons, List.not_mem_nil, or_false] at hx'
  rcases hx' with rfl | rfl | rfl | rfl
  · simp only [RCall.about, List.mem_cons, List.not_mem_nil, or_false] at hn
    rcases hn with rfl | rfl
    · exact ⟨_, .head _, _, .head _, rfl, by decide⟩
    · exact ⟨_, .tail _ (.head _), _, .head _, rfl, by decide⟩
  · simp only [RCall.about, List.mem_cons, List.not_mem_nil, or_false] at hn
    rcases hn with rfl | rfl
    · exact ⟨_, .head _, _, .head _, rfl, by decide⟩
    · exact ⟨_, .head _, _, .head _, rfl, by decide⟩
  · simp only [RCall.about, List.mem_cons, List.not_mem_nil, or_false] at hn
    rcases hn with rfl | rfl
    · exact ⟨_, .tail _ (.tail _ (.head _)), _, .head _, rfl, by decide⟩
    · exact ⟨_, .head _, _, .head _, rfl, by decide⟩
  · cases ha

theorem busy_ended : plain.Ended RHeap.new busy := by
  refine ⟨?_, trivial⟩
  show ∀ i, i < _ → _
  decide +kernel

/-- The hypotheses of C102 hold here, and the links are as they should be. -/
example : (plain.rounds RHeap.new busy).all.map Prod.fst = [alice, admin, root, zoe] ∧
    [RCall.getRoles alice, .getRoles zoe, .hasLink zoe root, .hasLink alice admin].map
        (fun x => ((plain.thread x).exec (plain.rounds RHeap.new busy)).2) =
      [some (.names [root]), some (.names [admin]), some (.bool true), some (.bool false)] := by
  refine ⟨?_, ?_⟩ <;> decide +kernel

/-- Two roles for alice and one less, at the same time, in two interleavings. -/
example : ∀ sched ∈ [(List.range 60).map (· % 3), [0, 0, 0, 1, 1, 1, 2, 2, 2] ++ (List.range 60).map (2 - · % 3)],
    ((plain.thread (.getRoles alice)).exec (plain.rounds RHeap.new (busy.take 3 ++
      [.together [.add alice root, .add alice zoe, .del alice admin] sched]))).2 ∈
      [some (.names [zoe, root]), some (.names [root, zoe])] := by
  decide +kernel

example := c102_updates_partial (c := plain) rfl (fun l => List.reverse_perm l) busy_in_use busy_ended

example := c102_returns_partial (c := plain) rfl (fun l => List.reverse_perm l) (Rs := busy.take 3)
  (xs := [.add alice root, .del alice admin, .add zoe admin, .hasLink (s% "new") root])
  (fun pre xs sched post e => busy_in_use pre xs ((List.range 120).map (· % 4)) post (by
    have : pre = busy.take 3 ∧ xs = [.add alice root, .del alice admin, .add zoe admin, .hasLink (s% "new") root] ∧
        post = [] := by
      unfold busy at e ⊢
      rcases pre with _ | ⟨p1, _ | ⟨p2, _ | ⟨p3, _ | ⟨p4, pre⟩⟩⟩⟩ <;>
        simp only [List.take, List.nil_append, List.cons_append, List.cons.injEq, reduceCtorEq, false_and, and_false,
          Round.together.injEq, List.nil_eq, List.append_eq_nil_iff] at e
      obtain ⟨rfl, rfl, rfl, ⟨rfl, rfl⟩, rfl⟩ := e
      exact ⟨rfl, rfl, rfl⟩
    obtain ⟨rfl, rfl, rfl⟩ := this
    rfl)) trivial

/-- A call alone. -/
def ask (h : RHeap) (x : RCall) : Option RAns := ((plain.thread x).exec h).2

/-- **C102 fails in general**, already without a matcher.

1. Two `AddLink` for a user that is new: each makes a role for it, and the link of the one is lost with its role.
2. A question about a new user next to `AddLink` for it: both return, and the question has taken the user out again.
3. `AddLink` and `DeleteLink` of one link with names in use: afterwards the user does not have the role, but `GetUsers` of
   the role lists it.
4. Two `AddLink` of the same link both say that they have added it.
5. `HasLink("alice", "root")` next to `DeleteLink("alice", "admin")` and then `AddLink("admin", "root")` answers true,
   though there is no moment at which alice has the role root. -/
theorem c102_fails :
    (∃ sched, let y := (plain.start RHeap.new [.add alice admin, .add alice root]).run sched
      y.answer 0 = some (.bool true) ∧ y.answer 1 = some (.bool true) ∧
      ask y.heap (.hasLink alice admin) = some (.bool false)) ∧
    (∃ sched, let y := (plain.start RHeap.new [.hasLink alice root, .add alice admin]).run sched
      y.answer 0 = some (.bool false) ∧ y.answer 1 = some (.bool true) ∧
      ask y.heap (.hasLink alice admin) = some (.bool false)) ∧
    (∃ sched, let y := (plain.start (plain.rounds RHeap.new [.alone (.del alice admin)])
        [.add alice admin, .del alice admin]).run sched
      y.answer 0 = some (.bool true) ∧ y.answer 1 = some (.bool true) ∧
      ask y.heap (.getRoles alice) = some (.names []) ∧ ask y.heap (.getUsers admin) = some (.names [alice])) ∧
    (∃ sched, let y := (plain.start (plain.rounds RHeap.new [.alone (.del alice admin)])
        [.add alice admin, .add alice admin]).run sched
      y.answer 0 = some (.bool true) ∧ y.answer 1 = some (.bool true)) ∧
    (∃ sched1 sched2 sched3 sched4,
      let h := plain.rounds RHeap.new [.alone (.add alice admin), .alone (.del admin root)]
      let y0 := plain.start h [.hasLink alice root, .del alice admin, .add admin root]
      let y1 := y0.run sched1
      let y2 := y1.run sched2
      let y3 := y2.run sched3
      let y4 := y3.run sched4
      ask h (.hasLink alice root) = some (.bool false) ∧
      -- only the question has run; then the deletion runs, then the addition, then the rest of the question
      y1.heap.objs.length = h.objs.length ∧ ask y1.heap (.hasLink alice root) = some (.bool false) ∧
      y2.answer 1 = some (.bool true) ∧ y2.answer 2 = none ∧ ask y2.heap (.hasLink alice root) = some (.bool false) ∧
      y3.answer 2 = some (.bool true) ∧ y3.answer 0 = none ∧ ask y3.heap (.hasLink alice root) = some (.bool false) ∧
      y4.answer 0 = some (.bool true)) := by
  refine ⟨⟨[0, 1] ++ List.replicate 12 0 ++ List.replicate 12 1, ?_⟩,
    ⟨[0, 0] ++ List.replicate 12 1 ++ List.replicate 20 0, ?_⟩,
    ⟨List.replicate 4 0 ++ List.replicate 12 1 ++ List.replicate 12 0, ?_⟩,
    ⟨List.replicate 3 0 ++ List.replicate 12 1 ++ List.replicate 12 0, ?_⟩,
    ⟨List.replicate 6 0, List.replicate 12 1, List.replicate 12 2, List.replicate 60 0, ?_⟩⟩ <;> decide +kernel

end RoleWritersExample

end Fastac
