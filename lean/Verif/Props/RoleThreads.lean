import Verif.Lemmas.RoleParts

/-!
# C101: questions to a role manager that are asked at the same time
-/

namespace Fastac

/-- The history has calls of `AddLink` and `DeleteLink` only alone. -/
def OnlyQuestionsTogether (Rs : List Round) : Prop :=
  ∀ xs sched, .together xs sched ∈ Rs → ∀ x ∈ xs, x.asks = true

/-- **C101 (partial)**: a role manager without a matcher that has gone through any history in which links are added and
deleted one call at a time, and any number of questions were asked at the same time in between.  Now any number of
`HasLink`, `GetRoles` and `GetUsers` run at the same time, in any interleaving of their accesses to the maps, and with any
order of iteration.  None of them panics, and each that has returned gave the right answer for the links of the history:
the questions, whether about names in use or about new ones, do not disturb each other and leave nothing behind.

Missing: a role manager with a matcher, where this is false (`c101_fails`). -/
theorem c101_questions_partial {c : RConf} (hm : c.matcher = none) (ho : ∀ l, (c.ord l).Perm l) {Rs : List Round}
    (hq : OnlyQuestionsTogether Rs) (he : c.Ended RHeap.new Rs) {qs : List RCall} (hqs : ∀ x ∈ qs, x.asks = true)
    (sched : List Nat) {i : Nat} {x : RCall} (hi : qs[i]? = some x) :
    ((c.start (c.rounds RHeap.new Rs) qs).run sched).crashed i = false ∧
    ∀ a, ((c.start (c.rounds RHeap.new Rs) qs).run sched).answer i = some a →
      x.Right c.level (fun u r => linked (linkOpsOf Rs) u r = true) a := by
  have hc : c.Plain := ⟨hm, ho⟩
  have f := RConf.fit_rounds hc Rs RConf.Fit.new hq he
  rw [List.nil_append] at f
  have s := (RConf.safe_together hc f.base hqs).run sched
  exact ⟨s.crashed i, fun a ha => (s.answer ha x hi).same⟩

/-- **C101, part (partial)**: every question is answered: if the schedule `σ` lets the `i`-th of them run again and again,
there comes a moment at which it has returned, with the right answer. -/
theorem c101_answered_partial {c : RConf} (hm : c.matcher = none) (ho : ∀ l, (c.ord l).Perm l) {Rs : List Round}
    (hq : OnlyQuestionsTogether Rs) (he : c.Ended RHeap.new Rs) {qs : List RCall} (hqs : ∀ x ∈ qs, x.asks = true)
    {i : Nat} {x : RCall} (hi : qs[i]? = some x) (σ : Nat → Nat) (hσ : ∀ m, ∃ k, m ≤ k ∧ σ k = i) :
    ∃ k a, ((c.start (c.rounds RHeap.new Rs) qs).run ((List.range k).map σ)).answer i = some a ∧
      x.Right c.level (fun u r => linked (linkOpsOf Rs) u r = true) a := by
  have h0 : ((c.start (c.rounds RHeap.new Rs) qs).run ((List.range 0).map σ)).calls[i]? = some (c.thread x) := by
    show (qs.map c.thread)[i]? = _
    rw [List.getElem?_map, hi]
    rfl
  obtain ⟨k, ⟨a, ha⟩ | hk⟩ := RSystem.ends hσ _ 0 h0
  · have : ((c.start (c.rounds RHeap.new Rs) qs).run ((List.range k).map σ)).answer i = some a := by
      unfold RSystem.answer; rw [ha]
    exact ⟨k, a, this, (c101_questions_partial hm ho hq he hqs _ hi).2 a this⟩
  · have := (c101_questions_partial hm ho hq he hqs ((List.range k).map σ) hi).1
    unfold RSystem.crashed at this
    rw [hk] at this
    cases this

/-! ## Examples -/

namespace RoleThreadsExample

def plain : RConf := ⟨10, none, List.reverse⟩

def alice : Str := s% "alice"
def admin : Str := s% "admin"
def root : Str := s% "root"
def zoe : Str := s% "zoe"

/-- alice → admin → root; two questions about the new name zoe meet; admin → root is deleted and added again. -/
def past : List Round :=
  [.alone (.add alice admin), .alone (.add admin root),
   .together [.hasLink zoe root, .getRoles zoe] ([0, 1, 0, 0, 1] ++ List.replicate 30 0 ++ List.replicate 30 1),
   .alone (.del admin root), .alone (.hasLink alice root), .alone (.add admin root)]

theorem past_questions : OnlyQuestionsTogether past := by
  intro xs sched h
  simp only [past, List.mem_cons, reduceCtorEq, false_or, List.not_mem_nil, or_false, Round.together.injEq] at h
  rw [h.1]
  decide

theorem past_ended : plain.Ended RHeap.new past := by
  refine ⟨?_, trivial⟩
  show ∀ i, i < _ → _
  decide +kernel

def asked : List RCall := [.hasLink alice root, .hasLink zoe root, .getRoles zoe, .getUsers root, .hasLink root alice]

def interleaved : List Nat := [1, 2, 1, 2, 0, 3, 1, 2, 0, 0, 4, 4, 1, 2] ++ (List.range 200).map (· % 5)

/-- The hypotheses of C101 hold here, with questions about a name that is not in use, two of which make a role for it. -/
example : (∀ x ∈ asked, x.asks = true) ∧
    (List.range 5).map ((plain.start (plain.rounds RHeap.new past) asked).run interleaved).answer =
      [some (.bool true), some (.bool false), some (.names []), some (.names [admin]), some (.bool false)] := by
  refine ⟨by decide, ?_⟩
  decide +kernel

example (sched : List Nat) :=
  c101_questions_partial (c := plain) rfl (fun l => List.reverse_perm l) past_questions past_ended
    (qs := asked) (by decide) sched (i := 0) rfl

example := c101_answered_partial (c := plain) rfl (fun l => List.reverse_perm l) past_questions past_ended
    (qs := asked) (by decide) (i := 1) rfl (fun k => k % 5) (fun m => ⟨5 * m + 1, by omega, by omega⟩)

/-- Other answers: paths up to the level and no longer, paths that branch, a name and itself, users after a link is
deleted; each question next to another one for the same new name. -/
example :
    (let c : RConf := ⟨2, none, id⟩
     let y := (c.start (c.rounds RHeap.new past) [.hasLink alice admin, .hasLink alice root, .hasLink alice zoe,
        .hasLink admin zoe]).run ((List.range 200).map (· % 4))
     (List.range 4).map y.answer = [some (.bool true), some (.bool false), some (.bool false), some (.bool false)]) ∧
    (let h := plain.rounds RHeap.new [.alone (.add alice admin), .alone (.add alice root), .alone (.add alice zoe),
        .alone (.add admin (s% "a")), .alone (.add root (s% "b")), .alone (.add zoe (s% "c")), .alone (.del alice zoe)]
     let y := (plain.start h [.hasLink alice (s% "a"), .hasLink alice (s% "b"), .hasLink alice (s% "c"),
        .hasLink alice alice, .getUsers zoe]).run ((List.range 300).map (· % 5))
     (List.range 5).map y.answer = [some (.bool true), some (.bool true), some (.bool false), some (.bool true),
       some (.names [])]) := by
  refine ⟨?_, ?_⟩ <;> decide +kernel

/-- The second question finds the role that the first one has made, and goes on when it is gone. -/
example :
    (let y := (plain.start (plain.rounds RHeap.new past) [.hasLink alice zoe, .hasLink admin zoe]).run
        ([0, 0, 0, 1, 1, 1] ++ List.replicate 40 0 ++ List.replicate 40 1)
     y.answer 0 = some (.bool false) ∧ y.answer 1 = some (.bool false) ∧ y.heap.all.has zoe = false) := by
  decide +kernel

/-- `*` is a pattern that every other name matches. -/
def star : PMatcher := ⟨fun s => s.head? == some '*', fun n p => p == s% "*" && n != s% "*"⟩

def starry : RConf := ⟨10, some star, id⟩

/-- **C101 fails with a matcher.**  Two questions to an empty role manager: `GetRoles("*")` has taken the pattern role out
of `allRoles` again but not yet out of `patternRoles` when `GetRoles("zoe")` looks for patterns and panics.  And with
alice → `*`: `GetRoles("zoe")` has made the role zoe but not yet connected it to the pattern when `HasLink("alice", "zoe")`
finds it: the answer is false, alone it is true. -/
theorem c101_fails :
    (∃ sched, ((starry.start RHeap.new [.getRoles (s% "*"), .getRoles zoe]).run sched).crashed 1 = true) ∧
    (∃ sched, ((starry.start (starry.rounds RHeap.new [.alone (.add alice (s% "*"))])
        [.getRoles zoe, .hasLink alice zoe]).run sched).answer 1 = some (.bool false)) ∧
    ((starry.thread (.hasLink alice zoe)).exec (starry.rounds RHeap.new [.alone (.add alice (s% "*"))])).2 =
      some (.bool true) := by
  refine ⟨⟨List.replicate 9 0 ++ List.replicate 30 1, ?_⟩,
    ⟨List.replicate 2 0 ++ List.replicate 80 1, ?_⟩, ?_⟩ <;> decide +kernel

end RoleThreadsExample

end Fastac
