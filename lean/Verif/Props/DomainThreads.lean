import Verif.Lemmas.DomainSeen

/-!
# C109: domains that are used at the same time
-/

namespace Fastac

/-- **C109, part**: the domains of a domain manager do not disturb each other.  Any history, with or without a role matcher,
in which `AddLink` and `DeleteLink` that run next to other calls have a domain path in use.  What a path in use sees of it is
a history `Ss` of one role manager: the same calls from the first `AddLink` or `DeleteLink` on, without those of other paths.
And whatever calls run at the same time now, in any interleaving, those with this path return (or panic) as they do on that
role manager in some interleaving with each other alone. -/
theorem c109_apart {c : RConf} {Rs : List DRound} (hu : OnlyPathsInUse Rs) (he : c.EndedD DHeap.new Rs) {P : List Str}
    (hP : PathUsed Rs P) :
    ∃ Ss, SeenAt P (sinceUsed P Rs) Ss ∧ (c.below P).Ended RHeap.new Ss ∧
      ∀ xs : List DCall, (∀ x ∈ xs, x.call.asks = false → PathUsed Rs x.path) → ∀ sched, ∃ sched', ∀ i x,
        xs[i]? = some x → x.path = P →
        (∀ a, ((c.startD (c.roundsD DHeap.new Rs) xs).run sched).answer i = some a →
          (((c.below P).start ((c.below P).rounds RHeap.new Ss) (callsAt P xs)).run sched').answer (numberAt P xs i) =
            some a) ∧
        (((c.startD (c.roundsD DHeap.new Rs) xs).run sched).crashed i = true →
          (((c.below P).start ((c.below P).rounds RHeap.new Ss) (callsAt P xs)).run sched').crashed (numberAt P xs i) =
            true) := by
  have t := RConf.tracked hu he
  obtain ⟨j, Ss, h1, h2, h3, h4⟩ := t.used P hP
  refine ⟨Ss, h2, h3, fun xs hx sched => ?_⟩
  obtain ⟨l, q⟩ := RConf.Coupled.run t.tree (t.known hx) h1 sched (RConf.coupled_start (c := c) (P := P) (j := j) xs)
  rw [h4] at q
  exact ⟨l, fun i x hi hp => q.answer h1 hi hp⟩

/-- **C109, part**: a question with a path with which `AddLink` and `DeleteLink` were never called is answered as by a new
role manager, whatever runs next to it. -/
theorem c109_unused {c : RConf} {Rs : List DRound} (hu : OnlyPathsInUse Rs) (he : c.EndedD DHeap.new Rs)
    {xs : List DCall} (hx : ∀ x ∈ xs, x.call.asks = false → PathUsed Rs x.path) (sched : List Nat) {i : Nat} {x : DCall}
    (hi : xs[i]? = some x) (hP : ¬ PathUsed Rs x.path) :
    (∀ a, ((c.startD (c.roundsD DHeap.new Rs) xs).run sched).answer i = some a →
      (((c.below x.path).thread x.call).exec RHeap.new).2 = some a) ∧
    (((c.startD (c.roundsD DHeap.new Rs) xs).run sched).crashed i = true →
      (((c.below x.path).thread x.call).exec RHeap.new).2 = none) := by
  have t := RConf.tracked hu he
  exact ((RConf.walking_start xs).run (t.known hx) sched).answer hi (t.unused _ hP)

theorem question_alone {c : RConf} (hc : c.Plain) {x : RCall} (hx : x.asks = true) :
    ∃ a, ((c.thread x).exec RHeap.new).2 = some a ∧ x.Right c.level (fun _ _ => False) a := by
  obtain ⟨-, a, h1, h2⟩ := (RConf.question_safe hc RHeap.Base.new hx).exec RHeap.new (RHeap.Ext.refl _)
  exact ⟨a, h1, h2.same⟩

/-- **C109 (partial)**: a domain manager without matchers that has gone through any history in which links are added and
deleted one call at a time, with any domain paths, and any number of questions were asked at the same time in between.  Now
any number of `HasLink`, `GetRoles` and `GetUsers` with any paths, known or not, run at the same time.  None of them panics,
and each that has returned gave the right answer for the links of the history with its path (and the level that is left
below the path).

Missing: matchers (`c101_fails`). -/
theorem c109_questions_partial {c : RConf} (hm : c.matcher = none) (ho : ∀ l, (c.ord l).Perm l) {Rs : List DRound}
    (hq : OnlyQuestionsTogetherAt Rs) (he : c.EndedD DHeap.new Rs) {qs : List DCall} (hqs : ∀ x ∈ qs, x.call.asks = true)
    (sched : List Nat) {i : Nat} {x : DCall} (hi : qs[i]? = some x) :
    ((c.startD (c.roundsD DHeap.new Rs) qs).run sched).crashed i = false ∧
    ∀ a, ((c.startD (c.roundsD DHeap.new Rs) qs).run sched).answer i = some a →
      x.call.Right (c.level - (x.path.length + 1)) (fun u r => linked (linkOpsAt x.path Rs) u r = true) a := by
  have hu := paths_of_questions hq
  have hx : ∀ x ∈ qs, x.call.asks = false → PathUsed Rs x.path := fun y hy ha => by
    rw [hqs y hy] at ha
    cases ha
  by_cases hP : PathUsed Rs x.path
  · obtain ⟨Ss, h1, h2, h3⟩ := c109_apart hu he hP
    obtain ⟨l, h4⟩ := h3 qs hx sched
    obtain ⟨h5, h6⟩ := h4 i x hi rfl
    have key := c101_questions_partial (c := c.below x.path) hm ho (questions_at hq h1) h2 (qs := callsAt x.path qs)
      (fun y hy => hqs _ (mem_callsAt.1 hy)) l (callsAt_number hi rfl)
    refine ⟨?_, fun a ha => ?_⟩
    · cases hc : ((c.startD (c.roundsD DHeap.new Rs) qs).run sched).crashed i with
      | false => rfl
      | true =>
        have := h6 hc
        rw [key.1] at this
        cases this
    · have := key.2 a (h5 a ha)
      have e : (fun u r => linked (linkOpsAt x.path Rs) u r = true) = (fun u r => linked (linkOpsOf Ss) u r = true) := by
        funext u r
        rw [linked_at h1]
      rw [e]
      exact this
  · obtain ⟨h5, h6⟩ := c109_unused (c := c) hu he hx sched hi hP
    obtain ⟨a', g1, g2⟩ := question_alone (c := c.below x.path) ⟨hm, ho⟩ (hqs x (List.mem_of_getElem? hi))
    refine ⟨?_, fun a ha => ?_⟩
    · cases hc : ((c.startD (c.roundsD DHeap.new Rs) qs).run sched).crashed i with
      | false => rfl
      | true =>
        have := h6 hc
        rw [g1] at this
        cases this
    · have := h5 a ha
      rw [g1] at this
      cases this
      have e : (fun u r => linked (linkOpsAt x.path Rs) u r = true) = (fun _ _ => False) := by
        funext u r
        rw [linked_unused hP]
        simp
      rw [e]
      exact g2

/-- **C109, part (partial)**: a domain manager without matchers goes through any history in which calls of all kinds, with
any paths, run at the same time, as long as `AddLink` and `DeleteLink` that run next to others use names that are in use in
their domain.  For every path there is an order of the calls with this path, which keeps the parts of the history in their
order, such that from now on every `HasLink` and `GetRoles` with the path is answered right for the links of the calls made
one after the other in this order.

Missing: new names, new domains (`c109_fails`), `GetUsers` and what the calls next to updates answer (as in C102). -/
theorem c109_updates_partial {c : RConf} (hm : c.matcher = none) (ho : ∀ l, (c.ord l).Perm l) {Rs : List DRound}
    (hu : OnlyNamesInUseAt Rs) (he : c.EndedD DHeap.new Rs) (P : List Str) :
    ∃ ops, MergeAt P Rs ops ∧ ∀ (qs : List DCall), (∀ x ∈ qs, x.call.asks = true) → ∀ (sched : List Nat) (i : Nat) (x : RCall),
      qs[i]? = some ⟨x, P⟩ → (∀ n, x ≠ .getUsers n) → ∀ a,
      ((c.startD (c.roundsD DHeap.new Rs) qs).run sched).answer i = some a →
      x.Right (c.level - (P.length + 1)) (fun u r => linked ops u r = true) a := by
  have hp := paths_of_names hu
  have hx : ∀ qs : List DCall, (∀ x ∈ qs, x.call.asks = true) → ∀ x ∈ qs, x.call.asks = false → PathUsed Rs x.path :=
    fun qs hqs y hy ha => by
      rw [hqs y hy] at ha
      cases ha
  by_cases hP : PathUsed Rs P
  · obtain ⟨Ss, h1, h2, h3⟩ := c109_apart hp he hP
    obtain ⟨ops, g1, g2⟩ := c102_updates_partial (c := c.below P) hm ho (names_at hu h1) h2
    obtain ⟨ops', g3, g4⟩ := merge_at h1 g1
    refine ⟨ops', g3, fun qs hqs sched i x hi hxu a ha => ?_⟩
    obtain ⟨l, h4⟩ := h3 qs (hx qs hqs) sched
    have := g2 (callsAt P qs) (fun y hy => hqs _ (mem_callsAt.1 hy)) l _ x (callsAt_number hi rfl) hxu a
      ((h4 i _ hi rfl).1 a ha)
    have e : (fun u r => linked ops' u r = true) = (fun u r => linked ops u r = true) := by
      funext u r
      rw [g4]
    rw [e]
    exact this
  · obtain ⟨ops, g1, g2⟩ := merge_unused hP
    refine ⟨ops, g1, fun qs hqs sched i x hi _ a ha => ?_⟩
    obtain ⟨a', k1, k2⟩ := question_alone (c := c.below P) ⟨hm, ho⟩ (hqs _ (List.mem_of_getElem? hi))
    have := (c109_unused (c := c) hp he (hx qs hqs) sched hi hP).1 a ha
    have k1' : (((c.below P).thread x).exec RHeap.new).2 = some a' := k1
    rw [show (((c.below P).thread x).exec RHeap.new).2 = some a from this] at k1'
    cases k1'
    have e : (fun u r => linked ops u r = true) = (fun _ _ => False) := by
      funext u r
      rw [g2]
      simp
    rw [e]
    exact k2

/-- **C109, part (partial)**: none of these calls panics, and each one returns if it is let run again and again. -/
theorem c109_returns_partial {c : RConf} (hm : c.matcher = none) (ho : ∀ l, (c.ord l).Perm l) {Rs : List DRound}
    {xs : List DCall} (hu : OnlyNamesInUseAt (Rs ++ [.together xs []])) (he : c.EndedD DHeap.new Rs) :
    (∀ sched i, ((c.startD (c.roundsD DHeap.new Rs) xs).run sched).crashed i = false) ∧
    ∀ i, i < xs.length → ∀ σ : Nat → Nat, (∀ m, ∃ k, m ≤ k ∧ σ k = i) →
      ∃ k, (((c.startD (c.roundsD DHeap.new Rs) xs).run ((List.range k).map σ)).answer i).isSome = true := by
  have hu1 : OnlyNamesInUseAt Rs := fun p ys sched q e x hx ha n hn =>
    hu p ys sched (q ++ [.together xs []]) (by rw [e]; simp) x hx ha n hn
  have hp := paths_of_names hu1
  have hx : ∀ x ∈ xs, x.call.asks = false → PathUsed Rs x.path := fun x hx ha => by
    obtain ⟨n, hn⟩ := about_ne_nil x.call
    exact (hu Rs xs [] [] rfl x hx ha n hn).path
  have crash : ∀ sched i, ((c.startD (c.roundsD DHeap.new Rs) xs).run sched).crashed i = false := fun sched i => by
    cases hc : ((c.startD (c.roundsD DHeap.new Rs) xs).run sched).crashed i with
    | false => rfl
    | true =>
      cases hi : xs[i]? with
      | none =>
        exfalso
        unfold DSystem.crashed at hc
        have w := (RConf.walking_start (c := c) (h := c.roundsD DHeap.new Rs) xs).run
          ((RConf.tracked hp he).known hx) sched
        rw [List.getElem?_eq_none (by rw [w.ylen]; exact List.getElem?_eq_none_iff.1 hi)] at hc
        cases hc
      | some x =>
        exfalso
        by_cases hP : PathUsed Rs x.path
        · obtain ⟨Ss, h1, h2, h3⟩ := c109_apart hp he hP
          obtain ⟨l, h4⟩ := h3 xs hx sched
          have h5 := (h4 i x hi rfl).2 hc
          have hn : OnlyNamesInUse (Ss ++ [.together (callsAt x.path xs) []]) := by
            have h6 : SeenAt x.path (sinceUsed x.path (Rs ++ [.together xs []])) (Ss ++ [.together (callsAt x.path xs) []]) := by
              rw [sinceUsed_append _ hP]
              exact h1.append (.together [] .nil)
            exact names_at hu h6
          have := (c102_returns_partial (c := c.below x.path) hm ho hn h2).1 l (numberAt x.path xs i)
          rw [h5] at this
          cases this
        · have ha : x.call.asks = true := by
            cases ha : x.call.asks with
            | true => rfl
            | false => exact absurd (hx x (List.mem_of_getElem? hi) ha) hP
          obtain ⟨a', k1, -⟩ := question_alone (c := c.below x.path) ⟨hm, ho⟩ ha
          have := (c109_unused (c := c) hp he hx sched hi hP).2 hc
          rw [k1] at this
          cases this
  refine ⟨crash, fun i hi σ hσ => ?_⟩
  have h0 : ((c.startD (c.roundsD DHeap.new Rs) xs).run ((List.range 0).map σ)).calls[i]? =
      some (c.domainThread xs[i].call xs[i].path) := by
    show (xs.map _)[i]? = _
    rw [List.getElem?_map, List.getElem?_eq_getElem hi]
    rfl
  obtain ⟨k, ⟨a, ha⟩ | hk⟩ := DSystem.ends hσ _ 0 h0
  · refine ⟨k, ?_⟩
    unfold DSystem.answer
    rw [ha]
    rfl
  · have := crash ((List.range k).map σ) i
    unfold DSystem.crashed at this
    rw [hk] at this
    cases this

/-! ## Examples -/

namespace DomainThreadsExample

open RoleThreadsExample

def d1 : Str := s% "domain1"
def d2 : Str := s% "domain2"
def sub : Str := s% "sub"

/-- alice → admin → root in domain1 and in the domain below it, alice → root in domain2, alice → zoe without a domain.
Questions with a new path and with old ones meet. -/
def past : List DRound :=
  [.alone ⟨.hasLink alice admin, [d1]⟩, .alone ⟨.add alice admin, [d1]⟩, .alone ⟨.add alice root, [d2]⟩,
   .alone ⟨.add admin root, [d1]⟩, .alone ⟨.add alice admin, [d1, sub]⟩, .alone ⟨.add alice zoe, []⟩,
   .together [⟨.hasLink alice root, [d1]⟩, ⟨.getRoles alice, [d2, sub]⟩, ⟨.getUsers root, [d2]⟩]
     ((List.range 90).map (· % 3)),
   .alone ⟨.del alice root, [d2]⟩, .alone ⟨.del zoe root, [d2]⟩]

theorem past_questions : OnlyQuestionsTogetherAt past := by
  intro xs sched h
  simp only [past, List.mem_cons, reduceCtorEq, false_or, List.not_mem_nil, or_false, DRound.together.injEq] at h
  obtain ⟨rfl, -⟩ := h
  simp [RCall.asks]

theorem past_ended : plain.EndedD DHeap.new past := by
  refine ⟨?_, trivial⟩
  show ∀ i, i < _ → _
  decide +kernel

def asked : List DCall :=
  [⟨.hasLink alice root, [d1]⟩, ⟨.hasLink alice root, [d2]⟩, ⟨.hasLink alice root, [d1, sub]⟩, ⟨.getRoles alice, []⟩,
   ⟨.getRoles alice, [sub]⟩, ⟨.hasLink zoe zoe, [d2, sub]⟩, ⟨.getUsers admin, [d1, sub]⟩]

/-- The hypotheses of C109 hold here. -/
example : (∀ x ∈ asked, x.call.asks = true) ∧
    (List.range 7).map ((plain.startD (plain.roundsD DHeap.new past) asked).run ((List.range 300).map (· % 7))).answer =
      [some (.bool true), some (.bool false), some (.bool false), some (.names [zoe]), some (.names []), some (.bool true),
       some (.names [alice])] := by
  refine ⟨by simp [asked, RCall.asks], ?_⟩
  decide +kernel

example (sched : List Nat) :=
  c109_questions_partial (c := plain) rfl (fun l => List.reverse_perm l) past_questions past_ended
    (qs := asked) (by simp [asked, RCall.asks]) sched (i := 2) rfl

theorem past_used : PathUsed past [d1] := ⟨_, .tail _ (.head _), _, .head _, rfl, rfl⟩

example := c109_apart (c := plain) (paths_of_questions past_questions) past_ended past_used

theorem past_unused : ¬ PathUsed past [sub] := by
  rintro ⟨R, hR, y, hy, h1, h2⟩
  simp only [past, List.mem_cons, List.not_mem_nil, or_false] at hR
  rcases hR with rfl | rfl | rfl | rfl | rfl | rfl | rfl | rfl | rfl <;>
    simp only [DRound.calls, List.mem_cons, List.not_mem_nil, or_false] at hy
  case inr.inr.inr.inr.inr.inr.inl =>
    rcases hy with rfl | rfl | rfl <;> cases h1
  all_goals
    subst hy
    revert h2
    decide

theorem asked_ask : ∀ x ∈ asked, x.call.asks = true := by simp [asked, RCall.asks]

example (sched : List Nat) :=
  c109_unused (c := plain) (xs := asked) (i := 4) (paths_of_questions past_questions) past_ended
    (fun x hx ha => by rw [asked_ask x hx] at ha; cases ha) sched rfl past_unused

/-- Everybody is in use in domain1 and in domain2; then alice gets a role in one and loses one in the other. -/
def busy : List DRound :=
  [.alone ⟨.add alice admin, [d1]⟩, .alone ⟨.add alice admin, [d2]⟩, .alone ⟨.add admin root, [d1]⟩]

def now : List DCall := [⟨.add alice root, [d1]⟩, ⟨.del alice admin, [d2]⟩, ⟨.hasLink zoe root, [d1]⟩, ⟨.del alice admin, [d1]⟩]

theorem busy_in_use : OnlyNamesInUseAt (busy ++ [.together now []]) := by
  intro pre xs sched post e x hx ha n hn
  have hx' : x ∈ now ∧ pre = busy := by
    unfold busy at e ⊢
    rcases pre with _ | ⟨p1, _ | ⟨p2, _ | ⟨p3, _ | ⟨p4, pre⟩⟩⟩⟩ <;>
      simp only [List.nil_append, List.cons_append, List.cons.injEq, reduceCtorEq, false_and, and_false,
        DRound.together.injEq, List.nil_eq, List.append_eq_nil_iff] at e
    obtain ⟨rfl, rfl, rfl, ⟨rfl, rfl⟩, -⟩ := e
    exact ⟨hx, rfl⟩
  obtain ⟨hx', rfl⟩ := hx'
  simp only [now, List.mem_cons, List.not_mem_nil, or_false] at hx'
  rcases hx' with rfl | rfl | rfl | rfl
  · simp only [RCall.about, List.mem_cons, List.not_mem_nil, or_false] at hn
    rcases hn with rfl | rfl
    · exact ⟨_, .head _, _, .head _, rfl, rfl, by decide⟩
    · exact ⟨_, .tail _ (.tail _ (.head _)), _, .head _, rfl, rfl, by decide⟩
  · simp only [RCall.about, List.mem_cons, List.not_mem_nil, or_false] at hn
    rcases hn with rfl | rfl
    · exact ⟨_, .tail _ (.head _), _, .head _, rfl, rfl, by decide⟩
    · exact ⟨_, .tail _ (.head _), _, .head _, rfl, rfl, by decide⟩
  · cases ha
  · simp only [RCall.about, List.mem_cons, List.not_mem_nil, or_false] at hn
    rcases hn with rfl | rfl
    · exact ⟨_, .head _, _, .head _, rfl, rfl, by decide⟩
    · exact ⟨_, .head _, _, .head _, rfl, rfl, by decide⟩

example := c109_returns_partial (c := plain) rfl (fun l => List.reverse_perm l) busy_in_use trivial

def busier : List DRound := busy ++ [.together now ((List.range 120).map (· % 4))]

theorem busier_in_use : OnlyNamesInUseAt busier := by
  intro pre xs sched post e x hx ha n hn
  have e' : pre = busy ∧ xs = now := by
    unfold busier busy at e
    unfold busy
    rcases pre with _ | ⟨p1, _ | ⟨p2, _ | ⟨p3, _ | ⟨p4, pre⟩⟩⟩⟩ <;>
      simp only [List.nil_append, List.cons_append, List.cons.injEq, reduceCtorEq, false_and, and_false,
        DRound.together.injEq, List.nil_eq, List.append_eq_nil_iff] at e
    obtain ⟨rfl, rfl, rfl, ⟨rfl, rfl⟩, -⟩ := e
    exact ⟨rfl, rfl⟩
  obtain ⟨rfl, rfl⟩ := e'
  exact busy_in_use busy now [] [] rfl x hx ha n hn

theorem busier_ended : plain.EndedD DHeap.new busier := by
  refine ⟨?_, trivial⟩
  show ∀ i, i < _ → _
  decide +kernel

example := c109_updates_partial (c := plain) rfl (fun l => List.reverse_perm l) busier_in_use busier_ended [d1]

/-- alice → root is there, alice → admin is gone from both domains. -/
example :
    (let y := (plain.startD (plain.roundsD DHeap.new busier)
        [⟨.getRoles alice, [d1]⟩, ⟨.getRoles alice, [d2]⟩, ⟨.getRoles admin, [d1]⟩]).run ((List.range 90).map (· % 3))
     (List.range 3).map y.answer = [some (.names [root]), some (.names []), some (.names [root])]) := by
  decide +kernel

/-- With level 3 one link is followed without a domain, and none in a domain. -/
example :
    (let c : RConf := ⟨3, none, id⟩
     let h := c.roundsD DHeap.new [.alone ⟨.add alice admin, []⟩, .alone ⟨.add alice admin, [d1]⟩,
       .alone ⟨.add alice admin, [d1, sub]⟩]
     let y := (c.startD h [⟨.hasLink alice admin, []⟩, ⟨.hasLink alice admin, [d1]⟩, ⟨.hasLink alice admin, [d1, sub]⟩]).run
       ((List.range 90).map (· % 3))
     (List.range 3).map y.answer = [some (.bool true), some (.bool false), some (.bool false)]) := by
  decide +kernel

/-- `DeleteLink` puts a domain and names in use, so that links can be added at the same time afterwards. -/
example :
    (let h := plain.roundsD DHeap.new [.alone ⟨.del alice admin, [d1]⟩, .alone ⟨.del zoe root, [d1]⟩]
     let y := (plain.startD h [⟨.add alice admin, [d1]⟩, ⟨.add zoe root, [d1]⟩]).run
       ([0, 1] ++ List.replicate 30 0 ++ List.replicate 30 1)
     ((plain.domainThread (.hasLink alice admin) [d1]).exec y.heap).2 = some (.bool true) ∧
     ((plain.domainThread (.hasLink zoe root) [d1]).exec y.heap).2 = some (.bool true)) := by
  decide +kernel

/-- Questions make no managers; the domain with the empty name is a domain. -/
example :
    (let h := plain.roundsD DHeap.new [.alone ⟨.hasLink alice admin, [d1]⟩, .alone ⟨.getRoles alice, [d1, sub]⟩,
       .alone ⟨.getUsers alice, []⟩]
     h.dms.length = 1 ∧ h.rms.length = 0) ∧
    ((plain.domainThread (.hasLink alice admin) []).exec
      (plain.roundsD DHeap.new [.alone ⟨.add alice admin, [[]]⟩])).2 = some (.bool false) := by
  decide +kernel

/-- **C109 fails for new domains.**  Two goroutines give alice and zoe a role in the new domain `domain1`, with different
names.  Both calls return true; but each has made a manager for the domain, the second one stored is the one that counts, and
alice's link is lost.  The same happens in two new domains below a new one, and without a domain in a new manager. -/
theorem c109_fails :
    (∃ sched, let y := (plain.startD DHeap.new [⟨.add alice admin, [d1]⟩, ⟨.add zoe root, [d1]⟩]).run sched
      y.answer 0 = some (.bool true) ∧ y.answer 1 = some (.bool true) ∧
      ((plain.domainThread (.hasLink alice admin) [d1]).exec y.heap).2 = some (.bool false) ∧
      ((plain.domainThread (.hasLink zoe root) [d1]).exec y.heap).2 = some (.bool true)) ∧
    (∃ sched, let y := (plain.startD DHeap.new [⟨.add alice admin, [d1, d2]⟩, ⟨.add zoe root, [d1, sub]⟩]).run sched
      y.answer 0 = some (.bool true) ∧ y.answer 1 = some (.bool true) ∧
      ((plain.domainThread (.hasLink alice admin) [d1, d2]).exec y.heap).2 = some (.bool false) ∧
      ((plain.domainThread (.hasLink zoe root) [d1, sub]).exec y.heap).2 = some (.bool true)) ∧
    (∃ sched, let y := (plain.startD DHeap.new [⟨.add alice admin, []⟩, ⟨.add zoe root, []⟩]).run sched
      y.answer 0 = some (.bool true) ∧ y.answer 1 = some (.bool true) ∧
      ((plain.domainThread (.hasLink alice admin) []).exec y.heap).2 = some (.bool false) ∧
      ((plain.domainThread (.hasLink zoe root) []).exec y.heap).2 = some (.bool true)) := by
  refine ⟨⟨[0, 1] ++ List.replicate 30 0 ++ List.replicate 30 1, ?_⟩,
    ⟨[0, 1] ++ List.replicate 30 0 ++ List.replicate 30 1, ?_⟩,
    ⟨[0, 1] ++ List.replicate 30 0 ++ List.replicate 30 1, ?_⟩⟩ <;> decide +kernel

end DomainThreadsExample

end Fastac
