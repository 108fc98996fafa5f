import Verif.Lemmas.ManyHistories
import Verif.Props.RoleRequests

/-!
# C113: requests that ask several role definitions, at the same time
-/

namespace Fastac

/-- **C113 (partial)**: a model has any number of role definitions, with and without domains, whose managers have no matchers
and have gone through any history of calls alone and of calls and requests at the same time.  Now requests, whose matchers
ask the functions of the definitions with any domains, and calls of the managers run at the same time, also in the history:
`AddLink` and `DeleteLink` too, if none of the others has anything to do with that definition in that domain and it has been
used before.  None of them panics in a manager.  Each request that has returned has the decision that `Enforce` takes alone
where the functions answer as the links of the history say, and each call has the right answer.

Missing: managers with matchers, where this is false (`c113_fails`); updates next to requests that ask about the same domain
(`c103_updates_fail`), or in a domain that is not in use yet, where an update can be lost (`c113_new_domain_fails`). -/
theorem c113_decisions_partial {D : List GDefn} (hD : ∀ d ∈ D, d.conf.matcher = none ∧ ∀ l, (d.conf.ord l).Perm l)
    {Rs : List GPart} (he : Peaceful D Rs) {js : List GJob} (hm : MayMeet D Rs js) (sched : List Nat) {n : Nat} {j : GJob}
    (hn : js[n]? = some j) :
    ((beginG D (partsG D (GHeap.new D) Rs) js).run sched).crashed n = false ∧
    ∀ a, ((beginG D (partsG D (GHeap.new D) Rs) js).run sched).answer n = some a → j.Right D Rs a := by
  have hp : AllPlain D := fun d hd => ⟨(hD d hd).1, (hD d hd).2⟩
  have f := fit_parts hp Rs (fit_new D) he
  rw [List.nil_append] at f
  have r := (running_begin hp f hm).run (own_inj f hm) sched
  exact ⟨r.no_crash n, fun a ha => r.right ha j hn⟩

/-- **C113, part (partial)**: every request is decided and every call answered: if the schedule `σ` lets the `n`-th of them
run again and again, there comes a moment at which it has returned, with the right answer. -/
theorem c113_decided_partial {D : List GDefn} (hD : ∀ d ∈ D, d.conf.matcher = none ∧ ∀ l, (d.conf.ord l).Perm l)
    {Rs : List GPart} (he : Peaceful D Rs) {js : List GJob} (hm : MayMeet D Rs js) {n : Nat} {j : GJob}
    (hn : js[n]? = some j) (σ : Nat → Nat) (hσ : ∀ m, ∃ k, m ≤ k ∧ σ k = n) :
    ∃ k a, ((beginG D (partsG D (GHeap.new D) Rs) js).run ((List.range k).map σ)).answer n = some a ∧ j.Right D Rs a := by
  have h0 : ((beginG D (partsG D (GHeap.new D) Rs) js).run ((List.range 0).map σ)).calls[n]? = some (j.thread D) := by
    show (js.map (GJob.thread D))[n]? = _
    rw [List.getElem?_map, hn]
    rfl
  obtain ⟨k, ⟨a, ha⟩ | hk⟩ := Crowd.ends hσ _ 0 h0
  · have : ((beginG D (partsG D (GHeap.new D) Rs) js).run ((List.range k).map σ)).answer n = some a := by
      unfold Crowd.answer; rw [ha]
    exact ⟨k, a, this, (c113_decisions_partial hD he hm _ hn).2 a this⟩
  · have := (c113_decisions_partial hD he hm ((List.range k).map σ) hn).1
    unfold Crowd.crashed at this
    rw [hk] at this
    cases this

/-- **C113, part (partial)**: what is asked afterwards.  When all of them have returned, every further history goes on from
there: a single `HasLink` of any definition and any domains tells what the links of the history with the updates that ran at
the same time say. -/
theorem c113_after_partial {D : List GDefn} (hD : ∀ d ∈ D, d.conf.matcher = none ∧ ∀ l, (d.conf.ord l).Perm l)
    {Rs : List GPart} (he : Peaceful D Rs) {js : List GJob} (hm : MayMeet D Rs js) {sched : List Nat}
    (ho : ((beginG D (partsG D (GHeap.new D) Rs) js).run sched).Over) {i : Nat} {d : GDefn} (hd : D[i]? = some d)
    (u r : Str) (ds : List Str) :
    ∃ b, ((GCall.thread D ⟨i, .hasLink u r, ds⟩).exec (partsG D (GHeap.new D) (Rs ++ [.together js sched]))).2 =
        some (.bool b) ∧
      (b = true ↔ u = r ∨ ∃ k, k < depthOf D i ds ∧ Reach (linkedG D (Rs ++ [.together js sched]) i ds) k u r) := by
  have hp : AllPlain D := fun d hd => ⟨(hD d hd).1, (hD d hd).2⟩
  have f := fit_parts hp Rs (fit_new D) he
  rw [List.nil_append] at f
  have e : ∀ (Rs : List GPart) (h : GHeap), partsG D h (Rs ++ [.together js sched]) =
      partG D (partsG D h Rs) (.together js sched) := by
    intro Rs
    induction Rs with
    | nil => exact fun _ => rfl
    | cons R Rs ih => exact fun h => ih _
  rw [e]
  have f' := fit_parts_together hp f hm ho
  generalize partG D (partsG D (GHeap.new D) Rs) (.together js sched) = h at f'
  have k := question_keeps (Own := fun _ => False) hp f' (x := ⟨i, .hasLink u r, ds⟩) rfl hd (fun _ _ x => x)
  have key : ∀ (t : Thread GHeap RAns) (s : GHeap) (Q : RAns → Prop),
      t.Keeps (Around h fun _ => False) (Apart fun _ => False) Q → Around h (fun _ => False) s →
      ∃ a, (t.exec s).2 = some a ∧ Q a := by
    intro t
    induction t with
    | ret a => exact fun s Q x _ => ⟨a, rfl, x⟩
    | crash => exact fun s Q x _ => x.elim
    | act f k ih => exact fun s Q x y => ih s (f s) Q (x s y).2.2 (x s y).1
  obtain ⟨a, h1, h2⟩ := key _ h _ k ⟨.refl h, fun _ _ => RHeap.Ext.refl _⟩
  cases a with
  | bool b => exact ⟨b, h1, h2⟩
  | names ns => exact h2.elim

/-! ## Examples -/

namespace ManyRolesExample

open RoleThreadsExample RoleRequestsExample

instance avoidsDec {α : Type} (D : List GDefn) (i : Nat) (P : List Str) : ∀ t : Asks GAsk α, Decidable (t.Avoids D i P)
  | .done _ => .isTrue trivial
  | .ask _ k =>
    have := fun b => avoidsDec D i P (k b)
    inferInstanceAs (Decidable (_ ∧ ∀ b, (k b).Avoids D i P))

instance (D : List GDefn) (i : Nat) (P : List Str) : ∀ j : GJob, Decidable (j.Avoids D i P)
  | .call x => inferInstanceAs (Decidable (¬ (x.defn = i ∧ placeOf D i x.path = P)))
  | .request q => inferInstanceAs (Decidable (q.asks.Avoids D i P))

/-- `MayMeet`, by going through the jobs. -/
def check (D : List GDefn) (Rs : List GPart) (js : List GJob) : Bool :=
  (List.range js.length).all fun n =>
    match js[n]? with
    | some (.call x) =>
      match D[x.defn]? with
      | none => false
      | some d => x.call.asks || ((!d.domains || !(changesAt D x.defn x.path Rs).isEmpty) &&
          (List.range js.length).all fun m => m == n ||
            match js[m]? with
            | some j => decide (j.Avoids D x.defn (placeOf D x.defn x.path))
            | none => true)
    | _ => true

theorem check_ok {D : List GDefn} {Rs : List GPart} {js : List GJob} (h : check D Rs js = true) : MayMeet D Rs js := by
  intro n x hx
  have hl := (List.getElem?_eq_some_iff.1 hx).1
  have := List.all_eq_true.1 h n (List.mem_range.2 hl)
  rw [hx] at this
  dsimp only at this
  cases hd : D[x.defn]? with
  | none => rw [hd] at this; cases this
  | some d =>
    rw [hd] at this
    refine ⟨d, rfl, fun ha => ?_⟩
    simp only [ha, Bool.false_or, Bool.and_eq_true] at this
    refine ⟨fun hb e => ?_, fun m j hmn hj => ?_⟩
    · rw [hb, e] at this
      exact nomatch this.1
    · have h2 := List.all_eq_true.1 this.2 m (List.mem_range.2 (List.getElem?_eq_some_iff.1 hj).1)
      rw [hj] at h2
      simpa [hmn] using h2

/-- `p = sub, obj`. -/
def twoDef : PolicyDef := newPolicyDef (s% "p") (s% "sub, obj")

/-- Two stages, `g(r.sub, p.sub)` and `g2(r.obj, p.obj, r.dom)`. -/
def twoMatcher : Matcher :=
  match newMatcher twoDef (.mk [] [.mk (s% "g(r_sub, p_sub)") [.mk (s% "g2(r_obj, p_obj, r_dom)") []]])
      [[root, s% "all"], [admin, s% "papers"]] with
  | .ok m => m
  | _ => ⟨twoDef, .mk [] [], newNode []⟩

/-- The evaluator of the request `sub, obj, dom`. -/
def twoEvaluator (sub obj dom : Str) : AskEvaluator GAsk where
  compiles := fun _ => true
  eval := fun e r =>
    if e = s% "g(r_sub, p_sub)" then .ask ⟨0, sub, r.getD 0 [], []⟩ fun b => .done (.bool b)
    else .ask ⟨1, obj, r.getD 1 [], [dom]⟩ fun b => .done (.bool b)

def may (sub obj dom : Str) : GRequest := ⟨twoMatcher, twoDef, twoEvaluator sub obj dom, Order.fwd, SOME_ALLOW⟩

/-- `g = _, _` and `g2 = _, _, _`. -/
def defs : List GDefn := [⟨false, plain⟩, ⟨true, plain⟩]

theorem defs_plain : ∀ d ∈ defs, d.conf.matcher = none ∧ ∀ l, (d.conf.ord l).Perm l := by
  intro d hd
  simp only [defs, List.mem_cons, List.not_mem_nil, or_false] at hd
  rcases hd with rfl | rfl <;> exact ⟨rfl, fun l => List.reverse_perm l⟩

def acme : Str := s% "acme"
def umbra : Str := s% "umbra"
def papers : Str := s% "papers"
def report : Str := s% "report"

/-- alice is an admin; the report belongs to the papers of acme; the memo to those of umbra.  Then requests about acme meet
with the deletion of the memo from the papers of umbra. -/
def past : List GPart :=
  [.alone ⟨0, .add alice admin, []⟩, .alone ⟨1, .add report papers, [acme]⟩, .alone ⟨1, .add (s% "memo") papers, [umbra]⟩,
   .together [.request (may zoe report acme), .request (may alice report acme), .call ⟨1, .del (s% "memo") papers, [umbra]⟩,
     .call ⟨0, .getRoles zoe, []⟩] ((List.range 400).map (· % 4)),
   .alone ⟨0, .add admin root, []⟩]

theorem past_peaceful : Peaceful defs past := by
  refine ⟨check_ok ?_, ?_, trivial⟩
  · decide +kernel
  · show ∀ i, i < _ → _
    decide +kernel

/-- Requests about acme and about a domain that nobody knows, a question, and an update in umbra. -/
def meeting : List GJob :=
  [.request (may alice report acme), .request (may zoe report acme), .request (may alice report (s% "nowhere")),
   .call ⟨1, .add report papers, [umbra]⟩, .call ⟨1, .getUsers papers, [acme]⟩, .call ⟨0, .hasLink alice root, [umbra]⟩]

theorem meeting_ok : MayMeet defs past meeting := check_ok (by decide +kernel)

/-- The hypotheses of C113 hold here. -/
example : (List.range 6).map ((beginG defs (partsG defs (GHeap.new defs) past) meeting).run
      ((List.range 600).map (· % 6))).answer =
    [some (.decision (.ok true)), some (.decision (.ok false)), some (.decision (.ok false)), some (.answer (.bool true)),
     some (.answer (.names [report])), some (.answer (.bool true))] := by
  decide +kernel

example (sched : List Nat) := c113_decisions_partial defs_plain past_peaceful meeting_ok sched (n := 0) rfl

example := c113_decided_partial defs_plain past_peaceful meeting_ok (n := 1) rfl (fun k => k % 6)
    (fun m => ⟨6 * m + 1, by omega, by omega⟩)

theorem meeting_over :
    ((beginG defs (partsG defs (GHeap.new defs) past) meeting).run ((List.range 600).map (· % 6))).Over := by
  show ∀ i, i < _ → _
  decide +kernel

example := c113_after_partial defs_plain past_peaceful meeting_ok meeting_over (i := 1) rfl report papers [umbra]

/-- Afterwards: the report belongs to the papers of umbra, the memo does not. -/
example : ((GCall.thread defs ⟨1, .hasLink report papers, [umbra]⟩).exec
      (partsG defs (GHeap.new defs) (past ++ [.together meeting ((List.range 600).map (· % 6))]))).2 = some (.bool true) ∧
    ((GCall.thread defs ⟨1, .hasLink (s% "memo") papers, [umbra]⟩).exec
      (partsG defs (GHeap.new defs) (past ++ [.together meeting ((List.range 600).map (· % 6))]))).2 = some (.bool false) := by
  decide +kernel

/-- The decisions alone: `Enforce` depends on the functions. -/
example : (may zoe report acme).decision (fun _ => true) = .ok true ∧
    (may zoe report acme).decision (fun q => q.defn == 0) = .ok false ∧
    (may zoe report acme).decision (fun q => q.path == [acme] || q.role == admin) = .ok true ∧
    (may zoe report umbra).decision (fun q => q.path == [acme] || q.role == admin) = .ok false := by
  decide +kernel

/-- A definition without a manager: names are compared. -/
example : ((GAsk.thread defs ⟨7, alice, alice, []⟩).exec []).2 = some true ∧
    ((GAsk.thread defs ⟨7, alice, admin, [acme]⟩).exec []).2 = some false ∧
    ((GCall.thread defs ⟨7, .hasLink alice alice, []⟩).exec []).2 = none := by
  decide +kernel

/-- Two definitions of each kind: their links are apart. -/
def four : List GDefn := [⟨false, plain⟩, ⟨true, plain⟩, ⟨false, plain⟩, ⟨true, plain⟩]

theorem four_plain : ∀ d ∈ four, d.conf.matcher = none ∧ ∀ l, (d.conf.ord l).Perm l := by
  intro d hd
  simp only [four, List.mem_cons, List.not_mem_nil, or_false] at hd
  rcases hd with rfl | rfl | rfl | rfl <;> exact ⟨rfl, fun l => List.reverse_perm l⟩

def fourPast : List GPart :=
  [.alone ⟨2, .add alice admin, []⟩, .alone ⟨3, .add alice root, [acme]⟩]

theorem fourPast_peaceful : Peaceful four fourPast := trivial

def fourMeeting : List GJob :=
  [.call ⟨0, .hasLink alice admin, []⟩, .call ⟨1, .hasLink alice root, [acme]⟩, .call ⟨2, .hasLink alice admin, []⟩,
   .call ⟨3, .hasLink alice root, [acme]⟩, .call ⟨3, .hasLink alice admin, [acme]⟩]

example : (List.range 5).map ((beginG four (partsG four (GHeap.new four) fourPast) fourMeeting).run
      ((List.range 300).map (· % 5))).answer =
    [some (.answer (.bool false)), some (.answer (.bool false)), some (.answer (.bool true)), some (.answer (.bool true)),
     some (.answer (.bool false))] := by
  decide +kernel

example (sched : List Nat) :=
  c113_decisions_partial four_plain fourPast_peaceful (check_ok (by decide +kernel) : MayMeet four fourPast fourMeeting) sched
    (n := 0) rfl

/-- A request with an effect that wants no rule to deny. -/
def strict : GRequest := ⟨oddMatcher [.mk (s% "g(r_sub, p_sub)") []] [[admin, s% "allow"], [root, s% "deny"]], oddDef,
  ⟨fun _ => true, fun _ r => .ask ⟨2, alice, r.getD 0 [], []⟩ fun b => .done (.bool b)⟩, Order.fwd, SOME_ALLOW_NO_DENY⟩

example : ((beginG four (partsG four (GHeap.new four) fourPast) [.request strict]).run (List.replicate 100 0)).answer 0 =
      some (.decision (.ok true)) ∧
    ((beginG four (partsG four (GHeap.new four) (fourPast ++ [.alone ⟨2, .add admin root, []⟩])) [.request strict]).run
      (List.replicate 100 0)).answer 0 = some (.decision (.ok false)) := by
  decide +kernel

/-- **C113 fails with a matcher**, also for a definition with domains: the report → `*` in acme, so that every name is a role
of the report there.  `GetRoles("all", "acme")` has made the role all but not yet connected it to the pattern when the request
of root asks `g2(report, all, acme)`: the request is denied, alone it is granted. -/
theorem c113_fails :
    (∃ sched, ((beginG [⟨false, plain⟩, ⟨true, starry⟩]
        (partsG [⟨false, plain⟩, ⟨true, starry⟩] (GHeap.new [⟨false, plain⟩, ⟨true, starry⟩])
          [.alone ⟨1, .add report (s% "*"), [acme]⟩])
        [.call ⟨1, .getRoles (s% "all"), [acme]⟩, .request (may root report acme)]).run sched).answer 1 =
          some (.decision (.ok false))) ∧
      ((beginG [⟨false, plain⟩, ⟨true, starry⟩]
        (partsG [⟨false, plain⟩, ⟨true, starry⟩] (GHeap.new [⟨false, plain⟩, ⟨true, starry⟩])
          [.alone ⟨1, .add report (s% "*"), [acme]⟩])
        [.call ⟨1, .getRoles (s% "all"), [acme]⟩, .request (may root report acme)]).run (List.replicate 300 1)).answer 1 =
          some (.decision (.ok true)) := by
  refine ⟨⟨List.replicate 4 0 ++ List.replicate 300 1, ?_⟩, ?_⟩ <;> decide +kernel

/-- **C113 fails for a new domain**: nobody has used acme.  Two `AddLink` for different names make a role manager for it each,
and the second is stored over the first: both return true, and one link is lost. -/
theorem c113_new_domain_fails : ∃ sched,
    ((beginG defs (GHeap.new defs) [.call ⟨1, .add report papers, [acme]⟩, .call ⟨1, .add (s% "memo") (s% "all"), [acme]⟩]).run
      sched).answer 0 = some (.answer (.bool true)) ∧
    ((beginG defs (GHeap.new defs) [.call ⟨1, .add report papers, [acme]⟩, .call ⟨1, .add (s% "memo") (s% "all"), [acme]⟩]).run
      sched).answer 1 = some (.answer (.bool true)) ∧
    ((GCall.thread defs ⟨1, .hasLink report papers, [acme]⟩).exec
      ((beginG defs (GHeap.new defs) [.call ⟨1, .add report papers, [acme]⟩, .call ⟨1, .add (s% "memo") (s% "all"), [acme]⟩]).run
        sched).heap).2 = some (.bool false) := by
  refine ⟨[0, 1] ++ List.replicate 100 0 ++ List.replicate 100 1, ?_⟩
  decide +kernel

end ManyRolesExample

end Fastac
