import Verif.Lemmas.Quiet
import Verif.Props.Matching

/-!
# C107: the callback of `RangeMatches` may change the policy

`PolicyWithMatcher.sweep` is a call of `RangeMatches` (model/matcher/matcher.go:170-233) with a callback that is allowed to
call `AddRule`, `RemoveRule` (and `Clear`) of the policy that is being searched.  The loops are over maps that change under
them: an entry that is removed before its turn is not visited, an entry that is added may be visited or not (`Plan`).

`Played` (Spec/Callbacks.lean) says what the calls see: every call gets the variables and the policy that the call before
left.
-/

namespace Fastac

variable {σ : Type}

theorem sweep_ends {pDef : PolicyDef} {root : Stage} {s : PolicyWithMatcher} {E : Evaluator} {plan : Plan}
    {cb : Callback σ} (vars : σ) (hlive : Live pDef root s) (hb : root.Binary) (hl : root.Local pDef E)
    (hn : root.NeverFails pDef E) (hp : plan.Covers) (hcb : cb.Edits pDef) :
    Ends pDef root cb (Told pDef E root [] root.children)
      (fun r => OnPath pDef root [] r ∧ Stage.satAny E r root.children = true) ⟨s, none, vars, []⟩ (s.sweep E plan cb vars) := by
  have hi := hlive.inv hb
  unfold PolicyWithMatcher.sweep
  rw [hi.pdef, hi.expr]
  exact sweepStage_ends hb hcb hp root [] ⟨rfl, hi, hlive⟩ rfl rfl hb.2 hl hn

/-- **C107 (order).** A callback of `RangeMatches` may add and remove rules of the policy that is being searched.  The call
does not fail or panic; the callback is called one call after another, each on the policy that the call before left, until
it returns false; nothing else changes the policy; and the matcher is as if the changes had been made outside of the call. -/
theorem c107_calls_partial (pDef : PolicyDef) (root : Stage) (s : PolicyWithMatcher) (E : Evaluator) (plan : Plan)
    (cb : Callback σ) (vars : σ) (hlive : Live pDef root s) (hb : root.Binary) (hl : root.Local pDef E)
    (hn : root.NeverFails pDef E) (hp : plan.Covers) (hcb : cb.Edits pDef) :
    ∃ v st, s.sweep E plan cb vars = (v, st) ∧ (st = .cont ∨ st = .stop) ∧
      Played cb pDef.key vars s.policy v.reports v.vars v.pm.policy (st == .cont) ∧ Live pDef root v.pm := by
  have h := sweep_ends vars hlive hb hl hn hp hcb
  refine ⟨_, _, rfl, h.1.imp_right (·.1), ?_, h.2.1.fine.live⟩
  obtain ⟨new, e, hpl⟩ := h.2.2
  rw [List.nil_append] at e
  refine Eq.mp ?_ hpl
  rw [← e]
  rfl

/-- **C107 (sound).** Every rule that the callback gets is stored at the moment of that call and satisfies the matcher, or it
is the rule whose fields are all empty; and it is never the latter when no leaf expression of the matcher is true of that
rule. -/
theorem c107_sound_partial (pDef : PolicyDef) (root : Stage) (s : PolicyWithMatcher) (E : Evaluator) (plan : Plan)
    (cb : Callback σ) (vars : σ) (hlive : Live pDef root s) (hb : root.Binary) (hl : root.Local pDef E)
    (hn : root.NeverFails pDef E) (hp : plan.Covers) (hcb : cb.Edits pDef)
    (c : Report) (hc : c ∈ (s.sweep E plan cb vars).1.reports) :
    (c.rule ∈ c.before ∧ root.Matches E c.rule) ∨ (c.rule = blankRule pDef ∧ ¬ root.BlankSafe pDef E) := by
  obtain ⟨new, e, hT, -⟩ := (sweep_ends vars hlive hb hl hn hp hcb).2.1.reports
  rw [e, List.nil_append] at hc
  rcases hT c hc with ⟨a, -, -, b⟩ | ⟨a, b⟩
  · exact .inl ⟨a, b⟩
  · refine .inr ⟨a, fun x => b ?_⟩
    cases root
    exact x

/-- **C107 (complete).** If the callback does not return false, it gets every rule that satisfies the matcher and is stored
at the beginning and after each call. -/
theorem c107_complete_partial (pDef : PolicyDef) (root : Stage) (s : PolicyWithMatcher) (E : Evaluator) (plan : Plan)
    (cb : Callback σ) (vars : σ) (hlive : Live pDef root s) (hb : root.Binary) (hl : root.Local pDef E)
    (hn : root.NeverFails pDef E) (hp : plan.Covers) (hcb : cb.Edits pDef) (hgo : cb.GoesOn)
    (r : Rule) (hr : r ∈ s.policy.rules) (hm : root.Matches E r)
    (hstay : ∀ c ∈ (s.sweep E plan cb vars).1.reports, r ∈ c.after) :
    ∃ c ∈ (s.sweep E plan cb vars).1.reports, c.rule = r := by
  have h := sweep_ends vars hlive hb hl hn hp hcb
  have hcont : (s.sweep E plan cb vars).2 = .cont := by
    rcases h.1 with e | ⟨-, _, _, e⟩
    · exact e
    · rw [hgo] at e
      cases e
  obtain ⟨new, e, -, hC⟩ := h.2.1.reports
  rw [List.nil_append] at e
  rw [e] at hstay ⊢
  exact (hC r hr hstay).2 ⟨hcont, trivial, hm⟩

/-- What `removing` does to the policy. -/
theorem played_removing {key : Str} {vars' : Unit} {pol' : Policy} {go : Bool} : ∀ {l : List Report} {pol : Policy},
    pol.WF → Played removing key () pol l vars' pol' go →
    (∀ r, r ∈ pol'.rules ↔ r ∈ pol.rules ∧ ∀ c ∈ l, hash r ≠ hash c.rule) ∧
    (∀ c ∈ l, ∀ r, r ∈ pol'.rules → r ∈ c.after) ∧
    (∀ c ∈ l, ∀ r, r ∈ c.before → r ∈ pol.rules) ∧
    ((∀ c ∈ l, c.rule ∈ c.before) → (l.map (·.rule)).Nodup)
  | [], pol, _, h => by
    obtain ⟨-, rfl, -⟩ := h
    simp
  | c :: l, pol, hw, h => by
    obtain ⟨a, b, h⟩ := h
    have hrun : pol.run (removing () (key :: c.rule)).2.1 = (pol.removeRule c.rule).1 := rfl
    replace h : Played removing key () (pol.removeRule c.rule).1 l vars' pol' go := h
    rw [hrun] at b
    obtain ⟨w, -, hm, -⟩ := hw.removeRule c.rule
    obtain ⟨i1, i2, i3, i4⟩ := played_removing w h
    refine ⟨fun r => ?_, ?_, ?_, ?_⟩
    · rw [i1, hm]
      simp only [List.mem_cons, forall_eq_or_imp]
      exact and_assoc
    · intro d hd r hr
      rcases List.mem_cons.1 hd with rfl | hd
      · rw [b]; exact ((i1 r).1 hr).1
      · exact i2 d hd r hr
    · intro d hd r hr
      rcases List.mem_cons.1 hd with rfl | hd
      · rwa [a] at hr
      · exact ((hm r).1 (i3 d hd r hr)).1
    · intro hall
      rw [List.map_cons, List.nodup_cons]
      refine ⟨fun hmem => ?_, i4 fun d hd => hall d (List.mem_cons_of_mem _ hd)⟩
      obtain ⟨d, hd, e⟩ := List.mem_map.1 hmem
      have := i3 d hd _ (hall d (List.mem_cons_of_mem _ hd))
      rw [hm, e] at this
      exact this.2 rfl

theorem removing_edits {pDef : PolicyDef} (ha : pDef.args ≠ []) : removing.Edits pDef := by
  intro _ r h1 h2 op ho
  have : op = .remove r := by simpa [removing] using ho
  subst this
  refine ⟨⟨h1, ?_, h2⟩, by simp⟩
  rintro rfl
  exact ha (List.length_eq_zero_iff.1 h1.symm)

/-- **C107 (removing what matches).** A callback that removes every rule it gets removes exactly the stored rules that satisfy
the matcher: each of them is reported once, and the others are left.  (Except for the rule with empty fields, if a leaf
expression of the matcher is true of it.) -/
theorem c107_remove_partial (pDef : PolicyDef) (root : Stage) (s : PolicyWithMatcher) (E : Evaluator) (plan : Plan)
    (hlive : Live pDef root s) (hb : root.Binary) (hl : root.Local pDef E)
    (hn : root.NeverFails pDef E) (hp : plan.Covers) (ha : pDef.args ≠ []) :
    (∀ r, (r = blankRule pDef → root.BlankSafe pDef E) →
      (r ∈ (s.sweep E plan removing ()).1.pm.policy.rules ↔ r ∈ s.policy.rules ∧ ¬ root.Matches E r)) ∧
    (root.BlankSafe pDef E → ((s.sweep E plan removing ()).1.reports.map (·.rule)).Perm
      (s.policy.rules.filter fun r => Stage.satAny E r root.children)) := by
  have hi := hlive.inv hb
  have hcb := removing_edits ha
  obtain ⟨v, st, e, -, hpl, -⟩ := c107_calls_partial pDef root s E plan removing () hlive hb hl hn hp hcb
  have sound := c107_sound_partial pDef root s E plan removing () hlive hb hl hn hp hcb
  have compl := c107_complete_partial pDef root s E plan removing () hlive hb hl hn hp hcb fun _ _ => rfl
  rw [e] at sound compl ⊢
  obtain ⟨p1, p2, p3, p4⟩ := played_removing hi.wf hpl
  have good : ∀ c ∈ v.reports, GoodRule pDef c.rule := by
    intro c hc
    rcases sound c hc with h | h
    · exact hi.good _ (p3 c hc _ h.1)
    · rw [h.1]
      refine ⟨by simp [blankRule], ?_, by simp [blankRule]⟩
      intro x
      exact ha (List.length_eq_zero_iff.1 (by simpa [blankRule] using congrArg List.length x))
  have out : ∀ r ∈ s.policy.rules, root.Matches E r → ∃ c ∈ v.reports, c.rule = r := by
    intro r hr hm
    by_cases hx : ∃ c ∈ v.reports, c.rule = r
    · exact hx
    · refine compl r hr hm fun c hc => p2 c hc r ((p1 r).2 ⟨hr, fun d hd hh => hx ⟨d, hd, ?_⟩⟩)
      exact ((hi.good r hr).hash_inj (good d hd) hh).symm
  constructor
  · intro r hbl
    rw [p1]
    constructor
    · rintro ⟨a, b⟩
      refine ⟨a, fun hm => ?_⟩
      obtain ⟨c, hc, rfl⟩ := out r a hm
      exact b c hc rfl
    · rintro ⟨a, b⟩
      refine ⟨a, fun c hc hh => ?_⟩
      have := (hi.good r a).hash_inj (good c hc) hh
      subst this
      rcases sound c hc with h | h
      · exact b h.2
      · exact h.2 (hbl h.1)
  · intro hbs
    have sound' : ∀ c ∈ v.reports, c.rule ∈ c.before ∧ root.Matches E c.rule := by
      intro c hc
      rcases sound c hc with h | h
      · exact h
      · exact absurd hbs h.2
    refine (List.perm_ext_iff_of_nodup (p4 fun c hc => (sound' c hc).1) ?_).2 fun r => ?_
    · exact List.Pairwise.filter _ hi.wf.rules_nodup
    · rw [List.mem_map, List.mem_filter]
      constructor
      · rintro ⟨c, hc, rfl⟩
        exact ⟨p3 c hc _ (sound' c hc).1, (sound' c hc).2⟩
      · rintro ⟨a, b⟩
        exact out r a b

/-- **C107 (no changes).** With a callback that changes nothing, the call is the one of the theorems on matchers that do not
change (C07–C15): the same calls in the same order, the same end, and the policy is as before. -/
theorem c107_quiet (pDef : PolicyDef) (root : Stage) (s : PolicyWithMatcher) (E : Evaluator) (ord : Order)
    (fn : σ → Rule → σ × Bool) (vars : σ) (hlive : Live pDef root s) (hb : root.Binary) (hv : ord.Valid) :
    ∃ v st, s.sweep E ord.plan (fun x r => ((fn x r).1, [], (fn x r).2)) vars = (v, st) ∧ v.pm = s ∧
      s.matcher.rangeMatches E ord fn vars = (v.vars, st) := by
  have hi := hlive.inv hb
  have h := stage_agree (E := E) (n := pDef.args.length) (cb := fun x r => ((fn x r).1, [], (fn x r).2))
    (v := (⟨s, none, vars, []⟩ : Visit σ)) (fun _ _ => rfl) hv root (pos := some []) (path := []) (node := s.matcher.root)
    ⟨rfl, hi, hlive⟩ (.inl ⟨rfl, rfl, rfl⟩)
  refine ⟨_, _, rfl, ?_⟩
  unfold Matcher.rangeMatches
  rw [hi.pdef, hi.expr]
  exact ⟨h.still.pm, Prod.ext h.vars.symm h.status.symm⟩

/-! Examples: the matcher `r.sub == p.sub` with policy definition `sub, act`. -/
namespace SweepExample

def pDef : PolicyDef := newPolicyDef (s% "p") (s% "sub, act")
def root : Stage := .mk [] [.mk (s% "r_sub == p_sub") []]
def E (sub : Str) : Evaluator :=
  { compiles := fun _ => true
    eval := fun e r =>
      if e = s% "r_sub == p_sub" then .bool (pDef.getParameter r (s% "p_sub") == some sub) else .err }
def aliceRead : Rule := [s% "alice", s% "read"]
def aliceWrite : Rule := [s% "alice", s% "write"]
def alicePaint : Rule := [s% "alice", s% "paint"]
def bobRead : Rule := [s% "bob", s% "read"]
def start : PolicyWithMatcher := ⟨Policy.empty, ⟨pDef, root, newNode [[]]⟩⟩
def state : PolicyWithMatcher :=
  match start.run [.add aliceRead, .add bobRead, .add aliceWrite] with
  | .ok s => s
  | _ => start

theorem live : Live pDef root state := by
  have h0 : Live pDef root start := .create [] (by simp) [] (by decide) _ rfl
  have h1 := Live.change _ _ h0 (.add aliceRead) (by decide) rfl
  have h2 := Live.change _ _ h1 (.add bobRead) (by decide) rfl
  exact Live.change _ _ h2 (.add aliceWrite) (by decide) rfl

theorem binary : root.Binary := by
  simp [root, Stage.Binary, Stage.All, Stage.AllIn, Stage.children]

theorem local_ (sub : Str) : root.Local pDef (E sub) := by
  simp [root, Stage.Local, Stage.All, Stage.AllIn, Stage.isLeaf, Stage.children]

theorem blankSafe : root.BlankSafe pDef (E (s% "alice")) := by
  simp only [root, Stage.BlankSafe, Stage.All, Stage.AllIn, and_true, Stage.expr]
  exact (by decide)

theorem neverFails (sub : Str) : root.NeverFails pDef (E sub) := by
  simp [root, Stage.NeverFails, Stage.All, Stage.AllIn, Stage.expr, E]

/-- The keys that are there at the beginning. -/
def keys : Plan := fun _ _ m => m.map (·.1)

theorem keys_covers : keys.Covers := by
  intro _ _ m k h
  obtain ⟨n, hn⟩ := Option.isSome_iff_exists.1 h
  exact List.mem_map.2 ⟨_, GoMap.mem_of_get hn, rfl⟩

/-- ... and, after them, a key that is added meanwhile. -/
def keysAndPaint : Plan := fun _ _ m => m.map (·.1) ++ [hash alicePaint]

theorem keysAndPaint_covers : keysAndPaint.Covers := fun p i m k h => List.mem_append_left _ (keys_covers p i m k h)

/-- A callback that counts its calls; in the first call it removes a rule of bob and adds one of alice. -/
def busy : Callback Nat := fun n _ => (n + 1, if n = 0 then [.remove bobRead, .add alicePaint] else [], true)

theorem busy_edits : busy.Edits pDef := by
  intro n r _ _ op ho
  simp only [busy] at ho
  split at ho
  · rcases List.mem_cons.1 ho with rfl | ho
    · decide
    · rcases List.mem_cons.1 ho with rfl | ho
      · decide
      · cases ho
  · cases ho

/-- A callback that stops when it gets the second rule, after it has removed it. -/
def timid : Callback Nat := fun n r => (n + 1, [.remove r.tail], n == 0)

theorem timid_edits : timid.Edits pDef := by
  intro n r h1 h2 op ho
  have : op = .remove r := by simpa [timid] using ho
  subst this
  refine ⟨⟨h1, ?_, h2⟩, by simp⟩
  rintro rfl
  cases h1

/-- A callback that clears the policy. -/
def clearing : Callback Unit := fun _ _ => ((), [.clear], true)

/-- The same with an alternative that has nothing to do with the rule: `r.sub == p.sub || r.act == 'read'`. -/
def root' : Stage := .mk [] [.mk (s% "r_sub == p_sub") [], .mk (s% "r_act == 'read'") []]
def E' (sub : Str) : Evaluator :=
  { compiles := fun _ => true
    eval := fun e r =>
      if e = s% "r_sub == p_sub" then .bool (pDef.getParameter r (s% "p_sub") == some sub)
      else if e = s% "r_act == 'read'" then .bool true
      else .err }
def state' : PolicyWithMatcher :=
  match (⟨Policy.empty, ⟨pDef, root', newNode [[]]⟩⟩ : PolicyWithMatcher).run [.add aliceRead] with
  | .ok s => s
  | _ => start

theorem live' : Live pDef root' state' :=
  Live.change _ _ (.create [] (by simp) [] (by decide) _ rfl) (.add aliceRead) (by decide) rfl

end SweepExample

section
open SweepExample

/-- The hypotheses are met. -/
example : Live pDef root state ∧ root.Binary ∧ root.Local pDef (E (s% "alice")) ∧ root.NeverFails pDef (E (s% "alice")) ∧
    root.BlankSafe pDef (E (s% "alice")) ∧ keys.Covers ∧ keysAndPaint.Covers ∧ busy.Edits pDef ∧ timid.Edits pDef ∧
    removing.Edits pDef ∧ busy.GoesOn ∧ pDef.args ≠ [] :=
  ⟨live, binary, local_ _, neverFails _, blankSafe, keys_covers, keysAndPaint_covers, busy_edits, timid_edits,
    removing_edits (by decide), fun _ _ => rfl, by decide⟩

/-- A rule that is added during the call may be reported or not. -/
example :
    ((state.sweep (E (s% "alice")) keys busy 0).1.reports.map (·.rule) = [aliceRead, aliceWrite] ∧
      (state.sweep (E (s% "alice")) keys busy 0).1.vars = 2) ∧
    ((state.sweep (E (s% "alice")) keysAndPaint busy 0).1.reports.map (·.rule) = [aliceRead, aliceWrite, alicePaint] ∧
      (state.sweep (E (s% "alice")) keysAndPaint busy 0).1.vars = 3) ∧
    (state.sweep (E (s% "alice")) keysAndPaint busy 0).1.pm.policy.rules = [aliceRead, aliceWrite, alicePaint] ∧
    (state.sweep (E (s% "alice")) keysAndPaint busy 0).2 = .cont := by decide +kernel

/-- A rule that is removed before its turn is not reported. -/
example : (state.sweep (E (s% "bob")) keys (fun _ _ => ((), [.remove aliceRead], true)) ()).1.reports =
      [⟨bobRead, [aliceRead, bobRead, aliceWrite], [bobRead, aliceWrite]⟩] ∧
    ((state.sweep (E (s% "alice")) keys (fun _ _ => ((), [.remove aliceWrite], true)) ()).1.reports =
      [⟨aliceRead, [aliceRead, bobRead, aliceWrite], [aliceRead, bobRead]⟩]) := by decide +kernel

/-- The callback returns false: what it has done is done. -/
example : (state.sweep (E (s% "alice")) keys timid 0).1.pm.policy.rules = [bobRead] ∧
    (state.sweep (E (s% "alice")) keys timid 0).2 = .stop ∧
    (state.sweep (E (s% "alice")) keys timid 1).1.pm.policy.rules = [bobRead, aliceWrite] ∧
    (state.sweep (E (s% "alice")) keys timid 1).1.reports.length = 1 := by decide +kernel

/-- No changes. -/
example : (state.sweep (E (s% "alice")) Order.rev.plan (fun x r => (x ++ [r], [], true)) []).1.vars =
      [s% "p" :: aliceWrite, s% "p" :: aliceRead] ∧
    state.matcher.rangeMatches (E (s% "alice")) Order.rev (fun x r => (x ++ [r], true)) [] =
      ([s% "p" :: aliceWrite, s% "p" :: aliceRead], .cont) := by decide +kernel

/-- Removing what matches. -/
example : (state.sweep (E (s% "alice")) keys removing ()).1.pm.policy.rules = [bobRead] ∧
    (state.sweep (E (s% "alice")) keys removing ()).1.reports.map (·.rule) = [aliceRead, aliceWrite] ∧
    filter (state.sweep (E (s% "alice")) keys removing ()).1.pm.matcher (E (s% "alice")) Order.fwd = ([], .cont) ∧
    filter (state.sweep (E (s% "alice")) keys removing ()).1.pm.matcher (E (s% "bob")) Order.fwd =
      ([s% "p" :: bobRead], .cont) := by decide +kernel

/-- A matcher with two stages, a request that three of four rules satisfy. -/
example :
    let E2 : Evaluator := ⟨fun _ => true, fun e r => if e = s% "r_sub == p_sub" then .bool (r.head? != some (s% "carol"))
      else .bool (r.getLast? != some (s% "write") && r.getLast? != some [])⟩
    let E3 : Evaluator := ⟨fun _ => true, fun _ _ => .bool true⟩
    let s2 : PolicyWithMatcher := match (⟨Policy.empty, ⟨pDef, MatchingExample.root, newNode [[]]⟩⟩ : PolicyWithMatcher).run
        [.add aliceRead, .add [s% "carol", s% "read"], .add aliceWrite, .add bobRead, .add alicePaint] with
      | .ok s => s
      | _ => start
    -- nothing, one rule or all matching rules removed
    (s2.sweep E2 keys (fun n _ => (n + 1, [], true)) 0).1.reports.map (·.rule) = [aliceRead, alicePaint, bobRead] ∧
    (s2.sweep E2 keys timid 1).1.reports.map (·.rule) = [aliceRead] ∧ (s2.sweep E2 keys timid 1).2 = .stop ∧
    (s2.sweep E2 keys timid 0).1.reports.map (·.rule) = [aliceRead, alicePaint] ∧
    (s2.sweep E2 keys removing ()).1.pm.policy.rules = [[s% "carol", s% "read"], aliceWrite] ∧
    -- in the first call the rules of bob go
    (s2.sweep E2 keys busy 0).1.reports.map (·.rule) = [aliceRead, alicePaint] ∧
    -- a matcher of an empty policy
    (start.sweep E3 keys removing ()).1.reports.length = 1 ∧
    ((⟨Policy.empty, ⟨pDef, MatchingExample.root, newNode [[]]⟩⟩ : PolicyWithMatcher).sweep E3 keys removing ()).1.reports =
      [⟨[[], []], [], []⟩] := by decide +kernel

/-- **C107 fails** for a callback that clears the policy: the loops go on in the old index, and the callback gets rules that
are no longer stored (matcher.go:107-109 puts a new root in place, the call has the old one).  It also fails with `||` when
a later alternative is true of the rule with empty fields: when the callback has removed all rules, that rule is reported,
which was never stored — although nothing of the kind happens in a call that does not change the policy. -/
theorem c107_fails :
    (Live pDef root state ∧ root.BlankSafe pDef (E (s% "alice")) ∧
      ⟨aliceWrite, [], []⟩ ∈ (state.sweep (E (s% "alice")) keys clearing ()).1.reports) ∧
    (Live pDef root' state' ∧
      (state'.sweep (E' (s% "alice")) keys removing ()).1.reports.map (·.rule) = [aliceRead, [[], []]] ∧
      (state'.sweep (E' (s% "alice")) keys (fun _ _ => ((), [], true)) ()).1.reports.map (·.rule) = [aliceRead, aliceRead]) :=
  ⟨⟨live, blankSafe, by decide +kernel⟩, live', by decide +kernel, by decide +kernel⟩
end

end Fastac
