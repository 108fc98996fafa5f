import Verif.Lemmas.Shape
import Verif.Props.Effects

/-!
# C07–C10, C12–C15: what a matcher reports

`Live pDef root s` are all states reachable by a policy and a matcher for it (`Spec/History.lean`):
any history before the matcher is created, creation reading the rules in any order, any history
after.  Rules are of the right length and without commas in fields (`GoodRule`); what happens with
commas is C18.  A stage tree is `Binary` when no stage has more than two alternatives; `Local` when
the value of each inner stage is a function of the attributes extracted from it.
-/

namespace Fastac

/-! A matcher `r.sub == p.sub && r.act == p.act` for the examples, and requests to it. -/
namespace MatchingExample

def pDef : PolicyDef := newPolicyDef (s% "p") (s% "sub, act")
def root : Stage := .mk [] [.mk (s% "r_sub == p_sub") [.mk (s% "r_act == p_act") []]]
/-- the request `(sub, act)` -/
def E (sub act : Str) : Evaluator :=
  { compiles := fun _ => true
    eval := fun e r =>
      if e = s% "r_sub == p_sub" then .bool (pDef.getParameter r (s% "p_sub") == some sub)
      else if e = s% "r_act == p_act" then .bool (pDef.getParameter r (s% "p_act") == some act)
      else .err }
def aliceRead : Rule := [s% "alice", s% "read"]
def aliceWrite : Rule := [s% "alice", s% "write"]
def bobRead : Rule := [s% "bob", s% "read"]

/-- A history: two rules, a matcher, a third rule, one removal. -/
def start : PolicyWithMatcher :=
  ⟨Policy.empty.run [.add aliceRead, .add bobRead],
    match newMatcher pDef root [bobRead, aliceRead] with
    | .ok m => m
    | _ => ⟨pDef, root, newNode []⟩⟩
def state : PolicyWithMatcher :=
  match start.run [.add aliceWrite, .remove bobRead] with
  | .ok s => s
  | _ => start

theorem live : Live pDef root state := by
  have h0 : Live pDef root start :=
    .create [.add aliceRead, .add bobRead] (by decide) [bobRead, aliceRead]
      (by decide) _ rfl
  have h1 := Live.change _ _ h0 (.add aliceWrite) (by decide) rfl
  exact Live.change _ _ h1 (.remove bobRead) (by decide) rfl

theorem binary : root.Binary := by
  simp [root, Stage.Binary, Stage.All, Stage.AllIn, Stage.children]

theorem local_ (sub act : Str) : root.Local pDef (E sub act) := by
  have hargs : (Stage.mk (s% "r_sub == p_sub") [.mk (s% "r_act == p_act") []]).pArgs =
      [s% "p_sub"] := by decide
  simp only [root, Stage.Local, Stage.All, Stage.AllIn, and_true]
  refine ⟨fun _ => ⟨?_, ?_⟩, fun h => by simp [Stage.isLeaf, Stage.children] at h⟩
  · rw [hargs]
    intro r g a ha
    simp only [List.mem_singleton] at ha
    subst ha
    have hl : r.length = 2 := g.len
    match r, hl with
    | [a, b], _ => exact ⟨a, rfl⟩
  · rw [hargs]
    intro r r' g g' h
    have := h (s% "p_sub") (by simp)
    simp [E, Stage.expr, this]

theorem blankSafe : root.BlankSafe pDef (E (s% "alice") (s% "read")) := by
  simp only [root, Stage.BlankSafe, Stage.All, Stage.AllIn, and_true, Stage.expr]
  exact ⟨by decide, by decide⟩

theorem neverFails (sub act : Str) : root.NeverFails pDef (E sub act) := by
  simp [root, Stage.NeverFails, Stage.All, Stage.AllIn, Stage.expr, E]

end MatchingExample

/-- **C07.** Every stored rule that satisfies the matcher is reported by `Filter` (prefixed with its
policy key), for every history, request and iteration order, when no evaluation fails.  The same
list is what `RangeMatches` hands to a callback that never stops. -/
theorem c07_complete_partial (pDef : PolicyDef) (root : Stage) (s : PolicyWithMatcher) (E : Evaluator)
    (ord : Order) (hlive : Live pDef root s) (hb : root.Binary) (hl : root.Local pDef E)
    (hv : ord.Valid) (hF : (filter s.matcher E ord).2 = .cont)
    (r : Rule) (hr : r ∈ s.policy.rules) (hsat : Stage.satAny E r root.children = true) :
    pDef.key :: r ∈ (filter s.matcher E ord).1 := by
  obtain ⟨ph, hp, _⟩ := filter_of_inv hb (hlive.inv hb) hl hv hF
  rw [hp.mem_iff, List.mem_append]
  left
  rw [List.mem_flatMap]
  refine ⟨r, hr, ?_⟩
  rw [List.mem_replicate]
  exact ⟨Nat.pos_iff_ne_zero.1 ((Stage.pathsAny_pos E r _).2 hsat), rfl⟩

section
open MatchingExample
example : Live pDef root state ∧ root.Binary ∧ root.Local pDef (E (s% "alice") (s% "write")) ∧
    (filter state.matcher (E (s% "alice") (s% "write")) Order.rev).2 = .cont ∧
    aliceWrite ∈ state.policy.rules ∧
    Stage.satAny (E (s% "alice") (s% "write")) aliceWrite root.children = true :=
  ⟨live, binary, local_ _ _, by decide, by decide, by decide⟩
end

/-- **C08**, the part that holds: every reported rule is a stored rule that satisfies the matcher,
or the rule whose fields are all empty; and it is never the latter when no leaf expression of the
matcher is true of that rule.  Missing: see `c08_fails`. -/
theorem c08_sound_partial (pDef : PolicyDef) (root : Stage) (s : PolicyWithMatcher) (E : Evaluator)
    (ord : Order) (hlive : Live pDef root s) (hb : root.Binary) (hl : root.Local pDef E)
    (hv : ord.Valid) (hF : (filter s.matcher E ord).2 = .cont)
    (x : Rule) (hx : x ∈ (filter s.matcher E ord).1) :
    (∃ r ∈ s.policy.rules, Stage.satAny E r root.children = true ∧ x = pDef.key :: r) ∨
      (x = pDef.key :: blankRule pDef ∧ ¬ root.BlankSafe pDef E) := by
  obtain ⟨ph, hp, h0⟩ := filter_of_inv hb (hlive.inv hb) hl hv hF
  rw [hp.mem_iff, List.mem_append] at hx
  rcases hx with hx | hx
  · rw [List.mem_flatMap] at hx
    obtain ⟨r, hr, hx⟩ := hx
    rw [List.mem_replicate] at hx
    exact Or.inl ⟨r, hr, (Stage.pathsAny_pos E r _).1 (Nat.pos_iff_ne_zero.2 hx.1), hx.2⟩
  · rw [List.mem_replicate] at hx
    exact Or.inr ⟨hx.2, fun h => hx.1 (h0 h)⟩

section
open MatchingExample
example : Live pDef root state ∧ root.Binary ∧ root.Local pDef (E (s% "alice") (s% "read")) ∧
    root.BlankSafe pDef (E (s% "alice") (s% "read")) ∧
    filter state.matcher (E (s% "alice") (s% "read")) Order.fwd =
      ([s% "p" :: aliceRead], .cont) :=
  ⟨live, binary, local_ _ _, blankSafe, by decide⟩
end

/-! A matcher whose last condition does not mention the policy: `r.sub == p.sub && r.act == 'read'`,
with policy definition `sub`. -/
namespace PhantomExample

def pDef : PolicyDef := newPolicyDef (s% "p") (s% "sub")
def root : Stage := .mk [] [.mk (s% "r_sub == p_sub") [.mk (s% "r_act == 'read'") []]]
def E (sub act : Str) : Evaluator :=
  { compiles := fun _ => true
    eval := fun e r =>
      if e = s% "r_sub == p_sub" then .bool (pDef.getParameter r (s% "p_sub") == some sub)
      else if e = s% "r_act == 'read'" then .bool (act == s% "read")
      else .err }
def alice : Rule := [s% "alice"]
def start : PolicyWithMatcher := ⟨Policy.empty, ⟨pDef, root, newNode [[]]⟩⟩
def state (ops : List PolOp) : PolicyWithMatcher :=
  match start.run ops with
  | .ok s => s
  | _ => start

theorem live_start : Live pDef root start := .create [] (by simp) [] (by decide) _ rfl

theorem live_removed : Live pDef root (state [.add alice, .remove alice]) := by
  have h1 := Live.change _ _ live_start (.add alice) (by decide) rfl
  exact Live.change _ _ h1 (.remove alice) (by decide) rfl

theorem live_added : Live pDef root (state [.add alice]) :=
  Live.change _ _ live_start (.add alice) (by decide) rfl

theorem binary : root.Binary := by
  simp [root, Stage.Binary, Stage.All, Stage.AllIn, Stage.children]

theorem local_ (sub act : Str) : root.Local pDef (E sub act) := by
  have hargs : (Stage.mk (s% "r_sub == p_sub") [.mk (s% "r_act == 'read'") []]).pArgs =
      [s% "p_sub"] := by decide
  simp only [root, Stage.Local, Stage.All, Stage.AllIn, and_true]
  refine ⟨fun _ => ⟨?_, ?_⟩, fun h => by simp [Stage.isLeaf, Stage.children] at h⟩
  · rw [hargs]
    intro r g a ha
    simp only [List.mem_singleton] at ha
    subst ha
    have hl : r.length = 1 := g.len
    match r, hl with
    | [a], _ => exact ⟨a, rfl⟩
  · rw [hargs]
    intro r r' g g' h
    have := h (s% "p_sub") (by simp)
    simp [E, Stage.expr, this]

end PhantomExample

/-- **C08 fails**: after adding and removing the rule `alice` the policy is empty, yet `Filter`
reports a rule (the one with empty fields): an emptied node of the index is taken for an empty
policy and the stages below it are tried on the blank rule (matcher.go:176-181). -/
theorem c08_fails :
    ∃ (pDef : PolicyDef) (root : Stage) (s : PolicyWithMatcher) (E : Evaluator) (ord : Order),
      Live pDef root s ∧ root.Binary ∧ root.Local pDef E ∧ ord.Valid ∧
      s.policy.rules = [] ∧ filter s.matcher E ord = ([pDef.key :: blankRule pDef], .cont) :=
  ⟨PhantomExample.pDef, PhantomExample.root, _, PhantomExample.E (s% "alice") (s% "read"),
    Order.fwd, PhantomExample.live_removed, PhantomExample.binary, PhantomExample.local_ _ _,
    Order.fwd_valid, by decide, by decide⟩

/-- The decision when the matcher reports exactly the stored rules that satisfy it. -/
theorem enforce_of_mem (pDef : PolicyDef) (root : Stage) (s : PolicyWithMatcher)
    (E : Evaluator) (ord : Order) (expr : Str) (hF : (filter s.matcher E ord).2 = .cont)
    (hm : ∀ x, x ∈ (filter s.matcher E ord).1 ↔
      ∃ r ∈ s.policy.rules, Stage.satAny E r root.children = true ∧ x = pDef.key :: r)
    (hdet : expr = SOME_ALLOW_NO_DENY →
      ∀ r ∈ s.policy.rules, pDef.getEft (pDef.key :: r) ≠ .indeterminate) :
    enforce s.matcher pDef E ord expr = .ok (scan pDef root E expr s.policy.rules) := by
  have ex : ∀ e : Effect, (∃ x ∈ (filter s.matcher E ord).1, pDef.getEft x = e) ↔
      ((s.policy.rules.filter (fun r => Stage.satAny E r root.children)).map
        (fun r => pDef.getEft (pDef.key :: r))).contains e = true := by
    intro e
    simp only [List.contains_iff_mem, List.mem_map, List.mem_filter, hm]
    constructor
    · rintro ⟨x, ⟨r, h1, h2, rfl⟩, h3⟩; exact ⟨r, ⟨h1, h2⟩, h3⟩
    · rintro ⟨r, ⟨h1, h2⟩, h3⟩; exact ⟨_, ⟨r, h1, h2, rfl⟩, h3⟩
  have fin : ∀ {b b' : Bool} {x : Res Bool}, x = .ok b → (b = true ↔ b' = true) → x = .ok b' := by
    intro b b' x hx h
    rw [hx]
    cases b <;> cases b' <;> simp_all
  unfold scan decision
  by_cases e1 : expr = SOME_ALLOW
  · subst e1
    rw [if_pos rfl]
    obtain ⟨b, hb1, hb2⟩ := c01_some_allow s.matcher pDef E ord _ _ rfl (Or.inl hF)
    exact fin hb1 (hb2.trans (ex _))
  · rw [if_neg e1]
    by_cases e2 : expr = NO_DENY
    · subst e2
      rw [if_pos rfl]
      obtain ⟨b, hb1, hb2⟩ := c02_no_deny s.matcher pDef E ord _ _ rfl (Or.inl hF)
      refine fin hb1 (hb2.trans ((not_congr (ex _)).trans ?_))
      simp
    · rw [if_neg e2]
      by_cases e3 : expr = SOME_ALLOW_NO_DENY
      · subst e3
        rw [if_pos rfl]
        have hd : ∀ x ∈ (filter s.matcher E ord).1, pDef.getEft x ≠ .indeterminate := by
          intro x hx
          obtain ⟨r, hr, _, rfl⟩ := (hm x).1 hx
          exact hdet rfl r hr
        obtain ⟨b, hb1, hb2⟩ := c03_allow_no_deny_partial s.matcher pDef E ord _ _ rfl (Or.inl hF) hd
        refine fin hb1 (hb2.trans ((and_congr (ex _) (not_congr (ex _))).trans ?_))
        simp
      · rw [if_neg e3]
        exact c04_never_reported s.matcher pDef E ord expr e1 e2 e3 (Or.inl hF)

/-- `c10_index_transparent_partial` for every state that satisfies the invariant of the index. -/
theorem enforce_of_inv (pDef : PolicyDef) (root : Stage) (s : PolicyWithMatcher)
    (E : Evaluator) (ord : Order) (expr : Str)
    (hinv : s.Inv pDef root) (hb : root.Binary) (hl : root.Local pDef E)
    (hbs : root.BlankSafe pDef E) (hn : root.NeverFails pDef E) (hv : ord.Valid)
    (hdet : expr = SOME_ALLOW_NO_DENY →
      ∀ r ∈ s.policy.rules, pDef.getEft (pDef.key :: r) ≠ .indeterminate) :
    enforce s.matcher pDef E ord expr = .ok (scan pDef root E expr s.policy.rules) :=
  have hF := filter_cont_of_inv hb hinv hn hv
  enforce_of_mem pDef root s E ord expr hF (filter_mem_of_inv hb hinv hl hv hF hbs) hdet

/-- **C10**, the part that holds: for every history, request and iteration order, `Enforce` returns
what a scan over the stored rules evaluating the whole matcher on each would return.  Needed: at most
two alternatives per stage, stages indexed by what they read, no leaf expression true of the
all-empty rule, and (for `some(allow) && !some(deny)` only) `eft` values allow or deny.  Missing: the
other cases, in which the code deviates (`c10_fails_index`, `c09_fails`, `c12_fails_enforce`). -/
theorem c10_index_transparent_partial (pDef : PolicyDef) (root : Stage) (s : PolicyWithMatcher)
    (E : Evaluator) (ord : Order) (expr : Str)
    (hlive : Live pDef root s) (hb : root.Binary) (hl : root.Local pDef E)
    (hbs : root.BlankSafe pDef E) (hn : root.NeverFails pDef E) (hv : ord.Valid)
    (hdet : expr = SOME_ALLOW_NO_DENY →
      ∀ r ∈ s.policy.rules, pDef.getEft (pDef.key :: r) ≠ .indeterminate) :
    enforce s.matcher pDef E ord expr = .ok (scan pDef root E expr s.policy.rules) :=
  enforce_of_inv pDef root s E ord expr (hlive.inv hb) hb hl hbs hn hv hdet

section
open MatchingExample
example : Live pDef root state ∧ root.Binary ∧ root.Local pDef (E (s% "alice") (s% "read")) ∧
    root.BlankSafe pDef (E (s% "alice") (s% "read")) ∧
    root.NeverFails pDef (E (s% "alice") (s% "read")) ∧
    scan pDef root (E (s% "alice") (s% "read")) SOME_ALLOW state.policy.rules = true ∧
    scan pDef root (E (s% "bob") (s% "read")) SOME_ALLOW state.policy.rules = false :=
  ⟨live, binary, local_ _ _, blankSafe, neverFails _ _, by decide, by decide⟩
end

/-! The matcher `r.group_id == p.sub && r.act == p.act`: the scanner for policy attributes also
finds `p_id` inside `r_group_id`. -/
namespace GroupIdExample

def pDef : PolicyDef := newPolicyDef (s% "p") (s% "sub, act")
def root : Stage := .mk [] [.mk (s% "r_group_id == p_sub") [.mk (s% "r_act == p_act") []]]
def E (group act : Str) : Evaluator :=
  { compiles := fun _ => true
    eval := fun e r =>
      if e = s% "r_group_id == p_sub" then .bool (pDef.getParameter r (s% "p_sub") == some group)
      else if e = s% "r_act == p_act" then .bool (pDef.getParameter r (s% "p_act") == some act)
      else .err }
def g1Read : Rule := [s% "g1", s% "read"]
def g2Write : Rule := [s% "g2", s% "write"]
def state : PolicyWithMatcher :=
  ⟨Policy.empty.run [.add g1Read, .add g2Write],
    match newMatcher pDef root [g1Read, g2Write] with
    | .ok m => m
    | _ => ⟨pDef, root, newNode []⟩⟩
theorem live : Live pDef root state :=
  .create [.add g1Read, .add g2Write] (by decide) [g1Read, g2Write] (by decide) _ rfl

theorem binary : root.Binary := by
  simp [root, Stage.Binary, Stage.All, Stage.AllIn, Stage.children]

theorem neverFails (g act : Str) : root.NeverFails pDef (E g act) := by
  simp [root, Stage.NeverFails, Stage.All, Stage.AllIn, Stage.expr, E]

end GroupIdExample

/-- **C10 (and C07, C08) fail** for a matcher comparing the request attribute `group_id`: with the
rules `(g1, read)` and `(g2, write)`, group `g1` is granted `write` although no rule grants it, and
group `g2` is denied `write` although a rule grants it. -/
theorem c10_fails_index :
    ∃ (pDef : PolicyDef) (root : Stage) (s : PolicyWithMatcher) (E E' : Evaluator) (ord : Order),
      Live pDef root s ∧ root.Binary ∧ root.NeverFails pDef E ∧ root.NeverFails pDef E' ∧ ord.Valid ∧
      scan pDef root E SOME_ALLOW s.policy.rules = false ∧
      enforce s.matcher pDef E ord SOME_ALLOW = .ok true ∧
      scan pDef root E' SOME_ALLOW s.policy.rules = true ∧
      enforce s.matcher pDef E' ord SOME_ALLOW = .ok false :=
  ⟨GroupIdExample.pDef, GroupIdExample.root, GroupIdExample.state,
    GroupIdExample.E (s% "g1") (s% "write"), GroupIdExample.E (s% "g2") (s% "write"), Order.fwd,
    GroupIdExample.live, GroupIdExample.binary, GroupIdExample.neverFails _ _,
    GroupIdExample.neverFails _ _, Order.fwd_valid, by decide, by decide, by decide, by decide⟩

/-- **C09**, the part that holds: a request granted (under `some(allow)`) after a removal is granted
by a rule other than the removed one, which is still stored and satisfies the matcher.  Needed: no
leaf expression is true of the all-empty rule.  Missing: see `c09_fails`. -/
theorem c09_revoked_partial (pDef : PolicyDef) (root : Stage) (s s' : PolicyWithMatcher)
    (E : Evaluator) (ord : Order) (hlive : Live pDef root s) (hb : root.Binary)
    (hl : root.Local pDef E) (hbs : root.BlankSafe pDef E) (hn : root.NeverFails pDef E)
    (hv : ord.Valid) (r : Rule) (hr : GoodRule pDef r) (hstep : s.step (.remove r) = .ok s')
    (hgrant : enforce s'.matcher pDef E ord SOME_ALLOW = .ok true) :
    ∃ r' ∈ s.policy.rules, r' ≠ r ∧ r' ∈ s'.policy.rules ∧
      Stage.satAny E r' root.children = true ∧ pDef.getEft (pDef.key :: r') = .allow := by
  have hlive' : Live pDef root s' := .change s s' hlive (.remove r) hr hstep
  rw [c10_index_transparent_partial pDef root s' E ord SOME_ALLOW hlive' hb hl hbs hn hv
    (fun h => absurd h (by decide))] at hgrant
  simp only [Res.ok.injEq, scan, decision, if_true, List.contains_iff_mem, List.mem_map,
    List.mem_filter] at hgrant
  obtain ⟨r', ⟨h1, h2⟩, h3⟩ := hgrant
  have hinv := hlive.inv hb
  obtain ⟨t, e, _, hp⟩ := hinv.step hb (.remove r) hr
  rw [hstep] at e
  cases e
  have hmem := (hinv.wf.removeRule r).2.2.1 r'
  rw [hp] at h1
  have := hmem.1 h1
  exact ⟨r', this.1, fun e => this.2 (by rw [e]), by rw [hp]; exact h1, h2, h3⟩

section
open MatchingExample
example : Live pDef root state ∧ GoodRule pDef aliceWrite ∧
    (∃ s', state.step (.remove aliceWrite) = .ok s' ∧
      enforce s'.matcher pDef (E (s% "alice") (s% "read")) Order.fwd SOME_ALLOW = .ok true ∧
      enforce s'.matcher pDef (E (s% "alice") (s% "write")) Order.fwd SOME_ALLOW = .ok false) :=
  ⟨live, by decide, _, rfl, by decide, by decide⟩
end

/-- **C09 fails**: with the matcher `r.sub == p.sub && r.act == 'read'`, adding and then removing
the only rule `alice` leaves alice's read access granted. -/
theorem c09_fails :
    ∃ (pDef : PolicyDef) (root : Stage) (s s' : PolicyWithMatcher) (E : Evaluator) (ord : Order)
      (r : Rule),
      Live pDef root s ∧ root.Binary ∧ root.Local pDef E ∧ ord.Valid ∧
      s.step (.remove r) = .ok s' ∧ s'.policy.rules = [] ∧
      enforce s.matcher pDef E ord SOME_ALLOW = .ok true ∧
      enforce s'.matcher pDef E ord SOME_ALLOW = .ok true :=
  ⟨PhantomExample.pDef, PhantomExample.root, PhantomExample.state [.add PhantomExample.alice],
    PhantomExample.state [.add PhantomExample.alice, .remove PhantomExample.alice],
    PhantomExample.E (s% "alice") (s% "read"),
    Order.fwd, PhantomExample.alice, PhantomExample.live_added, PhantomExample.binary,
    PhantomExample.local_ _ _, Order.fwd_valid, rfl, by decide, by decide, by decide⟩

/-! ## C12 -/

theorem consume_panic {σ : Type} (fn : σ → Rule → σ × Bool) (es : List Ev) (s : σ)
    (h : (consume fn es s).2 = .panic) : endStatus es = .panic := by
  induction es generalizing s with
  | nil => simp [consume] at h
  | cons e es ih =>
    cases e with
    | visit r =>
      simp only [consume] at h
      rcases hf : fn s r with ⟨s', b⟩
      rw [hf] at h
      cases b with
      | true => exact ih s' h
      | false => simp at h
    | halt => simp [consume] at h
    | fail => simp [consume] at h
    | panic => rfl

/-- **C12**, the part that holds: with at most two alternatives at every stage, building the matcher from any rules,
following any history of changes, and enforcing any request do not panic — for arbitrary rules, of
any length and content, as long as evaluation itself does not panic.  Missing: more than two
alternatives, see `c12_fails`. -/
theorem c12_no_panic_partial (pDef : PolicyDef) (root : Stage) (hb : root.Binary)
    (p : Policy) (rules : List Rule) (ops : List PolOp) :
    ∃ m s', newMatcher pDef root rules = .ok m ∧
      (⟨p, m⟩ : PolicyWithMatcher).run ops = .ok s' ∧
      ∀ (E : Evaluator) (ord : Order) (pDef' : PolicyDef) (expr : Str),
        (∀ e r, E.eval e r ≠ .panic) → ord.Valid →
        enforce s'.matcher pDef' E ord expr ≠ .panic ∧ (filter s'.matcher E ord).2 ≠ .panic := by
  obtain ⟨m, h1, h2, h3, h4⟩ := newMatcher_shaped pDef root hb rules
  obtain ⟨s', h5, h6, h7⟩ := PolicyWithMatcher.run_shaped ops ⟨p, m⟩ (h2 ▸ hb) h4
  refine ⟨m, s', h1, h5, fun E ord pDef' expr hE hv => ?_⟩
  have hb' : s'.matcher.exprRoot.Binary := by rw [h6]; exact h2 ▸ hb
  have hev : endStatus (s'.matcher.events E ord) ≠ .panic :=
    evStage_noPanic E hE _ ord hv s'.matcher.exprRoot [] s'.matcher.root hb'.1 hb'.2 h7
  constructor
  · unfold enforce
    intro hp
    rw [Matcher.rangeMatches_eq] at hp
    rcases hc : consume (fun s rule => enforceVisit pDef' expr s (s'.matcher.pDef.key :: rule))
      (s'.matcher.events E ord) EnfState.init with ⟨t, st⟩
    rw [hc] at hp
    cases st with
    | panic => exact hev (consume_panic _ _ _ (by rw [hc]))
    | err => simp [enforceFinish] at hp
    | cont => simp only [enforceFinish] at hp; split at hp <;> simp at hp
    | stop => simp only [enforceFinish] at hp; split at hp <;> simp at hp
  · rw [filter_eq]; exact hev

example : (Stage.mk [] [.mk (s% "a") [.mk (s% "b") [], .mk (s% "c") []], .mk (s% "d") []]).Binary := by
  simp [Stage.Binary, Stage.All, Stage.AllIn, Stage.children]

/-- **C12 fails** for every matcher with three or more alternatives at top level: adding any rule
panics (`NewMatcherNode` makes exactly two child maps, matcher.go:33-40). -/
theorem c12_fails (pDef : PolicyDef) (e : Str) (s1 s2 s3 : Stage) (more : List Stage) (rule : Rule)
    (hb : s1.Binary ∧ s2.Binary) (rules : List Rule) :
    newMatcher pDef (.mk e (s1 :: s2 :: s3 :: more)) (rule :: rules) = .panic := by
  have h : ∀ n : Node, n.children.length = 2 → ShapedC [s1, s2] 0 n →
      addStage pDef rule (.mk e (s1 :: s2 :: s3 :: more)) n = .panic := by
    intro n hn hs
    simp only [addStage, addChildren]
    simp only [ShapedC] at hs
    obtain ⟨⟨m1, hm1, he1⟩, ⟨m2, hm2, he2⟩, _⟩ := hs
    have hadd : ∀ (st : Stage) (m : GoMap Str Node), st.Binary → (∀ e ∈ m, Shaped st e.2) →
        ∃ m', (if st.isLeaf = true then (Res.ok (m.set (stageKey pDef st rule) (newNode rule)) :
            Res (GoMap Str Node))
          else (addStage pDef rule st ((m.get (stageKey pDef st rule)).getD (newNode rule))).map
            (fun n => m.set (stageKey pDef st rule) n)) = .ok m' := by
      intro st m hb he
      split
      · exact ⟨_, rfl⟩
      · have hnx : Shaped st ((m.get (stageKey pDef st rule)).getD (newNode rule)) := by
          cases hg : m.get (stageKey pDef st rule) with
          | none => exact Shaped_new rule st hb.1
          | some c => exact he _ (GoMap.mem_of_get hg)
        obtain ⟨c', hc1, _⟩ := addStage_shaped pDef rule st _ hb.2 hnx
        exact ⟨_, by rw [hc1]; rfl⟩
    obtain ⟨m1', h1⟩ := hadd s1 m1 hb.1 he1
    obtain ⟨m2', h2⟩ := hadd s2 m2 hb.2 he2
    simp only [hm1, h1, Res.bind_ok]
    have hm2' : (n.setChild 0 m1').children[0 + 1]? = some m2 := by
      rw [Node.children_setChild, List.getElem?_set_ne (by omega)]; exact hm2
    simp only [hm2', h2, Res.bind_ok]
    have hnone : ((n.setChild 0 m1').setChild (0 + 1) m2').children[0 + 1 + 1]? = none := by
      apply List.getElem?_eq_none
      simp [hn]
    simp only [hnone]
  have hp : ∀ rules : List Rule, rules.foldl (fun (r : Res Matcher) rule =>
      r.bind (fun m => Matcher.addRule m rule)) Res.panic = Res.panic := by
    intro rules
    induction rules with
    | nil => rfl
    | cons r rs ih => exact ih
  unfold newMatcher
  rw [List.foldl_cons]
  have h0 : Matcher.addRule ⟨pDef, .mk e (s1 :: s2 :: s3 :: more), newNode [[]]⟩ rule = .panic := by
    unfold Matcher.addRule
    rw [h (newNode [[]]) rfl (ShapedC_new _ _ 0 (by simp))]
    rfl
  rw [Res.bind_ok, h0]
  exact hp rules

/-- **C12 fails** for enforcement too: the matcher `a || b || c` panics on a request that neither of
the first two alternatives grants, even with no rules. -/
theorem c12_fails_enforce :
    ∃ (pDef : PolicyDef) (root : Stage) (m : Matcher) (E : Evaluator),
      newMatcher pDef root [] = .ok m ∧
      root.children.length = 3 ∧ (∀ e r, E.eval e r = .bool false) ∧
      enforce m pDef E Order.fwd SOME_ALLOW = .panic :=
  ⟨newPolicyDef (s% "p") (s% "sub"),
    .mk [] [.mk (s% "a") [], .mk (s% "b") [], .mk (s% "c") []], _,
    ⟨fun _ => true, fun _ _ => .bool false⟩, rfl, rfl, fun _ _ => rfl, by decide⟩

/-! ## C13 -/

/-- **C13**, the part that holds: when the matcher contains no `&&` (every alternative is a single
expression) and evaluating an alternative fails on some stored rule, then `Filter` returns an error,
and so does `Enforce` unless a rule reported before the failure already decides the request.
Missing: matchers with `&&`, see `c13_fails`. -/
theorem c13_error_reported_partial (pDef : PolicyDef) (root : Stage) (s : PolicyWithMatcher)
    (E : Evaluator) (ord : Order) (hlive : Live pDef root s) (hb : root.Binary)
    (hflat : ∀ st ∈ root.children, st.isLeaf = true) (hE : ∀ e r, E.eval e r ≠ .panic)
    (hv : ord.Valid)
    (r : Rule) (hr : r ∈ s.policy.rules) (st : Stage) (hst : st ∈ root.children)
    (hfail : E.eval st.expr r = .err) :
    (filter s.matcher E ord).2 = .err ∧
    (enforce s.matcher pDef E ord SOME_ALLOW = .err ∨
      ∃ x ∈ (filter s.matcher E ord).1, pDef.getEft x = .allow) ∧
    (enforce s.matcher pDef E ord NO_DENY = .err ∨
      ∃ x ∈ (filter s.matcher E ord).1, pDef.getEft x = .deny) ∧
    (enforce s.matcher pDef E ord SOME_ALLOW_NO_DENY = .err ∨
      ∃ x ∈ (filter s.matcher E ord).1, pDef.getEft x = .deny) := by
  have hinv := hlive.inv hb
  have key : ∀ (cs : List Stage) (i : Nat), (∀ st ∈ cs, st.isLeaf = true) →
      IdxC pDef cs i s.matcher.root (fun r => r ∈ s.policy.rules) →
      endStatus (evChildren E pDef.args.length ord cs i [] s.matcher.root) =
        .cont ∧ (∀ st ∈ cs, E.eval st.expr r ≠ .err) ∨
      endStatus (evChildren E pDef.args.length ord cs i [] s.matcher.root) = .err := by
    intro cs
    induction cs with
    | nil => intro i _ _; left; simp [evChildren, endStatus]
    | cons c cs ih =>
      intro i hf hI
      simp only [IdxC] at hI
      obtain ⟨⟨m, hm, hwf, hall, hent⟩, hrest⟩ := hI
      simp only [evChildren, hm]
      split
      · right; simp [endStatus]
      · have hleaf := hf c (by simp)
        have hev : ∀ (p : List (Nat × Str)) (n : Node),
            evStage E pDef.args.length ord c p n = [] := by
          intro p n; rw [evStage_eq, isLeaf_children hleaf]; simp [evChildren]
        simp only [hev, hleaf, if_true, List.append_nil]
        have ent : ∀ l : GoMap Str Node,
            (endStatus (evEntries E c.expr (fun _ child => [Ev.visit child.rule]) l) = .cont ∧
              ∀ e ∈ l, E.eval c.expr e.2.rule ≠ .err) ∨
            endStatus (evEntries E c.expr (fun _ child => [Ev.visit child.rule]) l) = .err := by
          intro l
          induction l with
          | nil => left; simp [evEntries, endStatus]
          | cons e l ih =>
            obtain ⟨k, c'⟩ := e
            simp only [evEntries]
            cases hv' : E.eval c.expr c'.rule with
            | err => right; simp [endStatus]
            | panic => exact absurd hv' (hE _ _)
            | other =>
              rcases ih with ih | ih
              · left
                refine ⟨ih.1, ?_⟩
                intro e he
                rcases List.mem_cons.1 he with rfl | he
                · simp [hv']
                · exact ih.2 e he
              · right; exact ih
            | bool b =>
              have hcons : ∀ e ∈ (k, c') :: l, (∀ e ∈ l, E.eval c.expr e.2.rule ≠ .err) →
                  E.eval c.expr e.2.rule ≠ .err := by
                intro e he h
                rcases List.mem_cons.1 he with rfl | he
                · simp [hv']
                · exact h e he
              cases b with
              | false =>
                rcases ih with ih | ih
                · exact Or.inl ⟨ih.1, fun e he => hcons e he ih.2⟩
                · exact Or.inr ih
              | true =>
                rcases ih with ih | ih
                · exact Or.inl ⟨ih.1, fun e he => hcons e he ih.2⟩
                · exact Or.inr ih
        have happ : ∀ a b : List Ev, endStatus a = .err → endStatus (a ++ b) = .err := by
          intro a b
          induction a with
          | nil => simp [endStatus]
          | cons e a ih =>
            cases e with
            | visit r => exact ih
            | halt => simp [endStatus]
            | fail => simp [endStatus]
            | panic => simp [endStatus]
        have happ2 : ∀ a b : List Ev, endStatus a = .cont → endStatus (a ++ b) = endStatus b := by
          intro a b
          induction a with
          | nil => simp
          | cons e a ih =>
            cases e with
            | visit r => exact ih
            | halt => simp [endStatus]
            | fail => simp [endStatus]
            | panic => simp [endStatus]
        rcases ent (entriesOf pDef.args.length ord [] i m) with h | h
        · rw [happ2 _ _ h.1]
          rcases ih (i+1) (fun st h => hf st (by simp [h])) hrest with h' | h'
          · left
            refine ⟨h'.1, ?_⟩
            intro st hst
            rcases List.mem_cons.1 hst with rfl | hst
            · have hg := hall r hr
              rw [Option.isSome_iff_exists] at hg
              obtain ⟨n, hn⟩ := hg
              have hne : m.isEmpty = false := by
                cases m with
                | nil => simp at hn
                | cons a b => rfl
              have hmem := (hv [] i m).mem_iff.2 (GoMap.mem_of_get hn)
              have := h.2 (stageKey pDef st r, n) (by unfold entriesOf; rw [hne]; exact hmem)
              obtain ⟨g, hk, _, _⟩ := hent _ _ hn
              rw [stageKey_leaf pDef hleaf, stageKey_leaf pDef hleaf] at hk
              have e := g.hash_inj (hinv.good r hr) hk
              simpa [e] using this
            · exact h'.2 st hst
          · exact Or.inr h'
        · exact Or.inr (happ _ _ h)
  have hstat : endStatus (s.matcher.events E ord) = .err := by
    unfold Matcher.events
    rw [hinv.pdef, hinv.expr, evStage_eq]
    have hI := hinv.idx
    rw [Idx_eq] at hI
    rcases key root.children 0 hflat hI with h | h
    · exact absurd hfail (h.2 st hst)
    · exact h
  have hx : ∀ e, (∃ x ∈ (filter s.matcher E ord).1, pDef.getEft x = e) ↔
      ∃ r ∈ visits (s.matcher.events E ord), pDef.getEft (s.matcher.pDef.key :: r) = e := by
    intro e; rw [filter_eq]; exact exists_mem_keyed ..
  refine ⟨by rw [filter_eq]; exact hstat, ?_, ?_, ?_⟩
  · rw [hx]
    unfold enforce
    rw [Matcher.rangeMatches_eq, enforce_someAllow_aux _ _ _ _ rfl rfl]
    split
    · rename_i h; exact Or.inr h
    · left; rw [hstat]; rfl
  · rw [hx]
    unfold enforce
    rw [Matcher.rangeMatches_eq, enforce_noDeny_aux _ _ _ _ rfl rfl]
    split
    · rename_i h; exact Or.inr h
    · left; rw [hstat]; rfl
  · rw [hx]
    unfold enforce
    rw [Matcher.rangeMatches_eq, enforce_allowNoDeny_aux _ _ _ _ rfl rfl rfl]
    split
    · rename_i h; exact Or.inr h
    · left; rw [hstat]; rfl

namespace ErrorExample
def pDef : PolicyDef := newPolicyDef (s% "p") (s% "sub, act")
/-- evaluating the second condition fails -/
def E : Evaluator :=
  ⟨fun _ => true, fun e r => if e = s% "a" then .bool true else if r = [s% "bob", s% "read"]
    then .err else .bool true⟩
def flat : Stage := .mk [] [.mk (s% "b") []]
def nested : Stage := .mk [] [.mk (s% "a") [.mk (s% "b") []]]
def state (root : Stage) : PolicyWithMatcher :=
  ⟨Policy.empty.run [.add [s% "bob", s% "read"]],
    match newMatcher pDef root [[s% "bob", s% "read"]] with
    | .ok m => m
    | _ => ⟨pDef, root, newNode []⟩⟩
theorem live_flat : Live pDef flat (state flat) :=
  .create [.add [s% "bob", s% "read"]] (by decide) [[s% "bob", s% "read"]] (by decide) _ rfl
theorem live_nested : Live pDef nested (state nested) :=
  .create [.add [s% "bob", s% "read"]] (by decide) [[s% "bob", s% "read"]] (by decide) _ rfl
end ErrorExample

section
open ErrorExample
example : Live pDef flat (state flat) ∧ flat.Binary ∧ (∀ st ∈ flat.children, st.isLeaf = true) ∧
    (∀ e r, E.eval e r ≠ .panic) ∧
    ∃ r ∈ (state flat).policy.rules, ∃ st ∈ flat.children, E.eval st.expr r = .err := by
  refine ⟨live_flat, ?_, by decide, ?_, [s% "bob", s% "read"], by decide,
    .mk (s% "b") [], by simp [flat, Stage.children], by decide⟩
  · simp [flat, Stage.Binary, Stage.All, Stage.AllIn, Stage.children]
  · intro e r; simp only [E]; split
    · simp
    · split <;> simp
end

/-- **C13 fails** for a condition after `&&`: evaluating it fails on the only stored rule, and
`Enforce` nevertheless returns a decision without an error — even a grant for the effect
`!some(where(p.eft==deny))` (matcher.go:206-209 drops the error). -/
theorem c13_fails :
    ∃ (pDef : PolicyDef) (root : Stage) (s : PolicyWithMatcher) (E : Evaluator) (e1 e2 : Str)
      (r : Rule), Live pDef root s ∧ root = .mk [] [.mk e1 [.mk e2 []]] ∧ s.policy.rules = [r] ∧
      E.eval e1 r = .bool true ∧ E.eval e2 r = .err ∧
      (filter s.matcher E Order.fwd).2 = .stop ∧
      enforce s.matcher pDef E Order.fwd SOME_ALLOW = .ok false ∧
      enforce s.matcher pDef E Order.fwd NO_DENY = .ok true :=
  ⟨ErrorExample.pDef, ErrorExample.nested, ErrorExample.state ErrorExample.nested, ErrorExample.E,
    s% "a", s% "b", [s% "bob", s% "read"], ErrorExample.live_nested, rfl, by decide,
    by decide, by decide, by decide, by decide, by decide⟩

/-! ## C14 -/

/-- **C14**, the part that holds: `Filter` returns each stored rule once for every way it satisfies
the matcher, that is for every path of true expressions through the stage tree; so exactly once when
the alternatives exclude each other.  Needed: no leaf expression is true of the all-empty rule.
Missing: see `c14_fails`. -/
theorem c14_multiplicity_partial (pDef : PolicyDef) (root : Stage) (s : PolicyWithMatcher)
    (E : Evaluator) (ord : Order) (hlive : Live pDef root s) (hb : root.Binary)
    (hl : root.Local pDef E) (hbs : root.BlankSafe pDef E) (hv : ord.Valid)
    (hF : (filter s.matcher E ord).2 = .cont) (r : Rule) (hr : r ∈ s.policy.rules) :
    (filter s.matcher E ord).1.count (pDef.key :: r) = Stage.pathsAny E r root.children := by
  have hinv := hlive.inv hb
  obtain ⟨ph, hp, h0⟩ := filter_of_inv hb hinv hl hv hF
  rw [hp.count_eq, h0 hbs]
  simp only [List.replicate_zero, List.append_nil]
  have hnd := hinv.wf.rules_nodup
  generalize s.policy.rules = L at hr hnd
  induction L with
  | nil => simp at hr
  | cons x L ih =>
    rw [List.nodup_cons] at hnd
    rw [List.flatMap_cons, List.count_append, List.count_replicate]
    by_cases e : x = r
    · subst e
      have h0 : List.count (pDef.key :: x) (L.flatMap (fun r =>
          List.replicate (Stage.pathsAny E r root.children) (pDef.key :: r))) = 0 := by
        rw [List.count_eq_zero, List.mem_flatMap]
        rintro ⟨y, hy, hm⟩
        rw [List.mem_replicate] at hm
        have : x = y := by simpa using hm.2
        exact hnd.1 (this ▸ hy)
      rw [h0]; simp
    · have hr' : r ∈ L := by
        rcases List.mem_cons.1 hr with h | h
        · exact absurd h.symm e
        · exact h
      rw [ih hr' hnd.2]
      simp [e]

section
open MatchingExample
example : Live pDef root state ∧ root.BlankSafe pDef (E (s% "alice") (s% "read")) ∧
    (filter state.matcher (E (s% "alice") (s% "read")) Order.fwd).2 = .cont ∧
    aliceRead ∈ state.policy.rules ∧
    Stage.pathsAny (E (s% "alice") (s% "read")) aliceRead root.children = 1 :=
  ⟨live, blankSafe, by decide, by decide, by decide⟩
end

/-- **C14 fails**: with the matcher `r.sub == p.sub || r.obj == p.obj` a rule that satisfies both
alternatives is returned twice. -/
theorem c14_fails :
    ∃ (pDef : PolicyDef) (root : Stage) (s : PolicyWithMatcher) (E : Evaluator) (r : Rule),
      Live pDef root s ∧ s.policy.rules = [r] ∧
      filter s.matcher E Order.fwd = ([pDef.key :: r, pDef.key :: r], .cont) := by
  refine ⟨newPolicyDef (s% "p") (s% "sub, obj"),
    .mk [] [.mk (s% "r_sub == p_sub") [], .mk (s% "r_obj == p_obj") []],
    ⟨Policy.empty.run [.add [s% "alice", s% "data"]], _⟩,
    ⟨fun _ => true, fun e r => if e = s% "r_sub == p_sub"
      then .bool (r.head? == some (s% "alice")) else .bool (r.getLast? == some (s% "data"))⟩,
    [s% "alice", s% "data"],
    .create [.add [s% "alice", s% "data"]] (by decide) [[s% "alice", s% "data"]] (by decide) _ rfl,
    by decide, by decide⟩

/-! ## C15 -/

/-- **C15**, the part that holds: two matchers for the same policy definition and matcher
expression, created at any points of any two histories that lead to the same set of rules, report
the same rules for every request, up to order, and give the same decision.  Needed: no leaf
expression is true of the all-empty rule.  Missing: see `c15_fails`. -/
theorem c15_build_time_partial (pDef : PolicyDef) (root : Stage) (s t : PolicyWithMatcher)
    (E : Evaluator) (ord ord' : Order) (hs : Live pDef root s) (ht : Live pDef root t)
    (hsame : ∀ r, r ∈ s.policy.rules ↔ r ∈ t.policy.rules)
    (hb : root.Binary) (hl : root.Local pDef E) (hbs : root.BlankSafe pDef E)
    (hn : root.NeverFails pDef E) (hv : ord.Valid) (hv' : ord'.Valid) :
    (filter s.matcher E ord).1.Perm (filter t.matcher E ord').1 ∧
    ∀ expr, (expr = SOME_ALLOW_NO_DENY →
        ∀ r ∈ s.policy.rules, pDef.getEft (pDef.key :: r) ≠ .indeterminate) →
      enforce s.matcher pDef E ord expr = enforce t.matcher pDef E ord' expr := by
  have is := hs.inv hb
  have it := ht.inv hb
  have fs := filter_cont_of_inv hb is hn hv
  have ft := filter_cont_of_inv hb it hn hv'
  have hperm : s.policy.rules.Perm t.policy.rules :=
    perm_of_nodup_mem is.wf.rules_nodup it.wf.rules_nodup hsame
  constructor
  · obtain ⟨p1, h1, e1⟩ := filter_of_inv hb is hl hv fs
    obtain ⟨p2, h2, e2⟩ := filter_of_inv hb it hl hv' ft
    rw [e1 hbs] at h1
    rw [e2 hbs] at h2
    refine h1.trans (List.Perm.trans ?_ h2.symm)
    exact (hperm.flatMap_right _).append_right _
  · intro expr hdet
    rw [c10_index_transparent_partial pDef root s E ord expr hs hb hl hbs hn hv hdet,
      c10_index_transparent_partial pDef root t E ord' expr ht hb hl hbs hn hv'
        (fun e r hr => hdet e r ((hsame r).2 hr))]
    congr 1
    unfold scan decision
    have hp2 := (hperm.filter (fun r => Stage.satAny E r root.children)).map
      (fun r => pDef.getEft (pDef.key :: r))
    have hc : ∀ e : Effect, ((s.policy.rules.filter (fun r => Stage.satAny E r root.children)).map
        (fun r => pDef.getEft (pDef.key :: r))).contains e =
        ((t.policy.rules.filter (fun r => Stage.satAny E r root.children)).map
        (fun r => pDef.getEft (pDef.key :: r))).contains e := by
      intro e
      rw [Bool.eq_iff_iff, List.contains_iff_mem, List.contains_iff_mem]
      exact hp2.mem_iff
    rw [hc, hc]

section
open MatchingExample
/-- a matcher built afterwards, for the rules of `state` -/
def MatchingExample.later : PolicyWithMatcher :=
  ⟨Policy.empty.run [.add aliceWrite, .add aliceRead],
    match newMatcher pDef root [aliceWrite, aliceRead] with
    | .ok m => m
    | _ => ⟨pDef, root, newNode []⟩⟩
example : Live pDef root state ∧ Live pDef root later ∧
    (∀ r, r ∈ state.policy.rules ↔ r ∈ later.policy.rules) ∧
    (filter state.matcher (E (s% "alice") (s% "read")) Order.fwd).1 = [s% "p" :: aliceRead] ∧
    (filter later.matcher (E (s% "alice") (s% "read")) Order.fwd).1 = [s% "p" :: aliceRead] := by
  refine ⟨live, .create [.add aliceWrite, .add aliceRead] (by decide) [aliceWrite, aliceRead]
    (by decide) _ rfl, ?_, by decide, by decide⟩
  have h1 : state.policy.rules = [aliceRead, aliceWrite] := by decide
  have h2 : later.policy.rules = [aliceWrite, aliceRead] := by decide
  intro r; rw [h1, h2]; simp [or_comm]
end

/-- **C15 fails**: a matcher that saw a rule being added and removed grants a request that a matcher
built afterwards, for the same (empty) policy, denies. -/
theorem c15_fails :
    ∃ (pDef : PolicyDef) (root : Stage) (s t : PolicyWithMatcher) (E : Evaluator),
      Live pDef root s ∧ Live pDef root t ∧ s.policy = t.policy ∧ root.Binary ∧
      root.Local pDef E ∧
      enforce s.matcher pDef E Order.fwd SOME_ALLOW = .ok true ∧
      enforce t.matcher pDef E Order.fwd SOME_ALLOW = .ok false :=
  ⟨PhantomExample.pDef, PhantomExample.root,
    PhantomExample.state [.add PhantomExample.alice, .remove PhantomExample.alice],
    PhantomExample.start, PhantomExample.E (s% "alice") (s% "read"),
    PhantomExample.live_removed, PhantomExample.live_start, rfl, PhantomExample.binary,
    PhantomExample.local_ _ _, by decide, by decide⟩

end Fastac
