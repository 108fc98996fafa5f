import Verif.Props.Justified
import Verif.Props.FilterCases

/-!
# C95: cases that meet the hypotheses
-/

namespace Fastac

namespace JustifiedExample

open FilterExample

/-- The matcher `r.sub == p.sub && fine(p.act)`, for any function `fine`, and an effect expression. -/
def startOf (fn : Fn) (eff : Str) : FnModel :=
  ((((((((FnModel.new Shipped.Run.std []).setFunction (s% "fine") fn).setDef 'r' (s% "r") (s% "sub, act")).1.setDef
    'p' (s% "p") (s% "sub, act, eft")).1.setDef 'e' (s% "e") eff)).1.setDef 'm' (s% "m") (s% "checked")).1.buildMatcher
    fbuild (s% "m")).1

def programOf (fn : Fn) (eff : Str) : FnModel :=
  add (add (add (startOf fn eff) [s% "p", s% "alice", s% "read", s% "allow"]) [s% "p", s% "alice", s% "bad", s% "deny"])
    [s% "p", s% "bob", s% "read", s% "allow"]

def pArgs : List Str := [s% "sub", s% "act", s% "eft"]

def root : Stage := rootOf (s% "p") [[sameSub, fine]]

theorem seen (fn : Fn) (eff : Str) : ∃ H, FnModel.FnSeen fbuild (s% "m") root H (programOf fn eff) ∧
    ∀ r, H r → r ∈ [[s% "alice", s% "read", s% "allow"], [s% "alice", s% "bad", s% "deny"],
      [s% "bob", s% "read", s% "allow"]] := by
  refine ⟨_, .add (.add (.add (.built (.setDef (.setDef (.setDef (.setDef (.setFunction (.new _ _) _ _) _ _ _) _ _ _)
    _ _ _) _ _ _) (s% "checked") rfl rfl rfl) _ ?_) _ ?_) _ ?_, ?_⟩
  · exact of_decide_eq_true (by rfl)
  · exact of_decide_eq_true (by rfl)
  · exact of_decide_eq_true (by rfl)
  · have : root.policyKey = s% "p" := by decide
    rintro r (((⟨rules, h1, h2⟩ | h) | h) | h)
    · rw [this] at h1
      have : rules = [] := by
        have h1' : some [] = some rules := h1
        exact (Option.some.inj h1').symm
      subst this
      cases h2
    all_goals
      rw [this] at h
      cases h
      simp

theorem readsNow (fn : Fn) (eff : Str) (rvals : List Str) :
    ∀ a ∈ Cond.anyAtoms [[sameSub, fine]], a.ReadsNow (programOf fn eff) (s% "p") rArgs pArgs rvals (fun _ => True) := by
  intro a ha
  simp only [Cond.anyAtoms, Cond.allAtoms, Cond.atoms, sameSub, fine, List.append_nil, List.cons_append,
    List.nil_append, List.mem_cons, List.not_mem_nil, or_false] at ha
  rcases ha with rfl | rfl
  · exact ⟨⟨by simp [Ref.Known, rArgs], by simp [Ref.Known, pArgs]⟩, fun _ _ e => by cases e⟩
  · refine ⟨⟨by decide, by simp [Ref.Known, pArgs], by decide, Model.noTailRef_iff (by decide)⟩, fun f args e => ?_⟩
    cases e
    rw [if_neg (by decide)]
    exact ⟨fn, rfl⟩

theorem free (fn : Fn) (eff : Str) : (∀ x ∈ rArgs, (programOf fn eff).functions (qual (s% "r") x) = none) ∧
    ∀ x ∈ pArgs, (programOf fn eff).functions (qual (s% "p") x) = none := by
  constructor
  · intro x hx
    simp only [rArgs, List.mem_cons, List.not_mem_nil, or_false] at hx
    rcases hx with rfl | rfl <;> rfl
  · intro x hx
    simp only [pArgs, List.mem_cons, List.not_mem_nil, or_false] at hx
    rcases hx with rfl | rfl | rfl <;> rfl

theorem fineAnswers (fn : Fn) (eff : Str) (rvals vs : List Str) :
    (programOf fn eff).answers gov (s% "r") rArgs rvals (s% "fine") vs = fn vs := rfl

theorem leftOver_none {T : Atom → Rule → Prop} {H : Rule → Prop} {rules : List Rule} {f : List (List Cond)}
    (hne : ∃ r, H r) (h : ∀ r, H r → r ∈ rules) : ¬ LeftOver pArgs T H rules f := by
  rintro (⟨h1, -⟩ | ⟨way, last, -, seen, h1, -, -, h2⟩)
  · obtain ⟨r, hr⟩ := hne
    exact h1 r hr
  · exact h2 seen (h seen h1) (fun a _ => .inr rfl)

/-- Whatever the function answers, whatever the order and the request: a request is granted only to alice and bob, and
only if `fine("read")` is true; with `!some(where(p.eft==deny))` something is refused only to alice, and only if
`fine("bad")` is true; only the empty request is an error; and there is a panic only if the function panics. -/
theorem case_any (fn : Fn) (eff : Str) (ord : Order) (hord : ord.Valid) (rvals : List Str) (hl : rvals.length ≤ 2)
    (heff : eff ∈ [SOME_ALLOW, NO_DENY, SOME_ALLOW_NO_DENY]) (answer : Res Bool) (ha : ((programOf fn eff).enforce fbuild gov 1 ord (rvals.map .val)).2 = answer) :
    (answer = .ok true → eff ≠ NO_DENY → rvals.head? ∈ [some (s% "alice"), some (s% "bob")] ∧ fn [s% "read"] = .bool true) ∧
    (answer = .ok false → eff = NO_DENY → rvals.head? = some (s% "alice") ∧ fn [s% "bad"] = .bool true) ∧
    (answer = .err → rvals = []) ∧
    (answer = .panic → ∃ x ∈ [s% "read", s% "bad", []], fn [x] = .panic) := by
  obtain ⟨H, h, hH⟩ := seen fn eff
  have he : (programOf fn eff).model.eDefs.get (s% "e") = some eff := by
    simp only [List.mem_cons, List.not_mem_nil, or_false] at heff
    rcases heff with rfl | rfl | rfl <;> rfl
  obtain ⟨rules, h1, h2, h3, h4⟩ := FnModel.c95_justified fbuild reading coherent binary (fun _ => 0)
    (s% "r") (s% "m") (s% "e") (s% "p") (s% "sub, act") eff rArgs pArgs [[sameSub, fine]] _ (by decide) (by decide)
    (buildMatcherDef_formula _ _ (by decide) (by decide)) (fun _ => True) H (programOf fn eff) h (by decide) (by decide)
    (by rfl) (by decide) (newPolicyDef (s% "p") (s% "sub, act, eft")) (by rfl) (by decide) he gov
    Model.EvalExample.gov_ok (Gov.scope_scoped _)
    ⟨Model.writable_of (by decide) (by decide +kernel) (free fn eff).1, Model.writable_of (by decide) (by decide +kernel)
      (free fn eff).2, rfl, 'p', [], rfl, .inl rfl, by decide⟩ rvals hl (readsNow fn eff rvals) (.inl rfl)
    (fun _ _ => trivial) trivial ord hord 1 (by decide) _ (fun _ _ => rfl) _ (fun _ => Iff.rfl)
  obtain ⟨k1, k2, k3, k4⟩ := h4 (rvals.map .val) (by simp)
  have hrules : rules = [[s% "alice", s% "read", s% "allow"], [s% "alice", s% "bad", s% "deny"],
      [s% "bob", s% "read", s% "allow"]] := (Option.some.inj (h1.symm.trans rfl))
  have hnot := leftOver_none (T := fun a r => a.outcome (Ref.val rArgs pArgs rvals r)
    ((programOf fn eff).answers gov (s% "r") rArgs rvals) = .bool true) (f := [[sameSub, fine]])
    ⟨_, h2 [s% "alice", s% "read", s% "allow"] (by rw [hrules]; simp)⟩ hH
  subst hrules ha
  have hsub : ∀ (r : Rule) fns, Atom.outcome (Ref.val rArgs pArgs rvals r) fns
      (.eq (.req (s% "sub")) (.pol (s% "sub"))) =
        match rvals[0]?, r[0]? with
        | some v, some w => .bool (v == w)
        | _, _ => .err := fun _ _ => rfl
  have hfine : ∀ r : Rule, Atom.outcome (Ref.val rArgs pArgs rvals r)
      ((programOf fn eff).answers gov (s% "r") rArgs rvals) (.call (s% "fine") [.pol (s% "act")]) =
        match [Ref.pol (s% "act")].mapM (Ref.val rArgs pArgs rvals r) with
        | some vs => fn vs
        | none => .err := fun _ => rfl
  have hact : ∀ a b c : Str, [Ref.pol (s% "act")].mapM (Ref.val rArgs pArgs rvals [a, b, c]) = some [b] := fun _ _ _ => rfl
  have hhead : rvals.head? = rvals[0]? := by cases rvals <;> rfl
  have htrue : ∀ a b c : Str, Cond.anyHolds (fun x => x.outcome (Ref.val rArgs pArgs rvals [a, b, c])
      ((programOf fn eff).answers gov (s% "r") rArgs rvals) = .bool true) [[sameSub, fine]] →
      rvals.head? = some a ∧ fn [b] = .bool true := by
    intro a b c h
    simp only [Cond.anyHolds, Cond.allHold, Cond.holds, sameSub, fine, hsub, hfine, hact, and_true, or_false] at h
    refine ⟨?_, h.2⟩
    rw [hhead]
    have h1 := h.1
    cases hv : rvals[0]? with
    | none => rw [hv] at h1; cases h1
    | some v =>
      rw [hv] at h1
      simp only [List.getElem?_cons_zero, EvalRes.bool.injEq, beq_iff_eq] at h1
      rw [h1]
  have hlist : ∀ r, (H r ∨ r = List.replicate pArgs.length []) → ∃ a b c, r = [a, b, c] ∧ b ∈ [s% "read", s% "bad", []] := by
    rintro r (hr | rfl)
    · have := hH r hr
      simp only [List.mem_cons, List.not_mem_nil, or_false] at this
      rcases this with rfl | rfl | rfl <;> exact ⟨_, _, _, rfl, by simp⟩
    · exact ⟨_, _, _, rfl, by simp⟩
  refine ⟨fun ht hne => ?_, fun ht heq => ?_, fun ht => ?_, fun ht => ?_⟩
  · rcases (k1 ht hne).2 with ⟨r, g1, g2, g3⟩ | g
    · simp only [List.mem_cons, List.not_mem_nil, or_false] at g1
      rcases g1 with rfl | rfl | rfl
      · obtain ⟨q1, q2⟩ := htrue _ _ _ g2
        exact ⟨by simp [q1], q2⟩
      · exact absurd g3 (by decide)
      · obtain ⟨q1, q2⟩ := htrue _ _ _ g2
        exact ⟨by simp [q1], q2⟩
    · exact absurd g hnot
  · obtain ⟨r, g1, g2, g3⟩ := k2 ht heq
    simp only [List.mem_cons, List.not_mem_nil, or_false] at g1
    rcases g1 with rfl | rfl | rfl
    · exact absurd g3 (by decide)
    · exact htrue _ _ _ g2
    · exact absurd g3 (by decide)
  · obtain ⟨a, rest, r, g1, g2, g3⟩ := k3 ht
    simp only [Cond.anyWays, Cond.allWays, Cond.ways, sameSub, fine] at g1
    have : a = .eq (.req (s% "sub")) (.pol (s% "sub")) := by
      simp at g1
      exact g1.1
    subst this
    obtain ⟨x, y, z, rfl, -⟩ := hlist r g2
    rw [hsub] at g3
    cases rvals with
    | nil => rfl
    | cons v vs => simp at g3
  · obtain ⟨a, ha, r, g2, g3⟩ := k4 ht
    obtain ⟨x, y, z, rfl, hy⟩ := hlist r g2
    simp only [Cond.anyAtoms, Cond.allAtoms, Cond.atoms, sameSub, fine, List.append_nil, List.cons_append,
      List.nil_append, List.mem_cons, List.not_mem_nil, or_false] at ha
    rcases ha with rfl | rfl
    · rw [hsub] at g3
      cases hv : rvals[0]? <;> rw [hv] at g3 <;> simp at g3
    · rw [hfine, hact] at g3
      exact ⟨y, hy, g3⟩

/-- Functions that fail, answer something that is no truth value, or panic, for `bad`. -/
def moody (bad : EvalRes) : Fn
  | [x] => if x = s% "bad" then bad else .bool true
  | _ => .err

def ask (bad : EvalRes) (eff : Str) (ord : Order) (rvals : List Str) : Res Bool :=
  ((programOf (moody bad) eff).enforce fbuild gov 1 ord (rvals.map .val)).2

/-- Concrete answers.  bob is granted whatever happens to the rules of alice, and with `!some(where(p.eft==deny))` alice
is refused only if the condition of the rule that denies is true.  An answer that is no truth value counts as false; an
error below the first condition ends the search without an error, so with one order alice is granted and with
the other not; a panic passes through. -/
example :
    ask (.bool true) SOME_ALLOW_NO_DENY Order.fwd [s% "alice", []] = .ok false ∧
    ask (.bool true) NO_DENY Order.fwd [s% "alice", []] = .ok false ∧
    ask .other SOME_ALLOW_NO_DENY Order.fwd [s% "alice", []] = .ok true ∧
    ask .other NO_DENY Order.rev [s% "alice"] = .ok true ∧
    ask .err SOME_ALLOW Order.fwd [s% "alice"] = .ok true ∧
    ask .err SOME_ALLOW Order.rev [s% "alice"] = .ok false ∧
    ask .err SOME_ALLOW Order.rev [s% "bob"] = .ok true ∧
    ask .err NO_DENY Order.rev [s% "alice"] = .ok true ∧
    ask .panic SOME_ALLOW Order.rev [s% "alice"] = .panic ∧
    ask .panic SOME_ALLOW Order.rev [s% "bob"] = .ok true ∧
    ask .err SOME_ALLOW Order.fwd [] = .err := by
  refine ⟨?_, ?_, ?_, ?_, ?_, ?_, ?_, ?_, ?_, ?_, ?_⟩ <;> decide +kernel

/-- The hypotheses of `c95_exact` hold if `fine` is an answer that is no truth value for `bad`. -/
example (rvals : List Str) (hl : rvals.length = 2) (ord : Order) (hord : ord.Valid) :
    ((programOf (moody .other) SOME_ALLOW).enforce fbuild gov 1 ord (rvals.map .val)).2 =
      .ok (decide (rvals.head? = some (s% "alice") ∨ rvals.head? = some (s% "bob"))) := by
  obtain ⟨x, y, rfl⟩ : ∃ x y, rvals = [x, y] := by
    match rvals, hl with
    | [x, y], _ => exact ⟨x, y, rfl⟩
  obtain ⟨H, h, hH⟩ := seen (moody .other) SOME_ALLOW
  have hlist : ∀ r, (H r ∨ r = List.replicate pArgs.length []) → ∃ a b c, r = [a, b, c] := by
    rintro r (hr | rfl)
    · have := hH r hr
      simp only [List.mem_cons, List.not_mem_nil, or_false] at this
      rcases this with rfl | rfl | rfl <;> exact ⟨_, _, _, rfl⟩
    · exact ⟨_, _, _, rfl⟩
  have hsub : ∀ (a b c : Str) fns, Atom.outcome (Ref.val rArgs pArgs [x, y] [a, b, c]) fns
      (.eq (.req (s% "sub")) (.pol (s% "sub"))) = .bool (x == a) := fun _ _ _ _ => rfl
  have hfine : ∀ a b c : Str, Atom.outcome (Ref.val rArgs pArgs [x, y] [a, b, c])
      ((programOf (moody .other) SOME_ALLOW).answers gov (s% "r") rArgs [x, y]) (.call (s% "fine") [.pol (s% "act")]) =
        if b = s% "bad" then .other else .bool true := fun _ _ _ => rfl
  obtain ⟨rules, answer, h1, h2, h3, h4, h5, -, -⟩ := FnModel.c95_exact fbuild reading coherent binary (fun _ => 0)
    (s% "r") (s% "m") (s% "e") (s% "p") (s% "sub, act") SOME_ALLOW rArgs pArgs [[sameSub, fine]] _ (by decide) (by decide)
    (buildMatcherDef_formula _ _ (by decide) (by decide)) (fun _ => True) H (programOf (moody .other) SOME_ALLOW) h
    (by decide) (by decide) (by rfl) (by decide) (newPolicyDef (s% "p") (s% "sub, act, eft")) (by rfl) (by decide) (by rfl)
    gov Model.EvalExample.gov_ok (Gov.scope_scoped _)
    ⟨Model.writable_of (by decide) (by decide +kernel) (free _ _).1, Model.writable_of (by decide) (by decide +kernel)
      (free _ _).2, rfl, 'p', [], rfl, .inl rfl, by decide⟩ [x, y] (by simp [rArgs]) (readsNow _ _ _) (.inl rfl)
    (fun _ _ => trivial) trivial (fun e => absurd e (by decide)) ord hord 1 (by decide) _ (fun _ _ => rfl)
    (by
      intro a ha r hr
      obtain ⟨a', b', c', rfl⟩ := hlist r hr
      simp only [Cond.anyAtoms, Cond.allAtoms, Cond.atoms, sameSub, fine, List.append_nil, List.cons_append,
        List.nil_append, List.mem_cons, List.not_mem_nil, or_false] at ha
      rcases ha with rfl | rfl
      · rw [hsub]; exact ⟨by simp, by simp⟩
      · rw [hfine]; split <;> exact ⟨by simp, by simp⟩) _ (fun _ => Iff.rfl)
  have hrules : rules = [[s% "alice", s% "read", s% "allow"], [s% "alice", s% "bad", s% "deny"],
      [s% "bob", s% "read", s% "allow"]] := (Option.some.inj (h1.symm.trans rfl))
  have hnot := leftOver_none (T := fun a r => a.outcome (Ref.val rArgs pArgs [x, y] r)
    ((programOf (moody .other) SOME_ALLOW).answers gov (s% "r") rArgs [x, y]) = .bool true) (f := [[sameSub, fine]])
    ⟨_, h2 [s% "alice", s% "read", s% "allow"] (by rw [hrules]; simp)⟩ hH
  subst hrules
  rw [h4 _ (by simp)]
  have h5 := (h5 rfl).trans (or_iff_left hnot)
  have e1 : effectOf pArgs [s% "alice", s% "read", s% "allow"] = .allow := by decide
  have e2 : effectOf pArgs [s% "alice", s% "bad", s% "deny"] = .deny := by decide
  have e3 : effectOf pArgs [s% "bob", s% "read", s% "allow"] = .allow := by decide
  simp only [or_false, List.mem_cons, List.not_mem_nil, exists_eq_or_imp, exists_eq_left, e1, e2, e3, and_true,
    Cond.anyHolds, Cond.allHold, Cond.holds, sameSub, fine, hsub, hfine] at h5
  congr 1
  rw [Bool.eq_iff_iff, h5]
  simp

end JustifiedExample

end Fastac
