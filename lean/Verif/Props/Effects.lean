import Verif.Lemmas.Enforce
import Verif.Lemmas.Defs
import Verif.Spec.Effects

/-!
# C01–C06: decisions
-/

namespace Fastac

/-! A small enforcer for the examples: matcher `r.sub == p.sub` over rules `(sub, eft)`, for a
request of `alice`. -/
namespace EffectsExample

def pDef : PolicyDef := newPolicyDef (s% "p") (s% "sub, eft")
def root : Stage := .mk [] [.mk (s% "r_sub == p_sub") []]
def E : Evaluator :=
  { compiles := fun _ => true
    eval := fun _ rule => .bool (rule.head? == some (s% "alice")) }
def mk (rules : List Rule) : Matcher :=
  match newMatcher pDef root rules with
  | .ok m => m
  | _ => ⟨pDef, root, newNode []⟩
def allowAlice : Rule := [s% "alice", s% "allow"]
def denyAlice : Rule := [s% "alice", s% "deny"]
def maybeAlice : Rule := [s% "alice", s% "maybe"]
def allowBob : Rule := [s% "bob", s% "allow"]

end EffectsExample
open EffectsExample

/-- **C01.** With `some(where(p.eft==allow))`, when `Filter` returns (without error) the rules `rs`
for a request, `Enforce` returns without error, and grants iff one of `rs` has effect allow. -/
theorem c01_some_allow (m : Matcher) (pDef : PolicyDef) (E : Evaluator) (ord : Order)
    (rs : List Rule) (st : Status) (hF : filter m E ord = (rs, st)) (hst : st.noError) :
    ∃ b, enforce m pDef E ord SOME_ALLOW = .ok b ∧
      (b = true ↔ ∃ r ∈ rs, pDef.getEft r = .allow) := by
  rw [filter_eq, Prod.mk.injEq] at hF
  obtain ⟨rfl, rfl⟩ := hF
  unfold enforce
  rw [Matcher.rangeMatches_eq, enforce_someAllow_aux _ _ _ _ rfl rfl]
  by_cases h : ∃ r ∈ visits (m.events E ord), pDef.getEft (m.pDef.key :: r) = .allow
  · rw [if_pos h]
    exact ⟨true, rfl, by simpa only [exists_mem_keyed, true_iff] using h⟩
  · rw [if_neg h]
    refine ⟨false, ?_, by simpa only [exists_mem_keyed, Bool.false_eq_true, false_iff] using h⟩
    rcases hst with h | h <;> simp [h, finishStatus]

example : filter (mk [denyAlice, allowAlice, allowBob]) E Order.fwd =
      ([s% "p" :: denyAlice, s% "p" :: allowAlice], .cont) ∧
    enforce (mk [denyAlice, allowAlice, allowBob]) pDef E Order.fwd SOME_ALLOW = .ok true ∧
    enforce (mk [denyAlice, allowBob]) pDef E Order.fwd SOME_ALLOW = .ok false := by decide

/-- **C01**, early stop: a grant is given as soon as one reported rule has effect allow, even when
the rest of the traversal would fail. -/
theorem c01_early_stop (m : Matcher) (pDef : PolicyDef) (E : Evaluator) (ord : Order)
    (h : ∃ r ∈ (filter m E ord).1, pDef.getEft r = .allow) :
    enforce m pDef E ord SOME_ALLOW = .ok true := by
  rw [filter_eq, exists_mem_keyed] at h
  unfold enforce
  rw [Matcher.rangeMatches_eq, enforce_someAllow_aux _ _ _ _ rfl rfl, if_pos h]

/-- **C02.** With `!some(where(p.eft==deny))`, when `Filter` returns `rs`, `Enforce` grants iff none
of `rs` has effect deny. -/
theorem c02_no_deny (m : Matcher) (pDef : PolicyDef) (E : Evaluator) (ord : Order)
    (rs : List Rule) (st : Status) (hF : filter m E ord = (rs, st)) (hst : st.noError) :
    ∃ b, enforce m pDef E ord NO_DENY = .ok b ∧
      (b = true ↔ ¬ ∃ r ∈ rs, pDef.getEft r = .deny) := by
  rw [filter_eq, Prod.mk.injEq] at hF
  obtain ⟨rfl, rfl⟩ := hF
  unfold enforce
  rw [Matcher.rangeMatches_eq, enforce_noDeny_aux _ _ _ _ rfl rfl]
  by_cases h : ∃ r ∈ visits (m.events E ord), pDef.getEft (m.pDef.key :: r) = .deny
  · rw [if_pos h]
    refine ⟨false, rfl, ?_⟩
    simp only [Bool.false_eq_true, false_iff, Classical.not_not, exists_mem_keyed]
    exact h
  · rw [if_neg h]
    refine ⟨true, ?_, by simpa only [exists_mem_keyed, true_iff] using h⟩
    rcases hst with h | h <;> simp [h, finishStatus]

example : enforce (mk [allowAlice, denyAlice, allowBob]) pDef E Order.fwd NO_DENY = .ok false ∧
    enforce (mk [allowBob]) pDef E Order.fwd NO_DENY = .ok true := by decide

/-- **C03**, the part that holds: with `some(allow) && !some(deny)`, provided every matching rule
has effect allow or deny, `Enforce` grants iff some matching rule has effect allow and none has
effect deny.  Missing: rules whose `eft` value is neither (see `c03_fails`). -/
theorem c03_allow_no_deny_partial (m : Matcher) (pDef : PolicyDef) (E : Evaluator) (ord : Order)
    (rs : List Rule) (st : Status) (hF : filter m E ord = (rs, st)) (hst : st.noError)
    (hdet : ∀ r ∈ rs, pDef.getEft r ≠ .indeterminate) :
    ∃ b, enforce m pDef E ord SOME_ALLOW_NO_DENY = .ok b ∧
      (b = true ↔ (∃ r ∈ rs, pDef.getEft r = .allow) ∧ ¬ ∃ r ∈ rs, pDef.getEft r = .deny) := by
  rw [filter_eq, Prod.mk.injEq] at hF
  obtain ⟨rfl, rfl⟩ := hF
  unfold enforce
  rw [Matcher.rangeMatches_eq, enforce_allowNoDeny_aux _ _ _ _ rfl rfl rfl]
  by_cases h : ∃ r ∈ visits (m.events E ord), pDef.getEft (m.pDef.key :: r) = .deny
  · rw [if_pos h]
    refine ⟨false, rfl, ?_⟩
    simp only [Bool.false_eq_true, false_iff, not_and, Classical.not_not]
    intro _
    simpa only [exists_mem_keyed] using h
  · rw [if_neg h]
    have hfin : ∀ b, finishStatus (endStatus (m.events E ord)) b = .ok b := by
      intro b; rcases hst with h | h <;> simp only [h, finishStatus]
    refine ⟨_, hfin _, ?_⟩
    have h' : ¬ ∃ r ∈ (visits (m.events E ord)).map (m.pDef.key :: ·), pDef.getEft r = .deny := by
      simpa only [exists_mem_keyed] using h
    simp only [EnfState.init, List.nil_append, h', not_false_eq_true, and_true]
    cases hv : visits (m.events E ord) with
    | nil => simp
    | cons r rest =>
      rw [hv] at hdet h
      have hd := hdet (m.pDef.key :: r) (by simp)
      have hn : pDef.getEft (m.pDef.key :: r) ≠ .deny := fun e => h ⟨r, by simp, e⟩
      have ha : pDef.getEft (m.pDef.key :: r) = .allow := by
        cases he : pDef.getEft (m.pDef.key :: r) <;> simp_all
      simp [ha]

example : enforce (mk [allowAlice, allowBob]) pDef E Order.fwd SOME_ALLOW_NO_DENY = .ok true ∧
    enforce (mk [allowAlice, denyAlice]) pDef E Order.fwd SOME_ALLOW_NO_DENY = .ok false ∧
    enforce (mk []) pDef E Order.fwd SOME_ALLOW_NO_DENY = .ok false ∧
    (∀ r ∈ (filter (mk [allowAlice, denyAlice]) E Order.fwd).1,
      pDef.getEft r ≠ .indeterminate) := by decide

/-- **C03 fails** in general: here `Filter` reports a rule with effect allow and no rule with effect
deny, yet `Enforce` denies, because the first visited rule has an `eft` value that is neither
(default_effector.go:49 returns `effects[0]`). -/
theorem c03_fails :
    ∃ (m : Matcher) (pDef : PolicyDef) (E : Evaluator) (ord : Order) (rs : List Rule),
      ord.Valid ∧ filter m E ord = (rs, .cont) ∧
      (∃ r ∈ rs, pDef.getEft r = .allow) ∧ (¬ ∃ r ∈ rs, pDef.getEft r = .deny) ∧
      enforce m pDef E ord SOME_ALLOW_NO_DENY = .ok false :=
  ⟨mk [maybeAlice, allowAlice], pDef, E, Order.fwd,
    [s% "p" :: maybeAlice, s% "p" :: allowAlice], Order.fwd_valid, by decide, by decide, by decide,
    by decide⟩

/-- **C04**, the part that holds: an effect expression other than the three supported ones never
grants.  Missing: the error is not reported (see `c04_never_reported`). -/
theorem c04_unsupported_never_grants_partial (m : Matcher) (pDef : PolicyDef) (E : Evaluator)
    (ord : Order) (expr : Str)
    (h1 : expr ≠ SOME_ALLOW) (h2 : expr ≠ NO_DENY) (h3 : expr ≠ SOME_ALLOW_NO_DENY) :
    enforce m pDef E ord expr ≠ .ok true := by
  unfold enforce
  rw [Matcher.rangeMatches_eq, enforce_unsupported_aux _ _ _ _ h1 h2 h3]
  split
  · cases endStatus (m.events E ord) <;> simp [finishStatus]
  · simp

/-- **C04 fails** as to reporting, for every matcher, policy and request: unless the traversal
itself fails, `Enforce` with an unsupported effect expression returns `(false, nil)`, which is what
an ordinary denial returns. -/
theorem c04_never_reported (m : Matcher) (pDef : PolicyDef) (E : Evaluator) (ord : Order)
    (expr : Str)
    (h1 : expr ≠ SOME_ALLOW) (h2 : expr ≠ NO_DENY) (h3 : expr ≠ SOME_ALLOW_NO_DENY)
    (hF : (filter m E ord).2.noError) :
    enforce m pDef E ord expr = .ok false := by
  rw [filter_eq] at hF
  unfold enforce
  rw [Matcher.rangeMatches_eq, enforce_unsupported_aux _ _ _ _ h1 h2 h3]
  split
  · rcases hF with h | h <;> simp only at h <;> simp [h, finishStatus]
  · rfl

example : effectExpr (s% "priority(p.eft) || deny") ≠ SOME_ALLOW ∧
    effectExpr (s% "priority(p.eft) || deny") ≠ NO_DENY ∧
    effectExpr (s% "priority(p.eft) || deny") ≠ SOME_ALLOW_NO_DENY ∧
    enforce (mk [allowAlice]) pDef E Order.fwd (effectExpr (s% "priority(p.eft) || deny")) =
      .ok false := by decide

/-- **C05**, the part that holds: if `Filter` completes under one iteration order then, under any
two iteration orders, `Filter` reports the same rules up to order and `Enforce` gives the same
result — for every effect expression except `some(allow) && !some(deny)`, and for that one too when
no matching rule has an `eft` value other than allow/deny.  Missing: see `c05_fails`. -/
theorem c05_order_independent_partial (m : Matcher) (pDef : PolicyDef) (E : Evaluator)
    (ord ord' : Order) (hv : ord.Valid) (hv' : ord'.Valid) (expr : Str)
    (hF : (filter m E ord).2 = .cont)
    (hdet : expr = SOME_ALLOW_NO_DENY →
      ∀ r ∈ (filter m E ord).1, pDef.getEft r ≠ .indeterminate) :
    (filter m E ord').2 = .cont ∧ ((filter m E ord').1).Perm (filter m E ord).1 ∧
      enforce m pDef E ord' expr = enforce m pDef E ord expr := by
  have hF0 := hF
  rw [filter_eq] at hF
  simp only at hF
  have hp := events_perm m E hv hv' hF
  have hF' := endStatus_perm hp.symm hF
  have hc' : (filter m E ord').2 = .cont := by rw [filter_eq]; exact hF'
  have hperm : ((filter m E ord').1).Perm (filter m E ord).1 := by
    rw [filter_eq, filter_eq]
    exact (visits_perm hp hF).map _
  refine ⟨hc', hperm, ?_⟩
  have ex : ∀ e : Effect, (∃ r ∈ (filter m E ord').1, pDef.getEft r = e) ↔
      (∃ r ∈ (filter m E ord).1, pDef.getEft r = e) := by
    intro e
    constructor
    · rintro ⟨r, hr, h⟩; exact ⟨r, hperm.mem_iff.1 hr, h⟩
    · rintro ⟨r, hr, h⟩; exact ⟨r, hperm.mem_iff.2 hr, h⟩
  have fin : ∀ {b b' : Bool} {x y : Res Bool}, x = .ok b → y = .ok b' → (b = true ↔ b' = true) →
      x = y := by
    intro b b' x y hx hy h
    rw [hx, hy]
    cases b <;> cases b' <;> simp_all
  by_cases e1 : expr = SOME_ALLOW
  · subst e1
    obtain ⟨b, hb, hb2⟩ := c01_some_allow m pDef E ord' _ _ rfl (Or.inl hc')
    obtain ⟨c, hc, hc2⟩ := c01_some_allow m pDef E ord _ _ rfl (Or.inl hF0)
    exact fin hb hc (hb2.trans ((ex _).trans hc2.symm))
  · by_cases e2 : expr = NO_DENY
    · subst e2
      obtain ⟨b, hb, hb2⟩ := c02_no_deny m pDef E ord' _ _ rfl (Or.inl hc')
      obtain ⟨c, hc, hc2⟩ := c02_no_deny m pDef E ord _ _ rfl (Or.inl hF0)
      exact fin hb hc (hb2.trans ((not_congr (ex _)).trans hc2.symm))
    · by_cases e3 : expr = SOME_ALLOW_NO_DENY
      · have hd := hdet e3
        subst e3
        have hd' : ∀ r ∈ (filter m E ord').1, pDef.getEft r ≠ .indeterminate :=
          fun r hr => hd r (hperm.mem_iff.1 hr)
        obtain ⟨b, hb, hb2⟩ := c03_allow_no_deny_partial m pDef E ord' _ _ rfl (Or.inl hc') hd'
        obtain ⟨c, hc, hc2⟩ := c03_allow_no_deny_partial m pDef E ord _ _ rfl (Or.inl hF0) hd
        exact fin hb hc (hb2.trans ((and_congr (ex _) (not_congr (ex _))).trans hc2.symm))
      · rw [c04_never_reported m pDef E ord' expr e1 e2 e3 (Or.inl hc'),
          c04_never_reported m pDef E ord expr e1 e2 e3 (Or.inl hF0)]

example : (filter (mk [denyAlice, allowAlice, allowBob]) E Order.fwd).2 = .cont ∧
    (filter (mk [denyAlice, allowAlice, allowBob]) E Order.rev).1 =
      [s% "p" :: allowAlice, s% "p" :: denyAlice] := by decide

/-- **C05 fails** in general: the same rules, the same request, two iteration orders, two
decisions. -/
theorem c05_fails :
    ∃ (m : Matcher) (pDef : PolicyDef) (E : Evaluator) (ord ord' : Order),
      ord.Valid ∧ ord'.Valid ∧ (filter m E ord).2 = .cont ∧ (filter m E ord').2 = .cont ∧
      enforce m pDef E ord SOME_ALLOW_NO_DENY = .ok false ∧
      enforce m pDef E ord' SOME_ALLOW_NO_DENY = .ok true :=
  ⟨mk [maybeAlice, allowAlice], pDef, E, Order.fwd, Order.rev, Order.fwd_valid, Order.rev_valid,
    by decide, by decide, by decide, by decide⟩

/-- **C06**, the part that holds: for a definition with distinct attribute names and a stored rule
of full length, handed to the effector prefixed with the policy key, the effect is allow when there
is no `eft` attribute, and otherwise what the value in the `eft` column means.  Missing: rules that
omit the `eft` column (see `c06_fails_omitted`). -/
theorem c06_eft_column_partial (key : Str) (names : List Str) (g : GoodNames names) (rule : Rule)
    (hl : rule.length = names.length) :
    (s% "eft" ∉ names → (declare key names).getEft (key :: rule) = .allow) ∧
    (∀ v, s% "eft" ∈ names → rule[names.idxOf (s% "eft")]? = some v →
      (declare key names).getEft (key :: rule) = effectOfValue v) := by
  have hq : key ++ s% "_eft" = qual key (s% "eft") := by simp [qual]
  unfold PolicyDef.getEft
  simp only [declare_key, hq, declare_has key g, getParameter_keyed key g key rule hl]
  constructor
  · intro h; simp [h]
  · intro v h hv
    simp [h, hv, effectOfValue]

example : GoodNames [s% "sub", s% "eft"] ∧ denyAlice.length = [s% "sub", s% "eft"].length ∧
    denyAlice[[s% "sub", s% "eft"].idxOf (s% "eft")]? = some (s% "deny") := by decide

/-- **C06 fails** for rules that omit just the trailing `eft` column: the value of the column before
it is taken for the effect (defs.go:91: the key-prefixed rule is not longer than the argument list,
so the index is not shifted), whatever the names and the other fields. -/
theorem c06_fails_omitted (key : Str) (names : List Str)
    (g : GoodNames (names ++ [s% "eft"])) (rule : Rule) (last : Str)
    (hl : (rule ++ [last]).length = names.length) :
    (declare key (names ++ [s% "eft"])).getEft (key :: (rule ++ [last])) = effectOfValue last := by
  have hq : key ++ s% "_eft" = qual key (s% "eft") := by simp [qual]
  have hnot : s% "eft" ∉ names := by
    intro h
    have := g.nodup
    rw [List.nodup_append] at this
    exact this.2.2 _ h _ (by simp) rfl
  have hidx : (names ++ [s% "eft"]).idxOf (s% "eft") = names.length := by
    rw [List.idxOf_append, if_neg hnot]; simp
  simp only [List.length_append, List.length_cons, List.length_nil] at hl
  unfold PolicyDef.getEft
  simp only [declare_key, hq, declare_has key g]
  unfold PolicyDef.getParameter
  rw [declare_get key g, declare_args key g, hidx]
  have h1 : (key :: (rule ++ [last]))[names.length]? = some last := by
    rw [← hl]; simp
  simp only [List.length_cons, List.length_append, List.length_nil, hl, Nat.lt_irrefl, if_false,
    List.mem_append, List.mem_singleton, or_true, if_true, decide_true, Nat.zero_add, gt_iff_lt, h1,
    Option.getD_some, effectOfValue]

/-- **C06 fails**: a rule `(alice, read)` of the definition `sub, act, eft` does not count as allow,
and a rule `(alice, deny)` of the same definition counts as a denial. -/
theorem c06_fails :
    (declare (s% "p") [s% "sub", s% "act", s% "eft"]).getEft
      [s% "p", s% "alice", s% "read"] = .indeterminate ∧
    (declare (s% "p") [s% "sub", s% "act", s% "eft"]).getEft
      [s% "p", s% "alice", s% "deny"] = .deny := by decide

example : enforce (mk [[s% "alice"]]) pDef E Order.fwd SOME_ALLOW = .ok false := by decide

end Fastac
