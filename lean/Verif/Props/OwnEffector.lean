import Verif.Lemmas.OwnEffector
import Verif.Props.Effects

/-!
# Effectors of the caller (C111)
-/

namespace Fastac

/-- **C111, which calls an effector gets.** Let `rs` be the rules that `Filter` lists for the request.  The effector is called once for
every rule, in this order, with the effects of the rules up to this one, until it answers with an error or with something else than
`Indeterminate`; this answer decides, and it has no further call.  If there is no such answer, and the search for rules did not fail, it is
called once more with all rules, and this answer decides.  If the search failed, that is what `Enforce` returns.  (The effector may have a
state: it answers knowing all calls before, those of earlier requests, `past`, included.) -/
theorem c111_protocol (m : Matcher) (pDef : PolicyDef) (E : Evaluator) (ord : Order) (eff : OwnEffector) (past : List MergeCall)
    (rs : List Rule) (st : Status) (hF : filter m E ord = (rs, st)) :
    (∃ k < rs.length, (∀ i < k, eff (past ++ stepCalls pDef rs (i + 1)) = .ans .indeterminate false) ∧
      eff (past ++ stepCalls pDef rs (k + 1)) ≠ .ans .indeterminate false ∧
      enforceOwn m pDef E ord eff past =
        (past ++ stepCalls pDef rs (k + 1), (eff (past ++ stepCalls pDef rs (k + 1))).early)) ∨
    ((∀ i < rs.length, eff (past ++ stepCalls pDef rs (i + 1)) = .ans .indeterminate false) ∧
      (st.noError → enforceOwn m pDef E ord eff past = (past ++ stepCalls pDef rs rs.length ++ [lastCall pDef rs],
        (eff (past ++ stepCalls pDef rs rs.length ++ [lastCall pDef rs])).final)) ∧
      (st = .err → enforceOwn m pDef E ord eff past = (past ++ stepCalls pDef rs rs.length, .err)) ∧
      (st = .panic → enforceOwn m pDef E ord eff past = (past ++ stepCalls pDef rs rs.length, .panic))) := by
  rw [filter_eq, Prod.mk.injEq] at hF
  obtain ⟨rfl, rfl⟩ := hF
  have key := own_consume pDef m.pDef.key eff past (m.events E ord) [] (OwnState.init past) (by simp [OwnState.init, stepCalls])
  rw [← Matcher.rangeMatches_eq m E ord (ownVisit pDef eff)] at key
  simp only [List.nil_append, List.length_nil, Nat.zero_le, forall_const, true_and] at key
  rcases key with ⟨k, h2, h3, h4, h5, h6⟩ | ⟨h1, h2⟩
  · left
    refine ⟨k, h2, h3, h4, ?_⟩
    unfold enforceOwn
    rw [← h5, ← h6] at *
  · right
    refine ⟨h1, ?_, ?_, ?_⟩
    · intro hst
      unfold enforceOwn
      rcases hst with e | e
      · rw [e] at h2; exact h2
      · rw [e] at h2; exact h2
    · intro e
      rw [e] at h2; exact h2
    · intro e
      rw [e] at h2; exact h2

/-- **C111, the decision, partial.** An effector without a state and errors, whose early answers are what it would answer at the
end, decides the request by its answer about all matching rules.  Missing: effectors that fail (`c111_fails`), and those that change their
mind: these are decided by the first answer, see `c111_protocol`. -/
theorem c111_decision_partial (m : Matcher) (pDef : PolicyDef) (E : Evaluator) (ord : Order) (eff : OwnEffector)
    (past : List MergeCall) (f : MergeCall → Effect) (hf : eff.Is f) (hs : StaysDecided f) (rs : List Rule) (st : Status)
    (hF : filter m E ord = (rs, st)) (hst : st.noError) :
    (enforceOwn m pDef E ord eff past).2 = .ok (decide (f ⟨rs.map pDef.getEft, rs, true⟩ = .allow)) := by
  rcases c111_protocol m pDef E ord eff past rs st hF with ⟨k, hk, _, h2, h3⟩ | ⟨_, h2, _⟩
  · rw [h3]
    rw [stepCalls_succ, ← List.append_assoc, hf] at h2 ⊢
    have hne : f (stepCall pDef rs k) ≠ .indeterminate := by
      intro e; exact h2 (by rw [e])
    have := hs ((rs.take (k + 1)).map pDef.getEft) (rs.take (k + 1)) ((rs.drop (k + 1)).map pDef.getEft) (rs.drop (k + 1))
      (by simp) hne
    rw [← List.map_append, List.take_append_drop] at this
    simp only [MergeAns.early, and_true]
    congr 1
    exact decide_eq_decide.mpr this.symm
  · rw [h2 hst, hf]
    rfl

/-- **C111, order.** If, moreover, the order of the rules does not matter for the last answer, the order in which the rules are found does not
matter for the decision. -/
theorem c111_order_partial (m : Matcher) (pDef : PolicyDef) (E : Evaluator) (ord ord' : Order) (hv : ord.Valid)
    (hv' : ord'.Valid) (eff : OwnEffector) (past past' : List MergeCall) (f : MergeCall → Effect) (hf : eff.Is f)
    (hs : StaysDecided f) (ho : OrderFree f) (hF : (filter m E ord).2 = .cont) :
    (enforceOwn m pDef E ord eff past).2 = (enforceOwn m pDef E ord' eff past').2 := by
  have hp : (filter m E ord').2 = .cont ∧ ((filter m E ord').1).Perm (filter m E ord).1 := by
    rw [filter_eq] at hF ⊢
    rw [filter_eq]
    have hp := events_perm m E hv hv' hF
    exact ⟨endStatus_perm hp.symm hF, (visits_perm hp hF).map _⟩
  rw [c111_decision_partial m pDef E ord eff past f hf hs (filter m E ord).1 (filter m E ord).2 rfl (.inl hF),
    c111_decision_partial m pDef E ord' eff past' f hf hs (filter m E ord').1 (filter m E ord').2 rfl (.inl hp.1), ho pDef.getEft _ _ hp.2]

/-- **C111, errors, the part that holds.** An error that the effector returns while rules are gathered never leads to a grant. -/
theorem c111_errors_partial (m : Matcher) (pDef : PolicyDef) (E : Evaluator) (ord : Order) (eff : OwnEffector)
    (past : List MergeCall) (rs : List Rule) (st : Status) (hF : filter m E ord = (rs, st)) (k : Nat) (hk : k < rs.length)
    (hb : ∀ i < k, eff (past ++ stepCalls pDef rs (i + 1)) = .ans .indeterminate false) (e : Effect)
    (he : eff (past ++ stepCalls pDef rs (k + 1)) = .ans e true) :
    enforceOwn m pDef E ord eff past = (past ++ stepCalls pDef rs (k + 1), .ok false) := by
  rcases c111_protocol m pDef E ord eff past rs st hF with ⟨j, hj, h1, h2, h3⟩ | ⟨h1, _⟩
  · have : j = k := by
      rcases Nat.lt_trichotomy j k with h | h | h
      · exact absurd (hb j h) h2
      · exact h
      · have := h1 k h; rw [he] at this; cases this
    subst this
    rw [h3, he]
    simp [MergeAns.early]
  · have := h1 k hk; rw [he] at this; cases this

/-- **C111, errors are never reported**, by no effector, for no request: unless the search for rules fails, `Enforce` returns no error. -/
theorem c111_never_reported (m : Matcher) (pDef : PolicyDef) (E : Evaluator) (ord : Order) (eff : OwnEffector)
    (past : List MergeCall) (hF : (filter m E ord).2.noError) : (enforceOwn m pDef E ord eff past).2 ≠ .err := by
  have early : ∀ a : MergeAns, a.early ≠ .err := by intro a; cases a <;> simp [MergeAns.early]
  have final : ∀ a : MergeAns, a.final ≠ .err := by intro a; cases a <;> simp [MergeAns.final]
  rcases c111_protocol m pDef E ord eff past (filter m E ord).1 (filter m E ord).2 rfl with ⟨k, _, _, _, h3⟩ | ⟨_, h2, _⟩
  · rw [h3]; exact early _
  · rw [h2 hF]; exact final _

/-- **C111, the default effector** is such an effector: handed over by the caller (`SetEffector`), it decides like the one made from the
expression, for which C01–C05 say how. -/
theorem c111_default (m : Matcher) (pDef : PolicyDef) (E : Evaluator) (ord : Order) (expr : Str) (past : List MergeCall) :
    (enforceOwn m pDef E ord (.default expr) past).2 = enforce m pDef E ord expr := by
  unfold enforceOwn enforce
  rw [Matcher.rangeMatches_eq, Matcher.rangeMatches_eq]
  exact own_default pDef _ expr _ _ _ rfl rfl rfl rfl rfl

/-! ## Concrete cases -/

namespace OwnEffectorExample
open EffectsExample

/-- Two rules have to allow, whatever others say. -/
def quorum (c : MergeCall) : Effect :=
  if 2 ≤ c.effects.count .allow then .allow else if c.complete then .deny else .indeterminate

def quorumEff : OwnEffector := fun calls =>
  match calls.getLast? with
  | none => .panic
  | some c => .ans (quorum c) false

theorem quorum_is : quorumEff.Is quorum := by
  intro past c
  unfold quorumEff
  rw [List.getLast?_append]
  rfl

theorem quorum_stays : StaysDecided quorum := by
  intro es ms es' ms' _ h
  unfold quorum at h ⊢
  simp only [List.count_append] at h ⊢
  by_cases h2 : 2 ≤ es.count .allow
  · have : 2 ≤ es.count .allow + es'.count .allow := by omega
    simp [h2, this]
  · simp [h2] at h

theorem quorum_free : OrderFree quorum := by
  intro g rs rs' h
  unfold quorum
  simp only [(h.map g).count_eq]

def again : Rule := [s% "alice", s% "allow", s% "again"]
def pDef3 : PolicyDef := newPolicyDef (s% "p") (s% "sub, eft, n")
def mk3 (rules : List Rule) : Matcher :=
  match newMatcher pDef3 root rules with
  | .ok m => m
  | _ => ⟨pDef3, root, newNode []⟩
def first : Rule := [s% "alice", s% "allow", s% "first"]
def not : Rule := [s% "alice", s% "deny", s% "x"]

/-- Two rules allow, one denies: decided with the third rule; one alone is not enough. -/
example : enforceOwn (mk3 [first, not, again]) pDef3 E Order.fwd quorumEff [] =
      ([⟨[.allow], [s% "p" :: first], false⟩, ⟨[.allow, .deny], [s% "p" :: first, s% "p" :: not], false⟩,
        ⟨[.allow, .deny, .allow], [s% "p" :: first, s% "p" :: not, s% "p" :: again], false⟩], .ok true) ∧
    (enforceOwn (mk3 [first, not, again]) pDef3 E Order.rev quorumEff []).2 = .ok true ∧
    enforceOwn (mk3 [first]) pDef3 E Order.fwd quorumEff [] =
      ([⟨[.allow], [s% "p" :: first], false⟩, ⟨[.allow], [s% "p" :: first], true⟩], .ok false) ∧
    enforceOwn (mk3 []) pDef3 E Order.fwd quorumEff [] = ([⟨[], [], true⟩], .ok false) := by decide

/-- An effector with a state: it allows two requests and no more. -/
def twice : OwnEffector := fun calls => .ans (if calls.length ≤ 2 then .allow else .deny) false

example : enforceOwn (mk3 [first]) pDef3 E Order.fwd twice [] = ([⟨[.allow], [s% "p" :: first], false⟩], .ok true) ∧
    (enforceOwn (mk3 [first]) pDef3 E Order.fwd twice [⟨[.allow], [s% "p" :: first], false⟩, ⟨[.deny], [s% "p" :: not], false⟩]).2 =
      .ok false := by decide

/-- An effector that fails at the first rule, and one that panics. -/
def failing : OwnEffector := fun _ => .ans .allow true
def panicking : OwnEffector := fun _ => .panic

example : (enforceOwn (mk3 [first, again]) pDef3 E Order.fwd failing []) =
      ([⟨[.allow], [s% "p" :: first], false⟩], .ok false) ∧
    (enforceOwn (mk3 [first, again]) pDef3 E Order.fwd panicking []).2 = .panic ∧
    (enforceOwn (mk3 []) pDef3 E Order.fwd panicking []).2 = .panic := by decide

def maybe : Rule := [s% "alice", s% "maybe", s% "z"]

/-- An effector that refuses at the first rule, one that fails there without having an opinion, and one without an opinion at all; the
effector is also asked about rules without an effect. -/
example : enforceOwn (mk3 [first, again]) pDef3 E Order.fwd (fun _ => .ans .deny false) [] =
      ([⟨[.allow], [s% "p" :: first], false⟩], .ok false) ∧
    enforceOwn (mk3 [first, again]) pDef3 E Order.fwd (fun _ => .ans .indeterminate true) [] =
      ([⟨[.allow], [s% "p" :: first], false⟩], .ok false) ∧
    enforceOwn (mk3 [maybe]) pDef3 E Order.fwd (fun _ => .ans .indeterminate false) [] =
      ([⟨[.indeterminate], [s% "p" :: maybe], false⟩, ⟨[.indeterminate], [s% "p" :: maybe], true⟩], .ok false) := by decide

/-- The search for rules fails: the evaluator fails on the second rule. -/
def badE : Evaluator :=
  { compiles := fun _ => true
    eval := fun _ rule => if rule.head? = some (s% "bob") then .err else .bool true }

example : enforceOwn (mk3 [first, [s% "bob", s% "allow", s% "y"]]) pDef3 badE Order.fwd quorumEff [] =
    ([⟨[.allow], [s% "p" :: first], false⟩], .err) := by decide

/-- **C111 is false of the code** as to errors.  An effector that returns an error when all rules have been gathered, together with
the effect `Allow`: access is granted, and no error is returned.  And it is false of the code that every effector is called once more when all
effects have been gathered (effector.go:22): not if it has decided before. -/
theorem c111_fails :
    (∃ eff : OwnEffector, eff [⟨[], [], true⟩] = .ans .allow true ∧
      enforceOwn (mk3 []) pDef3 E Order.fwd eff [] = ([⟨[], [], true⟩], .ok true)) ∧
    (∃ eff : OwnEffector, ∀ c ∈ (enforceOwn (mk3 [first, again]) pDef3 E Order.fwd eff []).1, c.complete = false) :=
  ⟨⟨failing, by decide⟩, ⟨fun _ => .ans .allow false, by decide⟩⟩

/-- Without `StaysDecided` or `OrderFree` the decision depends on the order in which maps are iterated: the first rule counts. -/
def firstCounts : OwnEffector := fun calls =>
  match calls.getLast? with
  | none => .panic
  | some c => .ans (c.effects.headD .deny) false

theorem c111_order_fails : Order.fwd.Valid ∧ Order.rev.Valid ∧
    (enforceOwn (mk3 [first, not]) pDef3 E Order.fwd firstCounts []).2 = .ok true ∧
    (enforceOwn (mk3 [first, not]) pDef3 E Order.rev firstCounts []).2 = .ok false :=
  ⟨Order.fwd_valid, Order.rev_valid, by decide, by decide⟩

end OwnEffectorExample

end Fastac
