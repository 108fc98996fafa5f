import Verif.Props.OwnEffector
import Verif.Props.Matching

/-!
# Effectors of the caller and the stored rules (C111)
-/

namespace Fastac

/-- **C111, the stored rules, partial.** For every history of a policy and its matcher, every request and every order of the maps: an effector
without a state and errors, whose early answers are what it would answer at the end and for which the order of rules does not matter,
decides by its answer about the stored rules that satisfy the matcher, each as often as there are ways in which it does.  Needed as for C10: at
most two alternatives per stage, stages indexed by what they read, no leaf expression true of the all-empty rule, no failing
expression. -/
theorem c111_stored_partial (pDef : PolicyDef) (root : Stage) (s : PolicyWithMatcher) (E : Evaluator) (ord : Order)
    (eff : OwnEffector) (past : List MergeCall) (f : MergeCall → Effect) (hf : eff.Is f) (hs : StaysDecided f) (ho : OrderFree f)
    (hlive : Live pDef root s) (hb : root.Binary) (hl : root.Local pDef E) (hbs : root.BlankSafe pDef E)
    (hn : root.NeverFails pDef E) (hv : ord.Valid) (rs : List Rule)
    (hrs : rs = s.policy.rules.flatMap (fun r => List.replicate (Stage.pathsAny E r root.children) (pDef.key :: r))) :
    (enforceOwn s.matcher pDef E ord eff past).2 = .ok (decide (f ⟨rs.map pDef.getEft, rs, true⟩ = .allow)) := by
  have hinv := hlive.inv hb
  have hF := filter_cont_of_inv hb hinv hn hv
  obtain ⟨ph, hp, h0⟩ := filter_of_inv hb hinv hl hv hF
  rw [h0 hbs, List.replicate_zero, List.append_nil, ← hrs] at hp
  rw [c111_decision_partial s.matcher pDef E ord eff past f hf hs (filter s.matcher E ord).1 (filter s.matcher E ord).2 rfl (.inl hF),
    ho pDef.getEft _ _ hp]

/-- **C111, every rule once.** If no stored rule satisfies the matcher in two ways, as with a matcher without `||`, the effector decides about
the stored rules that satisfy the matcher, each once. -/
theorem c111_once_partial (pDef : PolicyDef) (root : Stage) (s : PolicyWithMatcher) (E : Evaluator) (ord : Order)
    (eff : OwnEffector) (past : List MergeCall) (f : MergeCall → Effect) (hf : eff.Is f) (hs : StaysDecided f) (ho : OrderFree f)
    (hlive : Live pDef root s) (hb : root.Binary) (hl : root.Local pDef E) (hbs : root.BlankSafe pDef E)
    (hn : root.NeverFails pDef E) (hv : ord.Valid) (h1 : ∀ r ∈ s.policy.rules, Stage.pathsAny E r root.children ≤ 1) (rs : List Rule)
    (hrs : rs = (s.policy.rules.filter (fun r => Stage.satAny E r root.children)).map (pDef.key :: ·)) :
    (enforceOwn s.matcher pDef E ord eff past).2 = .ok (decide (f ⟨rs.map pDef.getEft, rs, true⟩ = .allow)) := by
  refine c111_stored_partial pDef root s E ord eff past f hf hs ho hlive hb hl hbs hn hv rs ?_
  rw [hrs]
  generalize s.policy.rules = L at h1
  induction L with
  | nil => rfl
  | cons r L ih =>
    have hpos := Stage.pathsAny_pos E r root.children
    have hle := h1 r List.mem_cons_self
    rw [List.filter_cons, List.flatMap_cons, ← ih (fun x hx => h1 x (List.mem_cons_of_mem _ hx))]
    by_cases e : Stage.satAny E r root.children = true
    · have : Stage.pathsAny E r root.children = 1 := by have := hpos.2 e; omega
      rw [if_pos e, this]; rfl
    · have : Stage.pathsAny E r root.children = 0 := by
        rcases Nat.eq_zero_or_pos (Stage.pathsAny E r root.children) with h | h
        · exact h
        · exact absurd (hpos.1 h) e
      rw [if_neg e, this]; rfl

/-! ## A concrete case -/

namespace OwnEffectorRulesExample
open MatchingExample OwnEffectorExample

/-- The matcher that looks at the subject only. -/
def rootS : Stage := .mk [] [.mk (s% "r_sub == p_sub") []]
def stateS : PolicyWithMatcher :=
  ⟨Policy.empty.run [.add aliceRead, .add bobRead, .add aliceWrite],
    match newMatcher pDef rootS [bobRead, aliceRead, aliceWrite] with
    | .ok m => m
    | _ => ⟨pDef, rootS, newNode []⟩⟩

theorem liveS : Live pDef rootS stateS :=
  .create [.add aliceRead, .add bobRead, .add aliceWrite] (by decide) [bobRead, aliceRead, aliceWrite] (by decide) _ rfl

/-- The effector that wants two rules: of the rules for alice there are two, with the action `read` there is one.  Rules without `eft`
allow. -/
example : Live pDef root state ∧ root.Binary ∧ root.Local pDef (E (s% "alice") (s% "read")) ∧
    root.BlankSafe pDef (E (s% "alice") (s% "read")) ∧ root.NeverFails pDef (E (s% "alice") (s% "read")) ∧
    (∀ r ∈ state.policy.rules, Stage.pathsAny (E (s% "alice") (s% "read")) r root.children ≤ 1) ∧
    quorumEff.Is quorum ∧ StaysDecided quorum ∧ OrderFree quorum ∧
    (enforceOwn state.matcher pDef (E (s% "alice") (s% "read")) Order.fwd quorumEff []).2 = .ok false ∧
    Live pDef rootS stateS ∧
    (enforceOwn stateS.matcher pDef (E (s% "alice") (s% "read")) Order.fwd quorumEff []).2 = .ok true ∧
    (enforceOwn stateS.matcher pDef (E (s% "bob") (s% "read")) Order.fwd quorumEff []).2 = .ok false :=
  ⟨live, binary, local_ _ _, blankSafe, neverFails _ _, by decide, quorum_is, quorum_stays, quorum_free, by decide, liveS, by decide,
    by decide⟩

/-- **Every rule once is false of the code.** With the matcher `r.sub == p.sub || r.act == p.act` a single rule is counted twice by the
effector that wants two rules: access is granted. -/
theorem c111_once_fails :
    ∃ (root : Stage) (s : PolicyWithMatcher) (E : Evaluator) (r : Rule), Live pDef root s ∧ s.policy.rules = [r] ∧
      quorum ⟨[.allow], [pDef.key :: r], true⟩ = .deny ∧
      (enforceOwn s.matcher pDef E Order.fwd quorumEff []).2 = .ok true := by
  refine ⟨.mk [] [.mk (s% "r_sub == p_sub") [], .mk (s% "r_act == p_act") []],
    ⟨Policy.empty.run [.add aliceRead], _⟩, E (s% "alice") (s% "read"), aliceRead,
    .create [.add aliceRead] (by decide) [aliceRead] (by decide) _ rfl, by decide, by decide, by decide⟩

end OwnEffectorRulesExample
end Fastac
