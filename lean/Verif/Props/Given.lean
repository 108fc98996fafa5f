import Verif.Lemmas.Given
import Verif.Props.Decision

/-!
# C74: conditions have to behave only on the rules the policy was given
-/

namespace Fastac

/-- The decision of a matcher whose index has the shape it gets by adding rules. -/
theorem enforce_of_shape (pDef : PolicyDef) (root : Stage) (s : PolicyWithMatcher) (E : Evaluator) (ord : Order)
    (expr : Str) (P : Rule → Prop) (keep : Prop) (hinv : s.Inv pDef root) (hb : root.Binary)
    (hs : s.matcher.Shape P keep) (hP : ∀ r ∈ s.policy.rules, P r)
    (hl : root.LocalOn pDef E P) (hr : root.RunsOn pDef E P)
    (h0 : s.policy.rules = [] → Stage.DeclinesAll E (blankRule pDef) root.children)
    (hd : ¬ keep → root.EndsDecline pDef E) (hv : ord.Valid)
    (hdet : expr = SOME_ALLOW_NO_DENY →
      ∀ r ∈ s.policy.rules, pDef.getEft (pDef.key :: r) ≠ .indeterminate) :
    enforce s.matcher pDef E ord expr = .ok (scan pDef root E expr s.policy.rules) := by
  have hidx := hinv.idx
  have hT : Tame pDef E root s.matcher.root (· ∈ s.policy.rules) := by
    unfold Matcher.Shape at hs
    rw [hinv.expr] at hs
    cases root with
    | mk e cs =>
      simp only [Stage.LocalOn, Stage.RunsOn, Stage.EndsDecline, Stage.All] at hl hr hd
      simp only [Stage.children] at h0
      simp only [Idx] at hidx
      simp only [Filled] at hs
      simp only [Tame]
      refine tameC_of_filled pDef E P keep cs 0 _ _ hl hr hd hidx
        (hs.imp (fun h j _ m hm => h j m hm) id) ?_ hinv.good hP
      intro hnf
      have hbare := hs.resolve_right hnf
      apply h0
      cases cs with
      | nil => exact absurd (by simp [FilledC]) hnf
      | cons st rest =>
        simp only [IdxC] at hidx
        obtain ⟨⟨m, hm, _, hall, _⟩, _⟩ := hidx
        rw [List.eq_nil_iff_forall_not_mem]
        intro r hr
        have := hall r hr
        rw [hbare 0 m hm] at this
        simp at this
  obtain ⟨e1, e2⟩ := evStage_tame pDef E ord hv root [] s.matcher.root _ s.policy.rules hb.2 hidx hT
    hinv.wf.rules_nodup (fun r => Iff.rfl) hinv.good
  have hph : phantoms pDef E root s.matcher.root = 0 := by
    unfold Matcher.Shape at hs
    rw [hinv.expr] at hs
    rcases hs with hs | hs
    · rw [phantoms_eq]
      rw [Idx_eq] at hidx
      rw [phantomsC_bare pDef E _ root.children 0 hidx (fun j _ m hm => hs j m hm)]
      cases hc : root.children with
      | nil => rfl
      | cons st rest =>
        rw [hc] at hidx
        simp only [IdxC] at hidx
        obtain ⟨⟨m, hm, _, hall, _⟩, _⟩ := hidx
        rw [← hc]
        refine (h0 ?_).runs.2
        rw [List.eq_nil_iff_forall_not_mem]
        intro r hr
        have := hall r hr
        rw [hs 0 m hm] at this
        simp at this
    · exact phantoms_filled pDef E P keep root _ _ hidx hd hs
  rw [hph, List.replicate_zero, List.append_nil] at e2
  have hev : s.matcher.events E ord = evStage E pDef.args.length ord root [] s.matcher.root := by
    unfold Matcher.events; rw [hinv.pdef, hinv.expr]
  refine enforce_of_mem pDef root s E ord expr ?_ ?_ hdet
  · rw [filter_eq]; simp only; rw [hev]; exact e1
  · intro x
    rw [filter_eq]
    simp only
    rw [hev, hinv.pdef]
    simp only [List.mem_map, e2.mem_iff, List.mem_flatMap, List.mem_replicate, ← Stage.pathsAny_pos,
      Nat.pos_iff_ne_zero]
    constructor
    · rintro ⟨r, ⟨r', h1, h2, rfl⟩, rfl⟩; exact ⟨_, h1, h2, rfl⟩
    · rintro ⟨r, h1, h2, rfl⟩; exact ⟨r, ⟨r, h1, h2, rfl⟩, rfl⟩

namespace Model

/-- **C74**, the part that holds.  As `c69_decision_partial`, for conditions that may be undefined, fail, or read
anything, on rules which the policy was never given: let `P` be a property of all rules that the matcher's
policy had when the matcher was built or was given later.  If each inner condition reads, of rules with `P`, only
the attributes written in it, and no condition fails on a rule with `P`, then `Enforce` decides as a scan of the
rules.  The rule with empty fields matters only if the policy is empty (then the whole matcher must not hold of it)
or if rules have been removed from the policy one by one since the matcher was built (then no last condition
may hold of it). -/
theorem c74_decision_partial (build : Str → Res Stage) (hbin : ∀ e s, build e = .ok s → s.Binary)
    (rk mk ek rText eff : Str) (root : Stage) (P : Rule → Prop) (keep : Prop) (m : Model)
    (h : Given build mk root P keep m)
    (hp : root.policyKey.head? = some 'p') (n1 : rk ≠ []) (n2 : mk ≠ []) (n3 : ek ≠ [])
    (hr : m.rDefs.get rk = some rText) (he : m.eDefs.get ek = some eff) :
    ∃ d rules, m.pDefs.get root.policyKey = some d ∧ m.policyRules root.policyKey = some rules ∧
      (∀ r ∈ rules, P r) ∧
      ∀ (base : Str → Option Fn) (gov : Gov) (ord : Order), ord.Valid → ∀ (rvals : List Str) (E : Evaluator),
        E = gov (m.functions base) (MatchParams.get ⟨d, newPolicyDef rk rText, rvals⟩) →
        root.LocalOn d E P → root.RunsOn d E P →
        (rules = [] → Stage.DeclinesAll E (blankRule d) root.children) →
        (¬ keep → root.EndsDecline d E) →
        (eff = SOME_ALLOW_NO_DENY → ∀ r ∈ rules, d.getEft (d.key :: r) ≠ .indeterminate) →
        m.enforceParams build base gov ord (named rk mk ek ++ rvals.map .val) =
          (m, .ok (scan d root E eff rules)) ∧
        (rk = s% "r" → mk = s% "m" → ek = s% "e" →
          m.enforceParams build base gov ord (rvals.map .val) = (m, .ok (scan d root E eff rules))) := by
  obtain ⟨i, mt, p, d, h1, h2, h3, h4, h5, h6, h7, hb, hinv⟩ := h.bound.inv hbin hp
  obtain ⟨p', i', mt', s1, s2, s3, s4, s5⟩ := h.shows hp
  obtain rfl : p' = p := Option.some.inj (s2.symm.trans h3)
  obtain rfl : i' = i := by
    have := Option.some.inj (s1.symm.trans h1)
    cases this; rfl
  obtain rfl : mt' = mt := by
    have h2' := h2
    unfold resolve at h2'
    simp only [h3] at h2'
    exact Option.some.inj (s3.symm.trans h2')
  have hP := h.rules p' h3
  refine ⟨d, p'.policy.rules, h5, h4, hP, ?_⟩
  intro base gov ord hv rvals E hE hl hn h0 hd hdet
  have hctx : m.enforceCtx base gov ord ⟨some (newPolicyDef rk rText), some (.live root.policyKey i'), some eff⟩
      rvals = .ok (scan d root E eff p'.policy.rules) := by
    have := enforce_of_shape d root _ E ord eff P keep hinv hb s5
      (by rw [Policy.rules_ofRules]; exact hP) hl hn (by rw [Policy.rules_ofRules]; exact h0) hd hv
      (by rw [Policy.rules_ofRules]; exact hdet)
    rw [Policy.rules_ofRules] at this
    unfold Model.enforceCtx
    simp only [Option.bind_some, h2]
    rw [h7, h6, h5]
    simp only
    unfold Model.evaluator
    rw [h7, ← hE]
    exact this
  refine ⟨?_, ?_⟩
  · unfold Model.enforceParams
    rw [splitParams_named, newContext_named hr h1 he n1 n2 n3]
    simp only
    rw [hctx]
  · rintro rfl rfl rfl
    unfold Model.enforceParams
    rw [splitParams_vals, newContext_default hr h1 he]
    simp only
    rw [hctx]

/-! ## A case that meets the hypotheses, and what is missing -/

namespace GivenExample

/-- `within(r.ip, p.net) && r.act == p.act` -/
def root : Stage := .mk [] [.mk (s% "within(r_ip, p_net)") [.mk (s% "r_act == p_act") []]]

def build (e : Str) : Res Stage := if e = s% "a" then .ok root else .err

theorem binary : ∀ e s, build e = .ok s → s.Binary := by
  intro e s h
  unfold build at h
  split at h
  · cases h; simp [root, Stage.Binary, Stage.All, Stage.AllIn, Stage.children]
  · cases h

def defs : Model :=
  ((((Model.new.setDef 'r' (s% "r") (s% "ip, act")).1.setDef 'p' (s% "p") (s% "net, act")).1.setDef
    'e' (s% "e") SOME_ALLOW).1.setDef 'm' (s% "m") (s% "a")).1

theorem kept : Kept build defs := .setDef (.setDef (.setDef (.setDef .new _ _ _) _ _ _) _ _ _) _ _ _

def built : Model := (defs.buildMatcher build (s% "m")).1

def m : Model := ((built.addRule [s% "p", s% "10.", s% "read"]).1.addRule [s% "p", s% "10.1.", s% ""]).1

/-- the first field is a network, not empty -/
def Net (r : Rule) : Prop := r.head? ≠ some []

theorem given : Given build (s% "m") root Net True m := by
  refine .add (.add (.built kept (s% "a") rfl rfl rfl ?_) _ (by decide) ?_) _ (by decide) ?_
  · intro rules h
    cases h
    intro r hr
    cases hr
  · intro f e; cases e; unfold Net; decide
  · intro f e; cases e; unfold Net; decide

/-- like `ipMatch`, `within` panics when the network is malformed -/
def gov : Gov := fun _ get =>
  ⟨fun _ => true, fun e r =>
    if e = s% "within(r_ip, p_net)" then
      (match get r (s% "r_ip"), get r (s% "p_net") with
        | some ip, some (c :: cs) => .bool (List.isPrefixOf (c :: cs) ip)
        | _, _ => .panic)
    else .bool (get r (s% "r_act") == get r (s% "p_act"))⟩

def d : PolicyDef := newPolicyDef (s% "p") (s% "net, act")

def E (ip act : Str) : Evaluator :=
  gov (fun _ => none) (MatchParams.get ⟨d, newPolicyDef (s% "r") (s% "ip, act"), [ip, act]⟩)

/-- on rules of two fields the conditions compute this -/
theorem eval_E (ip act net act' : Str) :
    (E ip act).eval (s% "within(r_ip, p_net)") [net, act'] =
      (match net with | [] => .panic | c :: cs => .bool (List.isPrefixOf (c :: cs) ip)) ∧
    (E ip act).eval (s% "r_act == p_act") [net, act'] = .bool (act == act') := by
  refine ⟨?_, rfl⟩
  cases net <;> rfl

theorem runs (ip act : Str) : root.LocalOn d (E ip act) Net ∧ root.RunsOn d (E ip act) Net := by
  have hargs : (Stage.mk (s% "within(r_ip, p_net)") [.mk (s% "r_act == p_act") []]).pArgs =
      [s% "p_net"] := by decide
  refine ⟨?_, ?_⟩
  · simp only [root, Stage.LocalOn, Stage.All, Stage.AllIn, and_true]
    refine ⟨fun _ => ⟨?_, ?_⟩, fun h => by simp [Stage.isLeaf, Stage.children] at h⟩
    · rw [hargs]
      intro r g a ha
      simp only [List.mem_singleton] at ha
      subst ha
      have hl : r.length = 2 := g.len
      match r, hl with
      | [a, b], _ => exact ⟨a, rfl⟩
    · rw [hargs]
      intro r r' g g' _ _ h
      have := h (s% "p_net") (by simp)
      have hl : r.length = 2 := g.len
      have hl' : r'.length = 2 := g'.len
      match r, r', hl, hl' with
      | [a, b], [a', b'], _, _ =>
        have e : some a = some a' := this
        cases e
        simp only [Stage.expr]
        rw [(eval_E ip act a b).1, (eval_E ip act a b').1]
  · simp only [root, Stage.RunsOn, Stage.All, Stage.AllIn, and_true, Stage.expr]
    refine ⟨⟨rfl, ?_⟩, rfl, ?_⟩
    · intro r g hP
      have hl : r.length = 2 := g.len
      match r, hl with
      | [a, b], _ =>
        rw [(eval_E ip act a b).1]
        cases a with
        | nil => exact absurd rfl hP
        | cons c cs => simp
    · intro r g _
      have hl : r.length = 2 := g.len
      match r, hl with
      | [a, b], _ => rw [(eval_E ip act a b).2]; simp

-- the premises of C74 hold, with no premise about the rule with empty fields
example : Given build (s% "m") root Net True m ∧ root.policyKey = s% "p" ∧
    (∀ ip act, root.LocalOn d (E ip act) Net ∧ root.RunsOn d (E ip act) Net) ∧
    m.policyRules (s% "p") = some [[s% "10.", s% "read"], [s% "10.1.", s% ""]] ∧
    ¬ root.NeverFails d (E (s% "10.2.3.4") (s% "read")) ∧
    ¬ root.BlankSafe d (E (s% "10.2.3.4") (s% "")) ∧
    (m.enforceParams build (fun _ => none) gov Order.fwd [.val (s% "10.2.3.4"), .val (s% "read")]).2 = .ok true ∧
    (m.enforceParams build (fun _ => none) gov Order.fwd [.val (s% "10.2.3.4"), .val (s% "")]).2 = .ok false ∧
    (m.enforceParams build (fun _ => none) gov Order.fwd [.val (s% "10.1.3.4"), .val (s% "")]).2 = .ok true := by
  refine ⟨given, by decide, runs, by decide, ?_, ?_, by decide, by decide, by decide⟩
  · simp only [root, Stage.NeverFails, Stage.All, Stage.AllIn, and_true, Stage.expr]
    rintro ⟨⟨_, h⟩, _⟩
    exact (h [[], []] rfl).2 (by decide)
  · simp only [root, Stage.BlankSafe, Stage.All, Stage.AllIn, and_true, Stage.expr]
    rintro ⟨_, h⟩
    exact h rfl (by decide)

end GivenExample

open GivenExample in
/-- **C74 fails** for an empty policy: with the matcher of the example and no rules, `Enforce` panics instead of
denying, since the condition is tried on a rule with empty fields. -/
theorem c74_fails : ∃ m, Given build (s% "m") root Net True m ∧ m.policyRules root.policyKey = some [] ∧
    (∀ ip act, root.LocalOn d (E ip act) Net ∧ root.RunsOn d (E ip act) Net) ∧
    (m.enforceParams build (fun _ => none) gov Order.fwd [.val (s% "10.2.3.4"), .val (s% "read")]).2 = .panic := by
  refine ⟨built, .built kept (s% "a") rfl rfl rfl ?_, by decide, runs, by decide⟩
  intro rules h
  cases h
  intro r hr
  cases hr

end Model

end Fastac
