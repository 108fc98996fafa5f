import Verif.Lemmas.InStep

/-!
# C66: matchers follow their policies; C20 for role policies
-/

namespace Fastac

namespace Model

/-- **C66**, the part that holds: whatever rules, definitions and matchers have been added to or removed from
the model since the matcher was built (except its own policy definition), it reports exactly the rules that
its policy has now and that satisfy one of its formulas; the decision on requests never uses rules of other
policies.  Missing: after a new definition of its own policy (`c66_fails`), matchers on `g` policies without
domains (their rules have one field less than the matcher expects), and after clearing a `g` policy
(`c20_fails`). -/
theorem c66_in_step_partial (build : Str → Res Stage) (hbin : ∀ e s, build e = .ok s → s.Binary)
    (key : Str) (root : Stage) (m : Model) (h : Bound build key root m)
    (hg : m.gDefs.get root.policyKey ≠ some 2) :
    ∃ mt rules, m.getMatcher key = some mt ∧ m.policyRules root.policyKey = some rules ∧
      (m.pDefs.get root.policyKey = some mt.pDef ∨
        mt.pDef = newPolicyDef root.policyKey (s% "user, role, domain")) ∧
      ∀ (E : Evaluator) (ord : Order), ord.Valid →
        (root.NeverFails mt.pDef E → (filter mt E ord).2 = .cont) ∧
        (root.Local mt.pDef E → root.BlankSafe mt.pDef E → (filter mt E ord).2 = .cont →
          ∀ x, x ∈ (filter mt E ord).1 ↔
            ∃ r ∈ rules, Stage.satAny E r root.children = true ∧ x = root.policyKey :: r) := by
  obtain ⟨hk, i, mt, h1, h2, h3⟩ := h.tied
  obtain ⟨expr, he⟩ := h.root
  have hb := hbin _ _ he
  have hs := hk.step hbin
  have ht := hk.made.tidy
  have fin : ∀ (d : PolicyDef) (rules : List Rule), mt.Has d (· ∈ rules) → rules.Nodup → (∀ r ∈ rules, GoodRule d r) →
      d.key = root.policyKey → ∀ (E : Evaluator) (ord : Order), ord.Valid →
        (root.NeverFails mt.pDef E → (filter mt E ord).2 = .cont) ∧
        (root.Local mt.pDef E → root.BlankSafe mt.pDef E → (filter mt E ord).2 = .cont →
          ∀ x, x ∈ (filter mt E ord).1 ↔
            ∃ r ∈ rules, Stage.satAny E r root.children = true ∧ x = root.policyKey :: r) := by
    intro d rules hh hn hgood hkey E ord hv
    have inv := hh.inv hn hgood
    rw [h3] at inv
    rw [hh.pdef, ← hkey]
    refine ⟨fun hf => filter_cont_of_inv hb inv hf hv, fun hl hbs hF x => ?_⟩
    have := filter_mem_of_inv hb inv hl hv hF hbs x
    rwa [Policy.rules_ofRules] at this
  unfold resolve at h2
  unfold policyRules
  have hget : m.getMatcher key = some mt := by
    unfold getMatcher
    rw [h1]
    exact h2
  cases hp : m.pMap.get root.policyKey with
  | some p =>
    simp only [hp] at h2
    obtain ⟨d, hd, g1, g2⟩ := hs.p _ p hp
    have hm := g2 mt (List.mem_of_getElem? h2)
    exact ⟨mt, _, hget, rfl, .inl (hd.trans (congrArg some hm.pdef.symm)),
      fin d _ hm (ht.pols _ p hp).2.1.rules_nodup g1 (hs.defs _ _ hd)⟩
  | none =>
    simp only [hp] at h2
    cases hr : m.rpMap.get root.policyKey with
    | none => rw [hr] at h2; cases h2
    | some rp =>
      rw [hr] at h2
      obtain ⟨g1, g2⟩ := hs.g _ rp hr hg
      have hm := g2 mt (List.mem_of_getElem? h2)
      exact ⟨mt, _, hget, rfl, .inr hm.pdef,
        fin _ _ hm (RolePolicy.rules_nodup (ht.roles _ rp hr).2.1) g1 rfl⟩

/-- **C20**, for role policies: after `ClearPolicy` the policy enumerates nothing, and the other policies are as
before.  (Matchers on the role policy are not told, `c20_fails`.) -/
theorem c20_roles_partial (build : Str → Res Stage) (m : Model) (h : Made build m) (k : Str)
    (hk : k.head? = some 'g') (hd : m.policyRules k ≠ none) :
    (m.clearPolicy k).2 = .ok () ∧ (m.clearPolicy k).1.policyRules k = some [] ∧
      (∀ k', k' ≠ k → (m.clearPolicy k).1.policyRules k' = m.policyRules k') ∧
      ∀ k' f, k' :: f ∈ (m.clearPolicy k).1.rules ↔ k' ≠ k ∧ k' :: f ∈ m.rules := by
  have ht := h.tidy
  have ht' := (h.clear k).tidy
  have hp : m.pMap.get k = none := by
    cases hp : m.pMap.get k with
    | none => rfl
    | some p =>
      have := (ht.pols k p hp).1
      rw [hk] at this
      exact absurd this (by decide)
  cases hr : m.rpMap.get k with
  | none => exact absurd (by simp [policyRules, hp, hr]) hd
  | some rp =>
    have e : m.clearPolicy k = ({ m with rpMap := m.rpMap.set k rp.clear }, .ok ()) := by
      unfold clearPolicy; simp only [hp, hr]
    have he : rp.clear.rules = [] := by
      have : ∀ r, r ∉ rp.clear.rules := by
        intro r hrr
        rw [RolePolicy.mem_rules] at hrr
        obtain ⟨u, x, ds, -, hl⟩ := hrr
        have := (ht.roles k rp hr).2.1.clear.2.2
        rw [show rp.clear.mgr = rp.mgr.clear from rfl, this] at hl
        cases hl
      exact List.eq_nil_iff_forall_not_mem.2 this
    refine ⟨by rw [e], ?_, ?_, ?_⟩
    · rw [e]; simp [policyRules, hp, he]
    · intro k' hne
      rw [e]; simp [policyRules, GoMap.get_set, Ne.symm hne]
    · intro k' f
      rw [mem_rules ht', mem_rules ht]
      rw [e]
      simp only [List.cons.injEq, GoMap.get_set]
      constructor
      · rintro ⟨k1, f1, ⟨rfl, rfl⟩, ⟨p, h1, h2⟩ | ⟨q, h1, h2⟩⟩
        · refine ⟨fun e => ?_, _, _, ⟨rfl, rfl⟩, .inl ⟨p, h1, h2⟩⟩
          rw [e, hp] at h1
          cases h1
        · split at h1
          · cases h1
            rw [he] at h2
            cases h2
          · rename_i hne
            exact ⟨Ne.symm hne, _, _, ⟨rfl, rfl⟩, .inr ⟨q, h1, h2⟩⟩
      · rintro ⟨hne, k1, f1, ⟨rfl, rfl⟩, ⟨p, h1, h2⟩ | ⟨q, h1, h2⟩⟩
        · exact ⟨_, _, ⟨rfl, rfl⟩, .inl ⟨p, h1, h2⟩⟩
        · exact ⟨_, _, ⟨rfl, rfl⟩, .inr ⟨q, by rw [if_neg (Ne.symm hne)]; exact h1, h2⟩⟩

namespace InStepExample

def root : Stage := .mk [] [.mk (s% "r_sub == p_sub") [.mk (s% "r_act == p_act") []]]
def root2 : Stage := .mk [] [.mk (s% "r_sub == p2_sub") []]
def rootG : Stage := .mk [] [.mk (s% "r_sub == g2_user") []]

def build (e : Str) : Res Stage :=
  if e = s% "a" then .ok root else if e = s% "b" then .ok root2 else if e = s% "c" then .ok rootG else .err

theorem binary : ∀ e s, build e = .ok s → s.Binary := by
  intro e s h
  unfold build at h
  split at h
  · cases h; simp [root, Stage.Binary, Stage.All, Stage.AllIn, Stage.children]
  · split at h
    · cases h; simp [root2, Stage.Binary, Stage.All, Stage.AllIn, Stage.children]
    · split at h
      · cases h; simp [rootG, Stage.Binary, Stage.All, Stage.AllIn, Stage.children]
      · cases h

/-- two `p` policies, a role policy with domains, three matchers -/
def defs : Model :=
  ((((((Model.new.setDef 'p' (s% "p") (s% "sub, act")).1.setDef 'p' (s% "p2") (s% "sub, act")).1.setDef
    'g' (s% "g2") (s% "_, _, _")).1.setDef 'm' (s% "m") (s% "a")).1.setDef 'm' (s% "m2") (s% "b")).1.setDef
    'm' (s% "m3") (s% "c")).1

theorem kept : Kept build defs :=
  .setDef (.setDef (.setDef (.setDef (.setDef (.setDef .new _ _ _) _ _ _) _ _ _) _ _ _) _ _ _) _ _ _

def built : Model := (((defs.buildMatcher build (s% "m3")).1.buildMatcher build (s% "m")).1.buildMatcher build
  (s% "m2")).1

def rule : Rule := [s% "p", s% "alice", s% "read"]
def rule2 : Rule := [s% "p2", s% "alice", s% "read"]
def link : Rule := [s% "g2", s% "alice", s% "admin", s% "x"]

theorem suits {m : Model} (h : m.gDefs = defs.gDefs) (h2 : m.pDefs = defs.pDefs) :
    m.Suits rule ∧ m.Suits rule2 ∧ m.Suits link := by
  refine ⟨⟨⟨fun _ => by decide, fun h => absurd h (by decide), fun h => absurd h (by decide)⟩, ?_,
      fun h => absurd h (by decide)⟩,
    ⟨⟨fun _ => by decide, fun h => absurd h (by decide), fun h => absurd h (by decide)⟩, ?_,
      fun h => absurd h (by decide)⟩,
    ⟨⟨fun h => absurd h (by decide), ?_, ?_⟩, fun h => absurd h (by decide),
      fun _ _ => ⟨by decide, by decide⟩⟩⟩
  · intro _ d hd
    rw [h2] at hd
    have : defs.pDefs.get (s% "p") = some (newPolicyDef (s% "p") (s% "sub, act")) := rfl
    cases this.symm.trans hd
    decide
  · intro _ d hd
    rw [h2] at hd
    have : defs.pDefs.get (s% "p2") = some (newPolicyDef (s% "p2") (s% "sub, act")) := rfl
    cases this.symm.trans hd
    decide
  · intro _ h'
    rw [h] at h'
    exact absurd h' (by decide)
  · intro _ _
    refine ⟨by decide, ?_⟩
    intro d hd
    simp at hd
    subst hd
    decide

/-- the rules are added after building; one is removed again -/
def final : Model :=
  ((((built.addRule rule).1.addRule rule2).1.addRule link).1.removeRule rule2).1

theorem bound : Bound build (s% "m") root final ∧ Bound build (s% "m3") rootG final := by
  have s1 := (suits (m := built) rfl rfl).1
  have s2 := (suits (m := (built.addRule rule).1) rfl rfl).2.1
  have s3 := (suits (m := ((built.addRule rule).1.addRule rule2).1) rfl rfl).2.2
  have s4 := (suits (m := (((built.addRule rule).1.addRule rule2).1.addRule link).1) rfl rfl).2.1
  exact ⟨.remove (.add (.add (.add (.build (.built (.build kept _) (s% "a") rfl rfl rfl) _ (by decide)) _ s1) _ s2)
      _ s3) _ s4,
    .remove (.add (.add (.add (.build (.build (.built kept (s% "c") rfl rfl rfl) _ (by decide)) _ (by decide)) _ s1)
      _ s2) _ s3) _ s4⟩

/-- alice reads; the first field decides -/
def E : Evaluator :=
  ⟨fun _ => true, fun e r => .bool (if e = s% "r_act == p_act" then r[1]? == some (s% "read")
    else r.head? == some (s% "alice"))⟩

-- the premises of C66, with matchers on a `p` and on a `g` policy
example : Bound build (s% "m") root final ∧ Bound build (s% "m3") rootG final ∧
    root.policyKey = s% "p" ∧ rootG.policyKey = s% "g2" ∧
    final.gDefs.get rootG.policyKey ≠ some 2 ∧
    (final.getMatcher (s% "m")).map (fun mt => filter mt E Order.fwd) = some ([rule], .cont) ∧
    (final.getMatcher (s% "m2")).map (fun mt => filter mt E Order.fwd) = some ([], .cont) ∧
    (final.getMatcher (s% "m3")).map (fun mt => filter mt E Order.fwd) = some ([link], .cont) :=
  ⟨bound.1, bound.2, by decide, by decide, by decide, by decide, by decide, by decide⟩

def pDef : PolicyDef := newPolicyDef (s% "p") (s% "sub, act")

theorem safe : root.BlankSafe pDef E ∧ root.NeverFails pDef E ∧ root.Local pDef E := by
  refine ⟨?_, ?_, ?_⟩
  · simp only [root, Stage.BlankSafe, Stage.All, Stage.AllIn, and_true, Stage.expr]
    exact ⟨by decide, by decide⟩
  · simp [root, Stage.NeverFails, Stage.All, Stage.AllIn, Stage.expr, E]
  · have hargs : (Stage.mk (s% "r_sub == p_sub") [.mk (s% "r_act == p_act") []]).pArgs =
        [s% "p_sub"] := by decide
    simp only [root, Stage.Local, Stage.All, Stage.AllIn, and_true]
    refine ⟨fun _ => ⟨?_, ?_⟩, fun h => by simp [Stage.isLeaf, Stage.children] at h⟩
    · rw [hargs]
      intro r g a ha
      simp only [List.mem_singleton] at ha
      subst ha
      have hl : r.length = 2 := g.len
      match r, hl with
      | [a, b], _ => exact ⟨a, rfl⟩
    · rw [hargs]
      intro r r' g g' h
      have := h (s% "p_sub") (by simp)
      have hl : r.length = 2 := g.len
      have hl' : r'.length = 2 := g'.len
      match r, r', hl, hl' with
      | [a, b], [a', b'], _, _ =>
        have e : some a = some a' := this
        cases e
        rfl

/-- **C66 fails** when the policy is defined again: the matcher still reports the rule of the former
policy, and not the one of the present policy. -/
theorem c66_fails : ∃ m mt, Kept build m ∧ m.getMatcher (s% "m") = some mt ∧
    m.policyRules (s% "p") = some [[s% "alice", s% "write"]] ∧ filter mt E Order.fwd = ([rule], .cont) ∧
    ∀ r : Rule, E.eval (s% "r_sub == p_sub") r = .bool (r.head? == some (s% "alice")) := by
  have k1 : Kept build final := bound.1.tied.1
  have k2 := k1.setDef 'p' (s% "p") (s% "sub, act")
  have k3 := k2.add [s% "p", s% "alice", s% "write"] 
    ⟨⟨fun _ => by decide, fun h => absurd h (by decide), fun h => absurd h (by decide)⟩,
      fun _ d hd => by
        have : (final.setDef 'p' (s% "p") (s% "sub, act")).1.pDefs.get (s% "p") =
          some (newPolicyDef (s% "p") (s% "sub, act")) := rfl
        cases this.symm.trans hd
        decide,
      fun h => absurd h (by decide)⟩
  exact ⟨_, _, k3, rfl, by decide, by decide, fun r => rfl⟩

-- the premises of C20 for role policies
example : Made build final ∧ final.policyRules (s% "g2") = some [[s% "alice", s% "admin", s% "x"]] :=
  ⟨bound.1.tied.1.made, by decide⟩

end InStepExample

end Model

end Fastac
