import Verif.Lemmas.ApartRun
import Verif.Props.Decision

/-!
# C99: policies and matchers that are shared
-/

namespace Fastac

namespace Realm

variable {build : Str → Res Stage}

/-! ## Helpers -/

theorem enforce_shared {w : Realm} (hw : w.InSync) {m : OModel} (hm : m ∈ w.models) {o i : Nat} {ob : OPol} {p : Policy}
    {mt : Matcher} (ho : w.pols[o]? = some ob) (hp : ob.hold = .rules p) (hi : ob.listeners[i]? = some mt)
    {rk mk ek rText eff : Str} (n1 : rk ≠ []) (n2 : mk ≠ []) (n3 : ek ≠ []) (hx : m.mMap.get mk = some (o, i))
    (hr : m.rDefs.get rk = some rText) (he : m.eDefs.get ek = some eff) {d : PolicyDef}
    (hd : m.pDefs.get mt.pDef.key = some d) (base : Str → Option Fn) (gov : Gov) {ord : Order} (hv : ord.Valid)
    (rvals : List Str) (E : Evaluator)
    (hE : E = gov ((w.value m).functions base) (MatchParams.get ⟨mt.pDef, newPolicyDef rk rText, rvals⟩))
    (hl : mt.exprRoot.Local mt.pDef E) (hbs : mt.exprRoot.BlankSafe mt.pDef E) (hn : mt.exprRoot.NeverFails mt.pDef E)
    (hdet : eff = SOME_ALLOW_NO_DENY → ∀ r ∈ p.rules, d.getEft (d.key :: r) ≠ .indeterminate) :
    w.enforce build m base gov ord (Model.named rk mk ek ++ rvals.map .val) = .ok (scan d mt.exprRoot E eff p.rules) := by
  have hy := hw.pols o ob p ho hp
  have hmt := List.mem_of_getElem? hi
  have hh := hy.has mt hmt
  have inv := hh.inv hy.wf.rules_nodup (hy.good mt hmt)
  have hF := filter_cont_of_inv hh.bin inv hn hv
  have hk : d.key = mt.pDef.key := hw.defs m hm _ d hd
  have hen := enforce_of_mem d mt.exprRoot ⟨Policy.ofRules p.rules, mt⟩ E ord eff hF (by
    rw [hk]; exact filter_mem_of_inv hh.bin inv hl hv hF hbs) (by rw [Policy.rules_ofRules]; exact hdet)
  rw [Policy.rules_ofRules] at hen
  have hres : (w.value m).resolve (w.entry m (o, i)) = some mt := resolve_entry (by
    unfold matcher
    simp only [ho, Option.bind_some, hi])
  unfold enforce Model.enforceParams
  rw [Model.splitParams_named, Model.newContext_named (m := w.value m) (x := w.entry m (o, i)) hr
    (by simp only [value, GoMap.mapV_get, hx, Option.map_some]) he n1 n2 n3]
  simp only
  unfold Model.enforceCtx
  simp only [Option.bind_some, hres]
  rw [show (w.value m).pDefs = m.pDefs from rfl, hd]
  simp only
  unfold Model.evaluator
  rw [← hE]
  exact hen

theorem build_puts {w : Realm} (hbin : ∀ e s, build e = .ok s → s.Binary) {a : Nat} {m : OModel}
    (hm : w.models[a]? = some m) {key expr : Str} {root : Stage} (hd : m.mDefs.get key = some expr)
    (hb : build expr = .ok root) {d : PolicyDef} (hp : m.matcherPolicyDef root.policyKey = .ok d)
    {o : Nat} {ob : OPol} (hg : m.getPolicy root.policyKey = some o) (ho : w.pols[o]? = some ob)
    (hs : ∀ r ∈ w.rulesOf o, GoodRule d r) :
    ∃ mt m', (w.step build (.build a key)).1.models[a]? = some m' ∧
      m'.mMap.get key = some (o, ob.listeners.length) ∧
      (w.step build (.build a key)).1.pols[o]? = some ⟨ob.hold, ob.listeners ++ [mt]⟩ ∧ mt.pDef = d ∧ mt.exprRoot = root := by
  obtain ⟨mt, e, a1, a2, _⟩ := newMatcher_idx d root (hbin _ _ hb) (w.rulesOf o) hs
  have hlt := (List.getElem?_eq_some_iff.1 hm).1
  have hlo := (List.getElem?_eq_some_iff.1 ho).1
  refine ⟨mt, { m with mMap := m.mMap.set key (o, ob.listeners.length) }, ?_, ?_, ?_, a1, a2⟩
  · simp only [step, hm, buildMatcher, hd, buildFrom, hb, hp, hg, listen, ho, e, setModel, setPol,
      List.getElem?_set_self hlt]
  · simp only [GoMap.get_set_self]
  · simp only [step, hm, buildMatcher, hd, buildFrom, hb, hp, hg, listen, ho, e, setModel, setPol,
      List.getElem?_set_self hlo]

/-! ## C99 -/

/-- **C99**, the part that holds.  Any program of any number of models, in which policies and matchers may be put under
any keys of any models, and policies, role managers and their rules may be changed through the models or directly.  A
matcher that was built by some model `a` for a policy decides, in whichever models and under whichever keys it is found
after whatever has happened, by exactly the rules that this policy holds at that time, through whichever model or key
they came; with the request definition, effect, functions and `eft` column of the model that is asked.  Needed: rules
suit the definitions of all matchers that listen to the policy. -/
theorem c99_decision_partial (hbin : ∀ e s, build e = .ok s → s.Binary) (prog : List OCmd)
    (hs : empty.AllSuit build prog) (w : Realm) (hw : w = (empty.run build prog).1) (a : Nat) (m : OModel)
    (hm : w.models[a]? = some m) (key expr : Str) (root : Stage) (hmd : m.mDefs.get key = some expr)
    (hb : build expr = .ok root) (d : PolicyDef) (hpk : root.policyKey.head? = some 'p')
    (hd : m.pDefs.get root.policyKey = some d) (o : Nat) (ob : OPol) (p : Policy)
    (hg : m.getPolicy root.policyKey = some o) (ho : w.pols[o]? = some ob) (hp : ob.hold = .rules p)
    (hsb : ∀ r ∈ p.rules, GoodRule d r) (prog' : List OCmd)
    (hs' : (w.step build (.build a key)).1.AllSuit build prog') :
    ∃ x m1, (w.step build (.build a key)).1.models[a]? = some m1 ∧ m1.mMap.get key = some x ∧
      ∀ (w2 : Realm), w2 = ((w.step build (.build a key)).1.run build prog').1 →
      ∀ (b : Nat) (m2 : OModel), w2.models[b]? = some m2 → ∀ (rk mk ek rText eff : Str) (d2 : PolicyDef),
        rk ≠ [] → mk ≠ [] → ek ≠ [] → m2.mMap.get mk = some x → m2.rDefs.get rk = some rText →
        m2.eDefs.get ek = some eff → m2.pDefs.get root.policyKey = some d2 →
        ∀ (base : Str → Option Fn) (gov : Gov) (ord : Order), ord.Valid → ∀ (rvals : List Str) (E : Evaluator),
          E = gov ((w2.value m2).functions base) (MatchParams.get ⟨d, newPolicyDef rk rText, rvals⟩) →
          root.Local d E → root.BlankSafe d E → root.NeverFails d E →
          (eff = SOME_ALLOW_NO_DENY → ∀ r ∈ w2.rulesOf o, d2.getEft (d2.key :: r) ≠ .indeterminate) →
          w2.enforce build m2 base gov ord (Model.named rk mk ek ++ rvals.map .val) =
            .ok (scan d2 root E eff (w2.rulesOf o)) := by
  have sy : w.InSync := hw ▸ InSync.run hbin prog _ .empty hs
  have hdk : d.key = root.policyKey := sy.defs m (List.mem_of_getElem? hm) _ d hd
  have hmp : m.matcherPolicyDef root.policyKey = .ok d := by
    unfold OModel.matcherPolicyDef
    cases hk : root.policyKey with
    | nil => rw [hk] at hpk; cases hpk
    | cons c cs =>
      rw [hk] at hpk hd
      cases hpk
      simp only [if_true, hd]
  have hro := rulesOf_rules ho hp
  obtain ⟨mt, m1, h1, h2, h3, h4, h5⟩ := build_puts hbin hm hmd hb hmp hg ho (by rw [hro]; exact hsb)
  refine ⟨_, m1, h1, h2, ?_⟩
  intro w2 hw2 b m2 hm2 rk mk ek rText eff d2 n1 n2 n3 hx hr he hd2 base gov ord hv rvals E hE hl hbs hn hdet
  have sy1 : (w.step build (.build a key)).1.InSync := sy.step hbin _ (by
    intro m' expr' hm' he' m'' root' o' d' hm'' hb' ho' hd' r hr'
    rw [hm] at hm' hm''
    cases hm'
    cases hm''
    rw [hmd] at he'
    cases he'
    rw [hb] at hb'
    cases hb'
    rw [hg] at ho'
    cases ho'
    rw [hmp] at hd'
    cases hd'
    rw [hro] at hr'
    exact hsb r hr')
  have sy2 : w2.InSync := hw2 ▸ InSync.run hbin prog' _ sy1 hs'
  obtain ⟨ob2, e1, e2, e3⟩ := run_keeps (build := build) prog' _ o _ h3
  rw [← hw2] at e1
  obtain ⟨mt2, e4, e5⟩ := e3 ob.listeners.length mt (by simp)
  rw [hp] at e2
  cases hh : ob2.hold with
  | links g => rw [hh] at e2; exact e2.elim
  | rules p2 =>
    have hd' : mt2.pDef = d := e5.1.trans h4
    have hr' : mt2.exprRoot = root := e5.2.trans h5
    rw [rulesOf_rules e1 hh] at hdet ⊢
    have := enforce_shared (build := build) sy2 (List.mem_of_getElem? hm2) e1 hh e4 n1 n2 n3 hx hr he
      (d := d2) (by rw [hd', hdk]; exact hd2) base gov hv rvals E (by rw [hd']; exact hE) (by rw [hr', hd']; exact hl)
      (by rw [hr', hd']; exact hbs) (by rw [hr', hd']; exact hn) hdet
    rw [hr'] at this
    exact this

/-- The rules of the other policies, and which rules a policy holds after `setPol`. -/
theorem rulesOf_setPol {w : Realm} {o : Nat} {ob : OPol} (ho : w.pols[o]? = some ob) (p : Policy) (ls : List Matcher)
    (o' : Nat) : (w.setPol o ⟨.rules p, ls⟩).rulesOf o' = if o' = o then p.rules else w.rulesOf o' := by
  have hlo := (List.getElem?_eq_some_iff.1 ho).1
  by_cases e : o' = o
  · subst e
    rw [if_pos rfl]
    unfold rulesOf setPol
    simp only [List.getElem?_set_self hlo]
  · rw [if_neg e]
    unfold rulesOf setPol role
    simp only [List.getElem?_set_ne (fun h => e h.symm)]

/-- **C99**, for the rules.  A rule that is added through a model and a key goes to the policy that the model has under
this key, and so to every model and key under which that policy is found, and to no other policy; the same for removing
and clearing.  The event goes to the listeners of the model that was called only. -/
theorem c99_rules (hbin : ∀ e s, build e = .ok s → s.Binary) (prog : List OCmd)
    (hs : empty.AllSuit build prog) (w : Realm) (hw : w = (empty.run build prog).1) (a : Nat) (m : OModel)
    (hm : w.models[a]? = some m) (k : Str) (hk : k.head? = some 'p') (o : Nat) (ob : OPol) (p : Policy)
    (hg : m.pMap.get k = some o) (ho : w.pols[o]? = some ob) (hp : ob.hold = .rules p) (r : Rule)
    (hr : w.RuleSuits o r) :
    (∃ b, (w.addRule m (k :: r)).2.1 = .ok b ∧ (b = true ↔ ∀ x ∈ w.rulesOf o, hash x ≠ hash r) ∧
      (∀ o' x, x ∈ (w.step build (.add a (k :: r))).1.rulesOf o' ↔ x ∈ w.rulesOf o' ∨ (o' = o ∧ b = true ∧ x = r)) ∧
      (w.step build (.add a (k :: r))).1.models = w.models ∧
      (w.step build (.add a (k :: r))).2 = if b = true then [(a, .added (k :: r))] else []) ∧
    (∃ b, (w.removeRule m (k :: r)).2.1 = .ok b ∧ (b = true ↔ ∃ x ∈ w.rulesOf o, hash x = hash r) ∧
      (∀ o' x, x ∈ (w.step build (.remove a (k :: r))).1.rulesOf o' ↔
        x ∈ w.rulesOf o' ∧ ¬ (o' = o ∧ hash x = hash r)) ∧
      (w.step build (.remove a (k :: r))).1.models = w.models ∧
      (w.step build (.remove a (k :: r))).2 = if b = true then [(a, .removed (k :: r))] else []) ∧
    (∀ o', (w.step build (.clear a k)).1.rulesOf o' = if o' = o then [] else w.rulesOf o') := by
  have sy : w.InSync := hw ▸ InSync.run hbin prog _ .empty hs
  have hy := sy.pols o ob p ho hp
  have hro := rulesOf_rules ho hp
  cases k with
  | nil => cases hk
  | cons c cs =>
    cases hk
    refine ⟨?_, ?_, ?_⟩
    · obtain ⟨_, w2, w3, _⟩ := hy.wf.addRule r
      have res := (hy.add r (hr ob ho)).1
      refine ⟨(p.addRule r).2.1, ?_, ?_, ?_, ?_, ?_⟩
      · simp only [addRule, if_true, hg, polAdd, ho, hp, res]
      · rw [w2, hro]
        exact ⟨fun h x hx e => h ⟨x, hx, e⟩, fun h ⟨x, hx, e⟩ => h x hx e⟩
      · intro o' x
        simp only [step, hm, addRule, if_true, hg, polAdd, ho, hp, PolObj.emit_policy]
        rw [rulesOf_setPol ho]
        split
        · rename_i e
          subst e
          rw [w3, hro]
          simp
        · rename_i e
          simp [e]
      · simp only [step, hm, addRule, if_true, hg, polAdd, ho, hp, setPol]
      · simp only [step, hm, addRule, if_true, hg, polAdd, ho, hp, res]
        cases (p.addRule r).2.1 <;> rfl
    · obtain ⟨_, w2, w3, _⟩ := hy.wf.removeRule r
      have res := (hy.remove r (hr ob ho)).1
      refine ⟨(p.removeRule r).2.1, ?_, ?_, ?_, ?_, ?_⟩
      · simp only [removeRule, if_true, hg, polRemove, ho, hp, res]
      · rw [w2, hro]
      · intro o' x
        simp only [step, hm, removeRule, if_true, hg, polRemove, ho, hp, PolObj.emit_policy]
        rw [rulesOf_setPol ho]
        split
        · rename_i e
          subst e
          rw [w3, hro]
          simp
        · rename_i e
          simp [e]
      · simp only [step, hm, removeRule, if_true, hg, polRemove, ho, hp, setPol]
      · simp only [step, hm, removeRule, if_true, hg, polRemove, ho, hp, res]
        cases (p.removeRule r).2.1 <;> rfl
    · intro o'
      simp only [step, hm, clearPolicy, OModel.getPolicy, hg, polClear, ho, hp, PolObj.emit_policy]
      rw [rulesOf_setPol ho]
      rfl

end Realm

/-! ## A case that meets the hypotheses, and what is missing -/

namespace Realm

namespace ObjectsExample

open Model.InStepExample Model.DecisionExample

/-- two models; the policy 0 is `p` of the model 0 and `p2` of the model 1, the matcher is `m` of 0 and `m9` of 1 -/
def before : List OCmd :=
  [.newModel, .newModel, .setDef 0 'p' (s% "p") (s% "sub, act"), .setDef 1 'p' (s% "p2") (s% "sub, act"),
    .setDef 1 'p' (s% "p") (s% "sub, act"), .setDef 0 'r' (s% "r2") (s% "sub, act"),
    .setDef 1 'r' (s% "r2") (s% "sub, act"), .setDef 0 'e' (s% "e") SOME_ALLOW, .setDef 1 'e' (s% "e") NO_DENY,
    .setDef 0 'm' (s% "m") (s% "a"), .add 0 [s% "p", s% "carl", s% "read"]]

def after : List OCmd :=
  [.setPolicy 1 (s% "p2") 0, .setMatcher 1 (s% "m9") (0, 0), .add 1 [s% "p2", s% "alice", s% "read"],
    .remove 1 [s% "p2", s% "carl", s% "read"], .polAdd 0 [s% "bob", s% "read"]]

def built : Realm := ((empty.run build before).1.step build (.build 0 (s% "m"))).1
def shared : Realm := (built.run build after).1

def asks (w : Realm) (a : Nat) (mk user : Str) : Option (Res Bool) :=
  w.models[a]?.map fun m => w.enforce build m (fun _ => none) gov Order.fwd
    (Model.named (s% "r2") mk (s% "e") ++ [.val user, .val (s% "read")])

-- the hypotheses of `c99_decision_partial` and `c99_rules`
example : empty.AllSuit build before ∧ built.AllSuit build after ∧
    (∃ m, (empty.run build before).1.models[0]? = some m ∧ m.mDefs.get (s% "m") = some (s% "a") ∧
      m.getPolicy root.policyKey = some 0 ∧ m.pDefs.get root.policyKey = some (newPolicyDef (s% "p") (s% "sub, act"))) ∧
    (∃ m, shared.models[1]? = some m ∧ m.mMap.get (s% "m9") = some (0, 0)) ∧
    shared.rulesOf 0 = [[s% "alice", s% "read"], [s% "bob", s% "read"]] :=
  ⟨by decide, by decide, ⟨_, rfl, rfl, rfl, rfl⟩, ⟨_, rfl, rfl⟩, by decide⟩

-- both models decide by the same rules, each with its own effect; only the model that was called emits the events
example : asks shared 0 (s% "m") (s% "alice") = some (.ok true) ∧ asks shared 0 (s% "m") (s% "bob") = some (.ok true) ∧
    asks shared 0 (s% "m") (s% "carl") = some (.ok false) ∧ asks shared 1 (s% "m9") (s% "carl") = some (.ok true) ∧
    (built.run build after).2 = [(1, .added [s% "p2", s% "alice", s% "read"]), (1, .removed [s% "p2", s% "carl", s% "read"])] := by
  decide

/-- the policy `p` of the model 0 is replaced, and gets a rule -/
def replaced : List OCmd := after ++ [.newPolicy, .setPolicy 0 (s% "p") 3, .add 0 [s% "p", s% "dave", s% "read"]]

/-- **C99** is false without further conditions: after `SetPolicy` the matchers of the model still listen to the old
policy.  `AddRule` reports that the rule was added and the policy of the model holds it and nothing else, but the request
it allows is denied, and one that no rule of the policy allows any more is allowed; until the matcher is built anew. -/
theorem c99_fails : built.AllSuit build replaced ∧
    ((built.run build replaced).1.values.map fun m => m.policyRules (s% "p"))[0]? =
      some (some [[s% "dave", s% "read"]]) ∧
    (built.run build replaced).2.getLast? = some (0, .added [s% "p", s% "dave", s% "read"]) ∧
    asks (built.run build replaced).1 0 (s% "m") (s% "dave") = some (.ok false) ∧
    asks (built.run build replaced).1 0 (s% "m") (s% "alice") = some (.ok true) ∧
    asks (built.run build (replaced ++ [.build 0 (s% "m")])).1 0 (s% "m") (s% "dave") = some (.ok true) ∧
    asks (built.run build (replaced ++ [.build 0 (s% "m")])).1 0 (s% "m") (s% "alice") = some (.ok false) := by
  refine ⟨?_, ?_, ?_, ?_, ?_, ?_, ?_⟩ <;> decide +kernel

end ObjectsExample

end Realm

end Fastac
