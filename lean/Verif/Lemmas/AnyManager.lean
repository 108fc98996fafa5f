import Verif.Spec.AnyManager
import Verif.Lemmas.Program
import Verif.Lemmas.ModelText

/-!
# Everything about roles can be left out of a history, as far as `p` policies go
-/

namespace Fastac

namespace Model

/-- `m'` is `m` without roles. -/
structure PSide (m m' : Model) : Prop where
  pMap : m'.pMap = m.pMap
  rDefs : m'.rDefs = m.rDefs
  pDefs : m'.pDefs = m.pDefs
  eDefs : m'.eDefs = m.eDefs
  mDefs : m'.mDefs = m.mDefs
  gNil : m'.gDefs = []
  rpNil : m'.rpMap = []

theorem PSide.roles {m m' : Model} (h : PSide m m') (gd : GoMap Str Nat) (rp : GoMap Str RolePolicy)
    (mm : GoMap Str MEntry) : PSide { m with gDefs := gd, rpMap := rp, mMap := mm } m' :=
  ⟨h.pMap, h.rDefs, h.pDefs, h.eDefs, h.mDefs, h.gNil, h.rpNil⟩

theorem PSide.setDef {m m' : Model} (h : PSide m m') (sec : Char) (key value : Str) (hs : sec ≠ 'g') :
    PSide (m.setDef sec key value).1 (m'.setDef sec key value).1 := by
  obtain ⟨h1, h2, h3, h4, h5, h6, h7⟩ := h
  unfold Model.setDef
  split
  · exact ⟨h1, h2, h3, h4, h5, h6, h7⟩
  · cases key with
    | nil => exact ⟨h1, h2, h3, h4, h5, h6, h7⟩
    | cons c cs =>
      simp only
      split
      · exact ⟨h1, h2, h3, h4, h5, h6, h7⟩
      · split
        · exact ⟨h1, by simp only [h2], h3, h4, h5, h6, h7⟩
        · split
          · exact ⟨by simp only [h1], h2, by simp only [h3], h4, h5, h6, h7⟩
          · split
            · exact ⟨h1, h2, h3, by simp only [h4], h5, h6, h7⟩
            · exact ⟨h1, h2, h3, h4, by simp only [h5], h6, h7⟩

theorem PSide.setDef_g {m m' : Model} (h : PSide m m') (key value : Str) :
    PSide (m.setDef 'g' key value).1 m' := by
  unfold Model.setDef
  split
  · exact h
  · cases key with
    | nil => exact h
    | cons c cs =>
      simp only
      split
      · exact h
      · exact ⟨h.pMap, h.rDefs, h.pDefs, h.eDefs, h.mDefs, h.gNil, h.rpNil⟩

theorem PSide.removeDef {m m' : Model} (h : PSide m m') (sec : Char) (key : Str) (hs : sec ≠ 'g') :
    PSide (m.removeDef sec key).1 (m'.removeDef sec key).1 := by
  obtain ⟨h1, h2, h3, h4, h5, h6, h7⟩ := h
  unfold Model.removeDef
  simp only [if_neg hs]
  split
  · exact ⟨h1, by simp only [h2], h3, h4, h5, h6, h7⟩
  · split
    · exact ⟨by simp only [h1], h2, by simp only [h3], h4, h5, h6, h7⟩
    · split
      · exact ⟨h1, h2, h3, by simp only [h4], h5, h6, h7⟩
      · split
        · exact ⟨h1, h2, h3, h4, by simp only [h5], h6, h7⟩
        · exact ⟨h1, h2, h3, h4, h5, h6, h7⟩

theorem PSide.removeDef_g {m m' : Model} (h : PSide m m') (key : Str) : PSide (m.removeDef 'g' key).1 m' :=
  ⟨h.pMap, h.rDefs, h.pDefs, h.eDefs, h.mDefs, h.gNil, h.rpNil⟩

theorem PSide.emit {α : Type} {m m' : Model} (h : PSide m m') (k : Str) (ls : List Matcher) (pol : Policy) (a : α)
    (e : Option PolEvent) : PSide (m.emitPolicy k ls pol a e).1 (m'.emitPolicy k ls pol a e).1 := by
  obtain ⟨h1, h2, h3, h4, h5, h6, h7⟩ := h
  unfold emitPolicy
  cases e with
  | none => exact ⟨by simp only [h1], h2, h3, h4, h5, h6, h7⟩
  | some e =>
    simp only
    cases notify ls e with
    | ok x => exact ⟨by simp only [h1], h2, h3, h4, h5, h6, h7⟩
    | err => exact ⟨by simp only [h1], h2, h3, h4, h5, h6, h7⟩
    | panic => exact ⟨by simp only [h1], h2, h3, h4, h5, h6, h7⟩

theorem PSide.add {m m' : Model} (h : PSide m m') (rule : Rule) : PSide (m.addRule rule).1 (m'.addRule rule).1 := by
  match rule with
  | [] => exact h
  | [] :: _ => exact h
  | (c :: cs) :: fields =>
    simp only [Model.addRule]
    split
    · unfold addPolicyRule
      rw [h.pMap]
      cases m.pMap.get (c :: cs) with
      | none => exact h
      | some p => exact h.emit ..
    · split
      · unfold addRoleRule
        rw [h.rpNil]
        cases m.rpMap.get (c :: cs) with
        | none => exact h
        | some rp => exact h.roles _ _ _
      · exact h

theorem PSide.remove {m m' : Model} (h : PSide m m') (rule : Rule) :
    PSide (m.removeRule rule).1 (m'.removeRule rule).1 := by
  match rule with
  | [] => exact h
  | [] :: _ => exact h
  | (c :: cs) :: fields =>
    simp only [Model.removeRule]
    split
    · unfold removePolicyRule
      rw [h.pMap]
      cases m.pMap.get (c :: cs) with
      | none => exact h
      | some p => exact h.emit ..
    · split
      · unfold removeRoleRule
        rw [h.rpNil]
        cases m.rpMap.get (c :: cs) with
        | none => exact h
        | some rp => exact h.roles _ _ _
      · exact h

theorem PSide.clear {m m' : Model} (h : PSide m m') (key : Str) :
    PSide (m.clearPolicy key).1 (m'.clearPolicy key).1 := by
  unfold clearPolicy
  rw [h.pMap, h.rpNil]
  cases m.pMap.get key with
  | some p => exact h.emit ..
  | none =>
    cases m.rpMap.get key with
    | none => exact h
    | some rp => exact h.roles _ _ _

theorem PSide.matcherPolicyDef {m m' : Model} (h : PSide m m') (k : Str) :
    m'.matcherPolicyDef k = m.matcherPolicyDef k := by
  unfold Model.matcherPolicyDef
  rw [h.pDefs]

theorem PSide.build {m m' : Model} (h : PSide m m') (u : Str → Res Stage) (key : Str) :
    PSide (m.buildMatcher u key).1 (m'.buildMatcher u key).1 := by
  unfold buildMatcher
  rw [h.mDefs]
  cases m.mDefs.get key with
  | none => exact h
  | some e =>
    simp only
    cases u e with
    | err => exact h
    | panic => exact h
    | ok root =>
      simp only [h.matcherPolicyDef]
      cases m.matcherPolicyDef root.policyKey with
      | err => exact h
      | panic => exact h
      | ok d =>
        simp only [h.pMap, h.rpNil]
        cases m.pMap.get root.policyKey with
        | some p =>
          simp only
          cases newMatcher d root p.policy.rules with
          | err => exact h
          | panic => exact h
          | ok mt => exact ⟨rfl, h.rDefs, h.pDefs, h.eDefs, rfl, h.gNil, rfl⟩
        | none =>
          simp only [GoMap.get]
          cases m.rpMap.get root.policyKey with
          | none => exact h
          | some rp =>
            simp only
            cases newMatcher d root rp.rules with
            | err => exact h
            | panic => exact h
            | ok mt => exact h.roles _ _ _

theorem PSide.inline {m m' : Model} (h : PSide m m') (u : Str → Res Stage) (e : Str) :
    PSide (m.buildFromExpr u e).1 (m'.buildFromExpr u e).1 := by
  have h0 : PSide { m with mDefs := m.mDefs.set [] e } { m' with mDefs := m'.mDefs.set [] e } :=
    ⟨h.pMap, h.rDefs, h.pDefs, h.eDefs, by simp only [h.mDefs], h.gNil, h.rpNil⟩
  have h1 := h0.build u []
  rw [buildFromExpr_eq, buildFromExpr_eq]
  exact ⟨h1.pMap, h1.rDefs, h1.pDefs, h1.eDefs, h.mDefs, h1.gNil, h1.rpNil⟩

/-- Both models have the matcher `key` at the same place. -/
def SameEntry (key pk : Str) (m m' : Model) : Prop :=
  ∃ i, m.mMap.get key = some (.live pk i) ∧ m'.mMap.get key = some (.live pk i)

theorem freeze_other {m : Model} {key pk k : Str} {i : Nat} (hk : k ≠ pk) (h : m.mMap.get key = some (.live pk i)) :
    (m.freeze k).get key = some (.live pk i) := by
  rw [get_freeze, h]
  simp only [Option.map_some, frozen, if_neg (Ne.symm hk)]

theorem entry_setDef {m : Model} {key pk k : Str} {i : Nat} (hk : k ≠ pk) (h : m.mMap.get key = some (.live pk i))
    (sec : Char) (v : Str) : (m.setDef sec k v).1.mMap.get key = some (.live pk i) := by
  unfold Model.setDef
  split
  · exact h
  · cases k with
    | nil => exact h
    | cons c cs =>
      simp only
      split
      · exact h
      · split
        · exact h
        · split
          · exact freeze_other hk h
          · split
            · exact freeze_other hk h
            · split <;> exact h

theorem entry_removeDef {m : Model} {key pk k : Str} {i : Nat} (hk : k ≠ pk) (hm : k ≠ key)
    (h : m.mMap.get key = some (.live pk i)) (sec : Char) :
    (m.removeDef sec k).1.mMap.get key = some (.live pk i) := by
  unfold Model.removeDef
  split
  · exact h
  · split
    · simp only; split
      · exact freeze_other hk h
      · exact h
    · split
      · simp only; split
        · exact freeze_other hk h
        · exact h
      · split
        · exact h
        · split
          · rw [GoMap.get_del, if_neg hm]; exact h
          · exact h

theorem SameEntry.mono {key pk : Str} {m m' n n' : Model} (h : SameEntry key pk m m')
    (h1 : ∀ i, m.mMap.get key = some (.live pk i) → n.mMap.get key = some (.live pk i))
    (h2 : ∀ i, m'.mMap.get key = some (.live pk i) → n'.mMap.get key = some (.live pk i)) :
    SameEntry key pk n n' := by
  obtain ⟨i, a, b⟩ := h
  exact ⟨i, h1 i a, h2 i b⟩

/-- Building a matcher of a `p` policy succeeds in both models and gives the same entry. -/
theorem PSide.built {m m' : Model} (h : PSide m m') {u : Str → Res Stage} {key expr : Str} {root : Stage}
    (hd : m.mDefs.get key = some expr) (hb : u expr = .ok root) (hw : m'.WellKeyed)
    (hp : root.policyKey.head? = some 'p') (hok : (m.buildMatcher u key).2 = .ok ()) :
    (m'.buildMatcher u key).2 = .ok () ∧
      SameEntry key root.policyKey (m.buildMatcher u key).1 (m'.buildMatcher u key).1 := by
  revert hok
  unfold buildMatcher
  rw [h.mDefs, hd]
  simp only [hb, h.matcherPolicyDef, h.pMap]
  cases hm : m.matcherPolicyDef root.policyKey with
  | err => intro e; cases e
  | panic => intro e; cases e
  | ok d =>
    simp only
    cases hq : m.pMap.get root.policyKey with
    | some p =>
      simp only
      cases newMatcher d root p.policy.rules with
      | err => intro e; cases e
      | panic => intro e; cases e
      | ok mt =>
        intro _
        exact ⟨rfl, _, GoMap.get_set_self .., GoMap.get_set_self ..⟩
    | none =>
      exfalso
      have h1 : m'.pDefs.get root.policyKey = some d := by
        rw [h.pDefs]
        revert hm hp
        unfold Model.matcherPolicyDef
        cases root.policyKey with
        | nil => intro e; cases e
        | cons c cs =>
          intro hp
          have : c = 'p' := by simpa using hp
          subst this
          simp only [if_true]
          cases m.pDefs.get ('p' :: cs) with
          | none => intro e; cases e
          | some d' => intro e; cases e; rfl
      have h2 := hw.pp root.policyKey
      rw [h1, h.pMap, hq] at h2
      cases h2

/-- A request, when the context is found in the same way. -/
theorem PSide.enforceCtx {m m' : Model} (h : PSide m m') {pk : Str} {i : Nat} {mt : Matcher}
    (hx : m.resolve (.live pk i) = some mt) (hp : (m.pMap.get pk).isSome = true) (base : Str → Option Fn) (gov gov' : Gov)
    (hg : ∀ par, gov (m.functions base) par = gov' (m'.functions base) par)
    (ord : Order) (rd : Option PolicyDef) (eff : Option Str) (rvals : List Str) :
    m.enforceCtx base gov ord ⟨rd, some (.live pk i), eff⟩ rvals =
      m'.enforceCtx base gov' ord ⟨rd, some (.live pk i), eff⟩ rvals := by
  have hx' : m'.resolve (.live pk i) = some mt := by
    rw [← hx]
    simp only [resolve, h.pMap]
    cases hq : m.pMap.get pk with
    | none => rw [hq] at hp; cases hp
    | some p => rfl
  unfold Model.enforceCtx
  simp only [Option.bind_some, hx, hx', h.pDefs]
  cases rd with
  | none => rfl
  | some rd =>
    cases eff with
    | none => rfl
    | some eff =>
      simp only [Model.evaluator]
      rw [hg]

end Model

namespace FnModel

open Model

theorem FnFree.side {build : FnBuild} {u : Str → Res Stage} (hc : build.Coherent u) {s : FnModel}
    (h : FnFree build s) : ∃ m', Kept u m' ∧ PSide s.model m' := by
  induction h with
  | new => exact ⟨Model.new, .new, ⟨rfl, rfl, rfl, rfl, rfl, rfl, rfl⟩⟩
  | setFunction _ _ _ ih => exact ih
  | removeFunction _ _ ih => exact ih
  | setRoleManager _ key mgr ih =>
    obtain ⟨m', h1, h2⟩ := ih
    exact ⟨m', h1, h2.roles _ _ _⟩
  | @onManager s _ key change ih =>
    obtain ⟨m', h1, h2⟩ := ih
    refine ⟨m', h1, ?_⟩
    unfold FnModel.onManager
    cases s.model.rpMap.get key with
    | none => exact h2
    | some rp => exact h2.roles _ _ _
  | setDef _ sec key value ih =>
    obtain ⟨m', h1, h2⟩ := ih
    by_cases hs : sec = 'g'
    · subst hs; exact ⟨m', h1, h2.setDef_g key value⟩
    · exact ⟨_, h1.setDef sec key value, h2.setDef sec key value hs⟩
  | removeDef _ sec key ih =>
    obtain ⟨m', h1, h2⟩ := ih
    by_cases hs : sec = 'g'
    · subst hs; exact ⟨m', h1, h2.removeDef_g key⟩
    · exact ⟨_, h1.removeDef sec key, h2.removeDef sec key hs⟩
  | @build s h key ih =>
    obtain ⟨m', h1, h2⟩ := ih
    rcases Model.buildMatcher_cases (hc s.knows) s.model key with e | e
    · refine ⟨_, h1.build key, ?_⟩
      show PSide (s.model.buildMatcher _ key).1 _
      rw [e]; exact h2.build u key
    · refine ⟨_, h1, ?_⟩
      show PSide (s.model.buildMatcher _ key).1 _
      rw [e]; exact h2
  | @request s h gov depth ord params ih =>
    refine Model.enforceParams_ind (Q := fun m => ∃ m', Kept u m' ∧ PSide m m') (fun m e hm => ?_) ih _ _ _ _
    obtain ⟨m', h1, h2⟩ := hm
    rcases Model.buildFromExpr_cases m e (hc s.knows e) with e' | e'
    · rw [e']; exact ⟨_, h1.inline e, h2.inline u e⟩
    · rw [e']; exact ⟨_, h1, h2⟩
  | @filter s h gov depth ord params ih =>
    refine Model.rangeParams_ind (Q := fun m => ∃ m', Kept u m' ∧ PSide m m') (fun m e hm => ?_) ih _ _ _ _ _ _
    obtain ⟨m', h1, h2⟩ := hm
    rcases Model.buildFromExpr_cases m e (hc s.knows e) with e' | e'
    · rw [e']; exact ⟨_, h1.inline e, h2.inline u e⟩
    · rw [e']; exact ⟨_, h1, h2⟩
  | @add s _ rule hs ih =>
    obtain ⟨m', h1, h2⟩ := ih
    by_cases hg : ∃ cs fields, rule = ('g' :: cs) :: fields
    · obtain ⟨cs, fields, rfl⟩ := hg
      have h3 := h2.add (('g' :: cs) :: fields)
      have e : (m'.addRule (('g' :: cs) :: fields)).1 = m' := by
        simp only [Model.addRule, addRoleRule, h2.rpNil]; rfl
      rw [e] at h3
      exact ⟨m', h1, h3⟩
    · exact ⟨_, h1.add rule (suits h2 hs hg), h2.add rule⟩
  | @remove s _ rule hs ih =>
    obtain ⟨m', h1, h2⟩ := ih
    by_cases hg : ∃ cs fields, rule = ('g' :: cs) :: fields
    · obtain ⟨cs, fields, rfl⟩ := hg
      have h3 := h2.remove (('g' :: cs) :: fields)
      have e : (m'.removeRule (('g' :: cs) :: fields)).1 = m' := by
        simp only [Model.removeRule, removeRoleRule, h2.rpNil]; rfl
      rw [e] at h3
      exact ⟨m', h1, h3⟩
    · exact ⟨_, h1.remove rule (suits h2 hs hg), h2.remove rule⟩
  | @clear s _ key ih =>
    obtain ⟨m', h1, h2⟩ := ih
    have h3 := h2.clear key
    by_cases hg : key.head? = some 'g'
    · have e : (m'.clearPolicy key).1 = m' := clear_g h1.made.wellKeyed h2 hg
      rw [e] at h3
      exact ⟨m', h1, h3⟩
    · exact ⟨_, h1.clear key hg, h3⟩
where
  suits {s : FnModel} {m' : Model} (h : PSide s.model m') {rule : Rule} (hs : s.SuitsP rule)
      (hg : ¬ ∃ cs fields, rule = ('g' :: cs) :: fields) : m'.Suits rule := by
    cases rule with
    | nil => trivial
    | cons k f =>
      have hng : k.head? ≠ some 'g' := by
        intro e
        cases k with
        | nil => cases e
        | cons c cs =>
          have : c = 'g' := by simpa using e
          subst this
          exact hg ⟨cs, f, rfl⟩
      refine ⟨⟨fun e => (hs e).1, fun e => absurd e hng, fun e => absurd e hng⟩, fun e => ?_, fun e => absurd e hng⟩
      rw [h.pDefs]
      exact (hs e).2
  clear_g {m m' : Model} (hw : m'.WellKeyed) (h : PSide m m') {key : Str} (hg : key.head? = some 'g') :
      (m'.clearPolicy key).1 = m' := by
    unfold clearPolicy
    have : m'.pMap.get key = none := by
      cases hq : m'.pMap.get key with
      | none => rfl
      | some p =>
        have := hw.pp key
        rw [hq] at this
        cases hd : m'.pDefs.get key with
        | none => rw [hd] at this; cases this
        | some d => have := (hw.p key d hd).1; rw [hg] at this; cases this
    rw [this, h.rpNil]
    rfl

theorem FnHeld.side {build : FnBuild} {u : Str → Res Stage} (hc : build.Coherent u) {key : Str} {root : Stage}
    {P : Rule → Prop} {keep : Prop} {s : FnModel} (h : FnHeld build key root P keep s)
    (hp : root.policyKey.head? = some 'p') :
    ∃ m', Given u key root P keep m' ∧ PSide s.model m' ∧ SameEntry key root.policyKey s.model m' := by
  induction h with
  | @built s h expr hd hb hok hP =>
    obtain ⟨m', h1, h2⟩ := h.side hc
    have hu : build s.knows expr = u expr := by
      rcases hc s.knows expr with e | e
      · exact e
      · rw [hb] at e; cases e
    have e := Model.buildMatcher_congr hd hu
    have hok' : (s.model.buildMatcher u key).2 = .ok () := by rw [← e]; exact hok
    obtain ⟨h3, h4⟩ := h2.built hd (hu ▸ hb) h1.made.wellKeyed hp hok'
    refine ⟨_, .built h1 expr (h2.mDefs ▸ hd) (hu ▸ hb) h3 ?_, ?_, ?_⟩
    · intro rules hr
      refine hP rules ?_
      rw [← hr]
      have hsome : (m'.pMap.get root.policyKey).isSome = true := by
        unfold policyRules at hr
        rw [h2.rpNil] at hr
        cases hq : m'.pMap.get root.policyKey with
        | none => rw [hq] at hr; cases hr
        | some p => rfl
      unfold policyRules
      rw [← h2.pMap]
      cases hq : m'.pMap.get root.policyKey with
      | none => rw [hq] at hsome; cases hsome
      | some p => rfl
    · show PSide (s.model.buildMatcher _ key).1 _
      rw [e]
      exact h2.build u key
    · show SameEntry _ _ (s.model.buildMatcher _ key).1 _
      rw [e]
      exact h4
  | setFunction _ _ _ ih => exact ih
  | removeFunction _ _ ih => exact ih
  | @setRoleManager s _ k mgr hk ih =>
    obtain ⟨m', h1, h2, h3⟩ := ih
    refine ⟨m', h1, h2.roles _ _ _, h3.mono (fun i hi => ?_) (fun i hi => hi)⟩
    simp only [FnModel.setRoleManager]
    split
    · exact freeze_other hk hi
    · exact hi
  | @onManager s _ k change ih =>
    obtain ⟨m', h1, h2, h3⟩ := ih
    refine ⟨m', h1, ?_⟩
    unfold FnModel.onManager
    cases s.model.rpMap.get k with
    | none => exact ⟨h2, h3⟩
    | some rp => exact ⟨h2.roles _ _ _, h3⟩
  | setDef _ sec k value hk ih =>
    obtain ⟨m', h1, h2, h3⟩ := ih
    by_cases hs : sec = 'g'
    · subst hs
      exact ⟨m', h1, h2.setDef_g k value, h3.mono (fun i hi => entry_setDef hk hi _ _) (fun i hi => hi)⟩
    · exact ⟨_, h1.setDef sec k value hk, h2.setDef sec k value hs,
        h3.mono (fun i hi => entry_setDef hk hi _ _) (fun i hi => entry_setDef hk hi _ _)⟩
  | removeDef _ sec k hk hm ih =>
    obtain ⟨m', h1, h2, h3⟩ := ih
    by_cases hs : sec = 'g'
    · subst hs
      exact ⟨m', h1, h2.removeDef_g k, h3.mono (fun i hi => entry_removeDef hk hm hi _) (fun i hi => hi)⟩
    · exact ⟨_, h1.removeDef sec k hk hm, h2.removeDef sec k hs,
        h3.mono (fun i hi => entry_removeDef hk hm hi _) (fun i hi => entry_removeDef hk hm hi _)⟩
  | @build s h k hk ih =>
    obtain ⟨m', h1, h2, h3⟩ := ih
    rcases Model.buildMatcher_cases (hc s.knows) s.model k with e | e
    · refine ⟨_, h1.build k hk, ?_, ?_⟩
      · show PSide (s.model.buildMatcher _ k).1 _
        rw [e]; exact h2.build u k
      · show SameEntry _ _ (s.model.buildMatcher _ k).1 _
        rw [e]
        exact h3.mono (fun i hi => by rw [(Settled.build _ s.model k).2 key hk]; exact hi)
          (fun i hi => by rw [(Settled.build _ m' k).2 key hk]; exact hi)
    · refine ⟨_, h1, ?_, ?_⟩
      · show PSide (s.model.buildMatcher _ k).1 _
        rw [e]; exact h2
      · show SameEntry _ _ (s.model.buildMatcher _ k).1 _
        rw [e]; exact h3
  | @request s h gov depth ord params ih =>
    refine Model.enforceParams_ind (Q := fun m => ∃ m', Given u key root P keep m' ∧ PSide m m' ∧
      SameEntry key root.policyKey m m') (fun m e hm => ?_) ih _ _ _ _
    obtain ⟨m', h1, h2, h3⟩ := hm
    rcases Model.buildFromExpr_cases m e (hc s.knows e) with e' | e'
    · rw [e']
      exact ⟨_, h1.inline e, h2.inline u e, h3.mono
        (fun i hi => by rw [(Settled.inline u m e).2]; exact hi)
        (fun i hi => by rw [(Settled.inline u m' e).2]; exact hi)⟩
    · rw [e']; exact ⟨_, h1, h2, h3⟩
  | @filter s h gov depth ord params ih =>
    refine Model.rangeParams_ind (Q := fun m => ∃ m', Given u key root P keep m' ∧ PSide m m' ∧
      SameEntry key root.policyKey m m') (fun m e hm => ?_) ih _ _ _ _ _ _
    obtain ⟨m', h1, h2, h3⟩ := hm
    rcases Model.buildFromExpr_cases m e (hc s.knows e) with e' | e'
    · rw [e']
      exact ⟨_, h1.inline e, h2.inline u e, h3.mono
        (fun i hi => by rw [(Settled.inline u m e).2]; exact hi)
        (fun i hi => by rw [(Settled.inline u m' e).2]; exact hi)⟩
    · rw [e']; exact ⟨_, h1, h2, h3⟩
  | @add s _ rule hs hP ih =>
    obtain ⟨m', h1, h2, h3⟩ := ih
    have hm : SameEntry key root.policyKey (s.model.addRule rule).1 m' :=
      h3.mono (fun i hi => by rw [(Settled.add s.model rule).2]; exact hi) (fun i hi => hi)
    by_cases hg : ∃ cs fields, rule = ('g' :: cs) :: fields
    · obtain ⟨cs, fields, rfl⟩ := hg
      have h3 := h2.add (('g' :: cs) :: fields)
      have e : (m'.addRule (('g' :: cs) :: fields)).1 = m' := by
        simp only [Model.addRule, addRoleRule, h2.rpNil]; rfl
      rw [e] at h3
      exact ⟨m', h1, h3, hm⟩
    · exact ⟨_, h1.add rule (FnFree.side.suits h2 hs hg) hP, h2.add rule,
        hm.mono (fun i hi => hi) (fun i hi => by rw [(Settled.add m' rule).2]; exact hi)⟩
  | @remove s _ rule hs hk ih =>
    obtain ⟨m', h1, h2, h3⟩ := ih
    have hm : SameEntry key root.policyKey (s.model.removeRule rule).1 m' :=
      h3.mono (fun i hi => by rw [(Settled.remove s.model rule).2]; exact hi) (fun i hi => hi)
    by_cases hg : ∃ cs fields, rule = ('g' :: cs) :: fields
    · obtain ⟨cs, fields, rfl⟩ := hg
      have h3 := h2.remove (('g' :: cs) :: fields)
      have e : (m'.removeRule (('g' :: cs) :: fields)).1 = m' := by
        simp only [Model.removeRule, removeRoleRule, h2.rpNil]; rfl
      rw [e] at h3
      exact ⟨m', h1, h3, hm⟩
    · exact ⟨_, h1.remove rule (FnFree.side.suits h2 hs hg) hk, h2.remove rule,
        hm.mono (fun i hi => hi) (fun i hi => by rw [(Settled.remove m' rule).2]; exact hi)⟩
  | @clear s _ k ih =>
    obtain ⟨m', h1, h2, h3⟩ := ih
    have hm : SameEntry key root.policyKey (s.model.clearPolicy k).1 m' :=
      h3.mono (fun i hi => by rw [(Settled.clear s.model k).2]; exact hi) (fun i hi => hi)
    have h4 := h2.clear k
    by_cases hg : k.head? = some 'g'
    · have e : (m'.clearPolicy k).1 = m' := FnFree.side.clear_g h1.bound.tied.1.made.wellKeyed h2 hg
      rw [e] at h4
      exact ⟨m', h1, h4, hm⟩
    · exact ⟨_, h1.clear k hg, h4,
        hm.mono (fun i hi => hi) (fun i hi => by rw [(Settled.clear m' k).2]; exact hi)⟩

theorem FnHeld.free {build : FnBuild} {key : Str} {root : Stage} {P : Rule → Prop} {keep : Prop} {s : FnModel}
    (h : FnHeld build key root P keep s) : FnFree build s := by
  induction h with
  | built h => exact h.build _
  | setFunction _ name f ih => exact ih.setFunction name f
  | removeFunction _ name ih => exact ih.removeFunction name
  | setRoleManager _ k mgr _ ih => exact ih.setRoleManager k mgr
  | onManager _ k change ih => exact ih.onManager k change
  | setDef _ sec k value _ ih => exact ih.setDef sec k value
  | removeDef _ sec k _ _ ih => exact ih.removeDef sec k
  | build _ k _ ih => exact ih.build k
  | request _ gov depth ord params ih => exact ih.request gov depth ord params
  | filter _ gov depth ord params ih => exact ih.filter gov depth ord params
  | add _ rule hs _ ih => exact ih.add rule hs
  | remove _ rule hs _ ih => exact ih.remove rule hs
  | clear _ k ih => exact ih.clear k

theorem FnFree.pHead {build : FnBuild} {u : Str → Res Stage} {s : FnModel} (h : FnFree build s) (hc : build.Coherent u)
    {k : Str} {d : PolicyDef} (hd : s.model.pDefs.get k = some d) : k.head? = some 'p' := by
  obtain ⟨m', h1, h2⟩ := h.side hc
  exact (h1.made.wellKeyed.p k d (h2.pDefs ▸ hd)).1

end FnModel

end Fastac
