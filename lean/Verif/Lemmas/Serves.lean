import Verif.Lemmas.Sound
import Verif.Lemmas.RoleBase
import Verif.Props.Matching
import Verif.Spec.EndToEnd

/-!
# A stored matcher follows the rules of its policy through every history
-/

namespace Fastac

theorem notify_get (e : PolEvent) : ∀ (ls ls' : List Matcher), notify ls e = .ok ls' → ∀ (i : Nat) mt,
    ls[i]? = some mt → ∃ mt', mt.handle e = .ok mt' ∧ ls'[i]? = some mt'
  | [], ls', h, i, mt, hi => by simp at hi
  | m0 :: ls, ls', h, i, mt, hi => by
    simp only [notify] at h
    cases h1 : m0.handle e with
    | err => rw [h1] at h; cases h
    | panic => rw [h1] at h; cases h
    | ok m1 =>
      rw [h1] at h
      simp only [Res.bind_ok] at h
      cases h2 : notify ls e with
      | err => rw [h2] at h; cases h
      | panic => rw [h2] at h; cases h
      | ok l =>
        rw [h2] at h
        simp only [Res.map_ok, Res.ok.injEq] at h
        subst h
        cases i with
        | zero =>
          simp only [List.getElem?_cons_zero, Option.some.injEq] at hi
          subst hi
          exact ⟨m1, h1, rfl⟩
        | succ i =>
          simp only [List.getElem?_cons_succ] at hi
          obtain ⟨mt', a, b⟩ := notify_get e ls l h2 i mt hi
          exact ⟨mt', a, by simpa using b⟩

namespace Model

/-- The matcher stored as `mkey` listens to the `p` policy `pkey` and indexes exactly its rules. -/
structure Serves (mkey pkey : Str) (pDef : PolicyDef) (root : Stage) (m : Model) : Prop where
  def_ : m.pDefs.get pkey = some pDef
  key : pDef.key = pkey
  live : ∃ p i mt, m.pMap.get pkey = some p ∧ m.mMap.get mkey = some (.live pkey i) ∧
    p.listeners[i]? = some mt ∧ PolicyWithMatcher.Inv pDef root ⟨p.policy, mt⟩

theorem Serves.congr {mkey pkey : Str} {pDef : PolicyDef} {root : Stage} {m m' : Model}
    (h : Serves mkey pkey pDef root m) (h1 : m'.pDefs.get pkey = m.pDefs.get pkey)
    (h2 : m'.pMap.get pkey = m.pMap.get pkey) (h3 : m'.mMap.get mkey = m.mMap.get mkey) :
    Serves mkey pkey pDef root m' := by
  refine ⟨h1 ▸ h.def_, h.key, ?_⟩
  rw [h2, h3]
  exact h.live

/-- The rules of the policy change. -/
theorem Serves.op {mkey pkey : Str} {pDef : PolicyDef} {root : Stage} {m : Model}
    (h : Serves mkey pkey pDef root m) (hb : root.Binary) (hf : m.Fine) {α : Type} (a : α) (op : PolOp)
    (hg : op.Good pDef) {p : PolObj} (hp : m.pMap.get pkey = some p) :
    Serves mkey pkey pDef root
      (m.emitPolicy pkey p.listeners (p.policy.step op).1 a (p.policy.step op).2.2).1 := by
  obtain ⟨p', i, mt, h1, h2, h3, h4⟩ := h.live
  rw [hp] at h1
  cases h1
  obtain ⟨s', e, hi, hs⟩ := h4.step hb op hg
  unfold PolicyWithMatcher.step at e
  obtain ⟨⟨pol', b, ev⟩, hst⟩ : ∃ y, p.policy.step op = y := ⟨_, rfl⟩
  simp only [hst] at e hs ⊢
  cases ev with
  | none =>
    simp only [Res.ok.injEq] at e
    subst e
    exact ⟨h.def_, h.key, ⟨pol', p.listeners⟩, i, mt, by simp [emitPolicy], h2, h3, hi⟩
  | some ev =>
    obtain ⟨ls', e1, -⟩ := notify_fine ev p.listeners (hf.p _ p hp)
    obtain ⟨mt', e2, e3⟩ := notify_get ev _ _ e1 i mt h3
    simp only [e2, Res.map_ok, Res.ok.injEq] at e
    subst e
    unfold emitPolicy
    simp only [e1]
    exact ⟨h.def_, h.key, ⟨pol', ls'⟩, i, mt', by simp, h2, e3, hi⟩

theorem Serves.emit_other {mkey pkey : Str} {pDef : PolicyDef} {root : Stage} {m : Model}
    (h : Serves mkey pkey pDef root m) {k : Str} (hk : k ≠ pkey) {α : Type} (ls : List Matcher)
    (pol : Policy) (a : α) (e : Option PolEvent) :
    Serves mkey pkey pDef root (m.emitPolicy k ls pol a e).1 := by
  obtain ⟨⟨ls', e1⟩, -⟩ := emitPolicy_eq m k ls pol a e
  rw [e1]
  exact h.congr rfl (by simp [GoMap.get_set, hk]) rfl

/-- The operation suits the policy: its rules for `pkey` are good. -/
def Op.Suits (pkey : Str) (pDef : PolicyDef) : Op → Prop
  | .add (k :: f) | .remove (k :: f) => k = pkey → GoodRule pDef f
  | _ => True

theorem Serves.step {mkey pkey : Str} {pDef : PolicyDef} {root : Stage} {m : Model}
    (h : Serves mkey pkey pDef root m) (hb : root.Binary) (hf : m.Fine) (op : Op)
    (hs : op.Suits pkey pDef) : Serves mkey pkey pDef root (m.step op).1 := by
  cases op with
  | add r =>
    unfold Model.step Model.addRule
    match r, hs with
    | [], _ => exact h
    | [] :: f, _ => exact h
    | (c :: cs) :: f, hs =>
      simp only
      split
      · unfold addPolicyRule
        cases hp : m.pMap.get (c :: cs) with
        | none => exact h
        | some p =>
          simp only
          by_cases hk : c :: cs = pkey
          · subst hk
            exact h.op hb hf _ (.add f) (hs rfl) hp
          · exact h.emit_other hk _ _ _ _
      · split
        · unfold addRoleRule
          split
          · exact h
          · exact h.congr rfl rfl rfl
        · exact h
  | remove r =>
    unfold Model.step Model.removeRule
    match r, hs with
    | [], _ => exact h
    | [] :: f, _ => exact h
    | (c :: cs) :: f, hs =>
      simp only
      split
      · unfold removePolicyRule
        cases hp : m.pMap.get (c :: cs) with
        | none => exact h
        | some p =>
          simp only
          by_cases hk : c :: cs = pkey
          · subst hk
            exact h.op hb hf _ (.remove f) (hs rfl) hp
          · exact h.emit_other hk _ _ _ _
      · split
        · unfold removeRoleRule
          split
          · exact h
          · exact h.congr rfl rfl rfl
        · exact h
  | clear k =>
    unfold Model.step Model.clearPolicy
    simp only
    cases hp : m.pMap.get k with
    | none =>
      simp only
      split
      · exact h.congr rfl rfl rfl
      · exact h
    | some p =>
      simp only
      by_cases hk : k = pkey
      · subst hk
        exact h.op hb hf _ .clear trivial hp
      · exact h.emit_other hk _ _ _ _

/-- After building, the matcher serves. -/
theorem serves_build {build : Str → Res Stage} {m : Model} {mkey text : Str} {root : Stage}
    (hm : m.mDefs.get mkey = some text) (hr : build text = .ok root) (hb : root.Binary)
    (hk : root.policyKey.head? = some 'p') {pDef : PolicyDef} (hd : m.pDefs.get root.policyKey = some pDef)
    (hkey : pDef.key = root.policyKey) {p : PolObj} (hp : m.pMap.get root.policyKey = some p)
    (hw : p.policy.WF) (hg : ∀ r ∈ p.policy.rules, GoodRule pDef r) :
    Serves mkey root.policyKey pDef root (m.buildMatcher build mkey).1 ∧
      (m.buildMatcher build mkey).2 = .ok () ∧
      (m.buildMatcher build mkey).1.rDefs = m.rDefs ∧ (m.buildMatcher build mkey).1.eDefs = m.eDefs ∧
      (m.buildMatcher build mkey).1.rpMap = m.rpMap ∧ (m.buildMatcher build mkey).1.gDefs = m.gDefs := by
  obtain ⟨mt, e, h1, h2, h3⟩ := newMatcher_idx pDef root hb p.policy.rules hg
  have hmp : m.matcherPolicyDef root.policyKey = .ok pDef := by
    unfold matcherPolicyDef
    cases hpk : root.policyKey with
    | nil => rw [hpk] at hk; cases hk
    | cons c cs =>
      rw [hpk] at hk hd
      simp only [List.head?_cons, Option.some.injEq] at hk
      subst hk
      simp [hd]
  unfold Model.buildMatcher
  simp only [hm, hr, hmp, hp, e]
  refine ⟨⟨hd, hkey, ⟨p.policy, p.listeners ++ [mt]⟩, p.listeners.length, mt, by simp, by simp, by simp,
    ⟨hw, hg, h1, h2, h3⟩⟩, ?_⟩
  simp

end Model

/-- With the default context, `Enforce` is a scan of the stored rules. -/
theorem Model.Serves.enforce {m : Model} {pkey : Str} {pDef : PolicyDef} {root : Stage}
    (h : m.Serves (s% "m") pkey pDef root) {rtext e : Str} (hr : m.rDefs.get (s% "r") = some rtext)
    (he : m.eDefs.get (s% "e") = some e) (hb : root.Binary) (build : Str → Res Stage)
    (base : Str → Option Fn) (gov : Gov) (ord : Order) (hv : ord.Valid) (rvals : List Str)
    {E : Evaluator}
    (hE : E = gov (m.functions base) (MatchParams.get ⟨pDef, newPolicyDef (s% "r") rtext, rvals⟩))
    (hl : root.Local pDef E) (hbs : root.BlankSafe pDef E) (hn : root.NeverFails pDef E)
    (hdet : e = SOME_ALLOW_NO_DENY → ∀ p, m.pMap.get pkey = some p →
      ∀ r ∈ p.policy.rules, pDef.getEft (pDef.key :: r) ≠ .indeterminate) :
    ∃ p, m.pMap.get pkey = some p ∧
      m.enforceParams build base gov ord (rvals.map Param.val) =
        (m, .ok (scan pDef root E e p.policy.rules)) := by
  obtain ⟨p, i, mt, h1, h2, h3, h4⟩ := h.live
  refine ⟨p, h1, ?_⟩
  have hsp : ∀ vs : List Str, splitParams (vs.map Param.val) = ([], vs) := by
    intro vs
    induction vs with
    | nil => rfl
    | cons v vs ih => simp only [List.map_cons, splitParams, ih]
  have hctx : newContext build m [] =
      (m, .ok ⟨some (newPolicyDef (s% "r") rtext), some (.live pkey i), some e⟩) := by
    have e1 : defaultRequest m ⟨none, none, none⟩ =
        .ok ⟨some (newPolicyDef (s% "r") rtext), none, none⟩ := by
      unfold defaultRequest setRequestOpt Model.getRequestDef
      simp only [Option.isNone_none, if_true]
      rw [if_neg (by simp), hr]; rfl
    have e2 : defaultMatcher build m ⟨some (newPolicyDef (s% "r") rtext), none, none⟩ =
        (m, .ok ⟨some (newPolicyDef (s% "r") rtext), some (.live pkey i), none⟩) := by
      unfold defaultMatcher setMatcherOpt
      simp only [Option.isNone_none, if_true]
      rw [if_neg (by simp), h2]
    have e3 : defaultEffector m ⟨some (newPolicyDef (s% "r") rtext), some (.live pkey i), none⟩ =
        ⟨some (newPolicyDef (s% "r") rtext), some (.live pkey i), some e⟩ := by
      unfold defaultEffector setEffectorOpt
      simp only [Option.isNone_none, if_true]
      rw [if_neg (by simp), he]
    unfold newContext applyOpts
    simp only [e1, e2, e3]
  have hres : m.resolve (.live pkey i) = some mt := by
    unfold Model.resolve
    simp only [h1, h3]
  have hpd : mt.pDef = pDef := h4.pdef
  unfold Model.enforceParams
  rw [hsp, hctx]
  simp only [Model.enforceCtx, Option.bind_some, hres, hpd, h.key, h.def_, Model.evaluator]
  rw [← hE]
  have := enforce_of_inv pDef root ⟨p.policy, mt⟩ E ord e h4 hb hl hbs hn hv (fun hh r hr => hdet hh p h1 r hr)
  rw [← this]

end Fastac
