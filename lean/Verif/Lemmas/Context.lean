import Verif.Spec.Context
import Verif.Lemmas.ModelShape

/-!
# Contexts
-/

namespace Fastac

namespace Model

/-- `m'` is `m` with additional matchers listening to the policies. -/
structure Extends (m m' : Model) : Prop where
  rDefs : m'.rDefs = m.rDefs
  pDefs : m'.pDefs = m.pDefs
  gDefs : m'.gDefs = m.gDefs
  eDefs : m'.eDefs = m.eDefs
  mDefs : m'.mDefs = m.mDefs
  mMap : m'.mMap = m.mMap
  pol : ∀ k, (m.pMap.get k = none ∧ m'.pMap.get k = none) ∨
    ∃ p extra, m.pMap.get k = some p ∧ m'.pMap.get k = some ⟨p.policy, p.listeners ++ extra⟩
  role : ∀ k, (m.rpMap.get k = none ∧ m'.rpMap.get k = none) ∨
    ∃ p extra, m.rpMap.get k = some p ∧ m'.rpMap.get k = some ⟨p.mgr, p.listeners ++ extra⟩

theorem Extends.refl (m : Model) : m.Extends m := by
  refine ⟨rfl, rfl, rfl, rfl, rfl, rfl, fun k => ?_, fun k => ?_⟩
  · cases h : m.pMap.get k with
    | none => exact Or.inl ⟨rfl, rfl⟩
    | some p => exact Or.inr ⟨p, [], rfl, by simp⟩
  · cases h : m.rpMap.get k with
    | none => exact Or.inl ⟨rfl, rfl⟩
    | some p => exact Or.inr ⟨p, [], rfl, by simp⟩

theorem Extends.trans {m1 m2 m3 : Model} (a : m1.Extends m2) (b : m2.Extends m3) : m1.Extends m3 := by
  refine ⟨b.rDefs.trans a.rDefs, b.pDefs.trans a.pDefs, b.gDefs.trans a.gDefs, b.eDefs.trans a.eDefs,
    b.mDefs.trans a.mDefs, b.mMap.trans a.mMap, fun k => ?_, fun k => ?_⟩
  · rcases a.pol k with ⟨h1, h2⟩ | ⟨p, e, h1, h2⟩
    · rcases b.pol k with ⟨_, h4⟩ | ⟨_, _, h3, _⟩
      · exact Or.inl ⟨h1, h4⟩
      · rw [h2] at h3; cases h3
    · rcases b.pol k with ⟨h3, _⟩ | ⟨p', e', h3, h4⟩
      · rw [h2] at h3; cases h3
      · rw [h2] at h3; cases h3
        exact Or.inr ⟨p, e ++ e', h1, by rw [h4, List.append_assoc]⟩
  · rcases a.role k with ⟨h1, h2⟩ | ⟨p, e, h1, h2⟩
    · rcases b.role k with ⟨_, h4⟩ | ⟨_, _, h3, _⟩
      · exact Or.inl ⟨h1, h4⟩
      · rw [h2] at h3; cases h3
    · rcases b.role k with ⟨h3, _⟩ | ⟨p', e', h3, h4⟩
      · rw [h2] at h3; cases h3
      · rw [h2] at h3; cases h3
        exact Or.inr ⟨p, e ++ e', h1, by rw [h4, List.append_assoc]⟩

theorem Extends.resolve {m m' : Model} (h : m.Extends m') {x : MEntry} {mt : Matcher}
    (hx : m.resolve x = some mt) : m'.resolve x = some mt := by
  cases x with
  | frozen y => exact hx
  | live k i =>
    unfold Model.resolve at hx ⊢
    simp only at hx ⊢
    rcases h.pol k with ⟨h1, h2⟩ | ⟨p, e, h1, h2⟩
    · rw [h1] at hx; rw [h2]
      simp only at hx ⊢
      rcases h.role k with ⟨h3, h4⟩ | ⟨p, e, h3, h4⟩
      · rw [h3] at hx; cases hx
      · rw [h3] at hx; rw [h4]
        simp only at hx ⊢
        rw [List.getElem?_append_left]
        · exact hx
        · exact (List.getElem?_eq_some_iff.1 hx).1
    · rw [h1] at hx; rw [h2]
      simp only at hx ⊢
      rw [List.getElem?_append_left]
      · exact hx
      · exact (List.getElem?_eq_some_iff.1 hx).1

theorem Extends.policyRules {m m' : Model} (h : m.Extends m') (k : Str) :
    m'.policyRules k = m.policyRules k := by
  unfold Model.policyRules
  rcases h.pol k with ⟨h1, h2⟩ | ⟨p, e, h1, h2⟩
  · rw [h1, h2]
    simp only
    rcases h.role k with ⟨h3, h4⟩ | ⟨p, e, h3, h4⟩
    · rw [h3, h4]
    · rw [h3, h4]; rfl
  · rw [h1, h2]

theorem Extends.fresh {m m' : Model} (h : m.Extends m') (build : Str → Res Stage) (e : Str) :
    freshMatcher build m' e = freshMatcher build m e := by
  unfold freshMatcher
  have h1 : ∀ k, m'.matcherPolicyDef k = m.matcherPolicyDef k := by
    intro k; unfold matcherPolicyDef; rw [h.pDefs]
  cases build e with
  | ok root => simp only [h1, h.policyRules]
  | err => rfl
  | panic => rfl

theorem setP_extends {m : Model} {k : Str} {p : PolObj} (hg : m.pMap.get k = some p) (mt : Matcher) :
    m.Extends { m with pMap := m.pMap.set k ⟨p.policy, p.listeners ++ [mt]⟩ } := by
  refine ⟨rfl, rfl, rfl, rfl, rfl, rfl, fun k' => ?_, (Extends.refl m).role⟩
  simp only [GoMap.get_set]
  by_cases hk : k = k'
  · subst hk; rw [if_pos rfl]; exact Or.inr ⟨p, [mt], hg, rfl⟩
  · rw [if_neg hk]; exact (Extends.refl m).pol k'

theorem setG_extends {m : Model} {k : Str} {p : RolePolicy} (hg : m.rpMap.get k = some p) (mt : Matcher) :
    m.Extends { m with rpMap := m.rpMap.set k ⟨p.mgr, p.listeners ++ [mt]⟩ } := by
  refine ⟨rfl, rfl, rfl, rfl, rfl, rfl, (Extends.refl m).pol, fun k' => ?_⟩
  simp only [GoMap.get_set]
  by_cases hk : k = k'
  · subst hk; rw [if_pos rfl]; exact Or.inr ⟨p, [mt], hg, rfl⟩
  · rw [if_neg hk]; exact (Extends.refl m).role k'

theorem buildFromExpr_spec (build : Str → Res Stage) (m : Model) (e : Str) :
    m.Extends (m.buildFromExpr build e).1 ∧
      match (m.buildFromExpr build e).2 with
      | .ok x => ∃ mt, freshMatcher build m e = some mt ∧ (m.buildFromExpr build e).1.resolve x = some mt
      | _ => freshMatcher build m e = none := by
  unfold buildFromExpr freshMatcher policyRules
  cases build e with
  | err => exact ⟨Extends.refl m, rfl⟩
  | panic => exact ⟨Extends.refl m, rfl⟩
  | ok root =>
    simp only
    cases m.matcherPolicyDef root.policyKey with
    | err => exact ⟨Extends.refl m, rfl⟩
    | panic => exact ⟨Extends.refl m, rfl⟩
    | ok pDef =>
      simp only
      cases hp : m.pMap.get root.policyKey with
      | some p =>
        simp only
        cases hn : newMatcher pDef root p.policy.rules with
        | err => exact ⟨Extends.refl m, rfl⟩
        | panic => exact ⟨Extends.refl m, rfl⟩
        | ok mt =>
          refine ⟨setP_extends hp mt, mt, rfl, ?_⟩
          simp [resolve]
      | none =>
        simp only
        cases hr : m.rpMap.get root.policyKey with
        | none => exact ⟨Extends.refl m, rfl⟩
        | some rp =>
          simp only [Option.map_some]
          cases hn : newMatcher pDef root rp.rules with
          | err => exact ⟨Extends.refl m, rfl⟩
          | panic => exact ⟨Extends.refl m, rfl⟩
          | ok mt =>
            refine ⟨setG_extends hr mt, mt, rfl, ?_⟩
            simp [resolve, hp]

/-- Every stored matcher exists. -/
def Sound (m : Model) : Prop := ∀ k x, m.mMap.get k = some x → ∃ mt, m.resolve x = some mt

end Model

/-! ## Options -/

/-- What is known of a context after some options. -/
structure CtxOk (build : Str → Res Stage) (m0 : Model) (opts : List CtxOpt) (m : Model) (ctx : Ctx) :
    Prop where
  ext : m0.Extends m
  rDef : ctx.rDef = (lastRequest opts).bind (RArg.stands m0)
  rSome : ctx.rDef.isSome = (lastRequest opts).isSome
  eff : ctx.effector = (lastEffector opts).bind (EArg.stands m0)
  eSome : ctx.effector.isSome = (lastEffector opts).isSome
  mt : ctx.matcher.bind m.resolve = (lastMatcher opts).bind (MArg.stands build m0)
  mSome : ctx.matcher.isSome = (lastMatcher opts).isSome
  mRes : ∀ x, ctx.matcher = some x → ∃ y, m.resolve x = some y

theorem lastMatcher_snoc (opts : List CtxOpt) (o : CtxOpt) :
    lastMatcher (opts ++ [o]) = match lastMatcher [o] with
      | some a => some a
      | none => lastMatcher opts := by
  induction opts with
  | nil => cases h : lastMatcher [o] <;> simp [h, lastMatcher]
  | cons p ps ih =>
    rw [List.cons_append]
    conv => lhs; unfold lastMatcher
    rw [ih]
    cases h : lastMatcher [o] with
    | some a => rfl
    | none => simp only; conv => rhs; unfold lastMatcher

theorem lastRequest_snoc (opts : List CtxOpt) (o : CtxOpt) :
    lastRequest (opts ++ [o]) = match lastRequest [o] with
      | some a => some a
      | none => lastRequest opts := by
  induction opts with
  | nil => cases h : lastRequest [o] <;> simp [h, lastRequest]
  | cons p ps ih =>
    rw [List.cons_append]
    conv => lhs; unfold lastRequest
    rw [ih]
    cases h : lastRequest [o] with
    | some a => rfl
    | none => simp only; conv => rhs; unfold lastRequest

theorem lastEffector_snoc (opts : List CtxOpt) (o : CtxOpt) :
    lastEffector (opts ++ [o]) = match lastEffector [o] with
      | some a => some a
      | none => lastEffector opts := by
  induction opts with
  | nil => cases h : lastEffector [o] <;> simp [h, lastEffector]
  | cons p ps ih =>
    rw [List.cons_append]
    conv => lhs; unfold lastEffector
    rw [ih]
    cases h : lastEffector [o] with
    | some a => rfl
    | none => simp only; conv => rhs; unfold lastEffector


theorem CtxOk.new (build : Str → Res Stage) (m : Model) : CtxOk build m [] m ⟨none, none, none⟩ :=
  ⟨Model.Extends.refl m, rfl, rfl, rfl, rfl, rfl, rfl, fun _ h => by cases h⟩

/-- The matcher of a context becomes `x`. -/
theorem CtxOk.setM {build : Str → Res Stage} {m0 : Model} {opts : List CtxOpt} {m m' : Model} {ctx : Ctx}
    (h : CtxOk build m0 opts m ctx) (he : m.Extends m') {a : MArg}
    (ha : lastMatcher [.matcher a] = some a) {x : MEntry} {mt : Matcher} (hx : m'.resolve x = some mt)
    (hs : a.stands build m0 = some mt) :
    CtxOk build m0 (opts ++ [.matcher a]) m' { ctx with matcher := some x } := by
  have h1 : lastRequest (opts ++ [.matcher a]) = lastRequest opts := by rw [lastRequest_snoc]; rfl
  have h2 : lastEffector (opts ++ [.matcher a]) = lastEffector opts := by rw [lastEffector_snoc]; rfl
  have h3 : lastMatcher (opts ++ [.matcher a]) = some a := by rw [lastMatcher_snoc, ha]
  refine ⟨h.ext.trans he, ?_, ?_, ?_, ?_, ?_, ?_, ?_⟩
  · rw [h1]; exact h.rDef
  · rw [h1]; exact h.rSome
  · rw [h2]; exact h.eff
  · rw [h2]; exact h.eSome
  · rw [h3]; simp [hx, hs]
  · rw [h3]; rfl
  · intro y hy; cases hy; exact ⟨mt, hx⟩

/-- Nothing changes. -/
theorem CtxOk.skip {build : Str → Res Stage} {m0 : Model} {opts : List CtxOpt} {m : Model} {ctx : Ctx}
    (h : CtxOk build m0 opts m ctx) {o : CtxOpt} (h1 : lastRequest [o] = none)
    (h2 : lastEffector [o] = none) (h3 : lastMatcher [o] = none) :
    CtxOk build m0 (opts ++ [o]) m ctx := by
  have e1 : lastRequest (opts ++ [o]) = lastRequest opts := by rw [lastRequest_snoc, h1]
  have e2 : lastEffector (opts ++ [o]) = lastEffector opts := by rw [lastEffector_snoc, h2]
  have e3 : lastMatcher (opts ++ [o]) = lastMatcher opts := by rw [lastMatcher_snoc, h3]
  exact ⟨h.ext, by rw [e1]; exact h.rDef, by rw [e1]; exact h.rSome, by rw [e2]; exact h.eff,
    by rw [e2]; exact h.eSome, by rw [e3]; exact h.mt, by rw [e3]; exact h.mSome, h.mRes⟩

theorem CtxOk.setR {build : Str → Res Stage} {m0 : Model} {opts : List CtxOpt} {m : Model} {ctx : Ctx}
    (h : CtxOk build m0 opts m ctx) {a : RArg} (ha : lastRequest [.request a] = some a) {d : PolicyDef}
    (hs : a.stands m0 = some d) :
    CtxOk build m0 (opts ++ [.request a]) m { ctx with rDef := some d } := by
  have h1 : lastRequest (opts ++ [.request a]) = some a := by rw [lastRequest_snoc, ha]
  have h2 : lastEffector (opts ++ [.request a]) = lastEffector opts := by rw [lastEffector_snoc]; rfl
  have h3 : lastMatcher (opts ++ [.request a]) = lastMatcher opts := by rw [lastMatcher_snoc]; rfl
  exact ⟨h.ext, by rw [h1]; simp [hs], by rw [h1]; rfl, by rw [h2]; exact h.eff,
    by rw [h2]; exact h.eSome, by rw [h3]; exact h.mt, by rw [h3]; exact h.mSome, h.mRes⟩

theorem CtxOk.setE {build : Str → Res Stage} {m0 : Model} {opts : List CtxOpt} {m : Model} {ctx : Ctx}
    (h : CtxOk build m0 opts m ctx) {a : EArg} (ha : lastEffector [.effector a] = some a) {e : Str}
    (hs : a.stands m0 = some e) :
    CtxOk build m0 (opts ++ [.effector a]) m { ctx with effector := some e } := by
  have h1 : lastRequest (opts ++ [.effector a]) = lastRequest opts := by rw [lastRequest_snoc]; rfl
  have h2 : lastEffector (opts ++ [.effector a]) = some a := by rw [lastEffector_snoc, ha]
  have h3 : lastMatcher (opts ++ [.effector a]) = lastMatcher opts := by rw [lastMatcher_snoc]; rfl
  exact ⟨h.ext, by rw [h1]; exact h.rDef, by rw [h1]; exact h.rSome, by rw [h2]; simp [hs],
    by rw [h2]; rfl, by rw [h3]; exact h.mt, by rw [h3]; exact h.mSome, h.mRes⟩

/-- What makes an option fail: an unknown request definition (panic), or an expression from which no
matcher can be made (error, or panic of the library). -/
def CtxOpt.Works (build : Str → Res Stage) (m : Model) : CtxOpt → Prop
  | .matcher a => lastMatcher [.matcher a] = none ∨ ∃ mt, a.stands build m = some mt
  | .request a => lastRequest [.request a] = none ∨ ∃ d, a.stands m = some d
  | .effector _ => True

theorem setMatcherOpt_ok {build : Str → Res Stage} {m0 : Model} (hs : m0.Sound) {opts : List CtxOpt}
    {m : Model} {ctx : Ctx} (h : CtxOk build m0 opts m ctx) (a : MArg)
    (hx : ∀ x, a = .obj x → ∃ mt, m0.resolve x = some mt) :
    m0.Extends (setMatcherOpt build m ctx a).1 ∧
    (∀ ctx', (setMatcherOpt build m ctx a).2 = .ok ctx' →
      CtxOk build m0 (opts ++ [.matcher a]) (setMatcherOpt build m ctx a).1 ctx') ∧
    (CtxOpt.Works build m0 (.matcher a) ↔ ∃ ctx', (setMatcherOpt build m ctx a).2 = .ok ctx') := by
  have fresh : ∀ e, a.stands build m0 = freshMatcher build m0 e → lastMatcher [.matcher a] = some a →
      m0.Extends (m.buildFromExpr build e).1 ∧
      (∀ ctx', ((m.buildFromExpr build e).2.map fun x => { ctx with matcher := some x }) = .ok ctx' →
        CtxOk build m0 (opts ++ [.matcher a]) (m.buildFromExpr build e).1 ctx') ∧
      (CtxOpt.Works build m0 (.matcher a) ↔ ∃ ctx',
        ((m.buildFromExpr build e).2.map fun x => { ctx with matcher := some x }) = .ok ctx') := by
    intro e ha hl
    obtain ⟨h1, h2⟩ := Model.buildFromExpr_spec build m e
    refine ⟨h.ext.trans h1, ?_, ?_⟩
    · intro ctx' hc
      cases hr : (m.buildFromExpr build e).2 with
      | err => rw [hr] at hc; cases hc
      | panic => rw [hr] at hc; cases hc
      | ok x =>
        rw [hr] at hc h2
        simp only [Res.map_ok, Res.ok.injEq] at hc
        subst hc
        obtain ⟨mt, e1, e2⟩ := h2
        exact h.setM h1 hl e2 (by rw [ha, ← h.ext.fresh]; exact e1)
    · simp only [CtxOpt.Works]
      rw [hl, ha, ← h.ext.fresh]
      cases hr : (m.buildFromExpr build e).2 with
      | err => rw [hr] at h2; simp only at h2; simp [h2]
      | panic => rw [hr] at h2; simp only at h2; simp [h2]
      | ok x =>
        rw [hr] at h2
        obtain ⟨mt, e1, e2⟩ := h2
        simp [e1]
  cases a with
  | other =>
    refine ⟨h.ext, fun ctx' hc => ?_, fun _ => ⟨ctx, rfl⟩, fun _ => Or.inl rfl⟩
    cases hc
    exact h.skip rfl rfl rfl
  | obj x =>
    obtain ⟨mt, hmt⟩ := hx x rfl
    refine ⟨h.ext, fun ctx' hc => ?_, fun _ => ⟨_, rfl⟩, fun _ => Or.inr ⟨mt, hmt⟩⟩
    cases hc
    exact h.setM (Model.Extends.refl m) rfl (h.ext.resolve hmt) hmt
  | ofDef e => exact fresh e rfl rfl
  | str s =>
    cases s with
    | nil =>
      refine ⟨h.ext, fun ctx' hc => ?_, fun _ => ⟨ctx, rfl⟩, fun _ => Or.inl rfl⟩
      cases hc
      exact h.skip rfl rfl rfl
    | cons c s =>
      have hne : (c :: s) ≠ [] := by simp
      unfold setMatcherOpt
      simp only [if_neg hne]
      cases hg : m.mMap.get (c :: s) with
      | some x =>
        have hg0 : m0.mMap.get (c :: s) = some x := by rw [← h.ext.mMap]; exact hg
        obtain ⟨mt, hmt⟩ := hs _ _ hg0
        have hst : MArg.stands build m0 (.str (c :: s)) = some mt := by
          simp [MArg.stands, matcherNamed, Model.getMatcher, GoMap.has, hg0, hmt]
        refine ⟨h.ext, fun ctx' hc => ?_, fun _ => ⟨_, rfl⟩, fun _ => Or.inr ⟨mt, hst⟩⟩
        cases hc
        exact h.setM (Model.Extends.refl m) rfl (h.ext.resolve hmt) hst
      | none =>
        have hg0 : m0.mMap.get (c :: s) = none := by rw [← h.ext.mMap]; exact hg
        exact fresh (c :: s) (by simp [MArg.stands, matcherNamed, GoMap.has, hg0]) rfl

theorem setRequestOpt_ok {build : Str → Res Stage} {m0 : Model} {opts : List CtxOpt}
    {m : Model} {ctx : Ctx} (h : CtxOk build m0 opts m ctx) (a : RArg) :
    (∀ ctx', setRequestOpt m ctx a = .ok ctx' → CtxOk build m0 (opts ++ [.request a]) m ctx') ∧
    (CtxOpt.Works build m0 (.request a) ↔ ∃ ctx', setRequestOpt m ctx a = .ok ctx') ∧
    (¬ CtxOpt.Works build m0 (.request a) → setRequestOpt m ctx a = .panic) := by
  cases a with
  | other =>
    refine ⟨fun ctx' hc => ?_, ⟨fun _ => ⟨ctx, rfl⟩, fun _ => Or.inl rfl⟩, fun hw => absurd (Or.inl rfl) hw⟩
    cases hc
    exact h.skip rfl rfl rfl
  | obj d =>
    refine ⟨fun ctx' hc => ?_, ⟨fun _ => ⟨_, rfl⟩, fun _ => Or.inr ⟨d, rfl⟩⟩,
      fun hw => absurd (Or.inr ⟨d, rfl⟩) hw⟩
    cases hc
    exact h.setR rfl rfl
  | str s =>
    cases s with
    | nil =>
      refine ⟨fun ctx' hc => ?_, ⟨fun _ => ⟨ctx, rfl⟩, fun _ => Or.inl rfl⟩, fun hw => absurd (Or.inl rfl) hw⟩
      cases hc
      exact h.skip rfl rfl rfl
    | cons c s =>
      have hne : (c :: s) ≠ [] := by simp
      unfold setRequestOpt Model.getRequestDef
      simp only [if_neg hne, h.ext.rDefs]
      cases hg : m0.rDefs.get (c :: s) with
      | some t =>
        have hst : RArg.stands m0 (.str (c :: s)) = some (newPolicyDef (c :: s) t) := by
          simp [RArg.stands, requestNamed, hg]
        refine ⟨fun ctx' hc => ?_, ⟨fun _ => ⟨_, rfl⟩, fun _ => Or.inr ⟨_, hst⟩⟩,
          fun hw => absurd (Or.inr ⟨_, hst⟩) hw⟩
        cases hc
        exact h.setR rfl hst
      | none =>
        have hst : RArg.stands m0 (.str (c :: s)) = none := by
          simp [RArg.stands, requestNamed, hg]
        refine ⟨fun ctx' hc => (by cases hc), ⟨fun hw => ?_, fun ⟨_, hw⟩ => by cases hw⟩, fun _ => rfl⟩
        rcases hw with hw | ⟨d, hw⟩
        · cases hw
        · rw [hst] at hw; cases hw

theorem setEffectorOpt_ok {build : Str → Res Stage} {m0 : Model} {opts : List CtxOpt}
    {m : Model} {ctx : Ctx} (h : CtxOk build m0 opts m ctx) (a : EArg) :
    CtxOk build m0 (opts ++ [.effector a]) m (setEffectorOpt m ctx a) := by
  cases a with
  | other => exact h.skip rfl rfl rfl
  | obj e => exact h.setE rfl rfl
  | str s =>
    cases s with
    | nil => exact h.skip rfl rfl rfl
    | cons c s =>
      have hne : (c :: s) ≠ [] := by simp
      unfold setEffectorOpt
      simp only [if_neg hne, h.ext.eDefs]
      cases hg : m0.eDefs.get (c :: s) with
      | some e => exact h.setE rfl (by simp [EArg.stands, hg])
      | none => exact h.setE rfl (by simp [EArg.stands, hg])

theorem applyOpt_ok {build : Str → Res Stage} {m0 : Model} (hs : m0.Sound) {opts : List CtxOpt}
    {m : Model} {ctx : Ctx} (h : CtxOk build m0 opts m ctx) (o : CtxOpt)
    (hx : ∀ x, o = .matcher (.obj x) → ∃ mt, m0.resolve x = some mt) :
    m0.Extends (applyOpt build m ctx o).1 ∧
    (∀ ctx', (applyOpt build m ctx o).2 = .ok ctx' →
      CtxOk build m0 (opts ++ [o]) (applyOpt build m ctx o).1 ctx') ∧
    (o.Works build m0 ↔ ∃ ctx', (applyOpt build m ctx o).2 = .ok ctx') := by
  cases o with
  | matcher a => exact setMatcherOpt_ok hs h a (fun x e => hx x (by rw [e]))
  | request a => exact ⟨h.ext, (setRequestOpt_ok h a).1, (setRequestOpt_ok h a).2.1⟩
  | effector a =>
    refine ⟨h.ext, fun ctx' hc => ?_, fun _ => ⟨_, rfl⟩, fun _ => trivial⟩
    cases hc
    exact setEffectorOpt_ok h a

theorem applyOpts_ok {build : Str → Res Stage} {m0 : Model} (hs : m0.Sound) : ∀ (os opts : List CtxOpt)
    (m : Model) (ctx : Ctx), CtxOk build m0 opts m ctx →
    (∀ x, .matcher (.obj x) ∈ os → ∃ mt, m0.resolve x = some mt) →
    m0.Extends (applyOpts build m ctx os).1 ∧
    (∀ ctx', (applyOpts build m ctx os).2 = .ok ctx' →
      CtxOk build m0 (opts ++ os) (applyOpts build m ctx os).1 ctx') ∧
    ((∀ o ∈ os, o.Works build m0) ↔ ∃ ctx', (applyOpts build m ctx os).2 = .ok ctx')
  | [], opts, m, ctx, h, _ => by
    refine ⟨h.ext, fun ctx' hc => ?_, fun _ => ⟨ctx, rfl⟩, fun _ => by simp⟩
    cases hc
    rw [List.append_nil]
    exact h
  | o :: os, opts, m, ctx, h, hx => by
    obtain ⟨h1, h2, h3⟩ := applyOpt_ok hs h o (fun x e => hx x (by rw [e]; exact List.mem_cons_self ..))
    unfold applyOpts
    obtain ⟨⟨m', r⟩, hr⟩ : ∃ y, applyOpt build m ctx o = y := ⟨_, rfl⟩
    rw [hr] at h1 h2 h3 ⊢
    cases r with
    | ok ctx' =>
      have hc := h2 ctx' rfl
      obtain ⟨a, b, c⟩ := applyOpts_ok hs os (opts ++ [o]) m' ctx' hc
        (fun x hm => hx x (List.mem_cons_of_mem _ hm))
      refine ⟨a, fun ctx'' hc' => ?_, ?_⟩
      · have := b ctx'' hc'
        rw [List.append_assoc] at this
        exact this
      · simp only
        rw [← c]
        simp only [List.mem_cons, forall_eq_or_imp, and_iff_right_iff_imp]
        exact fun _ => h3.2 ⟨ctx', rfl⟩
    | err =>
      simp only
      refine ⟨h1, fun ctx' hc => (by cases hc), fun hw => ?_, fun ⟨_, hw⟩ => by cases hw⟩
      obtain ⟨c, hc⟩ := h3.1 (hw o (List.mem_cons_self ..))
      cases hc
    | panic =>
      simp only
      refine ⟨h1, fun ctx' hc => (by cases hc), fun hw => ?_, fun ⟨_, hw⟩ => by cases hw⟩
      obtain ⟨c, hc⟩ := h3.1 (hw o (List.mem_cons_self ..))
      cases hc

end Fastac
