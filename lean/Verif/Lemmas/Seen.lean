import Verif.Lemmas.AnyManager
import Verif.Lemmas.Given
import Verif.Lemmas.Hist
import Verif.Spec.Seen

/-!
# What the index of a matcher remembers
-/

namespace Fastac

theorem handle_pDef {mt mt' : Matcher} {e : PolEvent} (h : mt.handle e = .ok mt') : mt'.pDef = mt.pDef := by
  cases e with
  | added r =>
    simp only [Matcher.handle, Matcher.addRule] at h
    cases h1 : addStage mt.pDef r mt.exprRoot mt.root <;> rw [h1] at h <;> cases h
    rfl
  | removed r =>
    simp only [Matcher.handle, Matcher.removeRule] at h
    cases h1 : removeStage mt.pDef r mt.exprRoot mt.root <;> rw [h1] at h <;> cases h
    rfl
  | cleared => cases h; rfl

/-- The index remembers the rules with `H`. -/
def Matcher.Recalls (H : Rule → Prop) (mt : Matcher) : Prop := Hist mt.pDef mt.exprRoot mt.root H

theorem Matcher.Recalls.congr {H H' : Rule → Prop} {mt : Matcher} (h : mt.Recalls H) (e : ∀ r, H r ↔ H' r) :
    mt.Recalls H' := by
  have : H = H' := funext (fun r => propext (e r))
  rw [← this]; exact h

theorem Matcher.Recalls.added {H : Rule → Prop} {mt mt' : Matcher} {r : Rule} (h : mt.Recalls H)
    (hb : mt.exprRoot.Binary) (he : mt.handle (.added r) = .ok mt') : mt'.Recalls (fun x => H x ∨ x = r) := by
  simp only [Matcher.handle, Matcher.addRule] at he
  cases h1 : addStage mt.pDef r mt.exprRoot mt.root <;> rw [h1] at he <;> cases he
  exact (addStage_hist _ r _ _ _ H hb.2 h h1).2

theorem Matcher.Recalls.removed {H : Rule → Prop} {mt mt' : Matcher} {r : Rule} (h : mt.Recalls H)
    (he : mt.handle (.removed r) = .ok mt') : mt'.Recalls H := by
  simp only [Matcher.handle, Matcher.removeRule] at he
  cases h1 : removeStage mt.pDef r mt.exprRoot mt.root <;> rw [h1] at he <;> cases he
  exact (removeStage_hist _ r _ _ _ H h h1).2

theorem Matcher.Recalls.cleared {H : Rule → Prop} {mt mt' : Matcher} (hH : ∀ r, ¬ H r) (hb : mt.exprRoot.Binary)
    (he : mt.handle .cleared = .ok mt') : mt'.Recalls H := by
  cases he
  exact newNode_hist _ _ hH hb.1

theorem newMatcher_recalls {d : PolicyDef} {root : Stage} {rules : List Rule} {mt : Matcher} (hb : root.Binary)
    (h : newMatcher d root rules = .ok mt) : mt.Recalls (· ∈ rules) := by
  have step : ∀ (l : List Rule) (y mt : Matcher) (H : Rule → Prop), y.exprRoot = root → y.Recalls H →
      l.foldl (fun (acc : Res Matcher) r => acc.bind (fun m => m.addRule r)) (.ok y) = .ok mt →
      mt.Recalls (fun x => H x ∨ x ∈ l) := by
    intro l
    induction l with
    | nil => intro y mt H _ hy h; cases h; exact hy.congr (by simp)
    | cons r l ih =>
      intro y mt H hr0 hy h
      simp only [List.foldl_cons, Res.bind_ok] at h
      have hfail : ∀ (z : Res Matcher), (∀ m, z ≠ .ok m) → ∀ l : List Rule,
          l.foldl (fun (acc : Res Matcher) r => acc.bind (fun m => m.addRule r)) z ≠ .ok mt := by
        intro z hz l
        induction l generalizing z with
        | nil => exact hz mt
        | cons a l ih =>
          apply ih
          intro m
          cases z with
          | ok x => exact absurd rfl (hz x)
          | err => simp
          | panic => simp
      cases hr : y.addRule r with
      | ok z =>
        rw [hr] at h
        have e : y.handle (.added r) = .ok z := hr
        refine (ih z mt _ ((Model.handle_root e).trans hr0) (hy.added (by rw [hr0]; exact hb) e) h).congr (fun x => ?_)
        simp [or_assoc]
      | err => rw [hr] at h; exact absurd h (hfail _ (by simp) l)
      | panic => rw [hr] at h; exact absurd h (hfail _ (by simp) l)
  unfold newMatcher at h
  refine (step rules ⟨d, root, newNode [[]]⟩ mt (fun _ => False) rfl ?_ h).congr (by simp)
  exact newNode_hist d [[]] (fun _ h => h) hb.1

namespace Model

/-- The entry `key` is a matcher of a `p` policy, for these stages, and its index remembers the rules with `H`. -/
def Remembers (key : Str) (root : Stage) (H : Rule → Prop) (m : Model) : Prop :=
  ∃ p i mt, m.mMap.get key = some (.live root.policyKey i) ∧ m.pMap.get root.policyKey = some p ∧
    p.listeners[i]? = some mt ∧ mt.exprRoot = root ∧ mt.Recalls H

theorem Remembers.turned {key : Str} {root : Stage} {H H' : Rule → Prop} {m m' : Model}
    {T : Matcher → Matcher → Prop} (h : Remembers key root H m) (ht : Turned root.policyKey T m m')
    (hm : m'.mMap.get key = m.mMap.get key) (hH : ∀ r, H r ↔ H' r)
    (hT : ∀ mt mt', T mt mt' → mt.exprRoot = root → mt.Recalls H → mt'.Recalls H ∧ mt'.exprRoot = mt.exprRoot) :
    Remembers key root H' m' := by
  obtain ⟨p, i, mt, h1, h2, h3, h4, h5⟩ := h
  obtain ⟨p', e1, e2⟩ := ht p h2
  obtain ⟨mt', e3, e4⟩ := e2 i mt h3
  rcases e4 with rfl | e4
  · exact ⟨p', i, mt', hm.trans h1, e1, e3, h4, h5.congr hH⟩
  · obtain ⟨a, b⟩ := hT mt mt' e4 h4 h5
    exact ⟨p', i, mt', hm.trans h1, e1, e3, b.trans h4, a.congr hH⟩

/-- The matcher's entry after a definition was set or removed. -/
theorem Remembers.same {key : Str} {root : Stage} {H : Rule → Prop} {m m' : Model} (h : Remembers key root H m)
    (h1 : ∀ i, m.mMap.get key = some (.live root.policyKey i) → m'.mMap.get key = some (.live root.policyKey i))
    (h2 : m'.pMap.get root.policyKey = m.pMap.get root.policyKey) : Remembers key root H m' := by
  obtain ⟨p, i, mt, a, b, c, d, e⟩ := h
  exact ⟨p, i, mt, h1 i a, h2.trans b, c, d, e⟩

/-- Adding a rule to the policy: either the rule is there already, or all matchers are told. -/
theorem told_add {m : Model} (hs : m.Step) (ht : m.Tidy) {pk : Str} (f : Rule) (hp : pk.head? = some 'p')
    (hg : ∀ d, m.pDefs.get pk = some d → GoodRule d f) {p : PolObj} (hq : m.pMap.get pk = some p) :
    ∃ p', (m.addRule (pk :: f)).1.pMap.get pk = some p' ∧
      ∀ (i : Nat) mt, p.listeners[i]? = some mt → ∃ mt', p'.listeners[i]? = some mt' ∧
        ((f ∈ p.policy.rules ∧ mt' = mt) ∨ mt.handle (.added f) = .ok mt') := by
  obtain ⟨d, hd, h1, h2⟩ := hs.p pk p hq
  obtain ⟨_, w2, w3, w4⟩ := (ht.pols pk p hq).2.1.addRule f
  have e : (m.addRule (pk :: f)).1 = (m.addPolicyRule pk f).1 := by
    cases pk with
    | nil => cases hp
    | cons c cs =>
      have : c = 'p' := by simpa using hp
      subst this
      simp only [Model.addRule]
      rfl
  rw [e]
  unfold Model.addPolicyRule
  simp only [hq]
  cases hb : (p.policy.addRule f).2.1 with
  | false =>
    rw [hb] at w4 w2
    simp only [Bool.false_eq_true, if_false] at w4
    rw [w4]
    unfold emitPolicy
    simp only [GoMap.get_set_self]
    refine ⟨_, rfl, fun i mt hi => ⟨mt, hi, .inl ⟨?_, rfl⟩⟩⟩
    have hex : ∃ x ∈ p.policy.rules, hash x = hash f := Classical.byContradiction (fun hc => by
      have := w2.2 hc
      cases this)
    obtain ⟨x, hx, e⟩ := hex
    exact (h1 x hx).hash_inj (hg d hd) e ▸ hx
  | true =>
    rw [hb] at w4
    simp only [if_true] at w4
    rw [w4]
    obtain ⟨ls', e1, _⟩ := notify_all (Q := fun _ => True) (e := .added f)
      (fun mt (hm : mt.Has d (· ∈ p.policy.rules)) => by
        obtain ⟨mt', a, _⟩ := hm.added (hg d hd)
        exact ⟨mt', a, trivial⟩) p.listeners h2
    unfold emitPolicy
    simp only [e1, GoMap.get_set_self]
    refine ⟨_, rfl, fun i mt hi => ?_⟩
    obtain ⟨mt', q1, q2⟩ := notify_get _ p.listeners ls' e1 i mt hi
    exact ⟨mt', q2, .inr q1⟩

/-- Clearing the policy: all matchers are told. -/
theorem told_clear {m : Model} (hs : m.Step) {pk : Str} {p : PolObj} (hq : m.pMap.get pk = some p) :
    ∃ p', (m.clearPolicy pk).1.pMap.get pk = some p' ∧
      ∀ (i : Nat) mt, p.listeners[i]? = some mt → ∃ mt', p'.listeners[i]? = some mt' ∧
        mt.handle .cleared = .ok mt' := by
  obtain ⟨d, hd, h1, h2⟩ := hs.p pk p hq
  unfold Model.clearPolicy
  simp only [hq, Policy.clear]
  obtain ⟨ls', e1, _⟩ := notify_all (Q := fun _ => True) (e := .cleared)
    (fun mt (hm : mt.Has d (· ∈ p.policy.rules)) => by
      obtain ⟨mt', a, _⟩ := hm.cleared
      exact ⟨mt', a, trivial⟩) p.listeners h2
  unfold emitPolicy
  simp only [e1, GoMap.get_set_self]
  refine ⟨_, rfl, fun i mt hi => ?_⟩
  obtain ⟨mt', q1, q2⟩ := notify_get _ p.listeners ls' e1 i mt hi
  exact ⟨mt', q2, q1⟩

theorem Seen.bound {build : Str → Res Stage} {key : Str} {root : Stage} {H : Rule → Prop} {m : Model}
    (h : Seen build key root H m) : Bound build key root m := by
  induction h with
  | built h expr hd hb hok => exact .built h expr hd hb hok
  | setDef _ sec k value hk ih => exact ih.setDef sec k value hk
  | removeDef _ sec k hk hm ih => exact ih.removeDef sec k hk hm
  | build _ k hk ih => exact ih.build k hk
  | inline _ expr ih => exact ih.inline expr
  | add _ rule hs ih => exact ih.add rule hs
  | remove _ rule hs ih => exact ih.remove rule hs
  | clear _ k hk ih => exact ih.clear k hk

/-- All stored rules have been seen. -/
theorem Seen.rules {build : Str → Res Stage} {key : Str} {root : Stage} {H : Rule → Prop} {m : Model}
    (h : Seen build key root H m) :
    ∀ p, m.pMap.get root.policyKey = some p → ∀ r ∈ p.policy.rules, H r := by
  induction h with
  | @built m h expr hd hb hok =>
    intro p' hp' r hr
    obtain ⟨q, hq, e⟩ := pol_build _ _ _ hp'
    rw [e] at hr
    exact ⟨q.policy.rules, by unfold policyRules; rw [hq], hr⟩
  | @setDef H m h sec k value hk ih => rw [pol_setDef _ _ _ _ hk]; exact ih
  | @removeDef H m h sec k hk hm ih => rw [pol_removeDef _ _ _ hk]; exact ih
  | @inline H m h expr ih =>
    intro p' hp' r hr
    obtain ⟨q, hq, e⟩ := pol_inline _ _ _ hp'
    rw [e] at hr
    exact ih q hq r hr
  | @build H m h k hk ih =>
    intro p' hp' r hr
    obtain ⟨q, hq, e⟩ := pol_build _ _ _ hp'
    rw [e] at hr
    exact ih q hq r hr
  | @add H m h rule hs ih =>
    intro p' hp' r hr
    obtain ⟨q, hq, e⟩ := pol_add h.bound.tied.1.made.tidy _ hp'
    exact (e r hr).imp (ih q hq r) id
  | @remove H m h rule hs ih =>
    intro p' hp' r hr
    obtain ⟨q, hq, e⟩ := pol_remove h.bound.tied.1.made.tidy _ hp'
    exact ih q hq r (e r hr)
  | @clear H m h k hk ih =>
    intro p' hp' r hr
    obtain ⟨q, hq, e⟩ := pol_clear _ _ hp'
    exact ⟨ih q hq r (e r hr).1, (e r hr).2⟩

theorem pDefs_setDef (m : Model) (sec : Char) (k value : Str) {pk : Str} (hk : k ≠ pk) :
    (m.setDef sec k value).1.pDefs.get pk = m.pDefs.get pk := by
  unfold Model.setDef
  split
  · rfl
  · split
    · rfl
    · split
      · rfl
      · split
        · rfl
        · split
          · simp only [GoMap.get_set]; rw [if_neg hk]
          · split
            · rfl
            · split <;> rfl

theorem pDefs_removeDef (m : Model) (sec : Char) (k : Str) {pk : Str} (hk : k ≠ pk) :
    (m.removeDef sec k).1.pDefs.get pk = m.pDefs.get pk := by
  unfold Model.removeDef
  split
  · rfl
  · split
    · simp only [GoMap.get_del]; rw [if_neg hk]
    · split
      · rfl
      · split
        · rfl
        · split <;> rfl

theorem pDefs_build (build : Str → Res Stage) (m : Model) (k : Str) :
    (m.buildMatcher build k).1.pDefs = m.pDefs := by
  unfold Model.buildMatcher
  split
  · rfl
  · split
    · rfl
    · rfl
    · split
      · rfl
      · rfl
      · split
        · split <;> rfl
        · split
          · rfl
          · split <;> rfl

theorem pDefs_inline (build : Str → Res Stage) (m : Model) (expr : Str) :
    (m.buildFromExpr build expr).1.pDefs = m.pDefs := by
  unfold Model.buildFromExpr
  split
  · rfl
  · rfl
  · split
    · rfl
    · rfl
    · split
      · split <;> rfl
      · split
        · rfl
        · split <;> rfl

theorem pDefs_emit {α : Type} (m : Model) (k : Str) (ls : List Matcher) (pol : Policy) (a : α) (e : Option PolEvent) :
    (m.emitPolicy k ls pol a e).1.pDefs = m.pDefs := by
  unfold emitPolicy
  split
  · rfl
  · split <;> rfl

theorem pDefs_add (m : Model) (rule : Rule) : (m.addRule rule).1.pDefs = m.pDefs := by
  unfold Model.addRule
  split
  · rfl
  · rfl
  · simp only
    split
    · unfold addPolicyRule
      split
      · rfl
      · exact pDefs_emit ..
    · split
      · unfold addRoleRule
        split <;> rfl
      · rfl

theorem pDefs_remove (m : Model) (rule : Rule) : (m.removeRule rule).1.pDefs = m.pDefs := by
  unfold Model.removeRule
  split
  · rfl
  · rfl
  · simp only
    split
    · unfold removePolicyRule
      split
      · rfl
      · exact pDefs_emit ..
    · split
      · unfold removeRoleRule
        split <;> rfl
      · rfl

theorem pDefs_clear (m : Model) (k : Str) : (m.clearPolicy k).1.pDefs = m.pDefs := by
  unfold clearPolicy
  split
  · exact pDefs_emit ..
  · split <;> rfl

/-- All rules seen suit the definition. -/
theorem Seen.good {build : Str → Res Stage} (hbin : ∀ e s, build e = .ok s → s.Binary) {key : Str} {root : Stage}
    {H : Rule → Prop} {m : Model} (h : Seen build key root H m) (hp : root.policyKey.head? = some 'p') :
    ∀ r, H r → ∀ d, m.pDefs.get root.policyKey = some d → GoodRule d r := by
  induction h with
  | @built m h expr hd hb hok =>
    rintro r ⟨rules, h1, h2⟩ d hdd
    rw [pDefs_build] at hdd
    have hs := h.step hbin
    unfold policyRules at h1
    cases hq : m.pMap.get root.policyKey with
    | some p =>
      rw [hq] at h1
      cases h1
      obtain ⟨d', e, g, _⟩ := hs.p _ p hq
      rw [e] at hdd
      cases hdd
      exact g r h2
    | none =>
      have := h.made.wellKeyed.pp root.policyKey
      rw [hq, hdd] at this
      cases this
  | @setDef H m h sec k value hk ih => rw [pDefs_setDef _ _ _ _ hk]; exact ih
  | @removeDef H m h sec k hk hm ih => rw [pDefs_removeDef _ _ _ hk]; exact ih
  | @inline H m h expr ih => rw [pDefs_inline]; exact ih
  | @build H m h k hk ih => rw [pDefs_build]; exact ih
  | @add H m h rule hs ih =>
    rw [pDefs_add]
    rintro r (hr | rfl) d hd
    · exact ih r hr d hd
    · exact hs.2.1 hp d hd
  | @remove H m h rule hs ih => rw [pDefs_remove]; exact ih
  | @clear H m h k hk ih => rw [pDefs_clear]; exact fun r hr => ih r hr.1

theorem Seen.remembers {build : Str → Res Stage} (hbin : ∀ e s, build e = .ok s → s.Binary) {key : Str} {root : Stage}
    {H : Rule → Prop} {m : Model} (h : Seen build key root H m) (hp : root.policyKey.head? = some 'p') :
    Remembers key root H m := by
  induction h with
  | @built m h expr hd hb hok =>
    obtain ⟨p, i, mt, h1, h2, h3, h4, _⟩ := Shows.built (P := fun _ => True) (keep := True) hd hb hok h.made.tidy hp
      (fun _ _ _ _ => trivial)
    refine ⟨p, i, mt, h1, h2, h3, h4, ?_⟩
    -- the new matcher
    unfold Model.buildMatcher at h1 h2 hok
    simp only [hd, hb] at h1 h2 hok
    cases hm : m.matcherPolicyDef root.policyKey with
    | err => rw [hm] at hok; cases hok
    | panic => rw [hm] at hok; cases hok
    | ok pDef =>
      rw [hm] at hok h1 h2
      simp only at hok h1 h2
      cases hq : m.pMap.get root.policyKey with
      | none =>
        exfalso
        rw [hq] at h2
        simp only at h2
        split at h2
        · simp only [hq] at h2; cases h2
        · split at h2 <;> · simp only [hq] at h2; cases h2
      | some q =>
        rw [hq] at hok h1 h2
        simp only at hok h1 h2
        cases hn : newMatcher pDef root q.policy.rules with
        | err => rw [hn] at hok; cases hok
        | panic => rw [hn] at hok; cases hok
        | ok mt' =>
          rw [hn] at h1 h2
          simp only [GoMap.get_set_self, Option.some.injEq, MEntry.live.injEq, true_and] at h1 h2
          subst h1 h2
          simp only [List.getElem?_append_right (Nat.le_refl _), Nat.sub_self, List.getElem?_cons_zero,
            Option.some.injEq] at h3
          subst h3
          refine (newMatcher_recalls (hbin _ _ hb) hn).congr (fun r => ?_)
          unfold policyRules
          rw [hq]
          simp
  | @setDef H m h sec k value hk ih =>
    exact ih.same (fun i hi => entry_setDef hk hi _ _) (pol_setDef _ _ _ _ hk)
  | @removeDef H m h sec k hk hm ih =>
    exact ih.same (fun i hi => entry_removeDef hk hm hi _) (pol_removeDef _ _ _ hk)
  | @build H m h k hk ih =>
    exact ih.turned (Turned.build _ m _ k) ((Settled.build _ m k).2 key hk) (fun _ => Iff.rfl) (fun _ _ h => h.elim)
  | @inline H m h expr ih =>
    exact ih.turned (Turned.inline build m _ expr) (by rw [(Settled.inline build m expr).2]) (fun _ => Iff.rfl)
      (fun _ _ h => h.elim)
  | @add H m h rule hs ih =>
    obtain ⟨expr, he⟩ := h.bound.root
    have hb := hbin _ _ he
    by_cases hr : ∃ f, rule = root.policyKey :: f
    · obtain ⟨f, rfl⟩ := hr
      have hk := h.bound.tied.1
      obtain ⟨p, i, mt, h1, h2, h3, h4, h5⟩ := ih
      obtain ⟨p', e1, e2⟩ := told_add (hk.step hbin) hk.made.tidy f hp (hs.2.1 hp) h2
      obtain ⟨mt', e3, e4⟩ := e2 i mt h3
      refine ⟨p', i, mt', by rw [(Settled.add m _).2]; exact h1, e1, e3, ?_⟩
      rcases e4 with ⟨hf, rfl⟩ | e4
      · refine ⟨h4, h5.congr (fun r => ⟨.inl, ?_⟩)⟩
        rintro (hr | hr)
        · exact hr
        · have e : f = r := (List.cons.inj hr).2
          subst e
          exact h.rules p h2 f hf
      · refine ⟨(handle_root e4).trans h4, (h5.added (by rw [h4]; exact hb) e4).congr (fun r => ?_)⟩
        constructor
        · rintro (hr | rfl)
          · exact .inl hr
          · exact .inr rfl
        · rintro (hr | hr)
          · exact .inl hr
          · exact .inr (List.cons.inj hr).2.symm
    · refine ih.turned (Turned.add m _ rule) (by rw [(Settled.add m rule).2]) (fun r => ⟨.inl, ?_⟩) ?_
      · rintro (h | h)
        · exact h
        · exact absurd ⟨r, h⟩ hr
      · rintro mt mt' ⟨f, e, _⟩
        exact absurd ⟨f, e⟩ hr
  | @remove H m h rule hs ih =>
    refine ih.turned (Turned.remove m _ rule) (by rw [(Settled.remove m rule).2]) (fun _ => Iff.rfl) ?_
    rintro mt mt' ⟨f, e, hh⟩ _ hsh
    exact ⟨hsh.removed hh, handle_root hh⟩
  | @clear H m h k hk ih =>
    obtain ⟨expr, he⟩ := h.bound.root
    have hb := hbin _ _ he
    by_cases hkk : k = root.policyKey
    · subst hkk
      have hk := h.bound.tied.1
      obtain ⟨p, i, mt, h1, h2, h3, h4, h5⟩ := ih
      obtain ⟨p', e1, e2⟩ := told_clear (hk.step hbin) h2
      obtain ⟨mt', e3, e4⟩ := e2 i mt h3
      exact ⟨p', i, mt', by rw [(Settled.clear m _).2]; exact h1, e1, e3, (handle_root e4).trans h4,
        .cleared (by simp) (by rw [h4]; exact hb) e4⟩
    · have eH : (fun r => H r ∧ k ≠ root.policyKey) = H := funext (fun r => propext ⟨And.left, fun h => ⟨h, hkk⟩⟩)
      rw [eH]
      refine ih.same (fun i hi => by rw [(Settled.clear m k).2]; exact hi) ?_
      unfold clearPolicy
      split
      · unfold emitPolicy
        split
        · simp only [GoMap.get_set]; rw [if_neg hkk]
        · split <;> · simp only [GoMap.get_set]; rw [if_neg hkk]
      · split <;> rfl

end Model

namespace FnModel

open Model

theorem FnSeen.free {build : FnBuild} {key : Str} {root : Stage} {H : Rule → Prop} {s : FnModel}
    (h : FnSeen build key root H s) : FnFree build s := by
  induction h with
  | built h => exact h.build _
  | setFunction _ name f ih => exact ih.setFunction name f
  | removeFunction _ name ih => exact ih.removeFunction name
  | setRoleManager _ k mgr _ ih => exact ih.setRoleManager k mgr
  | onManager _ k change ih => exact ih.onManager k change
  | setDef _ sec k value _ ih => exact ih.setDef sec k value
  | removeDef _ sec k _ _ ih => exact ih.removeDef sec k
  | build _ k _ ih => exact ih.build k
  | request _ gov depth ord params ih => exact ih.request gov depth ord params
  | filter _ gov depth ord params ih => exact ih.filter gov depth ord params
  | add _ rule hs ih => exact ih.add rule hs
  | remove _ rule hs ih => exact ih.remove rule hs
  | clear _ k ih => exact ih.clear k

theorem FnSeen.side {build : FnBuild} {u : Str → Res Stage} (hc : build.Coherent u) {key : Str} {root : Stage}
    {H : Rule → Prop} {s : FnModel} (h : FnSeen build key root H s)
    (hp : root.policyKey.head? = some 'p') :
    ∃ m', Seen u key root H m' ∧ PSide s.model m' ∧ SameEntry key root.policyKey s.model m' := by
  induction h with
  | @built s h expr hd hb hok =>
    obtain ⟨m', h1, h2⟩ := h.side hc
    have hu : build s.knows expr = u expr := by
      rcases hc s.knows expr with e | e
      · exact e
      · rw [hb] at e; cases e
    have e := Model.buildMatcher_congr hd hu
    have hok' : (s.model.buildMatcher u key).2 = .ok () := by rw [← e]; exact hok
    obtain ⟨h3, h4⟩ := h2.built hd (hu ▸ hb) h1.made.wellKeyed hp hok'
    have hsome : ∃ p, s.model.pMap.get root.policyKey = some p := by
      obtain ⟨p, i, mt, a, b, _⟩ := Shows.built (P := fun _ => True) (keep := True) (h2.mDefs ▸ hd) (hu ▸ hb) h3
        h1.made.tidy hp (fun _ _ _ _ => trivial)
      obtain ⟨q, hq, _⟩ := pol_build _ _ _ b
      exact ⟨q, h2.pMap ▸ hq⟩
    have e' : m'.policyRules root.policyKey = s.model.policyRules root.policyKey := by
      obtain ⟨p, hq⟩ := hsome
      unfold policyRules
      rw [h2.pMap, hq]
    have := Seen.built h1 expr (h2.mDefs ▸ hd) (hu ▸ hb) h3
    rw [e'] at this
    refine ⟨_, this, ?_, ?_⟩
    · show PSide (s.model.buildMatcher _ key).1 _
      rw [e]
      exact h2.build u key
    · show SameEntry _ _ (s.model.buildMatcher _ key).1 _
      rw [e]
      exact h4
  | setFunction _ _ _ ih => exact ih
  | removeFunction _ _ ih => exact ih
  | @setRoleManager H s _ k mgr hk ih =>
    obtain ⟨m', h1, h2, h3⟩ := ih
    refine ⟨m', h1, h2.roles _ _ _, h3.mono (fun i hi => ?_) (fun i hi => hi)⟩
    simp only [FnModel.setRoleManager]
    split
    · exact freeze_other hk hi
    · exact hi
  | @onManager H s _ k change ih =>
    obtain ⟨m', h1, h2, h3⟩ := ih
    refine ⟨m', h1, ?_⟩
    unfold FnModel.onManager
    cases s.model.rpMap.get k with
    | none => exact ⟨h2, h3⟩
    | some rp => exact ⟨h2.roles _ _ _, h3⟩
  | setDef _ sec k value hk ih =>
    obtain ⟨m', h1, h2, h3⟩ := ih
    by_cases hs : sec = 'g'
    · subst hs
      exact ⟨m', h1, h2.setDef_g k value, h3.mono (fun i hi => entry_setDef hk hi _ _) (fun i hi => hi)⟩
    · exact ⟨_, h1.setDef sec k value hk, h2.setDef sec k value hs,
        h3.mono (fun i hi => entry_setDef hk hi _ _) (fun i hi => entry_setDef hk hi _ _)⟩
  | removeDef _ sec k hk hm ih =>
    obtain ⟨m', h1, h2, h3⟩ := ih
    by_cases hs : sec = 'g'
    · subst hs
      exact ⟨m', h1, h2.removeDef_g k, h3.mono (fun i hi => entry_removeDef hk hm hi _) (fun i hi => hi)⟩
    · exact ⟨_, h1.removeDef sec k hk hm, h2.removeDef sec k hs,
        h3.mono (fun i hi => entry_removeDef hk hm hi _) (fun i hi => entry_removeDef hk hm hi _)⟩
  | @build H s h k hk ih =>
    obtain ⟨m', h1, h2, h3⟩ := ih
    rcases Model.buildMatcher_cases (hc s.knows) s.model k with e | e
    · refine ⟨_, h1.build k hk, ?_, ?_⟩
      · show PSide (s.model.buildMatcher _ k).1 _
        rw [e]; exact h2.build u k
      · show SameEntry _ _ (s.model.buildMatcher _ k).1 _
        rw [e]
        exact h3.mono (fun i hi => by rw [(Settled.build _ s.model k).2 key hk]; exact hi)
          (fun i hi => by rw [(Settled.build _ m' k).2 key hk]; exact hi)
    · refine ⟨_, h1, ?_, ?_⟩
      · show PSide (s.model.buildMatcher _ k).1 _
        rw [e]; exact h2
      · show SameEntry _ _ (s.model.buildMatcher _ k).1 _
        rw [e]; exact h3
  | @request H s h gov depth ord params ih =>
    refine Model.enforceParams_ind (Q := fun m => ∃ m', Seen u key root H m' ∧ PSide m m' ∧
      SameEntry key root.policyKey m m') (fun m e hm => ?_) ih _ _ _ _
    obtain ⟨m', h1, h2, h3⟩ := hm
    rcases Model.buildFromExpr_cases m e (hc s.knows e) with e' | e'
    · rw [e']
      exact ⟨_, h1.inline e, h2.inline u e, h3.mono
        (fun i hi => by rw [(Settled.inline u m e).2]; exact hi)
        (fun i hi => by rw [(Settled.inline u m' e).2]; exact hi)⟩
    · rw [e']; exact ⟨_, h1, h2, h3⟩
  | @filter H s h gov depth ord params ih =>
    refine Model.rangeParams_ind (Q := fun m => ∃ m', Seen u key root H m' ∧ PSide m m' ∧
      SameEntry key root.policyKey m m') (fun m e hm => ?_) ih _ _ _ _ _ _
    obtain ⟨m', h1, h2, h3⟩ := hm
    rcases Model.buildFromExpr_cases m e (hc s.knows e) with e' | e'
    · rw [e']
      exact ⟨_, h1.inline e, h2.inline u e, h3.mono
        (fun i hi => by rw [(Settled.inline u m e).2]; exact hi)
        (fun i hi => by rw [(Settled.inline u m' e).2]; exact hi)⟩
    · rw [e']; exact ⟨_, h1, h2, h3⟩
  | @add H s _ rule hs ih =>
    obtain ⟨m', h1, h2, h3⟩ := ih
    have hm : SameEntry key root.policyKey (s.model.addRule rule).1 m' :=
      h3.mono (fun i hi => by rw [(Settled.add s.model rule).2]; exact hi) (fun i hi => hi)
    by_cases hg : ∃ cs fields, rule = ('g' :: cs) :: fields
    · obtain ⟨cs, fields, rfl⟩ := hg
      have h3 := h2.add (('g' :: cs) :: fields)
      have e : (m'.addRule (('g' :: cs) :: fields)).1 = m' := by
        simp only [Model.addRule, addRoleRule, h2.rpNil]; rfl
      rw [e] at h3
      have eH : (fun r => H r ∨ ('g' :: cs) :: fields = root.policyKey :: r) = H := by
        funext r
        apply propext
        refine ⟨?_, .inl⟩
        rintro (h | h)
        · exact h
        · have := (List.cons.inj h).1
          rw [← this] at hp
          cases hp
      rw [eH]
      exact ⟨m', h1, h3, hm⟩
    · exact ⟨_, h1.add rule (FnFree.side.suits h2 hs hg), h2.add rule,
        hm.mono (fun i hi => hi) (fun i hi => by rw [(Settled.add m' rule).2]; exact hi)⟩
  | @remove H s _ rule hs ih =>
    obtain ⟨m', h1, h2, h3⟩ := ih
    have hm : SameEntry key root.policyKey (s.model.removeRule rule).1 m' :=
      h3.mono (fun i hi => by rw [(Settled.remove s.model rule).2]; exact hi) (fun i hi => hi)
    by_cases hg : ∃ cs fields, rule = ('g' :: cs) :: fields
    · obtain ⟨cs, fields, rfl⟩ := hg
      have h3 := h2.remove (('g' :: cs) :: fields)
      have e : (m'.removeRule (('g' :: cs) :: fields)).1 = m' := by
        simp only [Model.removeRule, removeRoleRule, h2.rpNil]; rfl
      rw [e] at h3
      exact ⟨m', h1, h3, hm⟩
    · exact ⟨_, h1.remove rule (FnFree.side.suits h2 hs hg), h2.remove rule,
        hm.mono (fun i hi => hi) (fun i hi => by rw [(Settled.remove m' rule).2]; exact hi)⟩
  | @clear H s _ k ih =>
    obtain ⟨m', h1, h2, h3⟩ := ih
    have hm : SameEntry key root.policyKey (s.model.clearPolicy k).1 m' :=
      h3.mono (fun i hi => by rw [(Settled.clear s.model k).2]; exact hi) (fun i hi => hi)
    have h4 := h2.clear k
    by_cases hg : k.head? = some 'g'
    · have e : (m'.clearPolicy k).1 = m' := FnFree.side.clear_g h1.bound.tied.1.made.wellKeyed h2 hg
      rw [e] at h4
      have eH : (fun r => H r ∧ k ≠ root.policyKey) = H := by
        funext r
        apply propext
        refine ⟨And.left, fun h => ⟨h, ?_⟩⟩
        rintro rfl
        rw [hp] at hg
        cases hg
      rw [eH]
      exact ⟨m', h1, h4, hm⟩
    · exact ⟨_, h1.clear k hg, h4,
        hm.mono (fun i hi => hi) (fun i hi => by rw [(Settled.clear m' k).2]; exact hi)⟩

end FnModel

end Fastac
