import Verif.Lemmas.Sound
import Verif.Lemmas.Serves
import Verif.Lemmas.Live
import Verif.Spec.InStep

/-!
# Every matcher indexes the rules of its policy
-/

namespace Fastac

/-- The matcher belongs to the definition and indexes exactly the rules `R`. -/
structure Matcher.Has (d : PolicyDef) (R : Rule → Prop) (mt : Matcher) : Prop where
  pdef : mt.pDef = d
  bin : mt.exprRoot.Binary
  idx : Idx d mt.exprRoot mt.root R

theorem Matcher.Has.congr {d : PolicyDef} {R R' : Rule → Prop} {mt : Matcher} (h : mt.Has d R)
    (e : ∀ r, R r ↔ R' r) : mt.Has d R' := ⟨h.pdef, h.bin, Idx_congr _ _ _ e h.idx⟩

theorem Matcher.Has.added {d : PolicyDef} {R : Rule → Prop} {mt : Matcher} (h : mt.Has d R) {r : Rule}
    (g : GoodRule d r) : ∃ mt', mt.handle (.added r) = .ok mt' ∧ mt'.Has d (fun x => x = r ∨ R x) := by
  obtain ⟨n', e1, _, e3⟩ := addStage_idx d r g mt.exprRoot mt.root R h.bin.2 h.idx
  refine ⟨{ mt with root := n' }, ?_, h.pdef, h.bin, e3⟩
  simp only [Matcher.handle, Matcher.addRule]; rw [h.pdef, e1]; rfl

theorem Matcher.Has.removed {d : PolicyDef} {R : Rule → Prop} {mt : Matcher} (h : mt.Has d R) {r : Rule}
    (g : GoodRule d r) (hR : ∀ x, R x → GoodRule d x) :
    ∃ mt', mt.handle (.removed r) = .ok mt' ∧ mt'.Has d (fun x => R x ∧ x ≠ r) := by
  obtain ⟨n', e1, _, e3⟩ := removeStage_idx d r g mt.exprRoot mt.root R hR h.idx
  refine ⟨{ mt with root := n' }, ?_, h.pdef, h.bin, e3⟩
  simp only [Matcher.handle, Matcher.removeRule]; rw [h.pdef, e1]; rfl

theorem Matcher.Has.cleared {d : PolicyDef} {R : Rule → Prop} {mt : Matcher} (h : mt.Has d R) :
    ∃ mt', mt.handle .cleared = .ok mt' ∧ mt'.Has d (fun _ => False) :=
  ⟨_, rfl, h.pdef, h.bin, Idx_new d [[]] _ h.bin.1⟩

theorem notify_all {P Q : Matcher → Prop} {e : PolEvent}
    (hs : ∀ mt, P mt → ∃ mt', mt.handle e = .ok mt' ∧ Q mt') : ∀ ls : List Matcher, (∀ mt ∈ ls, P mt) →
    ∃ ls', notify ls e = .ok ls' ∧ ∀ mt ∈ ls', Q mt
  | [], _ => ⟨[], rfl, by simp⟩
  | mt :: ls, h => by
    obtain ⟨mt', e1, h1⟩ := hs mt (h mt (by simp))
    obtain ⟨ls', e2, h2⟩ := notify_all hs ls (fun x hx => h x (by simp [hx]))
    refine ⟨mt' :: ls', by simp only [notify, e1, e2, Res.bind_ok, Res.map_ok], ?_⟩
    intro x hx
    rcases List.mem_cons.1 hx with rfl | hx
    · exact h1
    · exact h2 x hx

namespace Model

/-- The definition a matcher on a role policy uses (model.go:234-236). -/
abbrev gDef (k : Str) : PolicyDef := newPolicyDef k (s% "user, role, domain")

structure Step (m : Model) : Prop where
  defs : ∀ k d, m.pDefs.get k = some d → d.key = k
  p : ∀ k p, m.pMap.get k = some p → ∃ d, m.pDefs.get k = some d ∧
    (∀ r ∈ p.policy.rules, GoodRule d r) ∧ ∀ mt ∈ p.listeners, mt.Has d (· ∈ p.policy.rules)
  g : ∀ k rp, m.rpMap.get k = some rp → m.gDefs.get k ≠ some 2 →
    (∀ r ∈ rp.rules, GoodRule (gDef k) r) ∧ ∀ mt ∈ rp.listeners, mt.Has (gDef k) (· ∈ rp.rules)

theorem Step.new : Model.new.Step :=
  ⟨by simp [Model.new], by simp [Model.new], by simp [Model.new]⟩

theorem Step.congr {m m' : Model} (h : m.Step) (h1 : m'.pDefs = m.pDefs) (h2 : m'.pMap = m.pMap)
    (h3 : m'.rpMap = m.rpMap) (h4 : m'.gDefs = m.gDefs) : m'.Step :=
  ⟨by rw [h1]; exact h.defs, by rw [h1, h2]; exact h.p, by rw [h3, h4]; exact h.g⟩

theorem Step.setP {m : Model} (h : m.Step) {k : Str} {d : PolicyDef} (hd : m.pDefs.get k = some d)
    (p' : PolObj) (h1 : ∀ r ∈ p'.policy.rules, GoodRule d r)
    (h2 : ∀ mt ∈ p'.listeners, mt.Has d (· ∈ p'.policy.rules)) :
    Step { m with pMap := m.pMap.set k p' } := by
  refine ⟨h.defs, fun k' q hq => ?_, h.g⟩
  simp only [GoMap.get_set] at hq
  split at hq
  · rename_i e; subst e; cases hq; exact ⟨d, hd, h1, h2⟩
  · exact h.p k' q hq

theorem Step.setG {m : Model} (h : m.Step) (k : Str) (rp' : RolePolicy)
    (h1 : m.gDefs.get k ≠ some 2 → (∀ r ∈ rp'.rules, GoodRule (gDef k) r) ∧
      ∀ mt ∈ rp'.listeners, mt.Has (gDef k) (· ∈ rp'.rules)) :
    Step { m with rpMap := m.rpMap.set k rp' } := by
  refine ⟨h.defs, h.p, fun k' q hq hg => ?_⟩
  simp only [GoMap.get_set] at hq
  split at hq
  · rename_i e; subst e; cases hq; exact h1 hg
  · exact h.g k' q hq hg

theorem Step.emit {m : Model} (h : m.Step) {k : Str} {d : PolicyDef} (hd : m.pDefs.get k = some d)
    {p : PolObj} (pol : Policy) (e : PolEvent) {α : Type} (a : α)
    (hg : ∀ r ∈ pol.rules, GoodRule d r) (hl : ∀ mt ∈ p.listeners, mt.Has d (· ∈ p.policy.rules))
    (hs : ∀ mt : Matcher, mt.Has d (· ∈ p.policy.rules) →
      ∃ mt', mt.handle e = .ok mt' ∧ mt'.Has d (· ∈ pol.rules)) :
    (m.emitPolicy k p.listeners pol a (some e)).1.Step := by
  obtain ⟨ls', e1, h1⟩ := notify_all hs p.listeners hl
  unfold emitPolicy
  simp only [e1]
  exact h.setP hd ⟨pol, ls'⟩ hg h1

theorem Step.addPolicyRule {m : Model} (h : m.Step) (ht : m.Tidy) (k : Str) (r : Rule)
    (hg : ∀ d, m.pDefs.get k = some d → GoodRule d r) : (m.addPolicyRule k r).1.Step := by
  unfold Model.addPolicyRule
  cases hp : m.pMap.get k with
  | none => exact h
  | some p =>
    simp only
    obtain ⟨d, hd, h1, h2⟩ := h.p k p hp
    obtain ⟨_, w2, w3, w4⟩ := (ht.pols k p hp).2.1.addRule r
    cases hb : (p.policy.addRule r).2.1 with
    | false =>
      rw [hb] at w3 w4
      simp only [Bool.false_eq_true, if_false, false_and, or_false] at w3 w4
      rw [w4]
      refine h.setP hd ⟨_, p.listeners⟩ (fun x hx => h1 x ((w3 x).1 hx)) (fun mt hm => ?_)
      exact (h2 mt hm).congr (fun x => (w3 x).symm)
    | true =>
      rw [hb] at w3 w4
      simp only [if_true, true_and] at w3 w4
      rw [w4]
      refine h.emit hd _ _ _ ?_ h2 (fun mt hm => ?_)
      · intro x hx
        rcases (w3 x).1 hx with hx | rfl
        · exact h1 x hx
        · exact hg d hd
      · obtain ⟨mt', a, b⟩ := hm.added (hg d hd)
        exact ⟨mt', a, b.congr (fun x => by rw [w3, or_comm])⟩

theorem Step.removePolicyRule {m : Model} (h : m.Step) (ht : m.Tidy) (k : Str) (r : Rule)
    (hg : ∀ d, m.pDefs.get k = some d → GoodRule d r) : (m.removePolicyRule k r).1.Step := by
  unfold Model.removePolicyRule
  cases hp : m.pMap.get k with
  | none => exact h
  | some p =>
    simp only
    obtain ⟨d, hd, h1, h2⟩ := h.p k p hp
    obtain ⟨_, w2, w3, w4⟩ := (ht.pols k p hp).2.1.removeRule r
    have w3' : ∀ x, x ∈ (p.policy.removeRule r).1.rules ↔ x ∈ p.policy.rules ∧ x ≠ r := by
      intro x
      rw [w3]
      constructor
      · rintro ⟨a, b⟩; exact ⟨a, fun e => b (by rw [e])⟩
      · rintro ⟨a, b⟩; exact ⟨a, fun e => b ((h1 x a).hash_inj (hg d hd) e)⟩
    cases hb : (p.policy.removeRule r).2.1 with
    | false =>
      rw [hb] at w4 w2
      simp only [Bool.false_eq_true, if_false, false_iff] at w4 w2
      rw [w4]
      refine h.setP hd ⟨_, p.listeners⟩ (fun x hx => h1 x ((w3' x).1 hx).1) (fun mt hm => ?_)
      refine (h2 mt hm).congr (fun x => ?_)
      rw [w3']
      exact ⟨fun hx => ⟨hx, fun e => w2 ⟨x, hx, by rw [e]⟩⟩, And.left⟩
    | true =>
      rw [hb] at w4
      simp only [if_true] at w4
      rw [w4]
      refine h.emit hd _ _ _ (fun x hx => h1 x ((w3' x).1 hx).1) h2 (fun mt hm => ?_)
      obtain ⟨mt', a, b⟩ := hm.removed (hg d hd) h1
      exact ⟨mt', a, b.congr (fun x => by rw [w3'])⟩

theorem good_g {k : Str} {f : Rule} (h : f.length = 3) (hc : ∀ x ∈ f, ',' ∉ x) : GoodRule (gDef k) f :=
  ⟨h, (fun e => by rw [e] at h; cases h), hc⟩

theorem Step.addRoleRule {m : Model} (h : m.Step) (ht : m.Tidy) (k : Str) (f : Rule)
    (hf : m.Fits (k :: f)) (hg : m.gDefs.get k ≠ some 2 → GoodRule (gDef k) f) :
    (m.addRoleRule k f).1.Step := by
  unfold Model.addRoleRule
  cases hp : m.rpMap.get k with
  | none => exact h
  | some rp =>
    simp only
    refine h.setG k _ (fun h2 => ?_)
    obtain ⟨g1, g2⟩ := h.g k rp hp h2
    obtain ⟨u, r, ds, rfl, hd⟩ := ht.pathOk hp hf
    have does := RolePolicy.addRule_does (ht.roles k rp hp).2.1 u r ds hd
    have hgood := hg h2
    refine ⟨fun x hx => ?_, ?_⟩
    · rcases (does.rules x).1 hx with hx | rfl
      · exact g1 x hx
      · exact hgood
    · suffices hh : ∀ mt ∈ (rp.addRule (u :: r :: ds)).1.listeners,
          mt.Has (gDef k) (fun x => x ∈ rp.rules ∨ x = u :: r :: ds) from
        fun mt hm => (hh mt hm).congr (fun x => (does.rules x).symm)
      obtain ⟨mgr', b, e, -, -, hb, -⟩ := (ht.roles k rp hp).2.1.addLink u r ds hd
      unfold RolePolicy.addRule
      simp only [e]
      cases b with
      | false =>
        simp only
        intro mt hm
        have hin : u :: r :: ds ∈ rp.rules := by
          rw [RolePolicy.mem_rules]
          refine ⟨u, r, ds, rfl, ?_⟩
          apply Classical.byContradiction
          intro hn
          exact absurd (hb.2 hn) (by simp)
        exact (g2 mt hm).congr (fun x => ⟨Or.inl, fun hx => hx.elim id (fun e => e ▸ hin)⟩)
      | true =>
        simp only
        obtain ⟨ls', e1, h1⟩ := notify_all (e := .added (u :: r :: ds))
          (Q := fun mt => mt.Has (gDef k) (fun x => x ∈ rp.rules ∨ x = u :: r :: ds))
          (fun mt (hm : mt.Has (gDef k) (· ∈ rp.rules)) => by
            obtain ⟨mt', a, b⟩ := hm.added hgood
            exact ⟨mt', a, b.congr (fun x => or_comm)⟩) rp.listeners g2
        unfold RolePolicy.emit
        simp only [e1]
        exact h1

theorem Step.removeRoleRule {m : Model} (h : m.Step) (ht : m.Tidy) (k : Str) (f : Rule)
    (hf : m.Fits (k :: f)) (hg : m.gDefs.get k ≠ some 2 → GoodRule (gDef k) f) :
    (m.removeRoleRule k f).1.Step := by
  unfold Model.removeRoleRule
  cases hp : m.rpMap.get k with
  | none => exact h
  | some rp =>
    simp only
    refine h.setG k _ (fun h2 => ?_)
    obtain ⟨g1, g2⟩ := h.g k rp hp h2
    obtain ⟨u, r, ds, rfl, hd⟩ := ht.pathOk hp hf
    have does := RolePolicy.removeRule_does (ht.roles k rp hp).2.1 u r ds hd
    have hgood := hg h2
    refine ⟨fun x hx => g1 x ((does.rules x).1 hx).1, ?_⟩
    suffices hh : ∀ mt ∈ (rp.removeRule (u :: r :: ds)).1.listeners,
        mt.Has (gDef k) (fun x => x ∈ rp.rules ∧ x ≠ u :: r :: ds) from
      fun mt hm => (hh mt hm).congr (fun x => (does.rules x).symm)
    obtain ⟨mgr', b, e, -, -, hb, -⟩ := (ht.roles k rp hp).2.1.deleteLink u r ds hd
    unfold RolePolicy.removeRule
    simp only [e]
    cases b with
    | false =>
      simp only
      intro mt hm
      have hin : u :: r :: ds ∉ rp.rules := by
        rw [RolePolicy.mem_rules]
        rintro ⟨u', r', ds', e, hl⟩
        cases e
        exact absurd (hb.2 hl) (by simp)
      exact (g2 mt hm).congr (fun x => ⟨fun hx => ⟨hx, fun e => hin (e ▸ hx)⟩, And.left⟩)
    | true =>
      simp only
      obtain ⟨ls', e1, h1⟩ := notify_all (e := .removed (u :: r :: ds))
        (Q := fun mt => mt.Has (gDef k) (fun x => x ∈ rp.rules ∧ x ≠ u :: r :: ds))
        (fun mt (hm : mt.Has (gDef k) (· ∈ rp.rules)) => hm.removed hgood g1) rp.listeners g2
      unfold RolePolicy.emit
      simp only [e1]
      exact h1

theorem Step.addRule {m : Model} (h : m.Step) (ht : m.Tidy) (rule : Rule) (hs : m.Suits rule) :
    (m.addRule rule).1.Step := by
  unfold Model.addRule
  split
  · exact h
  · exact h
  · rename_i c cs f
    obtain ⟨hf, hp, hg⟩ := hs
    simp only
    split
    · rename_i hc
      exact h.addPolicyRule ht _ _ (hp (by rw [hc]; rfl))
    · split
      · rename_i hc
        exact h.addRoleRule ht _ _ hf (fun h2 => good_g (hg (by rw [hc]; rfl) h2).1 (hg (by rw [hc]; rfl) h2).2)
      · exact h

theorem Step.removeRule {m : Model} (h : m.Step) (ht : m.Tidy) (rule : Rule) (hs : m.Suits rule) :
    (m.removeRule rule).1.Step := by
  unfold Model.removeRule
  split
  · exact h
  · exact h
  · rename_i c cs f
    obtain ⟨hf, hp, hg⟩ := hs
    simp only
    split
    · rename_i hc
      exact h.removePolicyRule ht _ _ (hp (by rw [hc]; rfl))
    · split
      · rename_i hc
        exact h.removeRoleRule ht _ _ hf
          (fun h2 => good_g (hg (by rw [hc]; rfl) h2).1 (hg (by rw [hc]; rfl) h2).2)
      · exact h

theorem Step.clear {m : Model} (h : m.Step) (ht : m.Tidy) (k : Str) (hk : k.head? ≠ some 'g') :
    (m.clearPolicy k).1.Step := by
  unfold Model.clearPolicy
  cases hp : m.pMap.get k with
  | some p =>
    obtain ⟨d, hd, h1, h2⟩ := h.p k p hp
    refine h.emit hd _ _ _ (by simp [Policy.clear, Policy.rules]) h2 (fun mt hm => ?_)
    obtain ⟨mt', a, b⟩ := hm.cleared
    exact ⟨mt', a, b.congr (by simp [Policy.clear, Policy.rules])⟩
  | none =>
    cases hr : m.rpMap.get k with
    | none => exact h
    | some rp => exact absurd (ht.roles k rp hr).1 hk

theorem Step.setDef {m : Model} (h : m.Step) (sec : Char) (key value : Str) :
    (m.setDef sec key value).1.Step := by
  unfold Model.setDef
  split
  · exact h
  · split
    · exact h
    · split
      · exact h
      · split
        · exact h.congr rfl rfl rfl rfl
        · split
          · refine ⟨fun k d hd => ?_, fun k p hp => ?_, h.g⟩
            · simp only [GoMap.get_set] at hd
              split at hd
              · rename_i e; cases hd; exact e
              · exact h.defs k d hd
            · simp only [GoMap.get_set] at hp ⊢
              split at hp
              · cases hp
                rename_i e
                rw [if_pos e]
                exact ⟨_, rfl, by simp [Policy.empty, Policy.rules], by simp⟩
              · rename_i e
                rw [if_neg e]
                exact h.p k p hp
          · split
            · refine ⟨h.defs, h.p, fun k rp hp hg => ?_⟩
              simp only [GoMap.get_set] at hp hg
              split at hp
              · cases hp
                refine ⟨?_, by simp⟩
                intro r hr
                rw [RolePolicy.mem_rules] at hr
                obtain ⟨u, x, ds, -, hl⟩ := hr
                simp only at hl
                split at hl
                · simp [Mgr.links_rm, RM.links, RM.new] at hl
                · simp [Mgr.links_dm, DM.range, DM.new, DM.dfltLinks, DM.rangeSubs] at hl
              · rename_i e
                rw [if_neg e] at hg
                exact h.g k rp hp hg
            · split
              · exact h.congr rfl rfl rfl rfl
              · exact h.congr rfl rfl rfl rfl

theorem Step.removeDef {m : Model} (h : m.Step) (sec : Char) (key : Str) :
    (m.removeDef sec key).1.Step := by
  unfold Model.removeDef
  split
  · exact h.congr rfl rfl rfl rfl
  · split
    · refine ⟨fun k d hd => ?_, fun k p hp => ?_, h.g⟩
      · simp only [GoMap.get_del] at hd
        split at hd
        · cases hd
        · exact h.defs k d hd
      · simp only [GoMap.get_del] at hp ⊢
        split at hp
        · cases hp
        · rename_i e
          rw [if_neg e]
          exact h.p k p hp
    · split
      · refine ⟨h.defs, h.p, fun k rp hp hg => ?_⟩
        simp only [GoMap.get_del] at hp hg
        split at hp
        · cases hp
        · rename_i e
          rw [if_neg e] at hg
          exact h.g k rp hp hg
      · split
        · exact h.congr rfl rfl rfl rfl
        · split
          · exact h.congr rfl rfl rfl rfl
          · exact h

theorem Step.buildMatcher {m : Model} (h : m.Step) (ht : m.Tidy) {build : Str → Res Stage}
    (hb : ∀ e s, build e = .ok s → s.Binary) (key : Str) : (m.buildMatcher build key).1.Step := by
  unfold Model.buildMatcher
  split
  · exact h
  · split
    · exact h
    · exact h
    · rename_i root hroot
      split
      · exact h
      · exact h
      · rename_i pDef hpd
        split
        · rename_i p hg
          obtain ⟨d, hd, h1, h2⟩ := h.p _ p hg
          have hdd : pDef = d := by
            have hk := (ht.pols _ p hg).1
            unfold matcherPolicyDef at hpd
            cases hpk : root.policyKey with
            | nil => rw [hpk] at hk; cases hk
            | cons c cs =>
              rw [hpk] at hk hpd hd
              simp only [List.head?_cons, Option.some.injEq] at hk
              subst hk
              simp only [if_true, hd, Res.ok.injEq] at hpd
              exact hpd.symm
          subst hdd
          obtain ⟨mt, e, a1, a2, a3⟩ := newMatcher_idx pDef root (hb _ _ hroot) p.policy.rules h1
          rw [e]
          simp only
          have := h.setP hd ⟨p.policy, p.listeners ++ [mt]⟩ h1 (by
            intro x hx
            rcases List.mem_append.1 hx with hx | hx
            · exact h2 x hx
            · rw [List.mem_singleton] at hx
              subst hx
              exact ⟨a1, a2 ▸ hb _ _ hroot, a2 ▸ a3⟩)
          exact this.congr rfl rfl rfl rfl
        · split
          · exact h
          · rename_i rp hg
            split
            · exact h
            · exact h
            · rename_i mt hmt
              have := h.setG root.policyKey ⟨rp.mgr, rp.listeners ++ [mt]⟩ (fun h2 => by
                obtain ⟨g1, g2⟩ := h.g _ rp hg h2
                refine ⟨g1, fun x hx => ?_⟩
                rcases List.mem_append.1 hx with hx | hx
                · exact g2 x hx
                · rw [List.mem_singleton] at hx
                  subst hx
                  have hdd : pDef = gDef root.policyKey := by
                    have hk := (ht.roles _ rp hg).1
                    unfold matcherPolicyDef at hpd
                    cases hpk : root.policyKey with
                    | nil => rw [hpk] at hk; cases hk
                    | cons c cs =>
                      rw [hpk] at hk hpd
                      simp only [List.head?_cons, Option.some.injEq] at hk
                      subst hk
                      simp only [show ('g' : Char) ≠ 'p' by decide, if_false, if_true, Res.ok.injEq] at hpd
                      exact hpd.symm
                  subst hdd
                  obtain ⟨mt', e, a1, a2, a3⟩ := newMatcher_idx (gDef root.policyKey) root (hb _ _ hroot)
                    rp.rules g1
                  rw [hmt] at e
                  cases e
                  exact ⟨a1, a2 ▸ hb _ _ hroot, a2 ▸ a3⟩)
              exact this.congr rfl rfl rfl rfl

theorem Step.inline {m : Model} (h : m.Step) (ht : m.Tidy) {build : Str → Res Stage}
    (hb : ∀ e s, build e = .ok s → s.Binary) (expr : Str) : (m.buildFromExpr build expr).1.Step := by
  rw [buildFromExpr_eq]
  exact Step.congr ((h.congr rfl rfl rfl rfl : Step { m with mDefs := m.mDefs.set [] expr }).buildMatcher
    (ht.of_eq rfl rfl rfl) hb []) rfl rfl rfl rfl

theorem Suits.fits {m : Model} {r : Rule} (h : m.Suits r) : m.Fits r := by
  cases r with
  | nil => trivial
  | cons k f => exact h.1

theorem Kept.made {build : Str → Res Stage} {m : Model} (h : Kept build m) : Made build m := by
  induction h with
  | new => exact .new
  | setDef _ sec key value ih => exact ih.setDef sec key value
  | removeDef _ sec key ih => exact ih.removeDef sec key
  | build _ key ih => exact ih.build key
  | inline _ expr ih => exact ih.inline expr
  | add _ rule hs ih => exact ih.add rule hs.fits
  | remove _ rule hs ih => exact ih.remove rule hs.fits
  | clear _ key _ ih => exact ih.clear key

theorem Kept.step {build : Str → Res Stage} (hb : ∀ e s, build e = .ok s → s.Binary) {m : Model}
    (h : Kept build m) : m.Step := by
  induction h with
  | new => exact .new
  | setDef _ sec key value ih => exact ih.setDef sec key value
  | removeDef _ sec key ih => exact ih.removeDef sec key
  | build h key ih => exact ih.buildMatcher h.made.tidy hb key
  | inline h expr ih => exact ih.inline h.made.tidy hb expr
  | add h rule hs ih => exact ih.addRule h.made.tidy rule hs
  | remove h rule hs ih => exact ih.removeRule h.made.tidy rule hs
  | clear h key hk ih => exact ih.clear h.made.tidy key hk

end Model

namespace Model

/-! ## Matchers stay in place -/

theorem handle_root {mt mt' : Matcher} {e : PolEvent} (h : mt.handle e = .ok mt') :
    mt'.exprRoot = mt.exprRoot := by
  unfold Matcher.handle at h
  cases e with
  | added r =>
    simp only [Matcher.addRule] at h
    cases h1 : addStage mt.pDef r mt.exprRoot mt.root <;> rw [h1] at h <;> cases h
    rfl
  | removed r =>
    simp only [Matcher.removeRule] at h
    cases h1 : removeStage mt.pDef r mt.exprRoot mt.root <;> rw [h1] at h <;> cases h
    rfl
  | cleared => cases h; rfl

/-- All matchers have a matcher for the same stages at the same place. -/
def Stay (ls ls' : List Matcher) : Prop :=
  ∀ (i : Nat) mt, ls[i]? = some mt → ∃ mt', ls'[i]? = some mt' ∧ mt'.exprRoot = mt.exprRoot

theorem Stay.self (ls : List Matcher) : Stay ls ls := fun _ mt h => ⟨mt, h, rfl⟩

theorem Stay.notify {ls ls' : List Matcher} {e : PolEvent} (h : notify ls e = .ok ls') : Stay ls ls' :=
  fun i mt hi => by
    obtain ⟨mt', h1, h2⟩ := notify_get e ls ls' h i mt hi
    exact ⟨mt', h2, handle_root h1⟩

theorem Stay.append (ls : List Matcher) (x : Matcher) : Stay ls (ls ++ [x]) := fun i mt hi => by
  refine ⟨mt, ?_, rfl⟩
  obtain ⟨hlt, -⟩ := List.getElem?_eq_some_iff.1 hi
  rw [List.getElem?_append_left hlt, hi]

/-- Entry `x` is for the same stages in both models. -/
def Settled (m m' : Model) : Prop :=
  ∀ k i mt, m.resolve (.live k i) = some mt → ∃ mt', m'.resolve (.live k i) = some mt' ∧
    mt'.exprRoot = mt.exprRoot

theorem Settled.self (m : Model) : Settled m m := fun _ _ mt h => ⟨mt, h, rfl⟩

theorem Settled.setP {m : Model} {k : Str} {p : PolObj} (hg : m.pMap.get k = some p) (p' : PolObj)
    (hs : Stay p.listeners p'.listeners) : Settled m { m with pMap := m.pMap.set k p' } := by
  intro k' i mt hr
  unfold resolve at hr ⊢
  simp only [GoMap.get_set] at hr ⊢
  by_cases e : k' = k
  · subst e
    rw [hg] at hr
    simp only [if_true]
    exact hs i mt hr
  · rw [if_neg (Ne.symm e)]
    exact ⟨mt, hr, rfl⟩

theorem Settled.setG {m : Model} {k : Str} {p : RolePolicy} (hg : m.rpMap.get k = some p) (p' : RolePolicy)
    (hs : Stay p.listeners p'.listeners) : Settled m { m with rpMap := m.rpMap.set k p' } := by
  intro k' i mt hr
  unfold resolve at hr ⊢
  simp only [GoMap.get_set] at hr ⊢
  cases hp : m.pMap.get k' with
  | some q => rw [hp] at hr; exact ⟨mt, hr, rfl⟩
  | none =>
    rw [hp] at hr
    simp only at hr ⊢
    by_cases e : k' = k
    · subst e
      rw [hg] at hr
      simp only [if_true]
      exact hs i mt hr
    · rw [if_neg (Ne.symm e)]
      exact ⟨mt, hr, rfl⟩

theorem Settled.emit {α : Type} {m : Model} {k : Str} {p : PolObj} (hg : m.pMap.get k = some p)
    (pol : Policy) (a : α) (e : Option PolEvent) : Settled m (m.emitPolicy k p.listeners pol a e).1 ∧
      (m.emitPolicy k p.listeners pol a e).1.mMap = m.mMap := by
  unfold Model.emitPolicy
  cases e with
  | none => exact ⟨.setP hg _ (.self _), rfl⟩
  | some e =>
    simp only
    cases hn : Fastac.notify p.listeners e with
    | ok ls' => exact ⟨.setP hg _ (.notify hn), rfl⟩
    | err => exact ⟨.setP hg _ (.self _), rfl⟩
    | panic => exact ⟨.setP hg _ (.self _), rfl⟩

theorem Stay.emit (rp : RolePolicy) (mgr : Mgr) (e : PolEvent) :
    Stay rp.listeners (rp.emit mgr e).1.listeners := by
  unfold RolePolicy.emit
  cases hn : Fastac.notify rp.listeners e with
  | ok ls' => exact .notify hn
  | err => exact .self _
  | panic => exact .self _

theorem Stay.roleAdd (rp : RolePolicy) (r : Rule) : Stay rp.listeners (rp.addRule r).1.listeners := by
  unfold RolePolicy.addRule
  split
  · split
    · exact .emit _ _ _
    · exact .self _
    · exact .self _
    · exact .self _
  · exact .self _

theorem Stay.roleRemove (rp : RolePolicy) (r : Rule) :
    Stay rp.listeners (rp.removeRule r).1.listeners := by
  unfold RolePolicy.removeRule
  split
  · split
    · exact .emit _ _ _
    · exact .self _
    · exact .self _
    · exact .self _
  · exact .self _

theorem Settled.add (m : Model) (rule : Rule) : Settled m (m.addRule rule).1 ∧
    (m.addRule rule).1.mMap = m.mMap := by
  unfold Model.addRule
  split
  · exact ⟨.self _, rfl⟩
  · exact ⟨.self _, rfl⟩
  · simp only
    split
    · unfold Model.addPolicyRule
      split
      · exact ⟨.self _, rfl⟩
      · rename_i hg; exact Settled.emit hg _ _ _
    · split
      · unfold Model.addRoleRule
        split
        · exact ⟨.self _, rfl⟩
        · rename_i hg; exact ⟨.setG hg _ (.roleAdd _ _), rfl⟩
      · exact ⟨.self _, rfl⟩

theorem Settled.remove (m : Model) (rule : Rule) : Settled m (m.removeRule rule).1 ∧
    (m.removeRule rule).1.mMap = m.mMap := by
  unfold Model.removeRule
  split
  · exact ⟨.self _, rfl⟩
  · exact ⟨.self _, rfl⟩
  · simp only
    split
    · unfold Model.removePolicyRule
      split
      · exact ⟨.self _, rfl⟩
      · rename_i hg; exact Settled.emit hg _ _ _
    · split
      · unfold Model.removeRoleRule
        split
        · exact ⟨.self _, rfl⟩
        · rename_i hg; exact ⟨.setG hg _ (.roleRemove _ _), rfl⟩
      · exact ⟨.self _, rfl⟩

theorem Settled.clear (m : Model) (k : Str) : Settled m (m.clearPolicy k).1 ∧
    (m.clearPolicy k).1.mMap = m.mMap := by
  unfold Model.clearPolicy
  split
  · rename_i hg; exact Settled.emit hg _ _ _
  · split
    · rename_i hg; exact ⟨.setG hg _ (.self _), rfl⟩
    · exact ⟨.self _, rfl⟩

/-- The entry `key` is a listener of the policy, for these stages. -/
def Tied (key : Str) (root : Stage) (m : Model) : Prop :=
  ∃ i mt, m.mMap.get key = some (.live root.policyKey i) ∧
    m.resolve (.live root.policyKey i) = some mt ∧ mt.exprRoot = root

theorem Tied.same {key : Str} {root : Stage} {m m' : Model} (h : Tied key root m) (h1 : Settled m m')
    (h2 : m'.mMap.get key = m.mMap.get key) : Tied key root m' := by
  obtain ⟨i, mt, a, b, c⟩ := h
  obtain ⟨mt', b', c'⟩ := h1 _ _ _ b
  exact ⟨i, mt', h2.trans a, b', c'.trans c⟩

theorem newMatcher_root {d : PolicyDef} {root : Stage} {rules : List Rule} {mt : Matcher}
    (h : newMatcher d root rules = .ok mt) : mt.exprRoot = root := by
  have step : ∀ (l : List Rule) (x : Res Matcher) (mt : Matcher),
      l.foldl (fun acc r => acc.bind (fun m => m.addRule r)) x = .ok mt →
      ∃ y, x = .ok y ∧ mt.exprRoot = y.exprRoot := by
    intro l
    induction l with
    | nil => intro x mt h; exact ⟨mt, h, rfl⟩
    | cons r l ih =>
      intro x mt h
      obtain ⟨y, e, h1⟩ := ih _ _ h
      cases x with
      | err => cases e
      | panic => cases e
      | ok z => exact ⟨z, rfl, h1.trans (handle_root (e := .added r) e)⟩
  obtain ⟨y, e, h1⟩ := step _ _ _ h
  cases e
  exact h1

theorem Tied.built {build : Str → Res Stage} {key : Str} {root : Stage} {m : Model} {expr : Str}
    (hd : m.mDefs.get key = some expr) (hb : build expr = .ok root)
    (hok : (m.buildMatcher build key).2 = .ok ()) : Tied key root (m.buildMatcher build key).1 := by
  unfold Model.buildMatcher at hok ⊢
  simp only [hd, hb] at hok ⊢
  cases hm : m.matcherPolicyDef root.policyKey with
  | err => rw [hm] at hok; cases hok
  | panic => rw [hm] at hok; cases hok
  | ok pDef =>
    rw [hm] at hok
    simp only at hok ⊢
    cases hp : m.pMap.get root.policyKey with
    | some p =>
      rw [hp] at hok
      simp only at hok ⊢
      cases hn : newMatcher pDef root p.policy.rules with
      | err => rw [hn] at hok; cases hok
      | panic => rw [hn] at hok; cases hok
      | ok mt =>
        refine ⟨p.listeners.length, mt, ?_, ?_, newMatcher_root hn⟩
        · simp
        · simp [resolve]
    | none =>
      rw [hp] at hok
      simp only at hok ⊢
      cases hr : m.rpMap.get root.policyKey with
      | none => rw [hr] at hok; cases hok
      | some rp =>
        rw [hr] at hok
        simp only at hok ⊢
        cases hn : newMatcher pDef root rp.rules with
        | err => rw [hn] at hok; cases hok
        | panic => rw [hn] at hok; cases hok
        | ok mt =>
          refine ⟨rp.listeners.length, mt, ?_, ?_, newMatcher_root hn⟩
          · simp
          · simp [resolve, hp]

theorem Settled.build (build : Str → Res Stage) (m : Model) (k : Str) :
    Settled m (m.buildMatcher build k).1 ∧
      ∀ key, k ≠ key → (m.buildMatcher build k).1.mMap.get key = m.mMap.get key := by
  unfold Model.buildMatcher
  split
  · exact ⟨.self _, fun _ _ => rfl⟩
  · split
    · exact ⟨.self _, fun _ _ => rfl⟩
    · exact ⟨.self _, fun _ _ => rfl⟩
    · split
      · exact ⟨.self _, fun _ _ => rfl⟩
      · exact ⟨.self _, fun _ _ => rfl⟩
      · split
        · rename_i hg
          split
          · exact ⟨.self _, fun _ _ => rfl⟩
          · exact ⟨.self _, fun _ _ => rfl⟩
          · exact ⟨Settled.setP hg _ (.append _ _), fun key h => by simp [GoMap.get_set, h]⟩
        · split
          · exact ⟨.self _, fun _ _ => rfl⟩
          · rename_i hg
            split
            · exact ⟨.self _, fun _ _ => rfl⟩
            · exact ⟨.self _, fun _ _ => rfl⟩
            · exact ⟨Settled.setG hg _ (.append _ _), fun key h => by simp [GoMap.get_set, h]⟩

theorem Settled.inline (build : Str → Res Stage) (m : Model) (expr : Str) :
    Settled m (m.buildFromExpr build expr).1 ∧ (m.buildFromExpr build expr).1.mMap = m.mMap := by
  unfold Model.buildFromExpr
  split
  · exact ⟨.self _, rfl⟩
  · exact ⟨.self _, rfl⟩
  · split
    · exact ⟨.self _, rfl⟩
    · exact ⟨.self _, rfl⟩
    · split
      · rename_i hg
        split
        · exact ⟨.self _, rfl⟩
        · exact ⟨.self _, rfl⟩
        · exact ⟨Settled.setP hg _ (.append _ _), rfl⟩
      · split
        · exact ⟨.self _, rfl⟩
        · rename_i hg
          split
          · exact ⟨.self _, rfl⟩
          · exact ⟨.self _, rfl⟩
          · exact ⟨Settled.setG hg _ (.append _ _), rfl⟩

theorem Tied.redefined {key : Str} {root : Stage} {m m' : Model} (h : Tied key root m) {k : Str}
    (hk : k ≠ root.policyKey) (h1 : m'.mMap = m.freeze k)
    (h2 : m'.pMap.get root.policyKey = m.pMap.get root.policyKey)
    (h3 : m'.rpMap.get root.policyKey = m.rpMap.get root.policyKey) : Tied key root m' := by
  obtain ⟨i, mt, a, b, c⟩ := h
  refine ⟨i, mt, ?_, ?_, c⟩
  · rw [h1, get_freeze, a]
    simp only [Option.map_some, frozen]
    rw [if_neg (Ne.symm hk)]
  · unfold resolve at b ⊢
    simp only [h2, h3]
    exact b

theorem Tied.dropped {key : Str} {root : Stage} {m m' : Model} (h : Tied key root m) {k : Str}
    (hk : k ≠ root.policyKey) {b : Bool} (h1 : m'.mMap = if b = true then m.freeze k else m.mMap)
    (h2 : m'.pMap.get root.policyKey = m.pMap.get root.policyKey)
    (h3 : m'.rpMap.get root.policyKey = m.rpMap.get root.policyKey) : Tied key root m' := by
  cases b with
  | true => exact h.redefined hk h1 h2 h3
  | false =>
    obtain ⟨i, mt, a, b, c⟩ := h
    refine ⟨i, mt, by rw [h1]; exact a, ?_, c⟩
    unfold resolve at b ⊢
    simp only [h2, h3]
    exact b

theorem Tied.setDef {key : Str} {root : Stage} {m : Model} (h : Tied key root m) (sec : Char) (k value : Str)
    (hk : k ≠ root.policyKey) : Tied key root (m.setDef sec k value).1 := by
  unfold Model.setDef
  split
  · exact h
  · split
    · exact h
    · split
      · exact h
      · split
        · exact h
        · split
          · exact h.redefined hk rfl (by simp only [GoMap.get_set]; rw [if_neg hk]) rfl
          · split
            · exact h.redefined hk rfl rfl (by simp only [GoMap.get_set]; rw [if_neg hk])
            · split
              · exact h
              · exact h

theorem Tied.removeDef {key : Str} {root : Stage} {m : Model} (h : Tied key root m) (sec : Char) (k : Str)
    (hk : k ≠ root.policyKey) (hm : k ≠ key) : Tied key root (m.removeDef sec k).1 := by
  unfold Model.removeDef
  split
  · exact h
  · split
    · exact h.dropped hk rfl (by simp only [GoMap.get_del]; rw [if_neg hk]) rfl
    · split
      · exact h.dropped hk rfl rfl (by simp only [GoMap.get_del]; rw [if_neg hk])
      · split
        · exact h
        · split
          · exact h.same (.self _) (by simp only [GoMap.get_del]; rw [if_neg hm])
          · exact h

theorem Bound.tied {build : Str → Res Stage} {key : Str} {root : Stage} {m : Model}
    (h : Bound build key root m) : Kept build m ∧ Tied key root m := by
  induction h with
  | built h expr hd hb hok => exact ⟨h.build key, .built hd hb hok⟩
  | setDef _ sec k value hk ih => exact ⟨ih.1.setDef sec k value, ih.2.setDef sec k value hk⟩
  | removeDef _ sec k hk hm ih => exact ⟨ih.1.removeDef sec k, ih.2.removeDef sec k hk hm⟩
  | @build m h k hk ih =>
    exact ⟨ih.1.build k, ih.2.same (Settled.build _ m k).1 ((Settled.build _ m k).2 key hk)⟩
  | @inline m h expr ih => exact ⟨ih.1.inline expr, ih.2.same (Settled.inline build m expr).1
      (by rw [(Settled.inline build m expr).2])⟩
  | @add m h rule hs ih =>
    exact ⟨ih.1.add rule hs, ih.2.same (Settled.add m rule).1 (by rw [(Settled.add m rule).2])⟩
  | @remove m h rule hs ih =>
    exact ⟨ih.1.remove rule hs, ih.2.same (Settled.remove m rule).1 (by rw [(Settled.remove m rule).2])⟩
  | @clear m h k hk ih =>
    exact ⟨ih.1.clear k hk, ih.2.same (Settled.clear m k).1 (by rw [(Settled.clear m k).2])⟩

theorem Bound.root {build : Str → Res Stage} {key : Str} {root : Stage} {m : Model}
    (h : Bound build key root m) : ∃ expr, build expr = .ok root := by
  induction h with
  | built _ expr _ hb _ => exact ⟨expr, hb⟩
  | setDef _ _ _ _ _ ih => exact ih
  | removeDef _ _ _ _ _ ih => exact ih
  | build _ _ _ ih => exact ih
  | inline _ _ ih => exact ih
  | add _ _ _ ih => exact ih
  | remove _ _ _ ih => exact ih
  | clear _ _ _ ih => exact ih

end Model

/-! ## What such a matcher reports -/

/-- A policy with the given rules. -/
def Policy.ofRules (rules : List Rule) : Policy := ⟨rules.map (fun r => (hash r, r))⟩

theorem Policy.rules_ofRules (rules : List Rule) : (Policy.ofRules rules).rules = rules := by
  simp only [Policy.ofRules, Policy.rules, List.map_map]
  exact List.map_id'' (fun _ => rfl) rules

theorem Policy.wf_ofRules {d : PolicyDef} {rules : List Rule} (hn : rules.Nodup)
    (hg : ∀ r ∈ rules, GoodRule d r) : (Policy.ofRules rules).WF := by
  refine ⟨?_, ?_⟩
  · unfold Policy.ofRules GoMap.WF
    simp only [List.map_map]
    rw [List.nodup_iff_pairwise_ne, List.pairwise_map]
    refine hn.imp_of_mem (fun {a b} ha hb hne e => hne ?_)
    exact (hg a ha).hash_inj (hg b hb) e
  · intro k r hm
    obtain ⟨x, _, e⟩ := List.mem_map.1 hm
    cases e
    rfl

theorem Matcher.Has.inv {d : PolicyDef} {rules : List Rule} {mt : Matcher} (h : mt.Has d (· ∈ rules))
    (hn : rules.Nodup) (hg : ∀ r ∈ rules, GoodRule d r) :
    PolicyWithMatcher.Inv d mt.exprRoot ⟨Policy.ofRules rules, mt⟩ := by
  have e := Policy.rules_ofRules rules
  refine ⟨Policy.wf_ofRules hn hg, ?_, h.pdef, rfl, ?_⟩
  · simp only [e]; exact hg
  · simp only [e]; exact h.idx

end Fastac
