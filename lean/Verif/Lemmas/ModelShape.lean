import Verif.Lemmas.Model
import Verif.Lemmas.Shape

/-! # Matchers with at most two alternatives per stage never panic when a model changes -/

namespace Fastac

def Matcher.Fine (mt : Matcher) : Prop := mt.exprRoot.Binary ∧ Shaped mt.exprRoot mt.root

theorem notify_fine (e : PolEvent) : ∀ ls : List Matcher, (∀ mt ∈ ls, mt.Fine) →
    ∃ ls', notify ls e = .ok ls' ∧ ∀ mt ∈ ls', mt.Fine
  | [], _ => ⟨[], rfl, by simp⟩
  | mt :: ls, h => by
    obtain ⟨ls', e1, h1⟩ := notify_fine e ls (fun x hx => h x (by simp [hx]))
    obtain ⟨hb, hs⟩ := h mt (by simp)
    obtain ⟨mt', e2, h2, _, h3⟩ := mt.handle_shaped hb hs e
    refine ⟨mt' :: ls', by simp only [notify, e2, e1, Res.bind_ok, Res.map_ok], ?_⟩
    intro x hx
    rcases List.mem_cons.1 hx with rfl | hx
    · exact ⟨h2 ▸ hb, h3⟩
    · exact h1 x hx

namespace Model

/-- All matchers that listen to a policy are fine. -/
structure Fine (m : Model) : Prop where
  p : ∀ k p, m.pMap.get k = some p → ∀ mt ∈ p.listeners, mt.Fine
  g : ∀ k rp, m.rpMap.get k = some rp → ∀ mt ∈ rp.listeners, mt.Fine

theorem Fine.of_eq {m m' : Model} (h : m.Fine) (h1 : m'.pMap = m.pMap) (h2 : m'.rpMap = m.rpMap) :
    m'.Fine := ⟨by rw [h1]; exact h.p, by rw [h2]; exact h.g⟩

theorem Fine.setP {m : Model} (h : m.Fine) (k : Str) (p' : PolObj) (hp : ∀ mt ∈ p'.listeners, mt.Fine) :
    Fine { m with pMap := m.pMap.set k p' } := by
  refine ⟨fun k' q hq => ?_, h.g⟩
  simp only [GoMap.get_set] at hq
  split at hq
  · cases hq; exact hp
  · exact h.p k' q hq

theorem Fine.setG {m : Model} (h : m.Fine) (k : Str) (rp' : RolePolicy)
    (hp : ∀ mt ∈ rp'.listeners, mt.Fine) : Fine { m with rpMap := m.rpMap.set k rp' } := by
  refine ⟨h.p, fun k' q hq => ?_⟩
  simp only [GoMap.get_set] at hq
  split at hq
  · cases hq; exact hp
  · exact h.g k' q hq

theorem Fine.emitPolicy {α : Type} {m : Model} (h : m.Fine) (k : Str) (ls : List Matcher)
    (hl : ∀ mt ∈ ls, mt.Fine) (pol : Policy) (a : α) (e : Option PolEvent) :
    (m.emitPolicy k ls pol a e).2 = .ok a ∧ (m.emitPolicy k ls pol a e).1.Fine := by
  cases e with
  | none => exact ⟨rfl, h.setP k ⟨pol, ls⟩ hl⟩
  | some e =>
    obtain ⟨ls', e1, h1⟩ := notify_fine e ls hl
    unfold Model.emitPolicy
    simp only [e1]
    exact ⟨trivial, h.setP k ⟨pol, ls'⟩ h1⟩

theorem Fine.roleEmit {rp : RolePolicy} (hl : ∀ mt ∈ rp.listeners, mt.Fine) (mgr : Mgr) (e : PolEvent) :
    (rp.emit mgr e).2 = .ok true ∧ ∀ mt ∈ (rp.emit mgr e).1.listeners, mt.Fine := by
  obtain ⟨ls', e1, h1⟩ := notify_fine e rp.listeners hl
  unfold RolePolicy.emit
  simp only [e1]
  exact ⟨trivial, h1⟩

theorem Fine.roleAdd {rp : RolePolicy} (hl : ∀ mt ∈ rp.listeners, mt.Fine) (rule : Rule) :
    ∀ mt ∈ (rp.addRule rule).1.listeners, mt.Fine := by
  unfold RolePolicy.addRule
  split
  · split
    · exact (Fine.roleEmit hl _ _).2
    · exact hl
    · exact hl
    · exact hl
  · exact hl

theorem Fine.roleRemove {rp : RolePolicy} (hl : ∀ mt ∈ rp.listeners, mt.Fine) (rule : Rule) :
    ∀ mt ∈ (rp.removeRule rule).1.listeners, mt.Fine := by
  unfold RolePolicy.removeRule
  split
  · split
    · exact (Fine.roleEmit hl _ _).2
    · exact hl
    · exact hl
    · exact hl
  · exact hl

theorem Fine.add {m : Model} (h : m.Fine) (rule : Rule) : (m.addRule rule).1.Fine := by
  unfold Model.addRule
  split
  · exact h
  · exact h
  · simp only
    split
    · unfold Model.addPolicyRule
      split
      · exact h
      · rename_i p hg
        exact (h.emitPolicy _ _ (h.p _ p hg) _ _ _).2
    · split
      · unfold Model.addRoleRule
        split
        · exact h
        · rename_i rp hg
          exact h.setG _ _ (Fine.roleAdd (h.g _ rp hg) _)
      · exact h

theorem Fine.remove {m : Model} (h : m.Fine) (rule : Rule) : (m.removeRule rule).1.Fine := by
  unfold Model.removeRule
  split
  · exact h
  · exact h
  · simp only
    split
    · unfold Model.removePolicyRule
      split
      · exact h
      · rename_i p hg
        exact (h.emitPolicy _ _ (h.p _ p hg) _ _ _).2
    · split
      · unfold Model.removeRoleRule
        split
        · exact h
        · rename_i rp hg
          exact h.setG _ _ (Fine.roleRemove (h.g _ rp hg) _)
      · exact h

theorem Fine.clear {m : Model} (h : m.Fine) (k : Str) : (m.clearPolicy k).1.Fine := by
  unfold Model.clearPolicy
  split
  · rename_i p hg
    exact (h.emitPolicy _ _ (h.p _ p hg) _ _ _).2
  · split
    · rename_i rp hg
      exact h.setG _ _ (h.g _ rp hg)
    · exact h

theorem Fine.setDef {m : Model} (h : m.Fine) (sec : Char) (key value : Str) :
    (m.setDef sec key value).1.Fine := by
  unfold Model.setDef
  split
  · exact h
  · split
    · exact h
    · split
      · exact h
      · split
        · exact h.of_eq rfl rfl
        · split
          · exact (h.setP _ ⟨Policy.empty, []⟩ (by simp)).of_eq rfl rfl
          · split
            · exact (h.setG _ ⟨_, []⟩ (by simp)).of_eq rfl rfl
            · split
              · exact h.of_eq rfl rfl
              · exact h.of_eq rfl rfl

theorem Fine.removeDef {m : Model} (h : m.Fine) (sec : Char) (key : Str) :
    (m.removeDef sec key).1.Fine := by
  unfold Model.removeDef
  split
  · exact h.of_eq rfl rfl
  · split
    · refine ⟨fun k p hp => ?_, h.g⟩
      simp only [GoMap.get_del] at hp
      split at hp
      · cases hp
      · exact h.p k p hp
    · split
      · refine ⟨h.p, fun k p hp => ?_⟩
        simp only [GoMap.get_del] at hp
        split at hp
        · cases hp
        · exact h.g k p hp
      · split
        · exact h.of_eq rfl rfl
        · split
          · exact h.of_eq rfl rfl
          · exact h

theorem Fine.buildMatcher {m : Model} (h : m.Fine) {build : Str → Res Stage}
    (hb : ∀ e s, build e = .ok s → s.Binary) (key : Str) : (m.buildMatcher build key).1.Fine := by
  unfold Model.buildMatcher
  split
  · exact h
  · split
    · exact h
    · exact h
    · rename_i root hroot
      have fine : ∀ pDef rules mt, newMatcher pDef root rules = .ok mt → mt.Fine := by
        intro pDef rules mt e
        obtain ⟨mt', e', a, _, c⟩ := newMatcher_shaped pDef root (hb _ _ hroot) rules
        rw [e'] at e
        cases e
        exact ⟨a ▸ hb _ _ hroot, c⟩
      split
      · exact h
      · exact h
      · split
        · rename_i p hg
          split
          · exact h
          · exact h
          · rename_i mt hmt
            refine (h.setP root.policyKey ⟨p.policy, p.listeners ++ [mt]⟩ (fun x hx => ?_)).of_eq rfl rfl
            rcases List.mem_append.1 hx with hx | hx
            · exact h.p _ p hg x hx
            · rw [List.mem_singleton] at hx
              subst hx
              exact fine _ _ _ hmt
        · split
          · exact h
          · rename_i rp hg
            split
            · exact h
            · exact h
            · rename_i mt hmt
              refine (h.setG root.policyKey ⟨rp.mgr, rp.listeners ++ [mt]⟩ (fun x hx => ?_)).of_eq rfl rfl
              rcases List.mem_append.1 hx with hx | hx
              · exact h.g _ rp hg x hx
              · rw [List.mem_singleton] at hx
                subst hx
                exact fine _ _ _ hmt

theorem Fine.inline {m : Model} (h : m.Fine) {build : Str → Res Stage}
    (hb : ∀ e s, build e = .ok s → s.Binary) (expr : Str) : (m.buildFromExpr build expr).1.Fine := by
  rw [buildFromExpr_eq]
  exact Fine.of_eq ((h.of_eq rfl rfl : Fine { m with mDefs := m.mDefs.set [] expr }).buildMatcher hb []) rfl rfl

theorem Made.fine {build : Str → Res Stage} (hb : ∀ e s, build e = .ok s → s.Binary) {m : Model}
    (h : Made build m) : m.Fine := by
  induction h with
  | new => exact ⟨by simp [Model.new], by simp [Model.new]⟩
  | setDef _ sec key value ih => exact ih.setDef sec key value
  | removeDef _ sec key ih => exact ih.removeDef sec key
  | build _ key ih => exact ih.buildMatcher hb key
  | inline _ expr ih => exact ih.inline hb expr
  | add _ rule hf ih => exact ih.add rule
  | remove _ rule hf ih => exact ih.remove rule
  | clear _ key ih => exact ih.clear key

theorem Fine.addRule_ok {m : Model} (h : m.Fine) (ht : m.Tidy) {k : Str} {fields : Rule}
    (hf : m.Fits (k :: fields)) (hk : m.Knows k) : ∃ b, (m.addRule (k :: fields)).2.1 = .ok b := by
  rcases hk with ⟨hc, hk⟩ | ⟨hc, hk⟩
  · cases k with
    | nil => simp at hc
    | cons c cs =>
      simp only [List.head?_cons, Option.some.injEq] at hc
      subst hc
      unfold GoMap.has at hk
      obtain ⟨p, hg⟩ := Option.isSome_iff_exists.1 hk
      simp only [Model.addRule, if_true, Model.addPolicyRule, hg]
      exact ⟨_, (h.emitPolicy _ _ (h.p _ p hg) _ _ _).1⟩
  · cases k with
    | nil => simp at hc
    | cons c cs =>
      simp only [List.head?_cons, Option.some.injEq] at hc
      subst hc
      unfold GoMap.has at hk
      obtain ⟨rp, hg⟩ := Option.isSome_iff_exists.1 hk
      obtain ⟨u, r, ds, rfl, hd⟩ := ht.pathOk hg hf
      obtain ⟨mgr', b, e, -⟩ := (ht.roles _ rp hg).2.1.addLink u r ds hd
      have : (m.addRule (('g' :: cs) :: u :: r :: ds)).2.1 = (rp.addRule (u :: r :: ds)).2 := by
        simp [Model.addRule, Model.addRoleRule, hg]
      rw [this]
      unfold RolePolicy.addRule
      simp only [e]
      cases b with
      | true => exact ⟨true, (Fine.roleEmit (h.g _ rp hg) _ _).1⟩
      | false => exact ⟨false, rfl⟩

theorem Fine.removeRule_ok {m : Model} (h : m.Fine) (ht : m.Tidy) {k : Str} {fields : Rule}
    (hf : m.Fits (k :: fields)) (hk : m.Knows k) : ∃ b, (m.removeRule (k :: fields)).2.1 = .ok b := by
  rcases hk with ⟨hc, hk⟩ | ⟨hc, hk⟩
  · cases k with
    | nil => simp at hc
    | cons c cs =>
      simp only [List.head?_cons, Option.some.injEq] at hc
      subst hc
      unfold GoMap.has at hk
      obtain ⟨p, hg⟩ := Option.isSome_iff_exists.1 hk
      simp only [Model.removeRule, if_true, Model.removePolicyRule, hg]
      exact ⟨_, (h.emitPolicy _ _ (h.p _ p hg) _ _ _).1⟩
  · cases k with
    | nil => simp at hc
    | cons c cs =>
      simp only [List.head?_cons, Option.some.injEq] at hc
      subst hc
      unfold GoMap.has at hk
      obtain ⟨rp, hg⟩ := Option.isSome_iff_exists.1 hk
      obtain ⟨u, r, ds, rfl, hd⟩ := ht.pathOk hg hf
      obtain ⟨mgr', b, e, -⟩ := (ht.roles _ rp hg).2.1.deleteLink u r ds hd
      have : (m.removeRule (('g' :: cs) :: u :: r :: ds)).2.1 = (rp.removeRule (u :: r :: ds)).2 := by
        simp [Model.removeRule, Model.removeRoleRule, hg]
      rw [this]
      unfold RolePolicy.removeRule
      simp only [e]
      cases b with
      | true => exact ⟨true, (Fine.roleEmit (h.g _ rp hg) _ _).1⟩
      | false => exact ⟨false, rfl⟩

end Model

end Fastac
