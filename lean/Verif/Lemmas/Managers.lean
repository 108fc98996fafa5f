import Verif.Lemmas.Configured

/-!
# The managers of role definitions in any model
-/

namespace Fastac

namespace Model

/-- The managers are as `SetDef` makes them, after changes: of level 10, and of the kind that the number of
arguments of the definition asks for. -/
def Kinds (m : Model) : Prop :=
  ∀ k rp, m.rpMap.get k = some rp → rp.mgr.Base ∧ (rp.mgr.isRM = true ↔ m.gDefs.get k = some 2)

theorem Kinds.set {m : Model} (h : m.Kinds) {k : Str} {rp : RolePolicy} (hp : m.rpMap.get k = some rp)
    {rp' : RolePolicy} (h1 : rp'.mgr.Base) (h2 : rp'.mgr.isRM = rp.mgr.isRM) :
    Kinds { m with rpMap := m.rpMap.set k rp' } := by
  intro k' q hq
  simp only [GoMap.get_set] at hq
  split at hq
  · rename_i e
    subst e
    cases hq
    refine ⟨h1, ?_⟩
    rw [h2]
    exact (h k rp hp).2
  · exact h k' q hq

theorem Kinds.of_eq {m m' : Model} (h : m.Kinds) (h1 : m'.rpMap = m.rpMap) (h2 : m'.gDefs = m.gDefs) :
    m'.Kinds := by
  unfold Kinds
  rw [h1, h2]
  exact h

theorem emitPolicy_kinds {α : Type} {m : Model} (h : m.Kinds) (k : Str) (ls : List Matcher) (pol : Policy) (a : α)
    (e : Option PolEvent) : (m.emitPolicy k ls pol a e).1.Kinds := by
  unfold emitPolicy
  split
  · exact h.of_eq rfl rfl
  · split <;> exact h.of_eq rfl rfl

theorem Kinds.setDef {m : Model} (h : m.Kinds) (sec : Char) (key value : Str) : (m.setDef sec key value).1.Kinds := by
  unfold Model.setDef
  split
  · exact h
  · cases key with
    | nil => exact h
    | cons c cs =>
      simp only
      split
      · exact h
      · split
        · exact h.of_eq rfl rfl
        · split
          · exact h.of_eq rfl rfl
          · split
            · intro k rp hk
              simp only [GoMap.get_set] at hk ⊢
              split at hk
              · cases hk
                rename_i e
                rw [if_pos e]
                by_cases hn : roleDefNArgs value = 2
                · rw [if_pos hn, hn]
                  exact ⟨Base_new_rm, by simp [Mgr.isRM]⟩
                · rw [if_neg hn]
                  refine ⟨Base_new_dm, ?_⟩
                  simp only [Mgr.isRM, Option.some.injEq, hn]
                  simp
              · rename_i e
                rw [if_neg e]
                exact h k rp hk
            · split <;> exact h.of_eq rfl rfl

theorem Kinds.removeDef {m : Model} (h : m.Kinds) (sec : Char) (key : Str) : (m.removeDef sec key).1.Kinds := by
  unfold Model.removeDef
  split
  · exact h.of_eq rfl rfl
  · split
    · exact h.of_eq rfl rfl
    · split
      · intro k rp hk
        simp only [GoMap.get_del] at hk ⊢
        split at hk
        · cases hk
        · rename_i e
          rw [if_neg e]
          exact h k rp hk
      · split
        · exact h.of_eq rfl rfl
        · split
          · exact h.of_eq rfl rfl
          · exact h

theorem Kinds.buildMatcher {build : Str → Res Stage} {m : Model} (h : m.Kinds) (key : Str) :
    (m.buildMatcher build key).1.Kinds := by
  unfold Model.buildMatcher
  repeat' split
  all_goals first
    | exact h
    | exact h.of_eq rfl rfl
    | (rename_i rp hrp _ mt _
       exact Kinds.of_eq (h.set hrp (rp' := ⟨rp.mgr, rp.listeners ++ [mt]⟩) (h _ _ hrp).1 rfl) rfl rfl)

theorem Kinds.inline {build : Str → Res Stage} {m : Model} (h : m.Kinds) (expr : Str) :
    (m.buildFromExpr build expr).1.Kinds := by
  rw [buildFromExpr_eq]
  exact Kinds.of_eq ((h.of_eq rfl rfl : Kinds { m with mDefs := m.mDefs.set [] expr }).buildMatcher []) rfl rfl

theorem Made.kinds {build : Str → Res Stage} {m : Model} (h : Made build m) : m.Kinds := by
  induction h with
  | new => intro k rp hk; cases hk
  | setDef _ sec key value ih => exact ih.setDef sec key value
  | removeDef _ sec key ih => exact ih.removeDef sec key
  | build _ key ih => exact ih.buildMatcher key
  | inline _ expr ih => exact ih.inline expr
  | @add m hm r hf h =>
    by_cases hk : ∃ k f, r = k :: f ∧ m.Knows k
    · obtain ⟨k, f, rfl, hk⟩ := hk
      unfold Knows GoMap.has at hk
      cases k with
      | nil => simp at hk
      | cons c cs =>
        simp only [List.head?_cons, Option.some.injEq] at hk
        simp only [Model.addRule]
        rcases hk with ⟨rfl, hk⟩ | ⟨rfl, hk⟩
        · obtain ⟨p, hp⟩ := Option.isSome_iff_exists.1 hk
          simp only [if_true, addPolicyRule, hp]
          exact emitPolicy_kinds h _ _ _ _ _
        · obtain ⟨rp, hp⟩ := Option.isSome_iff_exists.1 hk
          obtain ⟨u, r, ds, rfl, hd⟩ := hm.tidy.pathOk hp hf
          obtain ⟨h1, h2⟩ := roleAdd_base (h _ _ hp).1 u r ds hd
          simp only [show ('g' : Char) ≠ 'p' by decide, if_false, if_true, addRoleRule, hp]
          exact h.set hp h1 h2
    · rw [(addRule_unknown r (fun k f e hk' => hk ⟨k, f, e, hk'⟩)).1.1]
      exact h
  | @remove m hm r hf h =>
    by_cases hk : ∃ k f, r = k :: f ∧ m.Knows k
    · obtain ⟨k, f, rfl, hk⟩ := hk
      unfold Knows GoMap.has at hk
      cases k with
      | nil => simp at hk
      | cons c cs =>
        simp only [List.head?_cons, Option.some.injEq] at hk
        simp only [Model.removeRule]
        rcases hk with ⟨rfl, hk⟩ | ⟨rfl, hk⟩
        · obtain ⟨p, hp⟩ := Option.isSome_iff_exists.1 hk
          simp only [if_true, removePolicyRule, hp]
          exact emitPolicy_kinds h _ _ _ _ _
        · obtain ⟨rp, hp⟩ := Option.isSome_iff_exists.1 hk
          obtain ⟨u, r, ds, rfl, hd⟩ := hm.tidy.pathOk hp hf
          obtain ⟨h1, h2⟩ := roleRemove_base (h _ _ hp).1 u r ds hd
          simp only [show ('g' : Char) ≠ 'p' by decide, if_false, if_true, removeRoleRule, hp]
          exact h.set hp h1 h2
    · rw [(removeRule_unknown r (fun k f e hk' => hk ⟨k, f, e, hk'⟩)).1.1]
      exact h
  | @clear m hm k h =>
    simp only [clearPolicy]
    cases hp : m.pMap.get k with
    | some p => exact emitPolicy_kinds h _ _ _ _ _
    | none =>
      cases hr : m.rpMap.get k with
      | none => exact h
      | some rp =>
        obtain ⟨h1, h2⟩ := (h _ _ hr).1.clear
        exact h.set hr h1 h2

end Model

end Fastac
