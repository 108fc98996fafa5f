import Verif.Spec.RoleHistory
import Verif.Lemmas.RoleOrder
import Verif.Lemmas.Program

/-!
# The role manager of a role definition in a program
-/

namespace Fastac

theorem addLink_domains (rm : RM) (u r : Str) (ds : List Str) (hd : ds.head? ≠ some redundantRole) :
    rm.addLink u r ds = rm.addLink u r [] := by
  unfold RM.addLink
  have hn : ([] : List Str).head? ≠ some redundantRole := by simp
  simp only [if_neg hd, if_neg hn]

theorem deleteLink_domains (rm : RM) (u r : Str) (ds : List Str) (hd : ds.head? ≠ some redundantRole) :
    rm.deleteLink u r ds = rm.deleteLink u r [] := by
  unfold RM.deleteLink
  have hn : ([] : List Str).head? ≠ some redundantRole := by simp
  simp only [if_neg hd, if_neg hn]

namespace RolePolicy

theorem addRule_mgr (p : RolePolicy) {m : RM} (h : p.mgr = .rm m) (u r : Str) (ds : List Str) :
    (p.addRule (u :: r :: ds)).1.mgr = .rm (m.addLink u r ds).1 := by
  unfold addRule
  rw [h]
  simp only [Mgr.addLink]
  cases (m.addLink u r ds).2 with
  | false => rfl
  | true =>
    simp only [emit]
    cases notify p.listeners (.added (u :: r :: ds)) <;> rfl

theorem removeRule_mgr (p : RolePolicy) {m : RM} (h : p.mgr = .rm m) (u r : Str) (ds : List Str) :
    (p.removeRule (u :: r :: ds)).1.mgr = .rm (m.deleteLink u r ds).1 := by
  unfold removeRule
  rw [h]
  simp only [Mgr.deleteLink]
  cases (m.deleteLink u r ds).2 with
  | false => rfl
  | true =>
    simp only [emit]
    cases notify p.listeners (.removed (u :: r :: ds)) <;> rfl

end RolePolicy

namespace Model

/-- The manager behind a key. -/
def mgrOf (m : Model) (key : Str) : Option Mgr := (m.rpMap.get key).map (·.mgr)

theorem mgrOf_set (m : Model) {key k : Str} {rp : RolePolicy} (rp' : RolePolicy) (h : m.rpMap.get k = some rp)
    (hm : k = key → rp'.mgr = rp.mgr) :
    ((m.rpMap.set k rp').get key).map RolePolicy.mgr = m.mgrOf key := by
  unfold mgrOf
  rw [GoMap.get_set]
  split
  · rename_i e; subst e; rw [h]; simp [hm rfl]
  · rfl

/-! ## No `p` policy with the key -/

theorem emit_none {α : Type} {m : Model} {key k : Str} (h : m.pMap.get key = none) {p : PolObj}
    (hk : m.pMap.get k = some p) (ls : List Matcher) (pol : Policy) (a : α) (e : Option PolEvent) :
    (m.emitPolicy k ls pol a e).1.pMap.get key = none := by
  have hne : k ≠ key := by rintro rfl; rw [h] at hk; cases hk
  have : ∀ x : PolObj, (m.pMap.set k x).get key = none := fun x => by rw [GoMap.get_set, if_neg hne]; exact h
  unfold emitPolicy
  cases e with
  | none => exact this _
  | some e =>
    simp only
    cases notify ls e <;> exact this _

theorem step_none {m : Model} {key : Str} (h : m.pMap.get key = none) (op : Op) :
    (m.step op).1.pMap.get key = none := by
  cases op with
  | add r =>
    simp only [step, addRule]
    split
    · exact h
    · exact h
    · simp only
      split
      · unfold addPolicyRule
        split
        · exact h
        · rename_i e; exact emit_none h e ..
      · split
        · unfold addRoleRule; split <;> exact h
        · exact h
  | remove r =>
    simp only [step, removeRule]
    split
    · exact h
    · exact h
    · simp only
      split
      · unfold removePolicyRule
        split
        · exact h
        · rename_i e; exact emit_none h e ..
      · split
        · unfold removeRoleRule; split <;> exact h
        · exact h
  | clear k =>
    simp only [step, clearPolicy]
    split
    · rename_i e; exact emit_none h e ..
    · split <;> exact h

theorem setDef_none {m : Model} {key : Str} (hg : key.head? = some 'g') (h : m.pMap.get key = none) (sec : Char)
    (k v : Str) : (m.setDef sec k v).1.pMap.get key = none := by
  unfold setDef
  split
  · exact h
  · cases k with
    | nil => exact h
    | cons c cs =>
      simp only
      split
      · exact h
      · rename_i hc
        split
        · exact h
        · split
          · rename_i hp
            have hc' : c = sec := by simpa using hc
            rw [GoMap.get_set, if_neg]
            · exact h
            · rintro rfl
              rw [hc', hp] at hg
              cases hg
          · split
            · exact h
            · split <;> exact h

theorem removeDef_none {m : Model} {key : Str} (h : m.pMap.get key = none) (sec : Char) (k : Str) :
    (m.removeDef sec k).1.pMap.get key = none := by
  unfold removeDef
  split
  · exact h
  · split
    · rw [GoMap.get_del]; split
      · rfl
      · exact h
    · split
      · exact h
      · split
        · exact h
        · split <;> exact h

theorem buildMatcher_none {m : Model} {key : Str} (h : m.pMap.get key = none) (build : Str → Res Stage) (k : Str) :
    (m.buildMatcher build k).1.pMap.get key = none ∧ (m.buildMatcher build k).1.mgrOf key = m.mgrOf key := by
  unfold buildMatcher
  split
  · exact ⟨h, rfl⟩
  · split
    · exact ⟨h, rfl⟩
    · exact ⟨h, rfl⟩
    · split
      · exact ⟨h, rfl⟩
      · exact ⟨h, rfl⟩
      · split
        · rename_i p e
          split
          · exact ⟨h, rfl⟩
          · exact ⟨h, rfl⟩
          · refine ⟨?_, rfl⟩
            simp only
            rw [GoMap.get_set, if_neg]
            · exact h
            · intro e'; rw [e', h] at e; cases e
        · split
          · exact ⟨h, rfl⟩
          · rename_i rp e
            split
            · exact ⟨h, rfl⟩
            · exact ⟨h, rfl⟩
            · exact ⟨h, mgrOf_set m _ e (fun _ => rfl)⟩

/-! ## The manager is left alone -/

theorem setDef_mgr {m : Model} {key : Str} (sec : Char) (k v : Str) (h : sec ≠ 'g' ∨ k ≠ key) :
    (m.setDef sec k v).1.mgrOf key = m.mgrOf key := by
  unfold setDef
  split
  · rfl
  · cases k with
    | nil => rfl
    | cons c cs =>
      simp only
      split
      · rfl
      · split
        · rfl
        · split
          · rfl
          · split
            · rename_i hs
              unfold mgrOf
              simp only
              rw [GoMap.get_set, if_neg]
              rcases h with h | h
              · exact absurd hs h
              · exact h
            · split <;> rfl

theorem removeDef_mgr {m : Model} {key : Str} (sec : Char) (k : Str) (h : sec ≠ 'g' ∨ k ≠ key) :
    (m.removeDef sec k).1.mgrOf key = m.mgrOf key := by
  unfold removeDef
  split
  · rfl
  · split
    · rfl
    · split
      · rename_i hs
        unfold mgrOf
        simp only
        rw [GoMap.get_del, if_neg]
        rcases h with h | h
        · exact absurd hs h
        · exact h
      · split
        · rfl
        · split <;> rfl

theorem set_other {V : Type} {m : GoMap Str V} {k key : Str} (v : V) (h : k ≠ key) : (m.set k v).get key = m.get key := by
  rw [GoMap.get_set, if_neg h]

theorem add_mgr {m : Model} {key : Str} (r : Rule) (h : r.head? ≠ some key) : (m.addRule r).1.mgrOf key = m.mgrOf key := by
  match r, h with
  | [], _ => rfl
  | [] :: _, _ => rfl
  | (c :: cs) :: fields, h =>
    have h' : c :: cs ≠ key := by simpa using h
    simp only [addRule]
    split
    · unfold addPolicyRule
      split
      · rfl
      · unfold mgrOf; rw [emitPolicy_rpMap]
    · split
      · unfold addRoleRule
        split
        · rfl
        · unfold mgrOf; simp only; rw [set_other _ h']
      · rfl

theorem remove_mgr {m : Model} {key : Str} (r : Rule) (h : r.head? ≠ some key) :
    (m.removeRule r).1.mgrOf key = m.mgrOf key := by
  match r, h with
  | [], _ => rfl
  | [] :: _, _ => rfl
  | (c :: cs) :: fields, h =>
    have h' : c :: cs ≠ key := by simpa using h
    simp only [removeRule]
    split
    · unfold removePolicyRule
      split
      · rfl
      · unfold mgrOf; rw [emitPolicy_rpMap]
    · split
      · unfold removeRoleRule
        split
        · rfl
        · unfold mgrOf; simp only; rw [set_other _ h']
      · rfl

theorem clear_mgr {m : Model} {key : Str} (k : Str) (h : k ≠ key) : (m.clearPolicy k).1.mgrOf key = m.mgrOf key := by
  unfold clearPolicy
  split
  · unfold mgrOf; rw [emitPolicy_rpMap]
  · split
    · unfold mgrOf; simp only; rw [set_other _ h]
    · rfl

end Model

namespace FnModel

open Model

/-- What is known about the manager behind `key`. -/
structure Behind (key : Str) (s : FnModel) (level : Nat) (pm : Option PMatcher) (L : Str → Str → Prop)
    (O : List Str) : Prop where
  none : s.model.pMap.get key = none
  fn : s.fns.get key = some .role
  mgr : ∃ m, s.model.mgrOf key = some (.rm m) ∧ m.HasIn level pm L O

theorem Behind.onManager {key : Str} {s : FnModel} {level : Nat} {pm pm' : Option PMatcher} {L L' : Str → Str → Prop}
    {O O' : List Str} (h : s.Behind key level pm L O) (f : RM → RM)
    (hf : ∀ m : RM, m.HasIn level pm L O → (f m).HasIn level pm' L' O') :
    (s.onManager key (Mgr.onRM f)).Behind key level pm' L' O' := by
  obtain ⟨h1, h2, m, hm, h3⟩ := h
  unfold mgrOf at hm
  cases hg : s.model.rpMap.get key with
  | none => rw [hg] at hm; cases hm
  | some rp =>
    rw [hg] at hm
    have hrp : rp.mgr = .rm m := by simpa using hm
    unfold FnModel.onManager
    rw [hg]
    refine ⟨h1, h2, f m, ?_, hf m h3⟩
    unfold mgrOf
    simp only [GoMap.get_set_self, Option.map_some, hrp]
    rfl

/-- Calls that are not about `key` leave its manager alone. -/
theorem step_leaves (build : FnBuild) {key : Str} (hg : key.head? = some 'g') (s : FnModel) (op : FnOp)
    (ho : op.Leaves key) (h1 : s.model.pMap.get key = none) (h2 : s.fns.get key = some .role) {mg : Mgr}
    (hm : s.model.mgrOf key = some mg) :
    (s.step build op).model.pMap.get key = none ∧ (s.step build op).fns.get key = some .role ∧
      (s.step build op).model.mgrOf key = some mg := by
  have hev : key ≠ s% "eval" := by rintro rfl; cases hg
  have hfn : (s.step build op).fns.get key = some .role := by
    rw [step_get build s op key hev]
    have : op.about key = none := by
      cases op with
      | setFunction n f => exact if_neg ho
      | removeFunction n => exact if_neg ho
      | setDef sec k v => exact if_neg (fun e => ho.elim (fun x => x e.1) (fun x => x e.2.1))
      | removeDef sec k => exact if_neg (fun e => ho.elim (fun x => x e.1) (fun x => x e.2))
      | setRoleManager k g => exact if_neg ho
      | onManager k f => rfl
      | buildMatcher k => rfl
      | rule op => rfl
      | enforce gov depth ord params => rfl
      | filter gov depth ord params => rfl
    rw [this]
    exact h2
  refine ⟨?_, hfn, ?_⟩
  · cases op with
    | setFunction n f => exact h1
    | removeFunction n => exact h1
    | setDef sec k v => exact setDef_none hg h1 sec k v
    | removeDef sec k => exact removeDef_none h1 sec k
    | setRoleManager k g => exact h1
    | onManager k f =>
      simp only [FnModel.step, FnModel.onManager]
      cases s.model.rpMap.get k <;> exact h1
    | buildMatcher k => exact (buildMatcher_none h1 _ k).1
    | rule op => exact step_none h1 op
    | enforce gov depth ord params =>
      simp only [FnModel.step, FnModel.enforce]
      rw [enforceParams_fst]
      rcases (newContext_extends (build s.knows) s.model (splitParams params).1).pol key with ⟨-, e⟩ | ⟨p, x, e, -⟩
      · exact e
      · rw [h1] at e; cases e
    | filter gov depth ord params =>
      simp only [FnModel.step, FnModel.filter, FnModel.rangeMatches]
      rw [rangeParams_fst]
      rcases (newContext_extends (build s.knows) s.model (splitParams params).1).pol key with ⟨-, e⟩ | ⟨p, x, e, -⟩
      · exact e
      · rw [h1] at e; cases e
  · cases op with
    | setFunction n f => exact hm
    | removeFunction n => exact hm
    | setDef sec k v => exact (setDef_mgr sec k v ho).trans hm
    | removeDef sec k => exact (removeDef_mgr sec k ho).trans hm
    | setRoleManager k g =>
      rw [← hm]
      simp only [FnModel.step, FnModel.setRoleManager, mgrOf]
      rw [set_other _ ho]
    | onManager k f =>
      rw [← hm]
      simp only [FnModel.step, FnModel.onManager]
      cases s.model.rpMap.get k with
      | none => rfl
      | some rp =>
        simp only [mgrOf]
        rw [set_other _ ho]
    | buildMatcher k => exact (buildMatcher_none h1 _ k).2.trans hm
    | rule op =>
      cases op with
      | add r => exact (add_mgr r ho).trans hm
      | remove r => exact (remove_mgr r ho).trans hm
      | clear k => exact (clear_mgr k ho).trans hm
    | enforce gov depth ord params =>
      simp only [FnModel.step, FnModel.enforce]
      rw [enforceParams_fst, ← hm]
      unfold mgrOf
      rcases (newContext_extends (build s.knows) s.model (splitParams params).1).role key with ⟨e1, e2⟩ | ⟨p, x, e1, e2⟩
      · rw [e1, e2]
      · rw [e1, e2]; rfl
    | filter gov depth ord params =>
      simp only [FnModel.step, FnModel.filter, FnModel.rangeMatches]
      rw [rangeParams_fst, ← hm]
      unfold mgrOf
      rcases (newContext_extends (build s.knows) s.model (splitParams params).1).role key with ⟨e1, e2⟩ | ⟨p, x, e1, e2⟩
      · rw [e1, e2]
      · rw [e1, e2]; rfl

theorem RolesAre.behind {build : FnBuild} {key : Str} (hg : key.head? = some 'g') {s : FnModel} {level : Nat}
    {pm : Option PMatcher} {L : Str → Str → Prop} {O : List Str} (h : RolesAre build key s level pm L O) :
    s.Behind key level pm L O := by
  induction h with
  | defined s hp value h2 =>
    refine ⟨setDef_none hg hp _ _ _, ?_, RM.new 10, ?_, RM.HasIn.new 10 none⟩
    · simp only [FnModel.setDef, setDef_ok_g, hg, and_self, if_true, GoMap.get_set_self]
    · cases key with
      | nil => cases hg
      | cons c cs =>
        have : c = 'g' := by simpa using hg
        subst this
        simp only [FnModel.setDef, Model.setDef, mgrOf, h2]
        simp [GoMap.get_set_self]
  | replaced s hp level pm =>
    refine ⟨hp, ?_, RM.new level pm, ?_, RM.HasIn.new level pm⟩
    · simp only [FnModel.setRoleManager, GoMap.get_set_self]
    · simp only [FnModel.setRoleManager, mgrOf, GoMap.get_set_self, Option.map_some]
  | setMatcher _ pm' ls hn hls ih => exact ih.onManager _ (fun m hm => hm.setMatcher pm' ls hls)
  | direct _ op ih => exact ih.onManager _ (fun m hm => hm.step op)
  | @add s level pm L O _ u r ds hd ih =>
    obtain ⟨h1, h2, m, hm, h3⟩ := ih
    refine ⟨step_none h1 (.add (key :: u :: r :: ds)), h2, (m.addLink u r []).1, ?_, h3.addLink u r⟩
    unfold mgrOf at hm
    cases hq : s.model.rpMap.get key with
    | none => rw [hq] at hm; cases hm
    | some rp =>
      rw [hq] at hm
      have hrp : rp.mgr = .rm m := by simpa using hm
      cases key with
      | nil => cases hg
      | cons c cs =>
        have : c = 'g' := by simpa using hg
        subst this
        simp only [Model.addRule, addRoleRule, hq, mgrOf, show ¬ ('g' = 'p') by decide, if_false, if_true,
          GoMap.get_set_self, Option.map_some]
        rw [RolePolicy.addRule_mgr rp hrp, addLink_domains m u r ds hd]
  | @remove s level pm L O _ u r ds hd ih =>
    obtain ⟨h1, h2, m, hm, h3⟩ := ih
    refine ⟨step_none h1 (.remove (key :: u :: r :: ds)), h2, (m.deleteLink u r []).1, ?_, h3.deleteLink u r⟩
    unfold mgrOf at hm
    cases hq : s.model.rpMap.get key with
    | none => rw [hq] at hm; cases hm
    | some rp =>
      rw [hq] at hm
      have hrp : rp.mgr = .rm m := by simpa using hm
      cases key with
      | nil => cases hg
      | cons c cs =>
        have : c = 'g' := by simpa using hg
        subst this
        simp only [Model.removeRule, removeRoleRule, hq, mgrOf, show ¬ ('g' = 'p') by decide, if_false, if_true,
          GoMap.get_set_self, Option.map_some]
        rw [RolePolicy.removeRule_mgr rp hrp, deleteLink_domains m u r ds hd]
  | @clear s level pm L O _ ih =>
    obtain ⟨h1, h2, m, hm, h3⟩ := ih
    refine ⟨step_none h1 (.clear key), h2, m.clear, ?_, h3.clear⟩
    unfold mgrOf at hm
    cases hq : s.model.rpMap.get key with
    | none => rw [hq] at hm; cases hm
    | some rp =>
      rw [hq] at hm
      have hrp : rp.mgr = .rm m := by simpa using hm
      simp only [clearPolicy, h1, hq, mgrOf, GoMap.get_set_self, Option.map_some, RolePolicy.clear, hrp]
      rfl
  | @other s level pm L O _ op ho ih =>
    obtain ⟨h1, h2, m, hm, h3⟩ := ih
    obtain ⟨a, b, c⟩ := step_leaves build hg s op ho h1 h2 hm
    exact ⟨a, b, m, c, h3⟩

end FnModel

end Fastac
