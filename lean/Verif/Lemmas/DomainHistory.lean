import Verif.Spec.DomainHistory
import Verif.Lemmas.RoleHistory
import Verif.Props.PatternDomains

/-!
# The domain manager of a role definition in a program
-/

namespace Fastac

namespace DM

open DomState

theorem fuelFor_two (d : DM) (ds : List Str) : ∃ k, d.fuelFor ds = k + 2 := by
  obtain ⟨dflt, subs, ps, lv, mm, dd⟩ := d
  exact ⟨depthSubs subs + ds.length, by simp only [fuelFor, depth]; omega⟩

theorem steps_snoc {S T V : DomState} {cs : List Call} {c : Call} (h : Steps S cs T) (h' : Step T c V) :
    Steps S (cs ++ [c]) V := by
  induction h with
  | nil S => exact .cons h' (.nil _)
  | cons h1 _ ih => exact .cons h1 (ih h')

/-- One call. -/
theorem Shows.onDM {L : Nat} {S : DomState} {dm : DM} (h : Shows L S dm) (hd : NoDefault S.dmm) (c : Call) (hc : c.Fine) :
    ∃ dm' T, Mgr.onDM c (.dm dm) = .dm dm' ∧ Step S c T ∧ Shows L T dm' ∧ NoDefault T.dmm := by
  cases c with
  | op o =>
    cases o with
    | add u r ds =>
      obtain ⟨k, hk⟩ := fuelFor_two dm ds
      obtain ⟨y, e, hs, -⟩ := h.chg hd true k u r ds hc.1 hc.2
      have e : addLink (k + 2) dm u r ds = .ok y := e
      refine ⟨y.1, _, ?_, .op S _, hs, hd⟩
      simp only [Mgr.onDM, Mgr.addLink, hk, e, Res.map_ok]
    | del u r ds =>
      obtain ⟨k, hk⟩ := fuelFor_two dm ds
      obtain ⟨y, e, hs, -⟩ := h.chg hd false k u r ds hc.1 hc.2
      have e : deleteLink (k + 2) dm u r ds = .ok y := e
      refine ⟨y.1, _, ?_, .op S _, hs, hd⟩
      simp only [Mgr.onDM, Mgr.deleteLink, hk, e, Res.map_ok]
    | clear => exact ⟨_, _, rfl, .op S _, h.clear, hd⟩
    | hasLink u r ds => exact hc.elim
    | getRoles n ds => exact hc.elim
    | getUsers n ds => exact hc.elim
  | setMatcher m order => exact ⟨_, _, rfl, .setMatcher S m order, h.setMatcher m order hc, hd⟩
  | setDomainMatcher m order =>
    obtain ⟨k, hk⟩ := fuelFor_two dm []
    obtain ⟨dm1, e, T, hs, hsh⟩ := h.setDomainMatcher m hc.2 order hc.1 k
    refine ⟨dm1, T, ?_, hs, hsh, ?_⟩
    · simp only [Mgr.onDM, hk, e]
    · cases hs with
      | setDomainMatcher _ _ ls hn hl => rw [(foldl_add_m ls _).2]; exact hc.2

end DM

namespace RolePolicy

theorem addRule_onDM (p : RolePolicy) {d : DM} (h : p.mgr = .dm d) (u r : Str) (ds : List Str) :
    (p.addRule (u :: r :: ds)).1.mgr = Mgr.onDM (.op (.add u r ds)) (.dm d) := by
  unfold addRule
  rw [h]
  simp only [Mgr.onDM]
  cases (Mgr.dm d).addLink u r ds with
  | err => exact h
  | panic => exact h
  | ok x =>
    obtain ⟨g, b⟩ := x
    cases b with
    | false => rfl
    | true =>
      simp only [emit]
      cases notify p.listeners (.added (u :: r :: ds)) <;> rfl

theorem removeRule_onDM (p : RolePolicy) {d : DM} (h : p.mgr = .dm d) (u r : Str) (ds : List Str) :
    (p.removeRule (u :: r :: ds)).1.mgr = Mgr.onDM (.op (.del u r ds)) (.dm d) := by
  unfold removeRule
  rw [h]
  simp only [Mgr.onDM]
  cases (Mgr.dm d).deleteLink u r ds with
  | err => exact h
  | panic => exact h
  | ok x =>
    obtain ⟨g, b⟩ := x
    cases b with
    | false => rfl
    | true =>
      simp only [emit]
      cases notify p.listeners (.removed (u :: r :: ds)) <;> rfl

end RolePolicy

namespace FnModel

open Model DM DomState

/-- What is known about the domain manager behind `key`. -/
structure DomBehind (key : Str) (s : FnModel) (level : Nat) (m dmm : Option PMatcher) (cs : List DM.Call) : Prop where
  none : s.model.pMap.get key = none
  fn : s.fns.get key = some .role
  mgr : ∃ d S, s.model.mgrOf key = some (.dm d) ∧ Steps (DomState.empty m dmm) cs S ∧ Shows level S d ∧ NoDefault S.dmm

theorem DomainsAre.behind {build : FnBuild} {key : Str} (hg : key.head? = some 'g') {s : FnModel} {level : Nat}
    {m dmm : Option PMatcher} {cs : List DM.Call} (h : DomainsAre build key s level m dmm cs) :
    s.DomBehind key level m dmm cs := by
  induction h with
  | defined s hp value h2 =>
    refine ⟨setDef_none hg hp _ _ _, ?_, DM.new 10, _, ?_, .nil _, shows_new 10 none none, by rintro _ ⟨⟩⟩
    · simp only [FnModel.setDef, setDef_ok_g, hg, and_self, if_true, GoMap.get_set_self]
    · cases key with
      | nil => cases hg
      | cons c cs =>
        have : c = 'g' := by simpa using hg
        subst this
        simp only [FnModel.setDef, Model.setDef, mgrOf, if_neg h2]
        simp [GoMap.get_set_self]
  | replaced s hp level m dmm hd =>
    refine ⟨hp, ?_, DM.new level m dmm, _, ?_, .nil _, shows_new level m dmm, hd⟩
    · simp only [FnModel.setRoleManager, GoMap.get_set_self]
    · simp only [FnModel.setRoleManager, mgrOf, GoMap.get_set_self, Option.map_some]
  | @direct s level m dmm cs _ c hc ih =>
    obtain ⟨h1, h2, d, S, hm, hst, hsh, hd⟩ := ih
    obtain ⟨d', T, e, hs', hsh', hd'⟩ := hsh.onDM hd c hc
    unfold mgrOf at hm
    cases hq : s.model.rpMap.get key with
    | none => rw [hq] at hm; cases hm
    | some rp =>
      rw [hq] at hm
      have hrp : rp.mgr = .dm d := by simpa using hm
      unfold FnModel.onManager
      rw [hq]
      refine ⟨h1, h2, d', T, ?_, steps_snoc hst hs', hsh', hd'⟩
      simp only [mgrOf, GoMap.get_set_self, Option.map_some, hrp, e]
  | @add s level m dmm cs _ u r ds hc ih =>
    obtain ⟨h1, h2, d, S, hm, hst, hsh, hd⟩ := ih
    obtain ⟨d', T, e, hs', hsh', hd'⟩ := hsh.onDM hd (.op (.add u r ds)) hc
    refine ⟨step_none h1 (.add (key :: u :: r :: ds)), h2, d', T, ?_, steps_snoc hst hs', hsh', hd'⟩
    unfold mgrOf at hm
    cases hq : s.model.rpMap.get key with
    | none => rw [hq] at hm; cases hm
    | some rp =>
      rw [hq] at hm
      have hrp : rp.mgr = .dm d := by simpa using hm
      cases key with
      | nil => cases hg
      | cons c cs =>
        have : c = 'g' := by simpa using hg
        subst this
        simp only [Model.addRule, addRoleRule, hq, mgrOf, show ¬ ('g' = 'p') by decide, if_false, if_true,
          GoMap.get_set_self, Option.map_some]
        rw [RolePolicy.addRule_onDM rp hrp, e]
  | @remove s level m dmm cs _ u r ds hc ih =>
    obtain ⟨h1, h2, d, S, hm, hst, hsh, hd⟩ := ih
    obtain ⟨d', T, e, hs', hsh', hd'⟩ := hsh.onDM hd (.op (.del u r ds)) hc
    refine ⟨step_none h1 (.remove (key :: u :: r :: ds)), h2, d', T, ?_, steps_snoc hst hs', hsh', hd'⟩
    unfold mgrOf at hm
    cases hq : s.model.rpMap.get key with
    | none => rw [hq] at hm; cases hm
    | some rp =>
      rw [hq] at hm
      have hrp : rp.mgr = .dm d := by simpa using hm
      cases key with
      | nil => cases hg
      | cons c cs =>
        have : c = 'g' := by simpa using hg
        subst this
        simp only [Model.removeRule, removeRoleRule, hq, mgrOf, show ¬ ('g' = 'p') by decide, if_false, if_true,
          GoMap.get_set_self, Option.map_some]
        rw [RolePolicy.removeRule_onDM rp hrp, e]
  | @clear s level m dmm cs _ ih =>
    obtain ⟨h1, h2, d, S, hm, hst, hsh, hd⟩ := ih
    refine ⟨step_none h1 (.clear key), h2, d.clear, _, ?_, steps_snoc hst (.op S .clear), hsh.clear, hd⟩
    unfold mgrOf at hm
    cases hq : s.model.rpMap.get key with
    | none => rw [hq] at hm; cases hm
    | some rp =>
      rw [hq] at hm
      have hrp : rp.mgr = .dm d := by simpa using hm
      simp only [clearPolicy, h1, hq, mgrOf, GoMap.get_set_self, Option.map_some, RolePolicy.clear, hrp]
      rfl
  | @other s level m dmm cs _ op ho hq ih =>
    obtain ⟨h1, h2, d, S, hm, h3⟩ := ih
    obtain ⟨a, b, c⟩ := step_leaves build hg s op ho h1 h2 hm
    exact ⟨a, b, d, S, c, h3⟩

end FnModel

end Fastac
