import Verif.Props.Domains
import Verif.Lemmas.Model

/-!
# Managers of role definitions: queries change nothing, and which links they follow
-/

namespace Fastac

namespace DM

/-- A query that does not change role managers does not change a domain manager. -/
theorem query_same {m : Option PMatcher} {β : Type} (q : RM → RM × β) :
    ∀ (π : List Str) (fuel : Nat) (L : Nat) (dm : DM), Clean π → π.length < fuel → Plain m L dm →
    (∀ π rm, dm.at π = some rm → (q rm).1 = rm) →
    query q fuel dm π = .ok (dm, (q (dm.atD L m π)).2)
  | [], fuel + 1, L, dm, _, _, h, hq => by
    rw [query]
    simp only [getDomain, getDefault_plain h, Res.map]
    cases e : dm.dflt with
    | none => rfl
    | some rm =>
      have e' : dm.atD L m [] = rm := by simp [atD, DM.at, e]
      have e2 : (q rm).1 = rm := hq [] rm e
      rw [e']
      simp only [Option.isSome_some, if_true, e2, setDflt_same e]
  | d :: π, fuel + 1, L, dm, hc, hf, h, hq => by
    have hs : ∀ π' rm, ((dm.subs.get d).getD (new (L - 1) m)).at π' = some rm → (q rm).1 = rm := by
      intro π' rm e
      rw [← at_cons dm (L - 1) m] at e
      exact hq _ rm e
    have e := query_same q π fuel (L - 1) _ hc.tail (by simpa using hf) (h.sub d) hs
    rw [query]
    simp only [getDomain_clean hc, getSub_plain h, Res.bind, e, Res.map]
    rw [atD_cons]
    cases es : dm.subs.get d with
    | none => rfl
    | some s =>
      simp only [Option.getD_some, Option.isSome_some, if_true, setSub_same es]

end DM

/-- The managers that `SetDef` makes, after changes: level 10, no matcher. -/
def Mgr.Base : Mgr → Prop
  | .rm m => m.Tidy ∧ m.level = 10 ∧ m.matcher = none
  | .dm d => DM.Plain none 10 d ∧
    ∀ π r, d.at π = some r → r.Tidy ∧ r.level = 9 - π.length ∧ r.matcher = none

theorem RM.addLink_level (rm : RM) (u r : Str) (ds : List Str) : (rm.addLink u r ds).1.level = rm.level ∧
    (rm.addLink u r ds).1.matcher = rm.matcher := by
  unfold RM.addLink
  simp only
  split <;> split <;>
    simp [RM.getRole_level, RM.getRole_matcher]

theorem RM.deleteLink_level (rm : RM) (u r : Str) (ds : List Str) :
    (rm.deleteLink u r ds).1.level = rm.level ∧ (rm.deleteLink u r ds).1.matcher = rm.matcher := by
  unfold RM.deleteLink
  simp only
  split <;> split <;>
    simp [RM.getRole_level, RM.getRole_matcher]

namespace Mgr

theorem Base.tidy {mgr : Mgr} (h : mgr.Base) : mgr.Tidy := by
  cases mgr with
  | rm m => exact h.1
  | dm d => exact ⟨none, 10, h.1, fun π r e => (h.2 π r e).1⟩

theorem Base.atD {d : DM} (h : (Mgr.dm d).Base) (π : List Str) :
    (d.atD 10 none π).Tidy ∧ (d.atD 10 none π).level = 9 - π.length ∧ (d.atD 10 none π).matcher = none := by
  unfold DM.atD
  cases e : d.at π with
  | none => exact ⟨RM.Tidy.new _ _, rfl, rfl⟩
  | some r => exact h.2 π r e

/-- The kind of manager. -/
def isRM : Mgr → Bool
  | .rm _ => true
  | .dm _ => false

theorem Base.addLink {mgr : Mgr} (h : mgr.Base) (u r : Str) (ds : List Str) (hd : mgr.PathOk ds) :
    ∃ mgr' b, mgr.addLink u r ds = .ok (mgr', b) ∧ mgr'.Base ∧ mgr'.isRM = mgr.isRM := by
  cases mgr with
  | rm m =>
    cases (show ds = [] from hd)
    refine ⟨_, _, rfl, ⟨(RM.Tidy.addLink h.1 u r).1, ?_, ?_⟩, rfl⟩
    · rw [(RM.addLink_level m u r []).1, h.2.1]
    · rw [(RM.addLink_level m u r []).2, h.2.2]
  | dm d =>
    obtain ⟨d', e, hp', ha, ho⟩ := DM.addLink_plain (m := none) u r ds (d.fuelFor ds) 10 d hd
      (by unfold DM.fuelFor; omega) h.1
    refine ⟨dm d', _, by simp only [Mgr.addLink, e, Res.map_ok]; exact rfl, ⟨hp', ?_⟩, rfl⟩
    intro π r' e'
    by_cases hπ : π = ds
    · subst hπ
      rw [ha] at e'
      cases e'
      obtain ⟨t1, t2, t3⟩ := h.atD π
      exact ⟨(t1.addLink u r).1, by rw [(RM.addLink_level _ u r []).1, t2],
        by rw [(RM.addLink_level _ u r []).2, t3]⟩
    · rw [ho π hπ] at e'; exact h.2 π r' e'

theorem Base.deleteLink {mgr : Mgr} (h : mgr.Base) (u r : Str) (ds : List Str) (hd : mgr.PathOk ds) :
    ∃ mgr' b, mgr.deleteLink u r ds = .ok (mgr', b) ∧ mgr'.Base ∧ mgr'.isRM = mgr.isRM := by
  cases mgr with
  | rm m =>
    cases (show ds = [] from hd)
    refine ⟨_, _, rfl, ⟨(RM.Tidy.deleteLink h.1 u r).1, ?_, ?_⟩, rfl⟩
    · rw [(RM.deleteLink_level m u r []).1, h.2.1]
    · rw [(RM.deleteLink_level m u r []).2, h.2.2]
  | dm d =>
    obtain ⟨d', e, hp', ha, ho⟩ := DM.deleteLink_plain (m := none) u r ds (d.fuelFor ds) 10 d hd
      (by unfold DM.fuelFor; omega) h.1
    refine ⟨dm d', _, by simp only [Mgr.deleteLink, e, Res.map_ok]; exact rfl, ⟨hp', ?_⟩, rfl⟩
    intro π r' e'
    by_cases hπ : π = ds
    · subst hπ
      rw [ha] at e'
      cases e'
      obtain ⟨t1, t2, t3⟩ := h.atD π
      exact ⟨(t1.deleteLink u r).1, by rw [(RM.deleteLink_level _ u r []).1, t2],
        by rw [(RM.deleteLink_level _ u r []).2, t3]⟩
    · rw [ho π hπ] at e'; exact h.2 π r' e'

theorem Base.clear {mgr : Mgr} (h : mgr.Base) : mgr.clear.Base ∧ mgr.clear.isRM = mgr.isRM := by
  cases mgr with
  | rm m => exact ⟨⟨RM.Tidy.clear, h.2.1, h.2.2⟩, rfl⟩
  | dm d =>
    refine ⟨?_, rfl⟩
    cases h.1 with
    | mk hw hh =>
      refine ⟨DM.plain_new 10 none, fun π r e => ?_⟩
      have e' : (DM.new 10 none).at π = some r := e
      rw [DM.at_new] at e'
      cases e'

/-- A path that `HasLink` can be asked about: any for a role manager, which ignores it. -/
def AskOk : Mgr → List Str → Prop
  | .rm _, _ => True
  | .dm _, ds => DM.Clean ds

/-- Asking changes nothing. -/
theorem Base.ask {mgr : Mgr} (h : mgr.Base) (u r : Str) (ds : List Str) (hd : mgr.AskOk ds) :
    ∃ b, mgr.hasLink u r ds = .ok (mgr, b) := by
  cases mgr with
  | rm m =>
    obtain ⟨L, hi, _⟩ := h.1
    exact ⟨_, by simp only [Mgr.hasLink, hi.hasLink_state]; rfl⟩
  | dm d =>
    have e := DM.query_same (fun rm => rm.hasLink u r) ds (d.fuelFor ds) 10 d hd
      (by unfold DM.fuelFor; omega) h.1 (fun π rm e => by
        obtain ⟨L, hi, _⟩ := (h.2 π rm e).1
        exact hi.hasLink_state u r)
    exact ⟨_, by simp only [Mgr.hasLink, DM.hasLink, e, Res.map]; rfl⟩

theorem Reach_congr {α : Type} {R R' : α → α → Prop} (h : ∀ a b, R a b ↔ R' a b) (k : Nat) (a b : α) :
    Reach R k a b ↔ Reach R' k a b :=
  ⟨fun x => x.mono fun a b => (h a b).1, fun x => x.mono fun a b => (h a b).2⟩

theorem RM.Tidy.hasLink_iff {rm : RM} (h : rm.Tidy) (hm : rm.matcher = none) (a b : Str) :
    (rm.hasLink a b).2 = true ↔ a = b ∨ ∃ k, k < rm.level ∧ Reach (fun u r => (u, r) ∈ rm.links) k a b := by
  obtain ⟨L, hi, hr⟩ := h
  rw [RM.Inv.hasLink_iff hi hm]
  have : ∀ u r, L u r ↔ (u, r) ∈ rm.links := fun u r => (hi.mem_links hr u r).symm
  simp only [Reach_congr this]

/-- Which questions are answered with yes: a role manager. -/
theorem Base.hasLink_rm {m : RM} (h : (rm m).Base) (a b : Str) (ds : List Str) :
    ∃ x, (rm m).hasLink a b ds = .ok (rm m, x) ∧
      (x = true ↔ a = b ∨ ∃ k, k ≤ 9 ∧ Reach (fun u r => (u, r, []) ∈ (rm m).links) k a b) := by
  obtain ⟨L, hi, _⟩ := h.1
  refine ⟨(m.hasLink a b).2, by simp only [Mgr.hasLink, hi.hasLink_state], ?_⟩
  rw [RM.Tidy.hasLink_iff h.1 h.2.2, h.2.1]
  have : ∀ u r, (u, r) ∈ m.links ↔ (u, r, []) ∈ (rm m).links := by
    intro u r
    rw [links_rm]
    simp
  simp only [Reach_congr this, Nat.lt_succ_iff]

/-- Which questions are answered with yes: a domain manager. -/
theorem Base.hasLink_dm {d : DM} (h : (dm d).Base) (a b : Str) (ds : List Str) (hd : DM.Clean ds) :
    ∃ x, (dm d).hasLink a b ds = .ok (dm d, x) ∧
      (x = true ↔ a = b ∨
        ∃ k, k + 1 + ds.length ≤ 9 ∧ Reach (fun u r => (u, r, ds) ∈ (dm d).links) k a b) := by
  have e := DM.query_same (fun rm => rm.hasLink a b) ds (d.fuelFor ds) 10 d hd
    (by unfold DM.fuelFor; omega) h.1 (fun π rm e => by
      obtain ⟨L, hi, _⟩ := (h.2 π rm e).1
      exact hi.hasLink_state a b)
  refine ⟨_, by simp only [Mgr.hasLink, DM.hasLink, e, Res.map]; rfl, ?_⟩
  obtain ⟨t1, t2, t3⟩ := h.atD ds
  rw [RM.Tidy.hasLink_iff t1 t3, t2]
  have : ∀ u r, (u, r) ∈ (d.atD 10 none ds).links ↔ (u, r, ds) ∈ (dm d).links := by
    intro u r
    rw [links_dm, mem_atD h.1]
  simp only [Reach_congr this]
  have hk : ∀ k, k < 9 - ds.length ↔ k + 1 + ds.length ≤ 9 := by omega
  simp only [hk]

end Mgr

end Fastac
