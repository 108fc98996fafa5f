import Verif.Spec.Model
import Verif.Props.Policy
import Verif.Lemmas.DomainRange

/-! # Invariant of models; the rules of a model as a set -/

namespace Fastac

/-! ## Managers -/

/-- A role manager whose links were all added without a domain. -/
def RM.Tidy (rm : RM) : Prop := ∃ L, rm.Inv L ∧ ∀ x, (rm.obj x).redundant = []

theorem RM.Tidy.new (L : Nat) (m : Option PMatcher) : (RM.new L m).Tidy :=
  ⟨_, RM.new_inv L m, fun _ => rfl⟩

theorem RM.Tidy.clear {rm : RM} : rm.clear.Tidy := ⟨_, RM.Inv.clear, fun _ => rfl⟩

theorem RM.Tidy.addLink {rm : RM} (h : rm.Tidy) (u r : Str) :
    (rm.addLink u r []).1.Tidy ∧ ((rm.addLink u r []).2 = true ↔ (u, r) ∉ rm.links) ∧
      ∀ l, l ∈ (rm.addLink u r []).1.links ↔ l ∈ rm.links ∨ l = (u, r) := by
  obtain ⟨L, hi, hr⟩ := h
  obtain ⟨a, -, b, c⟩ := hi.addLink u r []
  have hr' : ∀ x, ((rm.addLink u r []).1.obj x).redundant = [] := by
    intro x
    rw [List.eq_nil_iff_forall_not_mem]
    intro y hy
    rw [c, hr] at hy
    simp at hy
  refine ⟨⟨_, a, hr'⟩, ?_, ?_⟩
  · rw [b, hi.mem_links hr]
  · rintro ⟨x, y⟩
    rw [a.mem_links hr', hi.mem_links hr]
    simp [addL]

theorem RM.Tidy.deleteLink {rm : RM} (h : rm.Tidy) (u r : Str) :
    (rm.deleteLink u r []).1.Tidy ∧ ((rm.deleteLink u r []).2 = true ↔ (u, r) ∈ rm.links) ∧
      ∀ l, l ∈ (rm.deleteLink u r []).1.links ↔ l ∈ rm.links ∧ l ≠ (u, r) := by
  obtain ⟨L, hi, hr⟩ := h
  obtain ⟨a, -, b, c⟩ := hi.deleteLink u r []
  have hr' : ∀ x, ((rm.deleteLink u r []).1.obj x).redundant = [] := by
    intro x
    rw [List.eq_nil_iff_forall_not_mem]
    intro y hy
    rw [c, hr] at hy
    simp at hy
  refine ⟨⟨_, a, hr'⟩, ?_, ?_⟩
  · rw [b, hi.mem_links hr]
  · rintro ⟨x, y⟩
    rw [a.mem_links hr', hi.mem_links hr]
    simp [delL]

theorem RM.Tidy.links_nodup {rm : RM} (h : rm.Tidy) : rm.links.Nodup := by
  obtain ⟨L, hi, _⟩ := h
  exact hi.links_nodup

namespace Mgr

/-- The links of a manager, with their domain paths. -/
def links (mgr : Mgr) : List (Str × Str × List Str) := mgr.runs.flatten

def Tidy : Mgr → Prop
  | rm m => m.Tidy
  | dm d => ∃ m L, DM.Plain m L d ∧ ∀ π r, d.at π = some r → r.Tidy

theorem links_rm (m : RM) : (rm m).links = m.links.map (fun l => (l.1, l.2, [])) := by
  unfold links runs RM.links
  simp only
  rw [List.map_flatMap, List.flatMap_def]
  congr 1
  apply List.map_congr_left
  intro u _
  rw [List.map_map]
  rfl

theorem links_dm (d : DM) : (dm d).links = d.range := by
  unfold links runs
  simp only
  induction d.range with
  | nil => rfl
  | cons x xs ih => simp [ih]

/-- The path suits the kind of manager. -/
def PathOk : Mgr → List Str → Prop
  | rm _, ds => ds = []
  | dm _, ds => DM.Clean ds

theorem Tidy.nodup {mgr : Mgr} (h : mgr.Tidy) : mgr.links.Nodup := by
  cases mgr with
  | rm m =>
    rw [links_rm]
    apply List.Pairwise.map _ _ (RM.Tidy.links_nodup h)
    rintro ⟨a, b⟩ ⟨a', b'⟩ hne e
    simp only [Prod.mk.injEq, and_true] at e
    obtain ⟨rfl, rfl⟩ := e
    exact hne rfl
  | dm d =>
    obtain ⟨m, L, hp, ht⟩ := h
    rw [links_dm]
    exact DM.range_nodup hp (fun π r e => (ht π r e).links_nodup)

theorem tidy_atD {m : Option PMatcher} {L : Nat} {d : DM}
    (ht : ∀ π r, d.at π = some r → r.Tidy) (π : List Str) : (d.atD L m π).Tidy := by
  unfold DM.atD
  cases e : d.at π with
  | none => exact RM.Tidy.new _ _
  | some r => exact ht π r e

theorem mem_atD {m : Option PMatcher} {L : Nat} {d : DM} (hp : DM.Plain m L d) (u r : Str) (π : List Str) :
    (u, r, π) ∈ d.range ↔ (u, r) ∈ (d.atD L m π).links := by
  rw [DM.mem_range hp]
  unfold DM.atD
  cases e : d.at π with
  | none => simp [RM.new, RM.links]
  | some rm => simp

theorem Tidy.addLink {mgr : Mgr} (h : mgr.Tidy) (u r : Str) (ds : List Str) (hd : mgr.PathOk ds) :
    ∃ mgr' b, mgr.addLink u r ds = .ok (mgr', b) ∧ mgr'.Tidy ∧ (∀ ds, mgr'.PathOk ds ↔ mgr.PathOk ds) ∧
      (b = true ↔ (u, r, ds) ∉ mgr.links) ∧
      ∀ l, l ∈ mgr'.links ↔ l ∈ mgr.links ∨ l = (u, r, ds) := by
  cases mgr with
  | rm m =>
    cases (show ds = [] from hd)
    obtain ⟨a, b, c⟩ := RM.Tidy.addLink h u r
    refine ⟨_, _, rfl, a, fun _ => Iff.rfl, ?_, ?_⟩
    · rw [b, links_rm]; simp
    · rintro ⟨x, y, π⟩
      rw [links_rm, links_rm]
      simp only [List.mem_map, Prod.mk.injEq, Prod.exists, c]
      constructor
      · rintro ⟨a, b, h | ⟨rfl, rfl⟩, rfl, rfl, rfl⟩
        · exact Or.inl ⟨_, _, h, rfl, rfl, rfl⟩
        · exact Or.inr ⟨rfl, rfl, rfl⟩
      · rintro (⟨a, b, h, rfl, rfl, rfl⟩ | ⟨rfl, rfl, rfl⟩)
        · exact ⟨_, _, Or.inl h, rfl, rfl, rfl⟩
        · exact ⟨_, _, Or.inr ⟨rfl, rfl⟩, rfl, rfl, rfl⟩
  | dm d =>
    obtain ⟨m, L, hp, ht⟩ := h
    obtain ⟨d', e, hp', ha, ho⟩ := DM.addLink_plain (m := m) u r ds (d.fuelFor ds) L d hd
      (by unfold DM.fuelFor; omega) hp
    obtain ⟨t1, t2, t3⟩ := (tidy_atD (m := m) (L := L) ht ds).addLink u r
    refine ⟨dm d', _, by simp only [Mgr.addLink, e, Res.map_ok]; exact rfl, ⟨m, L, hp', ?_⟩, fun _ => Iff.rfl, ?_, ?_⟩
    · intro π r' e'
      by_cases hπ : π = ds
      · subst hπ; rw [ha] at e'; cases e'; exact t1
      · rw [ho π hπ] at e'; exact ht π r' e'
    · rw [t2, links_dm, mem_atD hp]
    · rintro ⟨x, y, π⟩
      rw [links_dm, links_dm, DM.mem_range hp']
      by_cases hπ : π = ds
      · subst hπ
        rw [ha, mem_atD hp]
        simp [t3]
      · rw [ho π hπ, ← DM.mem_range hp]
        simp [hπ]

theorem Tidy.deleteLink {mgr : Mgr} (h : mgr.Tidy) (u r : Str) (ds : List Str) (hd : mgr.PathOk ds) :
    ∃ mgr' b, mgr.deleteLink u r ds = .ok (mgr', b) ∧ mgr'.Tidy ∧
      (∀ ds, mgr'.PathOk ds ↔ mgr.PathOk ds) ∧ (b = true ↔ (u, r, ds) ∈ mgr.links) ∧
      ∀ l, l ∈ mgr'.links ↔ l ∈ mgr.links ∧ l ≠ (u, r, ds) := by
  cases mgr with
  | rm m =>
    cases (show ds = [] from hd)
    obtain ⟨a, b, c⟩ := RM.Tidy.deleteLink h u r
    refine ⟨_, _, rfl, a, fun _ => Iff.rfl, ?_, ?_⟩
    · rw [b, links_rm]; simp
    · rintro ⟨x, y, π⟩
      rw [links_rm, links_rm]
      simp only [List.mem_map, Prod.mk.injEq, Prod.exists, c, ne_eq]
      constructor
      · rintro ⟨a, b, ⟨h, hne⟩, rfl, rfl, rfl⟩
        exact ⟨⟨_, _, h, rfl, rfl, rfl⟩, fun e => hne ⟨e.1, e.2.1⟩⟩
      · rintro ⟨⟨a, b, h, rfl, rfl, rfl⟩, hne⟩
        exact ⟨_, _, ⟨h, fun e => hne ⟨e.1, e.2, rfl⟩⟩, rfl, rfl, rfl⟩
  | dm d =>
    obtain ⟨m, L, hp, ht⟩ := h
    obtain ⟨d', e, hp', ha, ho⟩ := DM.deleteLink_plain (m := m) u r ds (d.fuelFor ds) L d hd
      (by unfold DM.fuelFor; omega) hp
    obtain ⟨t1, t2, t3⟩ := (tidy_atD (m := m) (L := L) ht ds).deleteLink u r
    refine ⟨dm d', _, by simp only [Mgr.deleteLink, e, Res.map_ok]; exact rfl, ⟨m, L, hp', ?_⟩, fun _ => Iff.rfl, ?_, ?_⟩
    · intro π r' e'
      by_cases hπ : π = ds
      · subst hπ; rw [ha] at e'; cases e'; exact t1
      · rw [ho π hπ] at e'; exact ht π r' e'
    · rw [t2, links_dm, mem_atD hp]
    · rintro ⟨x, y, π⟩
      rw [links_dm, links_dm, DM.mem_range hp']
      by_cases hπ : π = ds
      · subst hπ
        rw [ha, mem_atD hp]
        simp [t3]
      · rw [ho π hπ, ← DM.mem_range hp]
        simp [hπ]

theorem Tidy.clear {mgr : Mgr} (h : mgr.Tidy) : mgr.clear.Tidy ∧
    (∀ ds, mgr.clear.PathOk ds ↔ mgr.PathOk ds) ∧ mgr.clear.links = [] := by
  cases mgr with
  | rm m => exact ⟨RM.Tidy.clear, fun _ => Iff.rfl, rfl⟩
  | dm d =>
    refine ⟨?_, fun _ => Iff.rfl, ?_⟩
    · obtain ⟨m, L, hp, _⟩ := h
      cases hp with
      | mk hw hh =>
        refine ⟨m, L, DM.plain_new L m, fun π r e => ?_⟩
        have e' : (DM.new L m).at π = some r := e
        rw [DM.at_new] at e'
        cases e'
    · show (dm d.clear).links = []
      rw [links_dm]
      simp [DM.clear, DM.range, DM.dfltLinks, DM.rangeSubs]

end Mgr

namespace RolePolicy

theorem mem_rules (rp : RolePolicy) (x : Rule) :
    x ∈ rp.rules ↔ ∃ u r ds, x = u :: r :: ds ∧ (u, r, ds) ∈ rp.mgr.links := by
  unfold rules runs Mgr.links
  simp only [List.mem_flatten, List.mem_map]
  constructor
  · rintro ⟨_, ⟨g, hg, rfl⟩, hx⟩
    obtain ⟨⟨u, r, ds⟩, hl, rfl⟩ := List.mem_map.1 hx
    exact ⟨u, r, ds, rfl, g, hg, hl⟩
  · rintro ⟨u, r, ds, rfl, g, hg, hl⟩
    exact ⟨_, ⟨g, hg, rfl⟩, List.mem_map.2 ⟨_, hl, rfl⟩⟩

theorem rules_eq (rp : RolePolicy) : rp.rules = rp.mgr.links.map (fun l => l.1 :: l.2.1 :: l.2.2) := by
  unfold rules runs Mgr.links
  rw [List.map_flatten]

theorem rules_nodup {rp : RolePolicy} (h : rp.mgr.Tidy) : rp.rules.Nodup := by
  rw [rules_eq]
  apply List.Pairwise.map _ _ h.nodup
  rintro ⟨a, b, c⟩ ⟨a', b', c'⟩ hne e
  simp only [List.cons.injEq] at e
  obtain ⟨rfl, rfl, rfl⟩ := e
  exact hne rfl

theorem emit_mgr (rp : RolePolicy) (mgr : Mgr) (e : PolEvent) : (rp.emit mgr e).1.mgr = mgr ∧
    ((rp.emit mgr e).2 = .ok true ∨ (rp.emit mgr e).2 = .err ∨ (rp.emit mgr e).2 = .panic) := by
  unfold emit
  split <;> simp

/-- What a call does to the rules: they become `P`; the answer is `b` or the call fails. -/
structure Does (rp rp' : RolePolicy) (res : Res Bool) (P : Rule → Prop) (b : Prop) : Prop where
  tidy : rp'.mgr.Tidy
  path : ∀ ds, rp'.mgr.PathOk ds ↔ rp.mgr.PathOk ds
  rules : ∀ x, x ∈ rp'.rules ↔ P x
  res : (∃ a, res = .ok a ∧ (a = true ↔ b)) ∨ ((res = .err ∨ res = .panic) ∧ b)

theorem addRule_does {rp : RolePolicy} (h : rp.mgr.Tidy) (u r : Str) (ds : List Str)
    (hd : rp.mgr.PathOk ds) :
    Does rp (rp.addRule (u :: r :: ds)).1 (rp.addRule (u :: r :: ds)).2
      (fun x => x ∈ rp.rules ∨ x = u :: r :: ds) (u :: r :: ds ∉ rp.rules) := by
  obtain ⟨mgr', b, e, t, hp, hb, hl⟩ := h.addLink u r ds hd
  have hmem : ∀ rp' : RolePolicy, rp'.mgr = mgr' → ∀ x, x ∈ rp'.rules ↔ x ∈ rp.rules ∨ x = u :: r :: ds := by
    intro rp' e x
    rw [mem_rules, mem_rules, e]
    constructor
    · rintro ⟨a, b, c, rfl, h⟩
      rcases (hl _).1 h with h | h
      · exact Or.inl ⟨a, b, c, rfl, h⟩
      · cases h; exact Or.inr rfl
    · rintro (⟨a, b, c, rfl, h⟩ | rfl)
      · exact ⟨a, b, c, rfl, (hl _).2 (Or.inl h)⟩
      · exact ⟨u, r, ds, rfl, (hl _).2 (Or.inr rfl)⟩
  have hnot : u :: r :: ds ∉ rp.rules ↔ b = true := by
    rw [hb, mem_rules]
    constructor
    · intro h h'; exact h ⟨u, r, ds, rfl, h'⟩
    · rintro h ⟨a, b, c, e, h'⟩; cases e; exact h h'
  unfold addRule
  simp only [e]
  cases b with
  | true =>
    obtain ⟨e1, e2⟩ := emit_mgr rp mgr' (.added (u :: r :: ds))
    simp only
    refine ⟨by rw [e1]; exact t, by rw [e1]; exact hp, hmem _ e1, ?_⟩
    rw [hnot]
    rcases e2 with e2 | e2 | e2
    · exact Or.inl ⟨true, e2, Iff.rfl⟩
    · exact Or.inr ⟨Or.inl e2, rfl⟩
    · exact Or.inr ⟨Or.inr e2, rfl⟩
  | false =>
    refine ⟨t, hp, hmem _ rfl, ?_⟩
    rw [hnot]
    exact Or.inl ⟨false, rfl, Iff.rfl⟩

theorem removeRule_does {rp : RolePolicy} (h : rp.mgr.Tidy) (u r : Str) (ds : List Str)
    (hd : rp.mgr.PathOk ds) :
    Does rp (rp.removeRule (u :: r :: ds)).1 (rp.removeRule (u :: r :: ds)).2
      (fun x => x ∈ rp.rules ∧ x ≠ u :: r :: ds) (u :: r :: ds ∈ rp.rules) := by
  obtain ⟨mgr', b, e, t, hp, hb, hl⟩ := h.deleteLink u r ds hd
  have hmem : ∀ rp' : RolePolicy, rp'.mgr = mgr' → ∀ x, x ∈ rp'.rules ↔ x ∈ rp.rules ∧ x ≠ u :: r :: ds := by
    intro rp' e x
    rw [mem_rules, mem_rules, e]
    constructor
    · rintro ⟨a, b, c, rfl, h⟩
      obtain ⟨h, h'⟩ := (hl _).1 h
      exact ⟨⟨a, b, c, rfl, h⟩, fun e => h' (by cases e; rfl)⟩
    · rintro ⟨⟨a, b, c, rfl, h⟩, h'⟩
      exact ⟨a, b, c, rfl, (hl _).2 ⟨h, fun e => h' (by cases e; rfl)⟩⟩
  have hin : u :: r :: ds ∈ rp.rules ↔ b = true := by
    rw [hb, mem_rules]
    constructor
    · rintro ⟨a, b, c, e, h'⟩; cases e; exact h'
    · intro h; exact ⟨u, r, ds, rfl, h⟩
  unfold removeRule
  simp only [e]
  cases b with
  | true =>
    obtain ⟨e1, e2⟩ := emit_mgr rp mgr' (.removed (u :: r :: ds))
    simp only
    refine ⟨by rw [e1]; exact t, by rw [e1]; exact hp, hmem _ e1, ?_⟩
    rw [hin]
    rcases e2 with e2 | e2 | e2
    · exact Or.inl ⟨true, e2, Iff.rfl⟩
    · exact Or.inr ⟨Or.inl e2, rfl⟩
    · exact Or.inr ⟨Or.inr e2, rfl⟩
  | false =>
    refine ⟨t, hp, hmem _ rfl, ?_⟩
    rw [hin]
    exact Or.inl ⟨false, rfl, Iff.rfl⟩

end RolePolicy

/-! ## Models -/

namespace Model

structure Tidy (m : Model) : Prop where
  pw : m.pMap.WF
  rw : m.rpMap.WF
  pols : ∀ k p, m.pMap.get k = some p → k.head? = some 'p' ∧ p.policy.WF ∧ ∀ r ∈ p.policy.rules, Plain r
  roles : ∀ k rp, m.rpMap.get k = some rp → k.head? = some 'g' ∧ rp.mgr.Tidy ∧
    ∀ ds, (if m.gDefs.get k = some 2 then ds = [] else DM.Clean ds) → rp.mgr.PathOk ds

theorem mem_rules {m : Model} (h : m.Tidy) (x : Rule) : x ∈ m.rules ↔ ∃ k fields, x = k :: fields ∧
    ((∃ p, m.pMap.get k = some p ∧ fields ∈ p.policy.rules) ∨
      ∃ rp, m.rpMap.get k = some rp ∧ fields ∈ rp.rules) := by
  unfold rules ruleRuns RolePolicy.rules
  simp only [List.mem_flatten, List.mem_append, List.mem_map, List.mem_flatMap, Prod.exists]
  constructor
  · rintro ⟨l, ⟨k, p, hm, rfl⟩ | ⟨k, rp, hm, g, hg, rfl⟩, hx⟩
    · obtain ⟨r, hr, rfl⟩ := List.mem_map.1 hx
      exact ⟨k, r, rfl, Or.inl ⟨p, h.pw.get_of_mem hm, hr⟩⟩
    · obtain ⟨r, hr, rfl⟩ := List.mem_map.1 hx
      exact ⟨k, r, rfl, Or.inr ⟨rp, h.rw.get_of_mem hm, g, hg, hr⟩⟩
  · rintro ⟨k, fields, rfl, ⟨p, hm, hr⟩ | ⟨rp, hm, g, hg, hr⟩⟩
    · exact ⟨_, Or.inl ⟨k, p, GoMap.mem_of_get hm, rfl⟩, List.mem_map.2 ⟨_, hr, rfl⟩⟩
    · exact ⟨_, Or.inr ⟨k, rp, GoMap.mem_of_get hm, g, hg, rfl⟩, List.mem_map.2 ⟨_, hr, rfl⟩⟩

theorem mem_rules_p {m : Model} (h : m.Tidy) {k : Str} {p : PolObj} (hg : m.pMap.get k = some p)
    (fields : Rule) : k :: fields ∈ m.rules ↔ fields ∈ p.policy.rules := by
  rw [mem_rules h]
  constructor
  · rintro ⟨k', f', e, ⟨p', hg', hm⟩ | ⟨rp, hg', hm⟩⟩
    · cases e; rw [hg] at hg'; cases hg'; exact hm
    · cases e
      have a := (h.pols k p hg).1
      rw [(h.roles k rp hg').1] at a
      cases a
  · intro hm; exact ⟨k, fields, rfl, Or.inl ⟨p, hg, hm⟩⟩

theorem mem_rules_g {m : Model} (h : m.Tidy) {k : Str} {rp : RolePolicy} (hg : m.rpMap.get k = some rp)
    (fields : Rule) : k :: fields ∈ m.rules ↔ fields ∈ rp.rules := by
  rw [mem_rules h]
  constructor
  · rintro ⟨k', f', e, ⟨p', hg', hm⟩ | ⟨rp, hg', hm⟩⟩
    · cases e
      have a := (h.pols k p' hg').1
      rw [(h.roles k rp hg).1] at a
      cases a
    · cases e; rw [hg] at hg'; cases hg'; exact hm
  · intro hm; exact ⟨k, fields, rfl, Or.inr ⟨rp, hg, hm⟩⟩

/-- Replacing a `p` policy. -/
theorem Tidy.setP {m : Model} (h : m.Tidy) {k : Str} {p : PolObj} (hg : m.pMap.get k = some p)
    (p' : PolObj) (hw : p'.policy.WF) (hpl : ∀ r ∈ p'.policy.rules, Plain r) :
    Tidy { m with pMap := m.pMap.set k p' } := by
  refine ⟨h.pw.set _ _, h.rw, ?_, h.roles⟩
  intro k' q hq
  simp only [GoMap.get_set] at hq
  split at hq
  · rename_i e; subst e; cases hq
    exact ⟨(h.pols k p hg).1, hw, hpl⟩
  · exact h.pols k' q hq

theorem mem_setP {m : Model} {k : Str} {p p' : PolObj} (h : m.Tidy) (hg : m.pMap.get k = some p)
    (h' : Tidy { m with pMap := m.pMap.set k p' }) (x : Rule) :
    x ∈ Model.rules { m with pMap := m.pMap.set k p' } ↔
      (x ∈ m.rules ∧ ∀ f, x ≠ k :: f) ∨ ∃ f, x = k :: f ∧ f ∈ p'.policy.rules := by
  rw [mem_rules h', mem_rules h]
  simp only [GoMap.get_set]
  constructor
  · rintro ⟨k', f, rfl, ⟨q, hq, hm⟩ | ⟨rp, hq, hm⟩⟩
    · split at hq
      · rename_i e; subst e; cases hq
        exact Or.inr ⟨f, rfl, hm⟩
      · rename_i e
        exact Or.inl ⟨⟨k', f, rfl, Or.inl ⟨q, hq, hm⟩⟩, fun f' e' => e (by cases e'; rfl)⟩
    · refine Or.inl ⟨⟨k', f, rfl, Or.inr ⟨rp, hq, hm⟩⟩, fun f' e' => ?_⟩
      cases e'
      have a := (h.pols k p hg).1
      rw [(h.roles k rp hq).1] at a
      cases a
  · rintro (⟨⟨k', f, rfl, hm⟩, hne⟩ | ⟨f, rfl, hm⟩)
    · refine ⟨k', f, rfl, ?_⟩
      rcases hm with ⟨q, hq, hm⟩ | hm
      · refine Or.inl ⟨q, ?_, hm⟩
        rw [if_neg (fun e => hne f (by rw [e]))]; exact hq
      · exact Or.inr hm
    · exact ⟨k, f, rfl, Or.inl ⟨p', by simp, hm⟩⟩

/-- Replacing a role policy. -/
theorem Tidy.setG {m : Model} (h : m.Tidy) {k : Str} {rp : RolePolicy} (hg : m.rpMap.get k = some rp)
    (rp' : RolePolicy) (ht : rp'.mgr.Tidy) (hp : ∀ ds, rp'.mgr.PathOk ds ↔ rp.mgr.PathOk ds) :
    Tidy { m with rpMap := m.rpMap.set k rp' } := by
  refine ⟨h.pw, h.rw.set _ _, h.pols, ?_⟩
  intro k' q hq
  simp only [GoMap.get_set] at hq
  split at hq
  · rename_i e; subst e; cases hq
    obtain ⟨a, b, c⟩ := h.roles k rp hg
    exact ⟨a, ht, fun ds hd => (hp ds).2 (c ds hd)⟩
  · exact h.roles k' q hq

theorem mem_setG {m : Model} {k : Str} {rp rp' : RolePolicy} (h : m.Tidy) (hg : m.rpMap.get k = some rp)
    (h' : Tidy { m with rpMap := m.rpMap.set k rp' }) (x : Rule) :
    x ∈ Model.rules { m with rpMap := m.rpMap.set k rp' } ↔
      (x ∈ m.rules ∧ ∀ f, x ≠ k :: f) ∨ ∃ f, x = k :: f ∧ f ∈ rp'.rules := by
  rw [mem_rules h', mem_rules h]
  simp only [GoMap.get_set]
  constructor
  · rintro ⟨k', f, rfl, ⟨q, hq, hm⟩ | ⟨q, hq, hm⟩⟩
    · refine Or.inl ⟨⟨k', f, rfl, Or.inl ⟨q, hq, hm⟩⟩, fun f' e' => ?_⟩
      cases e'
      have a := (h.pols k q hq).1
      rw [(h.roles k rp hg).1] at a
      cases a
    · split at hq
      · rename_i e; subst e; cases hq
        exact Or.inr ⟨f, rfl, hm⟩
      · rename_i e
        exact Or.inl ⟨⟨k', f, rfl, Or.inr ⟨q, hq, hm⟩⟩, fun f' e' => e (by cases e'; rfl)⟩
  · rintro (⟨⟨k', f, rfl, hm⟩, hne⟩ | ⟨f, rfl, hm⟩)
    · refine ⟨k', f, rfl, ?_⟩
      rcases hm with hm | ⟨q, hq, hm⟩
      · exact Or.inl hm
      · refine Or.inr ⟨q, ?_, hm⟩
        rw [if_neg (fun e => hne f (by rw [e]))]; exact hq
    · exact ⟨k, f, rfl, Or.inr ⟨rp', by simp, hm⟩⟩

theorem emitPolicy_eq {α : Type} (m : Model) (k : Str) (ls : List Matcher) (pol : Policy) (a : α)
    (e : Option PolEvent) : (∃ ls', (m.emitPolicy k ls pol a e).1 = { m with pMap := m.pMap.set k ⟨pol, ls'⟩ }) ∧
    ((m.emitPolicy k ls pol a e).2 = .ok a ∨
      (e ≠ none ∧ ((m.emitPolicy k ls pol a e).2 = .err ∨ (m.emitPolicy k ls pol a e).2 = .panic))) := by
  cases e with
  | none => exact ⟨⟨_, rfl⟩, Or.inl rfl⟩
  | some e =>
    unfold emitPolicy
    simp only
    split
    · exact ⟨⟨_, rfl⟩, Or.inl rfl⟩
    · exact ⟨⟨_, rfl⟩, Or.inr ⟨by simp, Or.inl rfl⟩⟩
    · exact ⟨⟨_, rfl⟩, Or.inr ⟨by simp, Or.inr rfl⟩⟩

/-- What a call does to the rules of a model: they become `P`; the answer is `b`, or the call fails
although there was something to change. -/
structure Does (m' : Model) (res : Res Bool) (P : Rule → Prop) (b : Prop) : Prop where
  tidy : m'.Tidy
  rules : ∀ x, x ∈ m'.rules ↔ P x
  res : (∃ a, res = .ok a ∧ (a = true ↔ b)) ∨ ((res = .err ∨ res = .panic) ∧ b)

theorem Tidy.addPolicyRule {m : Model} (h : m.Tidy) {k : Str} {p : PolObj} (hg : m.pMap.get k = some p)
    (r : Rule) (hr : Plain r) :
    Does (m.addPolicyRule k r).1 (m.addPolicyRule k r).2 (fun x => x ∈ m.rules ∨ x = k :: r)
      (k :: r ∉ m.rules) := by
  obtain ⟨-, hw, hpl⟩ := h.pols k p hg
  obtain ⟨w1, w2, w3, w4⟩ := hw.addRule r
  have hex : (∃ x ∈ p.policy.rules, hash x = hash r) ↔ r ∈ p.policy.rules := by
    constructor
    · rintro ⟨x, hx, e⟩; exact (hpl x hx).hash_inj hr e ▸ hx
    · intro h; exact ⟨r, h, rfl⟩
  rw [hex] at w2
  have hmem : ∀ x, x ∈ (p.policy.addRule r).1.rules ↔ x ∈ p.policy.rules ∨ x = r := by
    intro x
    rw [w3]
    constructor
    · rintro (h | ⟨_, h⟩)
      · exact Or.inl h
      · exact Or.inr h
    · rintro (h | h)
      · exact Or.inl h
      · by_cases hx : r ∈ p.policy.rules
        · subst h; exact Or.inl hx
        · exact Or.inr ⟨w2.2 hx, h⟩
  unfold Model.addPolicyRule
  rw [hg]
  simp only
  obtain ⟨⟨ls', e1⟩, e2⟩ := emitPolicy_eq m k p.listeners (p.policy.addRule r).1 (p.policy.addRule r).2.1
    (p.policy.addRule r).2.2
  have ht : Tidy { m with pMap := m.pMap.set k ⟨(p.policy.addRule r).1, ls'⟩ } := by
    refine h.setP hg _ w1 (fun x hx => ?_)
    rcases (hmem x).1 hx with hx | hx
    · exact hpl x hx
    · exact hx ▸ hr
  refine ⟨by rw [e1]; exact ht, ?_, ?_⟩
  · intro x
    rw [e1, mem_setP h hg ht]
    simp only [hmem]
    constructor
    · rintro (⟨hx, _⟩ | ⟨f, rfl, hf | rfl⟩)
      · exact Or.inl hx
      · exact Or.inl ((mem_rules_p h hg f).2 hf)
      · exact Or.inr rfl
    · rintro (hx | rfl)
      · by_cases hk : ∃ f, x = k :: f
        · obtain ⟨f, rfl⟩ := hk
          exact Or.inr ⟨f, rfl, Or.inl ((mem_rules_p h hg f).1 hx)⟩
        · exact Or.inl ⟨hx, fun f e => hk ⟨f, e⟩⟩
      · exact Or.inr ⟨r, rfl, Or.inr rfl⟩
  · rw [mem_rules_p h hg]
    rcases e2 with e2 | ⟨hne, e2⟩
    · exact Or.inl ⟨_, e2, w2⟩
    · refine Or.inr ⟨e2, ?_⟩
      apply w2.1
      rw [w4] at hne
      apply Classical.byContradiction
      intro hb
      rw [if_neg hb] at hne
      exact hne rfl

theorem Tidy.removePolicyRule {m : Model} (h : m.Tidy) {k : Str} {p : PolObj} (hg : m.pMap.get k = some p)
    (r : Rule) (hr : Plain r) :
    Does (m.removePolicyRule k r).1 (m.removePolicyRule k r).2 (fun x => x ∈ m.rules ∧ x ≠ k :: r)
      (k :: r ∈ m.rules) := by
  obtain ⟨-, hw, hpl⟩ := h.pols k p hg
  obtain ⟨w1, w2, w3, w4⟩ := hw.removeRule r
  have hex : (∃ x ∈ p.policy.rules, hash x = hash r) ↔ r ∈ p.policy.rules := by
    constructor
    · rintro ⟨x, hx, e⟩; exact (hpl x hx).hash_inj hr e ▸ hx
    · intro h; exact ⟨r, h, rfl⟩
  rw [hex] at w2
  have hmem : ∀ x, x ∈ (p.policy.removeRule r).1.rules ↔ x ∈ p.policy.rules ∧ x ≠ r := by
    intro x
    rw [w3]
    constructor
    · rintro ⟨h, e⟩; exact ⟨h, fun e' => e (by rw [e'])⟩
    · rintro ⟨h, e⟩; exact ⟨h, fun e' => e ((hpl x h).hash_inj hr e')⟩
  unfold Model.removePolicyRule
  rw [hg]
  simp only
  obtain ⟨⟨ls', e1⟩, e2⟩ := emitPolicy_eq m k p.listeners (p.policy.removeRule r).1
    (p.policy.removeRule r).2.1 (p.policy.removeRule r).2.2
  have ht : Tidy { m with pMap := m.pMap.set k ⟨(p.policy.removeRule r).1, ls'⟩ } :=
    h.setP hg _ w1 (fun x hx => hpl x ((hmem x).1 hx).1)
  refine ⟨by rw [e1]; exact ht, ?_, ?_⟩
  · intro x
    rw [e1, mem_setP h hg ht]
    simp only [hmem]
    constructor
    · rintro (⟨hx, hn⟩ | ⟨f, rfl, hf, hn⟩)
      · exact ⟨hx, hn r⟩
      · exact ⟨(mem_rules_p h hg f).2 hf, fun e => hn (by cases e; rfl)⟩
    · rintro ⟨hx, hn⟩
      by_cases hk : ∃ f, x = k :: f
      · obtain ⟨f, rfl⟩ := hk
        exact Or.inr ⟨f, rfl, (mem_rules_p h hg f).1 hx, fun e => hn (by rw [e])⟩
      · exact Or.inl ⟨hx, fun f e => hk ⟨f, e⟩⟩
  · rw [mem_rules_p h hg]
    rcases e2 with e2 | ⟨hne, e2⟩
    · exact Or.inl ⟨_, e2, w2⟩
    · refine Or.inr ⟨e2, ?_⟩
      apply w2.1
      rw [w4] at hne
      apply Classical.byContradiction
      intro hb
      rw [if_neg hb] at hne
      exact hne rfl

theorem Tidy.addRoleRule {m : Model} (h : m.Tidy) {k : Str} {rp : RolePolicy} (hg : m.rpMap.get k = some rp)
    (u r : Str) (ds : List Str) (hd : rp.mgr.PathOk ds) :
    Does (m.addRoleRule k (u :: r :: ds)).1 (m.addRoleRule k (u :: r :: ds)).2
      (fun x => x ∈ m.rules ∨ x = k :: u :: r :: ds) (k :: u :: r :: ds ∉ m.rules) := by
  have hdoes := RolePolicy.addRule_does (h.roles k rp hg).2.1 u r ds hd
  unfold Model.addRoleRule
  rw [hg]
  simp only
  have ht := h.setG hg _ hdoes.tidy hdoes.path
  refine ⟨ht, ?_, ?_⟩
  · intro x
    rw [mem_setG h hg ht]
    simp only [hdoes.rules]
    constructor
    · rintro (⟨hx, _⟩ | ⟨f, rfl, hf | rfl⟩)
      · exact Or.inl hx
      · exact Or.inl ((mem_rules_g h hg f).2 hf)
      · exact Or.inr rfl
    · rintro (hx | rfl)
      · by_cases hk : ∃ f, x = k :: f
        · obtain ⟨f, rfl⟩ := hk
          exact Or.inr ⟨f, rfl, Or.inl ((mem_rules_g h hg f).1 hx)⟩
        · exact Or.inl ⟨hx, fun f e => hk ⟨f, e⟩⟩
      · exact Or.inr ⟨_, rfl, Or.inr rfl⟩
  · rw [mem_rules_g h hg]
    exact hdoes.res

theorem Tidy.removeRoleRule {m : Model} (h : m.Tidy) {k : Str} {rp : RolePolicy} (hg : m.rpMap.get k = some rp)
    (u r : Str) (ds : List Str) (hd : rp.mgr.PathOk ds) :
    Does (m.removeRoleRule k (u :: r :: ds)).1 (m.removeRoleRule k (u :: r :: ds)).2
      (fun x => x ∈ m.rules ∧ x ≠ k :: u :: r :: ds) (k :: u :: r :: ds ∈ m.rules) := by
  have hdoes := RolePolicy.removeRule_does (h.roles k rp hg).2.1 u r ds hd
  unfold Model.removeRoleRule
  rw [hg]
  simp only
  have ht := h.setG hg _ hdoes.tidy hdoes.path
  refine ⟨ht, ?_, ?_⟩
  · intro x
    rw [mem_setG h hg ht]
    simp only [hdoes.rules]
    constructor
    · rintro (⟨hx, hn⟩ | ⟨f, rfl, hf, hn⟩)
      · exact ⟨hx, hn _⟩
      · exact ⟨(mem_rules_g h hg f).2 hf, fun e => hn (by cases e; rfl)⟩
    · rintro ⟨hx, hn⟩
      by_cases hk : ∃ f, x = k :: f
      · obtain ⟨f, rfl⟩ := hk
        exact Or.inr ⟨f, rfl, (mem_rules_g h hg f).1 hx, fun e => hn (by rw [e])⟩
      · exact Or.inl ⟨hx, fun f e => hk ⟨f, e⟩⟩
  · rw [mem_rules_g h hg]
    exact hdoes.res

/-- The path of a rule that fits suits the manager. -/
theorem Tidy.pathOk {m : Model} (h : m.Tidy) {k : Str} {rp : RolePolicy} (hg : m.rpMap.get k = some rp)
    {fields : Rule} (hf : m.Fits (k :: fields)) : ∃ u r ds, fields = u :: r :: ds ∧ rp.mgr.PathOk ds := by
  obtain ⟨hk, -, hp⟩ := h.roles k rp hg
  obtain ⟨-, f1, f2⟩ := hf
  by_cases hn : m.gDefs.get k = some 2
  · have hl := f1 hk hn
    match fields, hl with
    | [u, r], _ => exact ⟨u, r, [], rfl, hp [] (by simp [hn])⟩
  · obtain ⟨hl, hc⟩ := f2 hk hn
    match fields, hl, hc with
    | u :: r :: ds, _, hc => exact ⟨u, r, ds, rfl, hp ds (by rw [if_neg hn]; exact hc)⟩

theorem Tidy.addRule {m : Model} (h : m.Tidy) (k : Str) (fields : Rule) (hf : m.Fits (k :: fields))
    (hk : m.Knows k) :
    Does (m.addRule (k :: fields)).1 (m.addRule (k :: fields)).2.1
      (fun x => x ∈ m.rules ∨ x = k :: fields) (k :: fields ∉ m.rules) := by
  rcases hk with ⟨hc, hk⟩ | ⟨hc, hk⟩
  · cases k with
    | nil => simp at hc
    | cons c cs =>
      simp only [List.head?_cons, Option.some.injEq] at hc
      subst hc
      unfold GoMap.has at hk
      obtain ⟨p, hg⟩ := Option.isSome_iff_exists.1 hk
      exact h.addPolicyRule hg fields (hf.1 rfl)
  · cases k with
    | nil => simp at hc
    | cons c cs =>
      simp only [List.head?_cons, Option.some.injEq] at hc
      subst hc
      unfold GoMap.has at hk
      obtain ⟨rp, hg⟩ := Option.isSome_iff_exists.1 hk
      obtain ⟨u, r, ds, rfl, hd⟩ := h.pathOk hg hf
      exact h.addRoleRule hg u r ds hd

theorem Tidy.removeRule {m : Model} (h : m.Tidy) (k : Str) (fields : Rule) (hf : m.Fits (k :: fields))
    (hk : m.Knows k) :
    Does (m.removeRule (k :: fields)).1 (m.removeRule (k :: fields)).2.1
      (fun x => x ∈ m.rules ∧ x ≠ k :: fields) (k :: fields ∈ m.rules) := by
  rcases hk with ⟨hc, hk⟩ | ⟨hc, hk⟩
  · cases k with
    | nil => simp at hc
    | cons c cs =>
      simp only [List.head?_cons, Option.some.injEq] at hc
      subst hc
      unfold GoMap.has at hk
      obtain ⟨p, hg⟩ := Option.isSome_iff_exists.1 hk
      exact h.removePolicyRule hg fields (hf.1 rfl)
  · cases k with
    | nil => simp at hc
    | cons c cs =>
      simp only [List.head?_cons, Option.some.injEq] at hc
      subst hc
      unfold GoMap.has at hk
      obtain ⟨rp, hg⟩ := Option.isSome_iff_exists.1 hk
      obtain ⟨u, r, ds, rfl, hd⟩ := h.pathOk hg hf
      exact h.removeRoleRule hg u r ds hd

/-- Rules for unknown policies change nothing. -/
theorem addRule_unknown {m : Model} (rule : Rule) (hk : ∀ k fields, rule = k :: fields → ¬ m.Knows k) :
    ((m.addRule rule).1 = m ∧ (m.addRule rule).2.2 = none) ∧
    ((rule = [] ∨ ∃ f, rule = [] :: f) ∨ (m.addRule rule).2.1 = .err) := by
  unfold Model.addRule
  match rule with
  | [] => simp
  | [] :: f => simp
  | (c :: cs) :: f =>
    have := hk _ _ rfl
    unfold Knows at this
    simp only [List.head?_cons, Option.some.injEq, GoMap.has, not_or, not_and, Bool.not_eq_true,
      Option.isSome_eq_false_iff, Option.isNone_iff_eq_none] at this
    obtain ⟨h1, h2⟩ := this
    simp only
    by_cases hp : c = 'p'
    · subst hp
      simp [Model.addPolicyRule, h1 rfl]
    · rw [if_neg hp]
      by_cases hg : c = 'g'
      · subst hg
        simp [Model.addRoleRule, h2 rfl]
      · rw [if_neg hg]; simp

theorem removeRule_unknown {m : Model} (rule : Rule) (hk : ∀ k fields, rule = k :: fields → ¬ m.Knows k) :
    ((m.removeRule rule).1 = m ∧ (m.removeRule rule).2.2 = none) ∧
    ((rule = [] ∨ ∃ f, rule = [] :: f) ∨ (m.removeRule rule).2.1 = .err) := by
  unfold Model.removeRule
  match rule with
  | [] => simp
  | [] :: f => simp
  | (c :: cs) :: f =>
    have := hk _ _ rfl
    unfold Knows at this
    simp only [List.head?_cons, Option.some.injEq, GoMap.has, not_or, not_and, Bool.not_eq_true,
      Option.isSome_eq_false_iff, Option.isNone_iff_eq_none] at this
    obtain ⟨h1, h2⟩ := this
    simp only
    by_cases hp : c = 'p'
    · subst hp
      simp [Model.removePolicyRule, h1 rfl]
    · rw [if_neg hp]
      by_cases hg : c = 'g'
      · subst hg
        simp [Model.removeRoleRule, h2 rfl]
      · rw [if_neg hg]; simp

theorem Tidy.add {m : Model} (h : m.Tidy) (rule : Rule) (hf : m.Fits rule) : (m.addRule rule).1.Tidy := by
  by_cases hk : ∃ k fields, rule = k :: fields ∧ m.Knows k
  · obtain ⟨k, fields, rfl, hk⟩ := hk
    exact (h.addRule k fields hf hk).tidy
  · rw [(addRule_unknown rule (fun k f e hk' => hk ⟨k, f, e, hk'⟩)).1.1]; exact h

theorem Tidy.remove {m : Model} (h : m.Tidy) (rule : Rule) (hf : m.Fits rule) :
    (m.removeRule rule).1.Tidy := by
  by_cases hk : ∃ k fields, rule = k :: fields ∧ m.Knows k
  · obtain ⟨k, fields, rfl, hk⟩ := hk
    exact (h.removeRule k fields hf hk).tidy
  · rw [(removeRule_unknown rule (fun k f e hk' => hk ⟨k, f, e, hk'⟩)).1.1]; exact h

theorem Tidy.clear {m : Model} (h : m.Tidy) (k : Str) : (m.clearPolicy k).1.Tidy := by
  unfold clearPolicy
  cases hg : m.pMap.get k with
  | some p =>
    simp only
    obtain ⟨⟨ls', e⟩, _⟩ := emitPolicy_eq m k p.listeners p.policy.clear.1 () p.policy.clear.2
    rw [e]
    exact h.setP hg _ Policy.WF.empty (by simp [Policy.clear, Policy.rules])
  | none =>
    simp only
    cases hr : m.rpMap.get k with
    | none => exact h
    | some rp =>
      obtain ⟨a, b, _⟩ := (h.roles k rp hr).2.1.clear
      exact h.setG hr _ a b

theorem Tidy.of_eq {m m' : Model} (h : m.Tidy) (h1 : m'.pMap = m.pMap) (h2 : m'.rpMap = m.rpMap)
    (h3 : m'.gDefs = m.gDefs) : m'.Tidy := by
  refine ⟨h1 ▸ h.pw, h2 ▸ h.rw, ?_, ?_⟩
  · rw [h1]; exact h.pols
  · rw [h2, h3]; exact h.roles

theorem Tidy.setDef {m : Model} (h : m.Tidy) (sec : Char) (key value : Str) :
    (m.setDef sec key value).1.Tidy := by
  unfold Model.setDef
  split
  · exact h
  · split
    · exact h
    · rename_i c cs
      split
      · exact h
      · rename_i hc
        simp only [ne_eq, Decidable.not_not] at hc
        split
        · exact h.of_eq rfl rfl rfl
        · split
          · rename_i hs
            refine ⟨h.pw.set _ _, h.rw, ?_, h.roles⟩
            intro k p hp
            simp only [GoMap.get_set] at hp
            split at hp
            · rename_i e; subst e; cases hp
              exact ⟨by rw [List.head?_cons, hc, hs], Policy.WF.empty,
                by simp [Policy.empty, Policy.rules]⟩
            · exact h.pols k p hp
          · split
            · rename_i hs
              refine ⟨h.pw, h.rw.set _ _, h.pols, ?_⟩
              intro k rp hp
              simp only [GoMap.get_set] at hp ⊢
              split at hp
              · rename_i e; subst e; cases hp
                refine ⟨by rw [List.head?_cons, hc, hs], ?_, ?_⟩
                · simp only
                  split
                  · exact RM.Tidy.new _ _
                  · refine ⟨none, 10, DM.plain_new _ _, fun π r e => ?_⟩
                    rw [DM.at_new] at e; cases e
                · intro ds
                  simp only [if_true, Option.some.injEq]
                  split <;> exact id
              · rename_i e
                simp only [e, if_false]
                exact h.roles k rp hp
            · split
              · exact h.of_eq rfl rfl rfl
              · exact h.of_eq rfl rfl rfl

theorem Tidy.removeDef {m : Model} (h : m.Tidy) (sec : Char) (key : Str) :
    (m.removeDef sec key).1.Tidy := by
  unfold Model.removeDef
  split
  · exact h.of_eq rfl rfl rfl
  · split
    · refine ⟨h.pw.del _, h.rw, ?_, h.roles⟩
      intro k p hp
      simp only [GoMap.get_del] at hp
      split at hp
      · cases hp
      · exact h.pols k p hp
    · split
      · refine ⟨h.pw, h.rw.del _, h.pols, ?_⟩
        intro k rp hp
        simp only [GoMap.get_del] at hp ⊢
        split at hp
        · cases hp
        · rename_i e
          simp only [e, if_false]
          exact h.roles k rp hp
      · split
        · exact h.of_eq rfl rfl rfl
        · split
          · exact h.of_eq rfl rfl rfl
          · exact h

theorem Tidy.buildMatcher {m : Model} (h : m.Tidy) (build : Str → Res Stage) (key : Str) :
    (m.buildMatcher build key).1.Tidy := by
  unfold Model.buildMatcher
  split
  · exact h
  · split
    · exact h
    · exact h
    · split
      · exact h
      · exact h
      · split
        · rename_i p hg
          split
          · exact h
          · exact h
          · rename_i mt _
            have := h.setP hg ⟨p.policy, p.listeners ++ [mt]⟩ (h.pols _ _ hg).2.1 (h.pols _ _ hg).2.2
            exact this.of_eq rfl rfl rfl
        · split
          · exact h
          · rename_i rp hg
            split
            · exact h
            · exact h
            · rename_i mt _
              have := h.setG hg ⟨rp.mgr, rp.listeners ++ [mt]⟩ (h.roles _ _ hg).2.1 (fun _ => Iff.rfl)
              exact this.of_eq rfl rfl rfl

/-- Building from an expression is building a matcher that is not stored. -/
theorem buildFromExpr_eq (build : Str → Res Stage) (m : Model) (e : Str) :
    (m.buildFromExpr build e).1 =
      { (Model.buildMatcher build { m with mDefs := m.mDefs.set [] e } []).1 with
        mDefs := m.mDefs, mMap := m.mMap } := by
  unfold Model.buildMatcher Model.buildFromExpr
  simp only [GoMap.get_set_self]
  have hd : ∀ k, Model.matcherPolicyDef { m with mDefs := m.mDefs.set [] e } k = m.matcherPolicyDef k := fun _ => rfl
  cases build e with
  | err => rfl
  | panic => rfl
  | ok root =>
    simp only [hd]
    cases m.matcherPolicyDef root.policyKey with
    | err => rfl
    | panic => rfl
    | ok pDef =>
      simp only
      cases m.pMap.get root.policyKey with
      | some p =>
        simp only
        cases newMatcher pDef root p.policy.rules <;> rfl
      | none =>
        simp only
        cases m.rpMap.get root.policyKey with
        | none => rfl
        | some rp =>
          simp only
          cases newMatcher pDef root rp.rules <;> rfl

theorem Tidy.inline {m : Model} (h : m.Tidy) (build : Str → Res Stage) (expr : Str) :
    (m.buildFromExpr build expr).1.Tidy := by
  rw [buildFromExpr_eq]
  exact Tidy.of_eq ((h.of_eq rfl rfl rfl : Tidy { m with mDefs := m.mDefs.set [] expr }).buildMatcher build [])
    rfl rfl rfl

theorem Made.tidy {build : Str → Res Stage} {m : Model} (h : Made build m) : m.Tidy := by
  induction h with
  | new => exact ⟨GoMap.WF.nil, GoMap.WF.nil, by simp [Model.new], by simp [Model.new]⟩
  | setDef _ sec key value ih => exact ih.setDef sec key value
  | removeDef _ sec key ih => exact ih.removeDef sec key
  | build _ key ih => exact ih.buildMatcher _ key
  | inline _ expr ih => exact ih.inline _ expr
  | add _ rule hf ih => exact ih.add rule hf
  | remove _ rule hf ih => exact ih.remove rule hf
  | clear _ key ih => exact ih.clear key

end Model

end Fastac
