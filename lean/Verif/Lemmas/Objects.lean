import Verif.Spec.Objects
import Verif.Lemmas.InStep

/-!
# Shared policies: the matchers of a policy index its rules
-/

namespace Fastac

/-- The matcher is the same one, perhaps with other rules. -/
def Matcher.Same (mt mt' : Matcher) : Prop := mt'.pDef = mt.pDef ∧ mt'.exprRoot = mt.exprRoot

theorem Matcher.handle_same {mt mt' : Matcher} {e : PolEvent} (h : mt.handle e = .ok mt') : mt.Same mt' := by
  cases e with
  | added r =>
    simp only [Matcher.handle, Matcher.addRule] at h
    cases ha : addStage mt.pDef r mt.exprRoot mt.root with
    | ok n => rw [ha] at h; cases h; exact ⟨rfl, rfl⟩
    | err => rw [ha] at h; cases h
    | panic => rw [ha] at h; cases h
  | removed r =>
    simp only [Matcher.handle, Matcher.removeRule] at h
    cases ha : removeStage mt.pDef r mt.exprRoot mt.root with
    | ok n => rw [ha] at h; cases h; exact ⟨rfl, rfl⟩
    | err => rw [ha] at h; cases h
    | panic => rw [ha] at h; cases h
  | cleared => cases h; exact ⟨rfl, rfl⟩

/-- Every matcher is still there, at its place. -/
def StillThere (ls ls' : List Matcher) : Prop :=
  ∀ (i : Nat) mt, ls[i]? = some mt → ∃ mt', ls'[i]? = some mt' ∧ mt.Same mt'

theorem StillThere.refl (ls : List Matcher) : StillThere ls ls := fun _ mt h => ⟨mt, h, rfl, rfl⟩

theorem StillThere.notify {ls ls' : List Matcher} {e : PolEvent} (h : notify ls e = .ok ls') : StillThere ls ls' := by
  intro i mt hi
  obtain ⟨mt', h1, h2⟩ := notify_get e ls ls' h i mt hi
  exact ⟨mt', h2, Matcher.handle_same h1⟩

theorem StillThere.append (ls : List Matcher) (mt : Matcher) : StillThere ls (ls ++ [mt]) := by
  intro i x hi
  refine ⟨x, ?_, rfl, rfl⟩
  have : i < ls.length := (List.getElem?_eq_some_iff.1 hi).1
  rw [List.getElem?_append_left this]; exact hi

theorem StillThere.emit {α : Type} (ls : List Matcher) (pol : Policy) (a : α) (e : Option PolEvent) :
    StillThere ls (PolObj.emit ls pol a e).1.listeners := by
  cases e with
  | none => exact .refl _
  | some e =>
    simp only [PolObj.emit]
    cases h : Fastac.notify ls e with
    | ok ls' => exact .notify h
    | err => exact .refl _
    | panic => exact .refl _

theorem PolObj.emit_policy {α : Type} (ls : List Matcher) (pol : Policy) (a : α) (e : Option PolEvent) :
    (PolObj.emit ls pol a e).1.policy = pol := by
  cases e with
  | none => rfl
  | some e => simp only [PolObj.emit]; cases Fastac.notify ls e <;> rfl

theorem RolePolicy.addRule_there (rp : RolePolicy) (r : Rule) : StillThere rp.listeners (rp.addRule r).1.listeners := by
  unfold RolePolicy.addRule
  split
  · split
    · simp only [RolePolicy.emit]
      split
      · rename_i h; exact .notify h
      · exact .refl _
      · exact .refl _
    · exact .refl _
    · exact .refl _
    · exact .refl _
  · exact .refl _

theorem RolePolicy.removeRule_there (rp : RolePolicy) (r : Rule) :
    StillThere rp.listeners (rp.removeRule r).1.listeners := by
  unfold RolePolicy.removeRule
  split
  · split
    · simp only [RolePolicy.emit]
      split
      · rename_i h; exact .notify h
      · exact .refl _
      · exact .refl _
    · exact .refl _
    · exact .refl _
    · exact .refl _
  · exact .refl _

/-- The policy is of the same kind. -/
def Hold.SameKind : Hold → Hold → Prop
  | .rules _, .rules _ => True
  | .links g, .links g' => g = g'
  | _, _ => False

theorem Hold.SameKind.refl : ∀ h : Hold, h.SameKind h
  | .rules _ => trivial
  | .links _ => rfl

/-- It is the same object. -/
def OPol.Same (ob ob' : OPol) : Prop := ob.hold.SameKind ob'.hold ∧ StillThere ob.listeners ob'.listeners

theorem OPol.Same.refl (ob : OPol) : ob.Same ob := ⟨.refl _, .refl _⟩

theorem OPol.Same.trans {a b c : OPol} (h : a.Same b) (h' : b.Same c) : a.Same c := by
  obtain ⟨h1, h2⟩ := h
  obtain ⟨h3, h4⟩ := h'
  refine ⟨?_, fun i mt hi => ?_⟩
  · cases ha : a.hold <;> cases hb : b.hold <;> cases hc : c.hold <;> rw [ha, hb] at h1 <;> rw [hb, hc] at h3 <;>
      first | exact h1.elim | exact h3.elim | trivial | exact Eq.trans (b := _) h1 h3
  · obtain ⟨x, e1, e2⟩ := h2 i mt hi
    obtain ⟨y, e3, e4⟩ := h4 i x e1
    exact ⟨y, e3, e4.1.trans e2.1, e4.2.trans e2.2⟩

/-- No object has gone. -/
def Realm.Keeps (w w' : Realm) : Prop :=
  ∀ (o : Nat) (ob : OPol), w.pols[o]? = some ob → ∃ ob' : OPol, w'.pols[o]? = some ob' ∧ ob.Same ob'

/-- A policy, with the matchers that listen to it. -/
structure OPol.Sync (ob : OPol) (p : Policy) : Prop where
  wf : p.WF
  good : ∀ mt ∈ ob.listeners, ∀ r ∈ p.rules, GoodRule mt.pDef r
  has : ∀ mt ∈ ob.listeners, mt.Has mt.pDef (· ∈ p.rules)

theorem notify_same {P Q : Matcher → Prop} {e : PolEvent}
    (hs : ∀ mt, P mt → ∃ mt', mt.handle e = .ok mt' ∧ Q mt') (ls : List Matcher) (h : ∀ mt ∈ ls, P mt) :
    ∃ ls', notify ls e = .ok ls' ∧ ∀ mt ∈ ls', Q mt ∧ ∃ x ∈ ls, x.Same mt := by
  obtain ⟨ls', e1, h1⟩ := notify_all (Q := Q) hs ls h
  refine ⟨ls', e1, fun mt hm => ⟨h1 mt hm, ?_⟩⟩
  obtain ⟨i, hi⟩ := List.mem_iff_getElem?.1 hm
  have hl := notify_length e ls ls' e1
  have hlt : i < ls.length := by
    have := (List.getElem?_eq_some_iff.1 hi).1
    omega
  obtain ⟨mt', h2, h3⟩ := StillThere.notify e1 i ls[i] (List.getElem?_eq_getElem hlt)
  rw [hi] at h2
  cases h2
  exact ⟨ls[i], List.getElem_mem _, h3⟩

/-- An event that all matchers take. -/
theorem OPol.Sync.emit {α : Type} {ob : OPol} {p : Policy} (_ : ob.Sync p) (pol : Policy) (e : PolEvent) (a : α)
    (hw : pol.WF) (hg : ∀ mt ∈ ob.listeners, ∀ r ∈ pol.rules, GoodRule mt.pDef r)
    (hs : ∀ mt ∈ ob.listeners, ∃ mt', mt.handle e = .ok mt' ∧ mt'.Has mt.pDef (· ∈ pol.rules)) :
    (PolObj.emit ob.listeners pol a (some e)).2 = .ok a ∧
      OPol.Sync ⟨.rules pol, (PolObj.emit ob.listeners pol a (some e)).1.listeners⟩ pol := by
  obtain ⟨ls', e1, h1⟩ := notify_same (e := e) (P := fun mt => mt ∈ ob.listeners)
    (Q := fun mt => mt.Has mt.pDef (· ∈ pol.rules))
    (fun mt hm => by
      obtain ⟨mt', a1, a2⟩ := hs mt hm
      refine ⟨mt', a1, ?_⟩
      rw [a2.pdef]
      exact a2) ob.listeners (fun _ => id)
  simp only [PolObj.emit, e1]
  refine ⟨trivial, hw, fun mt hm => ?_, fun mt hm => (h1 mt hm).1⟩
  obtain ⟨x, hx, hs⟩ := (h1 mt hm).2
  rw [hs.1]
  exact hg x hx

theorem OPol.Sync.add {ob : OPol} {p : Policy} (h : ob.Sync p) (r : Rule)
    (hg : ∀ mt ∈ ob.listeners, GoodRule mt.pDef r) :
    (PolObj.emit ob.listeners (p.addRule r).1 (p.addRule r).2.1 (p.addRule r).2.2).2 = .ok (p.addRule r).2.1 ∧
    OPol.Sync ⟨.rules (p.addRule r).1,
      (PolObj.emit ob.listeners (p.addRule r).1 (p.addRule r).2.1 (p.addRule r).2.2).1.listeners⟩ (p.addRule r).1 := by
  obtain ⟨w1, _, w3, w4⟩ := h.wf.addRule r
  cases hb : (p.addRule r).2.1 with
  | false =>
    rw [hb] at w3 w4
    simp only [Bool.false_eq_true, if_false, false_and, or_false] at w3 w4
    rw [w4]
    exact ⟨rfl, w1, fun mt hm x hx => h.good mt hm x ((w3 x).1 hx), fun mt hm => (h.has mt hm).congr fun x => (w3 x).symm⟩
  | true =>
    rw [hb] at w3 w4
    simp only [if_true, true_and] at w3 w4
    rw [w4]
    refine h.emit _ _ _ w1 (fun mt hm x hx => ?_) (fun mt hm => ?_)
    · rcases (w3 x).1 hx with hx | rfl
      · exact h.good mt hm x hx
      · exact hg mt hm
    · obtain ⟨mt', a, b⟩ := (h.has mt hm).added (hg mt hm)
      exact ⟨mt', a, b.congr (fun x => by rw [w3, or_comm])⟩

theorem OPol.Sync.remove {ob : OPol} {p : Policy} (h : ob.Sync p) (r : Rule)
    (hg : ∀ mt ∈ ob.listeners, GoodRule mt.pDef r) :
    (PolObj.emit ob.listeners (p.removeRule r).1 (p.removeRule r).2.1 (p.removeRule r).2.2).2 =
      .ok (p.removeRule r).2.1 ∧
    OPol.Sync ⟨.rules (p.removeRule r).1, (PolObj.emit ob.listeners (p.removeRule r).1 (p.removeRule r).2.1
      (p.removeRule r).2.2).1.listeners⟩ (p.removeRule r).1 := by
  obtain ⟨w1, w2, w3, w4⟩ := h.wf.removeRule r
  have w3' : ∀ mt ∈ ob.listeners, ∀ x, x ∈ (p.removeRule r).1.rules ↔ x ∈ p.rules ∧ x ≠ r := by
    intro mt hm x
    rw [w3]
    constructor
    · rintro ⟨a, b⟩; exact ⟨a, fun e => b (by rw [e])⟩
    · rintro ⟨a, b⟩; exact ⟨a, fun e => b ((h.good mt hm x a).hash_inj (hg mt hm) e)⟩
  cases hb : (p.removeRule r).2.1 with
  | false =>
    rw [hb] at w4 w2
    simp only [Bool.false_eq_true, if_false, false_iff] at w4 w2
    rw [w4]
    refine ⟨rfl, w1, fun mt hm x hx => h.good mt hm x ((w3' mt hm x).1 hx).1, fun mt hm => (h.has mt hm).congr fun x => ?_⟩
    rw [w3' mt hm]
    exact ⟨fun hx => ⟨hx, fun e => w2 ⟨x, hx, by rw [e]⟩⟩, And.left⟩
  | true =>
    rw [hb] at w4
    simp only [if_true] at w4
    rw [w4]
    refine h.emit _ _ _ w1 (fun mt hm x hx => h.good mt hm x ((w3' mt hm x).1 hx).1) (fun mt hm => ?_)
    obtain ⟨mt', a, b⟩ := (h.has mt hm).removed (hg mt hm) (h.good mt hm)
    exact ⟨mt', a, b.congr (fun x => by rw [w3' mt hm])⟩

theorem OPol.Sync.clear {ob : OPol} {p : Policy} (h : ob.Sync p) :
    (PolObj.emit ob.listeners p.clear.1 () p.clear.2).2 = .ok () ∧
    OPol.Sync ⟨.rules p.clear.1, (PolObj.emit ob.listeners p.clear.1 () p.clear.2).1.listeners⟩ p.clear.1 := by
  refine h.emit _ _ _ Policy.WF.empty (by simp [Policy.clear, Policy.rules]) (fun mt hm => ?_)
  obtain ⟨mt', a, b⟩ := (h.has mt hm).cleared
  exact ⟨mt', a, b.congr (by simp [Policy.clear, Policy.rules])⟩

namespace Realm

variable {build : Str → Res Stage} {w w' : Realm}

theorem Keeps.refl (w : Realm) : w.Keeps w := fun _ ob h => ⟨ob, h, .refl ob⟩

theorem Keeps.trans {w'' : Realm} (h : w.Keeps w') (h' : w'.Keeps w'') : w.Keeps w'' := by
  intro o ob ho
  obtain ⟨x, e1, e2⟩ := h o ob ho
  obtain ⟨y, e3, e4⟩ := h' o x e1
  exact ⟨y, e3, e2.trans e4⟩

theorem Keeps.of_pols (h : w'.pols = w.pols) : w.Keeps w' := by
  intro o ob ho
  exact ⟨ob, by rw [h]; exact ho, .refl ob⟩

theorem Keeps.push {ob' : OPol} (h : w'.pols = w.pols ++ [ob']) : w.Keeps w' := by
  intro o ob ho
  refine ⟨ob, ?_, .refl ob⟩
  rw [h, List.getElem?_append_left (List.getElem?_eq_some_iff.1 ho).1]; exact ho

theorem Keeps.set {o : Nat} {ob ob' : OPol} (ho : w.pols[o]? = some ob) (h : w'.pols = w.pols.set o ob')
    (hs : ob.Same ob') : w.Keeps w' := by
  intro k x hk
  rw [h, List.getElem?_set]
  split
  · rename_i e
    subst e
    rw [ho] at hk
    cases hk
    rw [if_pos (List.getElem?_eq_some_iff.1 ho).1]
    exact ⟨ob', rfl, hs⟩
  · exact ⟨x, hk, .refl x⟩

/-- All matchers index the rules of their policies. -/
structure InSync (w : Realm) : Prop where
  pols : ∀ (o : Nat) (ob : OPol) (p : Policy), w.pols[o]? = some ob → ob.hold = .rules p → ob.Sync p
  roles : ∀ m ∈ w.models, ∀ k o, m.rpMap.get k = some o → ∃ (ob : OPol) (g : Nat), w.pols[o]? = some ob ∧ ob.hold = .links g
  defs : ∀ m ∈ w.models, ∀ k d, m.pDefs.get k = some d → d.key = k

theorem InSync.empty : empty.InSync := ⟨by simp [Realm.empty], by simp [Realm.empty], by simp [Realm.empty]⟩

theorem InSync.set {o : Nat} {ob ob' : OPol} (h : w.InSync) (ho : w.pols[o]? = some ob)
    (hp : w'.pols = w.pols.set o ob') (hm : w'.models = w.models) (hs : ob.Same ob')
    (hy : ∀ p, ob'.hold = .rules p → ob'.Sync p) : w'.InSync := by
  refine ⟨fun k x p hk hx => ?_, fun m hmm k o' hr => ?_, by rw [hm]; exact h.defs⟩
  · rw [hp, List.getElem?_set] at hk
    split at hk
    · split at hk
      · cases hk; exact hy p hx
      · cases hk
    · exact h.pols k x p hk hx
  · rw [hm] at hmm
    obtain ⟨x, g, e1, e2⟩ := h.roles m hmm k o' hr
    obtain ⟨y, e3, e4⟩ := Keeps.set ho hp hs o' x e1
    have := e4.1
    rw [e2] at this
    cases hy : y.hold with
    | rules p => rw [hy] at this; exact this.elim
    | links g' => exact ⟨y, g', e3, hy⟩

theorem InSync.push {ob : OPol} (h : w.InSync) (hp : w'.pols = w.pols ++ [ob]) (hm : w'.models = w.models)
    (hy : ∀ p, ob.hold = .rules p → ob.Sync p) : w'.InSync := by
  refine ⟨fun k x p hk hx => ?_, fun m hmm k o' hr => ?_, by rw [hm]; exact h.defs⟩
  · rw [hp, List.getElem?_append] at hk
    split at hk
    · exact h.pols k x p hk hx
    · rw [List.getElem?_singleton] at hk
      split at hk
      · cases hk; exact hy p hx
      · cases hk
  · rw [hm] at hmm
    obtain ⟨x, g, e1, e2⟩ := h.roles m hmm k o' hr
    obtain ⟨y, e3, e4⟩ := Keeps.push hp o' x e1
    have := e4.1
    rw [e2] at this
    cases hy : y.hold with
    | rules p => rw [hy] at this; exact this.elim
    | links g' => exact ⟨y, g', e3, hy⟩

theorem InSync.setModel (h : w.InSync) (a : Nat) (m : OModel)
    (hr : ∀ k o, m.rpMap.get k = some o → ∃ (ob : OPol) (g : Nat), w.pols[o]? = some ob ∧ ob.hold = .links g)
    (hd : ∀ k d, m.pDefs.get k = some d → d.key = k) : (w.setModel a m).InSync := by
  refine ⟨h.pols, fun x hx => ?_, fun x hx => ?_⟩
  · rcases List.mem_or_eq_of_mem_set hx with hx | rfl
    · exact h.roles x hx
    · exact hr
  · rcases List.mem_or_eq_of_mem_set hx with hx | rfl
    · exact h.defs x hx
    · exact hd

theorem InSync.mgrs (h : w.InSync) (g : List Mgr) : InSync { w with mgrs := g } := ⟨h.pols, h.roles, h.defs⟩

/-! ## Calls of a policy -/

theorem polAdd_keeps (w : Realm) (o : Nat) (r : Rule) : w.Keeps (w.polAdd o r).1 := by
  unfold polAdd
  cases ho : w.pols[o]? with
  | none => exact .refl w
  | some ob =>
    obtain ⟨hold, ls⟩ := ob
    cases hold with
    | rules p => exact .set ho rfl ⟨trivial, .emit _ _ _ _⟩
    | links g => exact .set ho rfl ⟨rfl, RolePolicy.addRule_there (w.role g ls) r⟩

theorem polRemove_keeps (w : Realm) (o : Nat) (r : Rule) : w.Keeps (w.polRemove o r).1 := by
  unfold polRemove
  cases ho : w.pols[o]? with
  | none => exact .refl w
  | some ob =>
    obtain ⟨hold, ls⟩ := ob
    cases hold with
    | rules p => exact .set ho rfl ⟨trivial, .emit _ _ _ _⟩
    | links g => exact .set ho rfl ⟨rfl, RolePolicy.removeRule_there (w.role g ls) r⟩

theorem polClear_keeps (w : Realm) (o : Nat) : w.Keeps (w.polClear o).1 := by
  unfold polClear
  cases ho : w.pols[o]? with
  | none => exact .refl w
  | some ob =>
    obtain ⟨hold, ls⟩ := ob
    cases hold with
    | rules p => exact .set ho rfl ⟨trivial, .emit _ _ _ _⟩
    | links g => exact .set ho rfl ⟨rfl, .refl _⟩

theorem listen_keeps (w : Realm) (o : Nat) (d : PolicyDef) (root : Stage) : w.Keeps (w.listen o d root).1 := by
  unfold listen
  cases ho : w.pols[o]? with
  | none => exact .refl w
  | some ob =>
    simp only
    split
    · exact .refl w
    · exact .refl w
    · exact .set ho rfl ⟨.refl _, .append _ _⟩

theorem InSync.polAdd (h : w.InSync) (o : Nat) (r : Rule) (hs : w.RuleSuits o r) : (w.polAdd o r).1.InSync := by
  unfold Realm.polAdd
  cases ho : w.pols[o]? with
  | none => exact h
  | some ob =>
    obtain ⟨hold, ls⟩ := ob
    cases hold with
    | rules p =>
      refine h.set ho rfl rfl ⟨trivial, .emit _ _ _ _⟩ (fun q hq => ?_)
      simp only [PolObj.emit_policy, Hold.rules.injEq] at hq
      subst hq
      simp only [PolObj.emit_policy]
      exact (OPol.Sync.add (h.pols o _ p ho rfl) r (hs _ ho)).2
    | links g => exact h.set ho rfl rfl ⟨rfl, RolePolicy.addRule_there (w.role g ls) r⟩ (fun q hq => by cases hq)

theorem InSync.polRemove (h : w.InSync) (o : Nat) (r : Rule) (hs : w.RuleSuits o r) : (w.polRemove o r).1.InSync := by
  unfold Realm.polRemove
  cases ho : w.pols[o]? with
  | none => exact h
  | some ob =>
    obtain ⟨hold, ls⟩ := ob
    cases hold with
    | rules p =>
      refine h.set ho rfl rfl ⟨trivial, .emit _ _ _ _⟩ (fun q hq => ?_)
      simp only [PolObj.emit_policy, Hold.rules.injEq] at hq
      subst hq
      simp only [PolObj.emit_policy]
      exact (OPol.Sync.remove (h.pols o _ p ho rfl) r (hs _ ho)).2
    | links g => exact h.set ho rfl rfl ⟨rfl, RolePolicy.removeRule_there (w.role g ls) r⟩ (fun q hq => by cases hq)

theorem InSync.polClear (h : w.InSync) (o : Nat) : (w.polClear o).1.InSync := by
  unfold Realm.polClear
  cases ho : w.pols[o]? with
  | none => exact h
  | some ob =>
    obtain ⟨hold, ls⟩ := ob
    cases hold with
    | rules p =>
      refine h.set ho rfl rfl ⟨trivial, .emit _ _ _ _⟩ (fun q hq => ?_)
      simp only [PolObj.emit_policy, Hold.rules.injEq] at hq
      subst hq
      simp only [PolObj.emit_policy]
      exact (OPol.Sync.clear (h.pols o _ p ho rfl)).2
    | links g => exact h.set ho rfl rfl ⟨rfl, .refl _⟩ (fun q hq => by cases hq)

theorem rulesOf_rules {o : Nat} {ob : OPol} {p : Policy} (ho : w.pols[o]? = some ob) (hp : ob.hold = .rules p) :
    w.rulesOf o = p.rules := by
  unfold rulesOf
  simp only [ho, hp]

theorem InSync.listen (h : w.InSync) (o : Nat) (d : PolicyDef) (root : Stage) (hb : root.Binary)
    (hg : ∀ r ∈ w.rulesOf o, GoodRule d r) : (w.listen o d root).1.InSync := by
  unfold Realm.listen
  cases ho : w.pols[o]? with
  | none => exact h
  | some ob =>
    simp only
    split
    · exact h
    · exact h
    · rename_i mt hmt
      refine h.set ho rfl rfl ⟨.refl _, .append _ _⟩ (fun p hp => ?_)
      have hp' : ob.hold = .rules p := hp
      have hy := h.pols o ob p ho hp'
      rw [rulesOf_rules ho hp'] at hg hmt
      obtain ⟨mt', e, a1, a2, a3⟩ := newMatcher_idx d root hb p.rules hg
      rw [hmt] at e
      cases e
      refine ⟨hy.wf, fun x hx => ?_, fun x hx => ?_⟩
      · rcases List.mem_append.1 hx with hx | hx
        · exact hy.good x hx
        · rw [List.mem_singleton] at hx
          rw [hx, a1]
          exact hg
      · rcases List.mem_append.1 hx with hx | hx
        · exact hy.has x hx
        · rw [List.mem_singleton] at hx
          rw [hx]
          exact ⟨rfl, a2 ▸ hb, by rw [a1, a2]; exact a3⟩

/-! ## Calls -/

theorem listen_models (w : Realm) (o : Nat) (d : PolicyDef) (root : Stage) : (w.listen o d root).1.models = w.models := by
  unfold listen
  split
  · rfl
  · split <;> rfl

theorem addRule_keeps (w : Realm) (m : OModel) (rule : Rule) : w.Keeps (w.addRule m rule).1 := by
  unfold addRule
  split
  · exact .refl w
  · exact .refl w
  · simp only
    split
    · split
      · exact .refl w
      · exact polAdd_keeps _ _ _
    · split
      · split
        · exact .refl w
        · exact polAdd_keeps _ _ _
      · exact .refl w

theorem removeRule_keeps (w : Realm) (m : OModel) (rule : Rule) : w.Keeps (w.removeRule m rule).1 := by
  unfold removeRule
  split
  · exact .refl w
  · exact .refl w
  · simp only
    split
    · split
      · exact .refl w
      · exact polRemove_keeps _ _ _
    · split
      · split
        · exact .refl w
        · exact polRemove_keeps _ _ _
      · exact .refl w

theorem InSync.links_suit (h : w.InSync) {m : OModel} (hm : m ∈ w.models) {k : Str} {o : Nat}
    (hr : m.rpMap.get k = some o) : ∃ ls g, w.pols[o]? = some ⟨.links g, ls⟩ := by
  obtain ⟨⟨x, ls⟩, g, e1, e2⟩ := h.roles m hm k o hr
  cases e2
  exact ⟨ls, g, e1⟩

theorem InSync.addRule (h : w.InSync) {a : Nat} {m : OModel} (hm : w.models[a]? = some m) (rule : Rule)
    (hs : w.AddSuits a rule) : (w.addRule m rule).1.InSync := by
  unfold Realm.addRule
  split
  · exact h
  · exact h
  · simp only
    split
    · split
      · exact h
      · rename_i o ho
        exact h.polAdd _ _ (hs m o hm ho)
    · split
      · split
        · exact h
        · rename_i o ho
          obtain ⟨ls, g, e⟩ := h.links_suit (List.mem_of_getElem? hm) ho
          unfold Realm.polAdd
          simp only [e]
          exact h.set e rfl rfl ⟨rfl, RolePolicy.addRule_there (w.role g ls) _⟩ (fun q hq => by cases hq)
      · exact h

theorem InSync.removeRule (h : w.InSync) {a : Nat} {m : OModel} (hm : w.models[a]? = some m) (rule : Rule)
    (hs : w.AddSuits a rule) : (w.removeRule m rule).1.InSync := by
  unfold Realm.removeRule
  split
  · exact h
  · exact h
  · simp only
    split
    · split
      · exact h
      · rename_i o ho
        exact h.polRemove _ _ (hs m o hm ho)
    · split
      · split
        · exact h
        · rename_i o ho
          obtain ⟨ls, g, e⟩ := h.links_suit (List.mem_of_getElem? hm) ho
          unfold Realm.polRemove
          simp only [e]
          exact h.set e rfl rfl ⟨rfl, RolePolicy.removeRule_there (w.role g ls) _⟩ (fun q hq => by cases hq)
      · exact h

theorem buildFrom_keeps (w : Realm) (m : OModel) (expr : Str) : w.Keeps (w.buildFrom build m expr).1 := by
  unfold buildFrom
  split
  · exact .refl w
  · exact .refl w
  · split
    · exact .refl w
    · exact .refl w
    · split
      · exact .refl w
      · exact listen_keeps _ _ _ _

theorem buildFrom_models (w : Realm) (m : OModel) (expr : Str) : (w.buildFrom build m expr).1.models = w.models := by
  unfold buildFrom
  split
  · rfl
  · rfl
  · split
    · rfl
    · rfl
    · split
      · rfl
      · exact listen_models _ _ _ _

theorem buildMatcher_fst (w : Realm) (a : Nat) (m : OModel) (key : Str) : (w.buildMatcher build a m key).1 = w ∨
    ∃ expr, m.mDefs.get key = some expr ∧ ((w.buildMatcher build a m key).1 = (w.buildFrom build m expr).1 ∨
      ∃ x, (w.buildFrom build m expr).2 = .ok x ∧
      (w.buildMatcher build a m key).1 = (w.buildFrom build m expr).1.setModel a { m with mMap := m.mMap.set key x }) := by
  unfold buildMatcher
  cases hd : m.mDefs.get key with
  | none => exact .inl rfl
  | some expr =>
    refine .inr ⟨expr, rfl, ?_⟩
    simp only
    rcases hb : w.buildFrom build m expr with ⟨w', res⟩
    cases res with
    | ok x => exact .inr ⟨x, rfl, rfl⟩
    | err => exact .inl rfl
    | panic => exact .inl rfl

theorem InSync.buildFrom (h : w.InSync) (hbin : ∀ e s, build e = .ok s → s.Binary) {a : Nat} {m : OModel}
    (hm : w.models[a]? = some m) (expr : Str) (hs : w.DefSuits build a expr) : (w.buildFrom build m expr).1.InSync := by
  unfold Realm.buildFrom
  split
  · exact h
  · exact h
  · rename_i root hroot
    split
    · exact h
    · exact h
    · rename_i d hd
      split
      · exact h
      · rename_i o ho
        exact h.listen o d root (hbin _ _ hroot) (hs m root o d hm hroot ho hd)

theorem setDef_keeps (w : Realm) (a : Nat) (m : OModel) (sec : Char) (key value : Str) :
    w.Keeps (w.setDef a m sec key value) := by
  unfold setDef
  split
  · exact .refl w
  · split
    · exact .refl w
    · split
      · exact .refl w
      · split
        · exact .of_pols rfl
        · split
          · exact .push rfl
          · split
            · exact .push rfl
            · split <;> exact .of_pols rfl

theorem InSync.setDef (h : w.InSync) {a : Nat} {m : OModel} (hm : w.models[a]? = some m) (sec : Char) (key value : Str) :
    (w.setDef a m sec key value).InSync := by
  have hmm := List.mem_of_getElem? hm
  have hr := h.roles m hmm
  have hd := h.defs m hmm
  have e : OPol.Sync ⟨.rules Policy.empty, []⟩ Policy.empty := ⟨.empty, by simp, by simp⟩
  unfold Realm.setDef
  split
  · exact h
  · split
    · exact h
    · split
      · exact h
      · split
        · exact h.setModel a _ hr hd
        · split
          · refine (h.push (w' := { w with pols := w.pols ++ [⟨.rules Policy.empty, []⟩] }) rfl rfl
              (fun p hp => by cases hp; exact e)).setModel a _ (fun k o ho => ?_) (fun k d hk => ?_)
            · obtain ⟨x, g, e1, e2⟩ := hr k o ho
              exact ⟨x, g, by rw [List.getElem?_append_left (List.getElem?_eq_some_iff.1 e1).1]; exact e1, e2⟩
            · simp only [GoMap.get_set] at hk
              split at hk
              · rename_i e; cases hk; exact e
              · exact hd k d hk
          · split
            · refine ((h.mgrs _).push (w' := { w with
                  mgrs := w.mgrs ++ [if roleDefNArgs value = 2 then Mgr.rm (RM.new 10) else Mgr.dm (DM.new 10)]
                  pols := w.pols ++ [⟨.links w.mgrs.length, []⟩] }) rfl rfl (fun p hp => by cases hp)).setModel a _ (fun k o ho => ?_) hd
              simp only [GoMap.get_set] at ho
              split at ho
              · cases ho
                exact ⟨⟨.links w.mgrs.length, []⟩, w.mgrs.length, by simp, rfl⟩
              · obtain ⟨x, g, e1, e2⟩ := hr k o ho
                exact ⟨x, g, by rw [List.getElem?_append_left (List.getElem?_eq_some_iff.1 e1).1]; exact e1, e2⟩
            · split
              · exact h.setModel a _ hr hd
              · exact h.setModel a _ hr hd

theorem removeDef_keeps (w : Realm) (a : Nat) (m : OModel) (sec : Char) (key : Str) :
    w.Keeps (w.removeDef a m sec key) := by
  unfold removeDef
  repeat' split
  all_goals exact .of_pols rfl

theorem InSync.removeDef (h : w.InSync) {a : Nat} {m : OModel} (hm : w.models[a]? = some m) (sec : Char) (key : Str) :
    (w.removeDef a m sec key).InSync := by
  have hmm := List.mem_of_getElem? hm
  have hr := h.roles m hmm
  have hd := h.defs m hmm
  unfold Realm.removeDef
  split
  · exact h.setModel a _ hr hd
  · split
    · refine h.setModel a _ hr (fun k d hk => ?_)
      simp only [GoMap.get_del] at hk
      split at hk
      · cases hk
      · exact hd k d hk
    · split
      · refine h.setModel a _ (fun k o ho => ?_) hd
        simp only [GoMap.get_del] at ho
        split at ho
        · cases ho
        · exact hr k o ho
      · split
        · exact h.setModel a _ hr hd
        · split
          · exact h.setModel a _ hr hd
          · exact h

theorem step_keeps (w : Realm) (c : OCmd) : w.Keeps (w.step build c).1 := by
  cases c with
  | newModel => exact .of_pols rfl
  | newPolicy => exact .push rfl
  | setDef a sec key value => simp only [step]; split <;> first | exact .refl w | exact setDef_keeps _ _ _ _ _ _
  | removeDef a sec key => simp only [step]; split <;> first | exact .refl w | exact removeDef_keeps _ _ _ _ _
  | build a key =>
    simp only [step]
    split
    · exact .refl w
    · rename_i m hm
      rcases buildMatcher_fst (build := build) w a m key with e | ⟨expr, he, e | ⟨x, hx, e⟩⟩ <;> rw [e]
      · exact .refl w
      · exact buildFrom_keeps _ _ _
      · exact (buildFrom_keeps w m expr).trans (.of_pols rfl)
  | buildFrom a expr => simp only [step]; split <;> first | exact .refl w | exact buildFrom_keeps _ _ _
  | add a rule => simp only [step]; split <;> first | exact .refl w | exact addRule_keeps _ _ _
  | remove a rule => simp only [step]; split <;> first | exact .refl w | exact removeRule_keeps _ _ _
  | clear a key =>
    simp only [step]
    split
    · exact .refl w
    · unfold clearPolicy
      split
      · exact .refl w
      · exact polClear_keeps _ _
  | setPolicy a key o => simp only [step]; split <;> first | exact .of_pols rfl | exact .refl w
  | setMatcher a key x => simp only [step]; split <;> first | exact .of_pols rfl | exact .refl w
  | setRoleManager a key g => simp only [step]; split <;> first | exact .push rfl | exact .refl w
  | polAdd o rule => exact polAdd_keeps _ _ _
  | polRemove o rule => exact polRemove_keeps _ _ _
  | polClear o => exact polClear_keeps _ _
  | mgr g f => exact .of_pols rfl

theorem run_keeps (cs : List OCmd) : ∀ w : Realm, w.Keeps (w.run build cs).1 := by
  induction cs with
  | nil => exact fun w => .refl w
  | cons c cs ih => exact fun w => (step_keeps w c).trans (ih _)

theorem InSync.step (h : w.InSync) (hbin : ∀ e s, build e = .ok s → s.Binary) (c : OCmd) (hs : w.Suits build c) :
    (w.step build c).1.InSync := by
  cases c with
  | newModel =>
    refine ⟨h.pols, fun m hm => ?_, fun m hm => ?_⟩
    · rcases List.mem_append.1 hm with hm | hm
      · exact h.roles m hm
      · rw [List.mem_singleton] at hm; subst hm; simp [OModel.new]
    · rcases List.mem_append.1 hm with hm | hm
      · exact h.defs m hm
      · rw [List.mem_singleton] at hm; subst hm; simp [OModel.new]
  | newPolicy => exact h.push rfl rfl (fun p hp => by cases hp; exact ⟨.empty, by simp, by simp⟩)
  | setDef a sec key value =>
    simp only [Realm.step]
    split
    · exact h
    · rename_i m hm; exact h.setDef hm _ _ _
  | removeDef a sec key =>
    simp only [Realm.step]
    split
    · exact h
    · rename_i m hm; exact h.removeDef hm _ _
  | build a key =>
    simp only [Realm.step]
    split
    · exact h
    · rename_i m hm
      have hmm := List.mem_of_getElem? hm
      rcases buildMatcher_fst (build := build) w a m key with e | ⟨expr, he, e | ⟨x, hx, e⟩⟩ <;> rw [e]
      · exact h
      · exact h.buildFrom hbin hm expr (hs m expr hm he)
      · have h' := h.buildFrom hbin hm expr (hs m expr hm he)
        refine h'.setModel a _ (h'.roles m ?_) (h'.defs m ?_) <;> rw [buildFrom_models] <;> exact hmm
  | buildFrom a expr =>
    simp only [Realm.step]
    split
    · exact h
    · rename_i m hm; exact h.buildFrom hbin hm expr hs
  | add a rule =>
    simp only [Realm.step]
    split
    · exact h
    · rename_i m hm; exact h.addRule hm rule hs
  | remove a rule =>
    simp only [Realm.step]
    split
    · exact h
    · rename_i m hm; exact h.removeRule hm rule hs
  | clear a key =>
    simp only [Realm.step]
    split
    · exact h
    · unfold clearPolicy
      split
      · exact h
      · exact h.polClear _
  | setPolicy a key o =>
    simp only [Realm.step]
    split
    · rename_i m _ hm _
      have hmm := List.mem_of_getElem? hm
      exact h.setModel a _ (h.roles m hmm) (h.defs m hmm)
    · exact h
  | setMatcher a key x =>
    simp only [Realm.step]
    split
    · rename_i m _ hm _
      have hmm := List.mem_of_getElem? hm
      exact h.setModel a _ (h.roles m hmm) (h.defs m hmm)
    · exact h
  | setRoleManager a key g =>
    simp only [Realm.step]
    split
    · rename_i m _ hm _
      have hmm := List.mem_of_getElem? hm
      refine (h.push (w' := { w with pols := w.pols ++ [⟨.links g, []⟩] }) rfl rfl (fun p hp => by cases hp)).setModel a _ (fun k o ho => ?_) (h.defs m hmm)
      simp only [GoMap.get_set] at ho
      split at ho
      · cases ho
        exact ⟨⟨.links g, []⟩, g, by simp, rfl⟩
      · obtain ⟨x, g, e1, e2⟩ := h.roles m hmm k o ho
        exact ⟨x, g, by rw [List.getElem?_append_left (List.getElem?_eq_some_iff.1 e1).1]; exact e1, e2⟩
    · exact h
  | polAdd o rule => exact h.polAdd o rule hs
  | polRemove o rule => exact h.polRemove o rule hs
  | polClear o => exact h.polClear o
  | mgr g f => exact h.mgrs _

theorem InSync.run (hbin : ∀ e s, build e = .ok s → s.Binary) (cs : List OCmd) :
    ∀ w : Realm, w.InSync → w.AllSuit build cs → (w.run build cs).1.InSync := by
  induction cs with
  | nil => exact fun w h _ => h
  | cons c cs ih => exact fun w h hs => ih _ (h.step hbin c hs.1) hs.2

end Realm

end Fastac
