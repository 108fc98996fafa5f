import Verif.Spec.Enforcers
import Verif.Props.Storage

/-!
# Lemmas about several enforcers on one model
-/

namespace Fastac

variable {σ : Type}

/-- The seat after its controller has heard of an event. -/
def Seat.tell (s : Seat σ) (ev : ModEvent) : Seat σ :=
  ⟨s.adapter, (s.sc.addOp s.adapter s.st ev.op).2.st, (s.sc.addOp s.adapter s.st ev.op).1,
    s.got ++ (s.sc.addOp s.adapter s.st ev.op).2.trace⟩

theorem Site.emit_cons (w : Site σ) (ev : ModEvent) (i : Nat) (is : List Nat) :
    w.emit ev (i :: is) = if ((w.seats i).sc.addOp (w.seats i).adapter (w.seats i).st ev.op).2.res = .ok () then
      (w.setSeat i ((w.seats i).tell ev)).emit ev is else (w.setSeat i ((w.seats i).tell ev), .panic) := rfl

theorem Site.emit_ok (ev : ModEvent) : ∀ (L : List Nat) (w : Site σ), L.Nodup → (w.emit ev L).2 ≠ .panic →
    (w.emit ev L).2 = .ok () ∧ (w.emit ev L).1.model = w.model ∧ (w.emit ev L).1.listeners = w.listeners ∧
    ∀ j, (w.emit ev L).1.seats j = (if j ∈ L then (w.seats j).tell ev else w.seats j) ∧
      (j ∈ L → ((w.seats j).sc.addOp (w.seats j).adapter (w.seats j).st ev.op).2.res = .ok ())
  | [], w, _, _ => ⟨rfl, rfl, rfl, fun j => ⟨by simp [Site.emit], by simp⟩⟩
  | i :: is, w, hn, h => by
    rw [Site.emit_cons] at h ⊢
    rw [List.nodup_cons] at hn
    by_cases hr : ((w.seats i).sc.addOp (w.seats i).adapter (w.seats i).st ev.op).2.res = .ok ()
    · rw [if_pos hr] at h ⊢
      obtain ⟨h1, h2, h3, h4⟩ := Site.emit_ok ev is _ hn.2 h
      refine ⟨h1, h2, h3, fun j => ?_⟩
      obtain ⟨h5, h6⟩ := h4 j
      by_cases hj : j = i
      · subst hj
        rw [h5, if_neg hn.1, if_pos List.mem_cons_self]
        exact ⟨by simp [Site.setSeat], fun _ => hr⟩
      · have hs : (w.setSeat i ((w.seats i).tell ev)).seats j = w.seats j := by simp [Site.setSeat, hj]
        rw [hs] at h5 h6
        rw [h5]
        have hm : j ∈ i :: is ↔ j ∈ is := by simp [hj]
        simp only [hm]
        exact ⟨trivial, h6⟩
    · rw [if_neg hr] at h
      exact (h rfl).elim

theorem SC.addOp_enabled (A : Adapter σ) (c : SC) (s : σ) (op : Operation) : (c.addOp A s op).1.enabled = c.enabled := by
  unfold SC.addOp
  dsimp only
  split
  · split
    · rfl
    · rfl
  · rfl

theorem SC.flush_enabled (A : Adapter σ) (c : SC) (s : σ) : (c.flush A s).1.enabled = c.enabled := rfl

/-- What the other enforcers see of a call that is `f` alone, if it does not panic. -/
def Site.Follows (w w' : Site σ) (j : Nat) (e : Enforcer σ) (t : List (Call × Res Unit)) : Prop :=
  w'.view j = e ∧ (w'.seats j).got = (w.seats j).got ++ t

theorem Site.withModel_ok (w : Site σ) (hw : w.Ok) (x : Model × Res Bool × Option ModEvent) (h : (w.withModel x).2 ≠ .panic) :
    (w.withModel x).1.Ok ∧ ∀ j, w.Follows (w.withModel x).1 j ((w.view j).withModel x).e ((w.view j).withModel x).trace ∧
      ((w.view j).withModel x).res = (w.withModel x).2 := by
  obtain ⟨m, r, oev⟩ := x
  cases oev with
  | none =>
    refine ⟨⟨hw.nodup, hw.iff⟩, fun j => ⟨⟨rfl, ?_⟩, ?_⟩⟩
    · simp [Site.withModel, Enforcer.withModel, Enforcer.onEvent]
    · simp [Site.withModel, Enforcer.withModel, Enforcer.onEvent]
  | some ev =>
    have hne : (({ w with model := m } : Site σ).emit ev w.listeners).2 ≠ .panic := by
      intro e
      apply h
      simp [Site.withModel, e]
    obtain ⟨h1, h2, h3, h4⟩ := Site.emit_ok ev w.listeners { w with model := m } hw.nodup hne
    have e1 : w.withModel (m, r, some ev) = ((({ w with model := m } : Site σ).emit ev w.listeners).1, r) := by
      simp only [Site.withModel]
      rw [if_pos h1]
    rw [e1]
    dsimp only
    refine ⟨⟨by rw [h3]; exact hw.nodup, ?_⟩, ?_⟩
    · intro i
      rw [h3, (h4 i).1]
      show i ∈ w.listeners ↔ _
      refine (hw.iff i).trans ?_
      split
      · simp only [Seat.tell]
        rw [SC.addOp_enabled]
      · rfl
    · intro j
      obtain ⟨h5, h6⟩ := h4 j
      have hi := hw.iff j
      by_cases hj : j ∈ w.listeners
      · have he := hi.mp hj
        rw [if_pos hj] at h5
        have h7 := h6 hj
        dsimp only at h5 h7
        refine ⟨⟨?_, ?_⟩, ?_⟩
        · simp only [Site.view, h5, h2, Seat.tell, Enforcer.withModel, Enforcer.onEvent, he, Bool.and_self, if_true]
        · simp only [Site.view, h5, Seat.tell, Enforcer.withModel, Enforcer.onEvent, he, Bool.and_self, if_true]
        · simp only [Site.view, Enforcer.withModel, Enforcer.onEvent, he, Bool.and_self, if_true]
          rw [if_pos h7]
      · have he : (w.seats j).sc.enabled = false := by
          cases hb : (w.seats j).sc.enabled with
          | false => rfl
          | true => exact absurd (hi.mpr hb) hj
        rw [if_neg hj] at h5
        dsimp only at h5
        refine ⟨⟨?_, ?_⟩, ?_⟩
        · simp [Site.view, h5, h2, Enforcer.withModel, Enforcer.onEvent, he]
        · simp [Site.view, h5, Enforcer.withModel, Enforcer.onEvent, he]
        · simp [Site.view, Enforcer.withModel, Enforcer.onEvent, he]

/-- The loops, seen by every enforcer: one call per rule. -/
theorem Site.each_ok (f : Model → Rule → Model × Res Bool × Option ModEvent) :
    ∀ (rs : List Rule) (w : Site σ), w.Ok → (Site.each (fun w r => w.withModel (f w.model r)) w rs).2 ≠ .panic →
    (Site.each (fun w r => w.withModel (f w.model r)) w rs).1.Ok ∧
    ∀ j, w.Follows (Site.each (fun w r => w.withModel (f w.model r)) w rs).1 j
        (Enforcer.each (fun e r => e.withModel (f e.model r)) (w.view j) rs).e
        (Enforcer.each (fun e r => e.withModel (f e.model r)) (w.view j) rs).trace ∧
      (Enforcer.each (fun e r => e.withModel (f e.model r)) (w.view j) rs).res =
        (Site.each (fun w r => w.withModel (f w.model r)) w rs).2
  | [], w, hw, _ => ⟨hw, fun j => ⟨⟨rfl, by simp [Enforcer.each, Site.each]⟩, rfl⟩⟩
  | r :: rs, w, hw, h => by
    have hone : (w.withModel (f w.model r)).2 ≠ .panic := by
      intro e
      apply h
      simp only [Site.each, e]
    obtain ⟨k1, k2⟩ := w.withModel_ok hw (f w.model r) hone
    cases hres : (w.withModel (f w.model r)).2 with
    | panic => exact absurd hres hone
    | err =>
      have e1 : Site.each (fun w r => w.withModel (f w.model r)) w (r :: rs) = ((w.withModel (f w.model r)).1, .err) := by
        simp only [Site.each, hres]
      rw [e1]
      refine ⟨k1, fun j => ?_⟩
      obtain ⟨a, b⟩ := k2 j
      have e2 : Enforcer.each (fun e r => e.withModel (f e.model r)) (w.view j) (r :: rs) =
          ⟨((w.view j).withModel (f w.model r)).e, ((w.view j).withModel (f w.model r)).trace, .err⟩ := by
        have : ((w.view j).withModel (f (w.view j).model r)).res = .err := b.trans hres
        simp only [Enforcer.each, this]
        rfl
      rw [e2]
      exact ⟨a, rfl⟩
    | ok bb =>
      have e1 : Site.each (fun w r => w.withModel (f w.model r)) w (r :: rs) =
          Site.each (fun w r => w.withModel (f w.model r)) (w.withModel (f w.model r)).1 rs := by
        simp only [Site.each, hres]
      rw [e1] at h ⊢
      obtain ⟨l1, l2⟩ := Site.each_ok f rs _ k1 h
      refine ⟨l1, fun j => ?_⟩
      obtain ⟨⟨a1, a2⟩, b⟩ := k2 j
      obtain ⟨⟨c1, c2⟩, d⟩ := l2 j
      have e2 : Enforcer.each (fun e r => e.withModel (f e.model r)) (w.view j) (r :: rs) =
          ⟨(Enforcer.each (fun e r => e.withModel (f e.model r)) ((w.withModel (f w.model r)).1.view j) rs).e,
            ((w.view j).withModel (f w.model r)).trace ++
              (Enforcer.each (fun e r => e.withModel (f e.model r)) ((w.withModel (f w.model r)).1.view j) rs).trace,
            (Enforcer.each (fun e r => e.withModel (f e.model r)) ((w.withModel (f w.model r)).1.view j) rs).res⟩ := by
        have : ((w.view j).withModel (f (w.view j).model r)).res = .ok bb := b.trans hres
        simp only [Enforcer.each, this]
        rw [a1]
        rfl
      rw [e2]
      exact ⟨⟨c1, by rw [c2, a2, List.append_assoc]⟩, d⟩

theorem Site.Ok.keep {w w' : Site σ} (hw : w.Ok) (hl : w'.listeners = w.listeners)
    (he : ∀ i, (w'.seats i).sc.enabled = (w.seats i).sc.enabled) : w'.Ok :=
  ⟨by rw [hl]; exact hw.nodup, fun i => by rw [hl, he i]; exact hw.iff i⟩

theorem Site.setAutosave_ok {w : Site σ} (hw : w.Ok) (i : Nat) (b : Bool) : (w.setAutosave i b).Ok := by
  refine hw.keep rfl fun j => ?_
  simp only [Site.setAutosave, Site.setSeat]
  split
  · rename_i h; subst h; rfl
  · rfl

theorem Site.setAutosave_view (w : Site σ) (i j : Nat) (b : Bool) :
    (w.setAutosave i b).view j = (if j = i then (w.view j).setAutosave b else w.view j) ∧
    ((w.setAutosave i b).seats j).got = (w.seats j).got := by
  by_cases h : j = i
  · subst h; simp [Site.setAutosave, Site.setSeat, Site.view, Enforcer.setAutosave]
  · simp [Site.setAutosave, Site.setSeat, Site.view, h]

theorem Site.flush_ok {w : Site σ} (hw : w.Ok) (i : Nat) : (w.flush i).1.Ok := by
  refine hw.keep rfl fun j => ?_
  simp only [Site.flush, Site.setSeat]
  split
  · rename_i h; subst h; rfl
  · rfl

theorem Site.flush_view (w : Site σ) (i j : Nat) :
    (w.flush i).1.view j = (if j = i then (w.view j).flush.e else w.view j) ∧
    ((w.flush i).1.seats j).got = (w.seats j).got ++ (if j = i then (w.view j).flush.trace else []) ∧
    (w.flush i).2 = (w.view i).flush.res := by
  by_cases h : j = i
  · subst h; simp [Site.flush, Site.setSeat, Site.view, Enforcer.flush]
  · simp [Site.flush, Site.setSeat, Site.view, Enforcer.flush, h]

/-- `AddRules` and `RemoveRules`. -/
theorem Site.many_ok (f : Model → Rule → Model × Res Bool × Option ModEvent) (i : Nat) (rs : List Rule) (w : Site σ) (hw : w.Ok)
    (h : (Site.many (fun w r => w.withModel (f w.model r)) i w rs).2 ≠ .panic) :
    (Site.many (fun w r => w.withModel (f w.model r)) i w rs).1.Ok ∧
    w.Follows (Site.many (fun w r => w.withModel (f w.model r)) i w rs).1 i
      (Enforcer.many (fun e r => e.withModel (f e.model r)) (w.view i) rs).e
      (Enforcer.many (fun e r => e.withModel (f e.model r)) (w.view i) rs).trace ∧
    (Enforcer.many (fun e r => e.withModel (f e.model r)) (w.view i) rs).res =
      (Site.many (fun w r => w.withModel (f w.model r)) i w rs).2 ∧
    ∀ j, j ≠ i → w.Follows (Site.many (fun w r => w.withModel (f w.model r)) i w rs).1 j
      (Enforcer.each (fun e r => e.withModel (f e.model r)) (w.view j) rs).e
      (Enforcer.each (fun e r => e.withModel (f e.model r)) (w.view j) rs).trace ∧
      (Enforcer.each (fun e r => e.withModel (f e.model r)) (w.view j) rs).res ≠ .panic := by
  unfold Site.many at h ⊢
  unfold Enforcer.many
  have hv : (w.view i).sc.autosave = (w.seats i).sc.autosave := rfl
  rw [hv]
  by_cases ha : (w.seats i).sc.autosave = true
  · simp only [ha, if_true] at h ⊢
    have hw1 := Site.setAutosave_ok hw i false
    have hne : (Site.each (fun w r => w.withModel (f w.model r)) (w.setAutosave i false) rs).2 ≠ .panic := by
      intro e
      apply h
      rw [e]
      split <;> rfl
    obtain ⟨k1, k2⟩ := Site.each_ok f rs _ hw1 hne
    generalize Site.each (fun w r => w.withModel (f w.model r)) (w.setAutosave i false) rs = o at h hne k1 k2 ⊢
    refine ⟨Site.flush_ok (Site.setAutosave_ok k1 i true) i, ?_, ?_, ?_⟩
    · obtain ⟨⟨a1, a2⟩, a3⟩ := k2 i
      obtain ⟨b1, b2⟩ := w.setAutosave_view i i false
      rw [if_pos rfl] at b1
      rw [b1] at a1 a2 a3
      rw [b2] at a2
      obtain ⟨c1, c2⟩ := o.1.setAutosave_view i i true
      rw [if_pos rfl] at c1
      obtain ⟨d1, d2, d3⟩ := (o.1.setAutosave i true).flush_view i i
      rw [if_pos rfl] at d1 d2
      refine ⟨?_, ?_⟩
      · rw [d1, c1, a1]
      · rw [d2, c2, a2, c1, a1, List.append_assoc]
    · obtain ⟨⟨a1, a2⟩, a3⟩ := k2 i
      obtain ⟨b1, b2⟩ := w.setAutosave_view i i false
      rw [if_pos rfl] at b1
      rw [b1] at a1 a2 a3
      obtain ⟨c1, c2⟩ := o.1.setAutosave_view i i true
      rw [if_pos rfl] at c1
      obtain ⟨d1, d2, d3⟩ := (o.1.setAutosave i true).flush_view i i
      rw [d3, c1, a1, a3]
    · intro j hj
      obtain ⟨⟨a1, a2⟩, a3⟩ := k2 j
      obtain ⟨b1, b2⟩ := w.setAutosave_view i j false
      rw [if_neg hj] at b1
      rw [b1] at a1 a2 a3
      rw [b2] at a2
      obtain ⟨c1, c2⟩ := o.1.setAutosave_view i j true
      rw [if_neg hj] at c1
      obtain ⟨d1, d2, d3⟩ := (o.1.setAutosave i true).flush_view i j
      rw [if_neg hj] at d1 d2
      refine ⟨⟨?_, ?_⟩, by rw [a3]; exact hne⟩
      · rw [d1, c1, a1]
      · rw [d2, c2, a2, List.append_nil]
  · rw [if_neg ha] at h ⊢
    rw [if_neg ha]
    obtain ⟨k1, k2⟩ := Site.each_ok f rs w hw h
    exact ⟨k1, (k2 i).1, (k2 i).2, fun j _ => ⟨(k2 j).1, by rw [(k2 j).2]; exact h⟩⟩

/-! ## Loading -/

theorem Site.enable_ok {w : Site σ} (hw : w.Ok) (i : Nat) : (w.enable i).Ok := by
  unfold Site.enable
  split
  · exact hw
  · rename_i he
    have hi : i ∉ w.listeners := fun h => he ((hw.iff i).mp h)
    refine ⟨?_, fun j => ?_⟩
    · simp only [List.nodup_append, hw.nodup, List.nodup_cons, List.not_mem_nil, not_false_eq_true, List.nodup_nil, and_self, true_and]
      intro a ha b hb e
      rw [List.mem_singleton] at hb
      exact hi (hb ▸ e ▸ ha)
    · simp only [Site.setSeat, List.mem_append, List.mem_singleton]
      by_cases h : j = i
      · simp [h]
      · simp [h, hw.iff j]

theorem Site.disable_ok {w : Site σ} (hw : w.Ok) (i : Nat) : (w.disable i).Ok := by
  refine ⟨hw.nodup.sublist List.filter_sublist, fun j => ?_⟩
  simp only [Site.disable, Site.setSeat, List.mem_filter, decide_eq_true_eq]
  by_cases h : j = i
  · simp [h]
  · simp [h, hw.iff j]

theorem Site.enable_view (w : Site σ) (i j : Nat) :
    (w.enable i).view j = (if j = i then (w.view j).setStorage true else w.view j) ∧
    ((w.enable i).seats j).got = (w.seats j).got := by
  unfold Site.enable
  split
  · rename_i he
    by_cases h : j = i
    · subst h
      simp only [if_true]
      refine ⟨?_, trivial⟩
      simp only [Site.view, Enforcer.setStorage]
      congr 1
      cases hs : (w.seats j).sc
      rw [hs] at he
      simp_all
    · simp [h]
  · by_cases h : j = i
    · subst h; simp [Site.setSeat, Site.view, Enforcer.setStorage]
    · simp [Site.setSeat, Site.view, h]

theorem Site.disable_view (w : Site σ) (i j : Nat) :
    (w.disable i).view j = (if j = i then (w.view j).setStorage false else w.view j) ∧
    ((w.disable i).seats j).got = (w.seats j).got := by
  by_cases h : j = i
  · subst h; simp [Site.disable, Site.setSeat, Site.view, Enforcer.setStorage]
  · simp [Site.disable, Site.setSeat, Site.view, h]

theorem Enforcer.run_cons_add (e : Enforcer σ) (r : Rule) (H : List Enforcer.Op) :
    e.run (.add r :: H) = (((e.addRule r).e.run H).1, (e.addRule r).trace ++ ((e.addRule r).e.run H).2) := rfl

theorem Site.runLoad_ok (i : Nat) : ∀ (p : LoadProg σ) (w : Site σ), w.Ok → (w.runLoad i p).2 ≠ .panic →
    (w.runLoad i p).1.Ok ∧
    w.Follows (w.runLoad i p).1 i ((w.view i).runLoad p).e ((w.view i).runLoad p).trace ∧
    ((w.view i).runLoad p).res = (w.runLoad i p).2 ∧
    ∀ j, j ≠ i → w.Follows (w.runLoad i p).1 j ((w.view j).run ((p.asked w.model).map .add)).1
      ((w.view j).run ((p.asked w.model).map .add)).2 := by
  intro p
  induction p with
  | done s r =>
    intro w hw _
    refine ⟨?_, ?_, rfl, ?_⟩
    · refine hw.keep rfl fun j => ?_
      simp only [Site.runLoad, Site.setSeat]
      split
      · rename_i h; subst h; rfl
      · rfl
    · exact ⟨by simp [Site.runLoad, Site.setSeat, Site.view, Enforcer.runLoad],
        by simp [Site.runLoad, Site.setSeat, Site.view, Enforcer.runLoad]⟩
    · intro j hj
      exact ⟨by simp [Site.runLoad, Site.setSeat, Site.view, Enforcer.run, LoadProg.asked, hj],
        by simp [Site.runLoad, Site.setSeat, Site.view, Enforcer.run, LoadProg.asked, hj]⟩
  | add rule next ih =>
    intro w hw h
    have hone : (w.addRule rule).2 ≠ .panic := by
      intro e
      apply h
      simp only [Site.runLoad, e]
    obtain ⟨k1, k2⟩ := w.withModel_ok hw (w.model.addRule rule) hone
    change (w.addRule rule).1.Ok at k1
    change ∀ j, w.Follows (w.addRule rule).1 j ((w.view j).addRule rule).e ((w.view j).addRule rule).trace ∧
      ((w.view j).addRule rule).res = (w.addRule rule).2 at k2
    have hres : (w.addRule rule).2 = (w.model.addRule rule).2.1 := by
      have : (w.addRule rule).2 = (w.withModel (w.model.addRule rule)).2 := rfl
      rw [this] at hone ⊢
      unfold Site.withModel at hone ⊢
      split
      · rfl
      · rename_i ev hev
        simp only [hev] at hone ⊢
        split
        · rfl
        · rename_i hn; simp [hn] at hone
    have hmodel : (w.addRule rule).1.model = (w.model.addRule rule).1 := by
      have := congrArg Enforcer.model (k2 i).1.1
      rw [show ((w.addRule rule).1.view i).model = (w.addRule rule).1.model from rfl] at this
      rw [this]
      simp only [Enforcer.addRule, Enforcer.withModel, Enforcer.onEvent]
      split
      · rfl
      · split <;> rfl
    have ht : ∀ (b : Option Bool), (w.addRule rule).2 = (match b with | some b => .ok b | none => .err) →
        (w.runLoad i (.add rule next) = (w.addRule rule).1.runLoad i (next b)) ∧
        (∀ e : Enforcer σ, (e.addRule rule).res = (w.addRule rule).2 → e.runLoad (.add rule next) =
          ⟨((e.addRule rule).e.runLoad (next b)).e, (e.addRule rule).trace ++ ((e.addRule rule).e.runLoad (next b)).trace,
            ((e.addRule rule).e.runLoad (next b)).res⟩) ∧
        (LoadProg.add rule next).asked w.model = rule :: (next b).asked (w.addRule rule).1.model := by
      intro b hb
      rw [hmodel]
      cases b with
      | some b =>
        dsimp only at hb
        refine ⟨by simp only [Site.runLoad, hb], fun e he => ?_, ?_⟩
        · rw [hb] at he; simp only [Enforcer.runLoad, he]
        · rw [hres] at hb; simp only [LoadProg.asked, hb]
      | none =>
        dsimp only at hb
        refine ⟨by simp only [Site.runLoad, hb], fun e he => ?_, ?_⟩
        · rw [hb] at he; simp only [Enforcer.runLoad, he]
        · rw [hres] at hb; simp only [LoadProg.asked, hb]
    obtain ⟨b, hb⟩ : ∃ b : Option Bool, (w.addRule rule).2 = (match b with | some b => .ok b | none => .err) := by
      cases hr : (w.addRule rule).2 with
      | ok b => exact ⟨some b, rfl⟩
      | err => exact ⟨none, rfl⟩
      | panic => exact absurd hr hone
    obtain ⟨t1, t2, t3⟩ := ht b hb
    rw [t1] at h ⊢
    obtain ⟨l1, ⟨l2, l3⟩, l4, l5⟩ := ih b _ k1 h
    refine ⟨l1, ?_, ?_, ?_⟩
    · obtain ⟨⟨a1, a2⟩, a3⟩ := k2 i
      rw [t2 _ a3]
      exact ⟨by rw [l2, a1], by rw [l3, a2, a1, List.append_assoc]⟩
    · obtain ⟨⟨a1, a2⟩, a3⟩ := k2 i
      rw [t2 _ a3, ← l4, a1]
    · intro j hj
      obtain ⟨⟨a1, a2⟩, a3⟩ := k2 j
      obtain ⟨l6, l7⟩ := l5 j hj
      rw [t3, List.map_cons, Enforcer.run_cons_add]
      exact ⟨by rw [l6, a1], by rw [l7, a2, a1, List.append_assoc]⟩

theorem Site.loadPolicy_ok (i : Nat) (w : Site σ) (hw : w.Ok) (h : (w.loadPolicy i).2 ≠ .panic) :
    (w.loadPolicy i).1.Ok ∧
    w.Follows (w.loadPolicy i).1 i (w.view i).loadPolicy.e (w.view i).loadPolicy.trace ∧
    (w.view i).loadPolicy.res = (w.loadPolicy i).2 ∧
    ∀ j, j ≠ i → w.Follows (w.loadPolicy i).1 j
      ((w.view j).run ((((w.seats i).adapter.load (w.seats i).st).asked w.model).map .add)).1
      ((w.view j).run ((((w.seats i).adapter.load (w.seats i).st).asked w.model).map .add)).2 := by
  unfold Site.loadPolicy at h ⊢
  unfold Enforcer.loadPolicy
  have hv : (w.view i).sc.enabled = (w.seats i).sc.enabled := rfl
  have hp : (w.view i).adapter.load (w.view i).st = (w.seats i).adapter.load (w.seats i).st := rfl
  rw [hv, hp]
  generalize (w.seats i).adapter.load (w.seats i).st = p at h ⊢
  by_cases ha : (w.seats i).sc.enabled = true
  · simp only [ha, if_true] at h ⊢
    obtain ⟨l1, ⟨l2, l3⟩, l4, l5⟩ := Site.runLoad_ok i p _ (Site.disable_ok hw i) h
    obtain ⟨b1, b2⟩ := w.disable_view i i
    rw [if_pos rfl] at b1
    rw [b1] at l2 l3 l4
    obtain ⟨c1, c2⟩ := ((w.disable i).runLoad i p).1.enable_view i i
    rw [if_pos rfl] at c1
    refine ⟨Site.enable_ok l1 i, ⟨by rw [c1, l2], by rw [c2, l3, b2]⟩, l4, ?_⟩
    intro j hj
    obtain ⟨b1, b2⟩ := w.disable_view i j
    obtain ⟨c1, c2⟩ := ((w.disable i).runLoad i p).1.enable_view i j
    rw [if_neg hj] at b1 c1
    obtain ⟨l6, l7⟩ := l5 j hj
    rw [b1] at l6 l7
    exact ⟨by rw [c1, l6]; rfl, by rw [c2, l7, b2]; rfl⟩
  · rw [if_neg ha] at h ⊢
    rw [if_neg ha]
    exact Site.runLoad_ok i p w hw h

theorem Site.setAdapter_ok {w : Site σ} (hw : w.Ok) (i : Nat) (A : Adapter σ) (s : σ) : (w.setAdapter i A s).Ok := by
  have hd := Site.disable_ok hw i
  have hi : i ∉ (w.disable i).listeners := by simp [Site.disable]
  refine ⟨?_, fun j => ?_⟩
  · simp only [Site.setAdapter, List.nodup_append, hd.nodup, List.nodup_cons, List.not_mem_nil, not_false_eq_true, List.nodup_nil,
      and_self, true_and]
    intro a ha b hb e
    rw [List.mem_singleton] at hb
    rw [e, hb] at ha
    exact hi ha
  · by_cases h : j = i
    · subst h; simp [Site.setAdapter, Site.setSeat, SC.new]
    · have := hd.iff j
      simp only [Site.setAdapter, Site.setSeat, List.mem_append, List.mem_singleton, h, or_false, if_false]
      exact this

/-- The loop is a run of single calls, up to the first error. -/
theorem Enforcer.each_run (f : Model → Rule → Model × Res Bool × Option ModEvent) (op : Rule → Enforcer.Op)
    (hop : ∀ (e : Enforcer σ) r, e.step (op r) = ((e.withModel (f e.model r)).e, (e.withModel (f e.model r)).trace)) :
    ∀ (rs : List Rule) (e : Enforcer σ), (Enforcer.each (fun e r => e.withModel (f e.model r)) e rs).res ≠ .panic →
    e.run ((Model.tried f e.model rs).map op) = ((Enforcer.each (fun e r => e.withModel (f e.model r)) e rs).e,
      (Enforcer.each (fun e r => e.withModel (f e.model r)) e rs).trace)
  | [], e, _ => rfl
  | r :: rs, e, h => by
    have hm : (e.withModel (f e.model r)).e.model = (f e.model r).1 := by
      simp only [Enforcer.withModel, Enforcer.onEvent]
      split
      · rfl
      · split <;> rfl
    have hres : (e.withModel (f e.model r)).res ≠ .panic → (e.withModel (f e.model r)).res = (f e.model r).2.1 := by
      intro hn
      simp only [Enforcer.withModel] at hn ⊢
      split
      · rfl
      · rename_i hc; exact absurd (if_neg hc) hn
    cases hr : (e.withModel (f e.model r)).res with
    | panic => exfalso; apply h; simp only [Enforcer.each, hr]
    | err =>
      have h2 := hres (by rw [hr]; exact nofun)
      rw [hr] at h2
      simp only [Model.tried, ← h2, List.map_cons, List.map_nil, Enforcer.run, Enforcer.each, hr, hop, List.append_nil]
    | ok b =>
      have h2 := hres (by rw [hr]; exact nofun)
      rw [hr] at h2
      have e1 : Enforcer.each (fun e r => e.withModel (f e.model r)) e (r :: rs) =
          ⟨(Enforcer.each (fun e r => e.withModel (f e.model r)) (e.withModel (f e.model r)).e rs).e,
            (e.withModel (f e.model r)).trace ++ (Enforcer.each (fun e r => e.withModel (f e.model r)) (e.withModel (f e.model r)).e rs).trace,
            (Enforcer.each (fun e r => e.withModel (f e.model r)) (e.withModel (f e.model r)).e rs).res⟩ := by
        simp only [Enforcer.each, hr]
      rw [e1] at h ⊢
      have ih := Enforcer.each_run f op hop rs (e.withModel (f e.model r)).e h
      rw [hm] at ih
      simp only [Model.tried, ← h2, List.map_cons, Enforcer.run, hop, ih]

theorem Site.emit_fail (ev : ModEvent) : ∀ (pre : List Nat) (i : Nat) (post : List Nat) (w : Site σ), (pre ++ i :: post).Nodup →
    (∀ j ∈ pre, ((w.seats j).sc.addOp (w.seats j).adapter (w.seats j).st ev.op).2.res = .ok ()) →
    ((w.seats i).sc.addOp (w.seats i).adapter (w.seats i).st ev.op).2.res ≠ .ok () →
    (w.emit ev (pre ++ i :: post)).2 = .panic ∧ (w.emit ev (pre ++ i :: post)).1.model = w.model ∧
    ∀ j, (w.emit ev (pre ++ i :: post)).1.seats j = if j ∈ pre ∨ j = i then (w.seats j).tell ev else w.seats j
  | [], i, post, w, _, _, hi => by
    rw [List.nil_append, Site.emit_cons, if_neg hi]
    refine ⟨rfl, rfl, fun j => ?_⟩
    by_cases h : j = i
    · subst h; simp [Site.setSeat]
    · simp [Site.setSeat, h]
  | p :: pre, i, post, w, hn, hp, hi => by
    rw [List.cons_append] at hn ⊢
    rw [List.nodup_cons] at hn
    rw [Site.emit_cons, if_pos (hp p List.mem_cons_self)]
    have hs : ∀ j, j ≠ p → (w.setSeat p ((w.seats p).tell ev)).seats j = w.seats j := fun j hj => by simp [Site.setSeat, hj]
    have hne : ∀ j, j ∈ pre ∨ j = i → j ≠ p := by
      rintro j hj rfl
      apply hn.1
      rw [List.mem_append, List.mem_cons]
      exact hj.elim .inl (fun h => .inr (.inl h))
    obtain ⟨h1, h2, h3⟩ := Site.emit_fail ev pre i post (w.setSeat p ((w.seats p).tell ev)) hn.2
      (fun j hj => by rw [hs j (hne j (.inl hj))]; exact hp j (List.mem_cons_of_mem _ hj))
      (by rw [hs i (hne i (.inr rfl))]; exact hi)
    refine ⟨h1, h2, fun j => ?_⟩
    rw [h3 j]
    by_cases hj : j = p
    · subst hj
      rw [if_neg (fun h => hne j h rfl), if_pos (.inl List.mem_cons_self)]
      simp [Site.setSeat]
    · rw [hs j hj]
      simp [hj]

theorem Site.withModel_fail (w : Site σ) (hw : w.Ok) (x : Model × Res Bool × Option ModEvent) (pre post : List Nat) (i : Nat)
    (hl : w.listeners = pre ++ i :: post) (hx : x.2.1 ≠ .panic) (hpre : ∀ j ∈ pre, ((w.view j).withModel x).res ≠ .panic)
    (hi : ((w.view i).withModel x).res = .panic) :
    (w.withModel x).2 = .panic ∧ (w.withModel x).1.model = x.1 ∧
    (∀ j, j ∈ pre ∨ j = i → w.Follows (w.withModel x).1 j ((w.view j).withModel x).e ((w.view j).withModel x).trace) ∧
    (∀ j, j ∉ pre → j ≠ i → (w.withModel x).1.seats j = w.seats j) := by
  obtain ⟨m, r, oev⟩ := x
  cases oev with
  | none =>
    have : ((w.view i).withModel (m, r, none)).res = r := by simp [Enforcer.withModel, Enforcer.onEvent]
    rw [this] at hi
    exact absurd hi hx
  | some ev =>
    have hen : ∀ j, j ∈ pre ∨ j = i → (w.seats j).sc.enabled = true := by
      intro j hj
      rw [← hw.iff j, hl, List.mem_append, List.mem_cons]
      exact hj.elim .inl (fun h => .inr (.inl h))
    have hres : ∀ j, j ∈ pre ∨ j = i → ((w.view j).withModel (m, r, some ev)).res =
        if ((w.seats j).sc.addOp (w.seats j).adapter (w.seats j).st ev.op).2.res = .ok () then r else .panic := by
      intro j hj
      simp only [Site.view, Enforcer.withModel, Enforcer.onEvent, hen j hj, Bool.and_self, if_true]
    have h1 : ∀ j ∈ pre, ((w.seats j).sc.addOp (w.seats j).adapter (w.seats j).st ev.op).2.res = .ok () := by
      intro j hj
      have := hpre j hj
      rw [hres j (.inl hj)] at this
      by_cases hc : ((w.seats j).sc.addOp (w.seats j).adapter (w.seats j).st ev.op).2.res = .ok ()
      · exact hc
      · rw [if_neg hc] at this; exact absurd rfl this
    have h2 : ((w.seats i).sc.addOp (w.seats i).adapter (w.seats i).st ev.op).2.res ≠ .ok () := by
      intro hc
      rw [hres i (.inr rfl), if_pos hc] at hi
      exact hx hi
    obtain ⟨k1, k2, k3⟩ := Site.emit_fail ev pre i post { w with model := m } (hl ▸ hw.nodup) h1 h2
    have e0 : w.withModel (m, r, some ev) = ((({ w with model := m } : Site σ).emit ev w.listeners).1,
        if (({ w with model := m } : Site σ).emit ev w.listeners).2 = .ok () then r else .panic) := rfl
    have e1 : w.withModel (m, r, some ev) = ((({ w with model := m } : Site σ).emit ev (pre ++ i :: post)).1, .panic) := by
      rw [← hl] at k1 ⊢
      rw [e0, if_neg]
      rw [k1]; exact nofun
    rw [e1]
    refine ⟨rfl, k2, fun j hj => ?_, fun j h1 h2 => ?_⟩
    · have h5 := k3 j
      rw [if_pos hj] at h5
      dsimp only at h5
      have he := hen j hj
      refine ⟨?_, ?_⟩
      · simp only [Site.view, h5, k2, Seat.tell, Enforcer.withModel, Enforcer.onEvent, he, Bool.and_self, if_true]
      · simp only [Site.view, h5, Seat.tell, Enforcer.withModel, Enforcer.onEvent, he, Bool.and_self, if_true]
    · have h5 := k3 j
      rw [if_neg (fun h => h.elim h1 h2)] at h5
      exact h5

/-! ## The registrations stay in order, also when calls panic -/

theorem Site.setSeat_ok {w : Site σ} (hw : w.Ok) (i : Nat) (s : Seat σ) (h : s.sc.enabled = (w.seats i).sc.enabled) : (w.setSeat i s).Ok := by
  refine hw.keep rfl fun j => ?_
  simp only [Site.setSeat]
  split
  · rename_i e; subst e; exact h
  · rfl

theorem Site.emit_keeps (ev : ModEvent) : ∀ (L : List Nat) (w : Site σ), w.Ok → (w.emit ev L).1.Ok
  | [], _, hw => hw
  | i :: is, w, hw => by
    have h1 : (w.setSeat i ((w.seats i).tell ev)).Ok := Site.setSeat_ok hw i _ (SC.addOp_enabled _ _ _ _)
    rw [Site.emit_cons]
    split
    · exact Site.emit_keeps ev is _ h1
    · exact h1

theorem Site.withModel_keeps {w : Site σ} (hw : w.Ok) (x : Model × Res Bool × Option ModEvent) : (w.withModel x).1.Ok := by
  have h1 : ({ w with model := x.1 } : Site σ).Ok := ⟨hw.nodup, hw.iff⟩
  unfold Site.withModel
  split
  · exact h1
  · exact Site.emit_keeps _ _ _ h1

theorem Site.each_keeps (call : Site σ → Rule → Site σ × Res Bool) (hc : ∀ w r, w.Ok → (call w r).1.Ok) :
    ∀ (rs : List Rule) (w : Site σ), w.Ok → (Site.each call w rs).1.Ok
  | [], _, hw => hw
  | r :: rs, w, hw => by
    simp only [Site.each]
    split
    · exact Site.each_keeps call hc rs _ (hc w r hw)
    · exact hc w r hw
    · exact hc w r hw

theorem Site.many_keeps (call : Site σ → Rule → Site σ × Res Bool) (hc : ∀ w r, w.Ok → (call w r).1.Ok) (i : Nat) (rs : List Rule)
    {w : Site σ} (hw : w.Ok) : (Site.many call i w rs).1.Ok := by
  unfold Site.many
  split
  · exact Site.flush_ok (Site.setAutosave_ok (Site.each_keeps call hc rs _ (Site.setAutosave_ok hw i false)) i true) i
  · exact Site.each_keeps call hc rs w hw

theorem Site.runLoad_keeps (i : Nat) : ∀ (p : LoadProg σ) (w : Site σ), w.Ok → (w.runLoad i p).1.Ok := by
  intro p
  induction p with
  | done s r => intro w hw; exact Site.setSeat_ok hw i _ rfl
  | add rule next ih =>
    intro w hw
    have h1 : (w.addRule rule).1.Ok := Site.withModel_keeps hw _
    simp only [Site.runLoad]
    split
    · exact ih _ _ h1
    · exact ih _ _ h1
    · exact h1

theorem Site.step_keeps {w : Site σ} (hw : w.Ok) : ∀ op : SiteOp σ, (w.step op).1.Ok
  | .call _ (.add _) => Site.withModel_keeps hw _
  | .call _ (.remove _) => Site.withModel_keeps hw _
  | .call i (.addMany rs) => Site.many_keeps _ (fun _ _ h => Site.withModel_keeps h _) i rs hw
  | .call i (.removeMany rs) => Site.many_keeps _ (fun _ _ h => Site.withModel_keeps h _) i rs hw
  | .call i .flush => Site.flush_ok hw i
  | .call i (.autosave b) => Site.setAutosave_ok hw i b
  | .call i (.wait _) => Site.setSeat_ok hw i _ rfl
  | .load i => by
    simp only [Site.step, Site.loadPolicy]
    split
    · exact Site.enable_ok (Site.runLoad_keeps i _ _ (Site.disable_ok hw i)) i
    · exact Site.runLoad_keeps i _ _ hw
  | .save i => Site.setSeat_ok hw i _ rfl
  | .storage i true => Site.enable_ok hw i
  | .storage i false => Site.disable_ok hw i
  | .adapter i A s => Site.setAdapter_ok hw i A s

end Fastac
