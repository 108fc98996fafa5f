import Verif.Lemmas.Enforcers
import Verif.Props.Saving

/-!
# Several enforcers on one model (C112)
-/

namespace Fastac

variable {σ : Type} {I : σ → Prop} {R : Rule → Prop} {view : σ → Rule → Bool}

/-- **C112, every enforcer as if alone, partial.** For every number of enforcers on a model, whatever they did before, and for a
call of one of them that does not panic: the enforcer the call is made on is then as if it were alone with the model, its adapter has had the
same calls, and the answer is the same; every other one is as if it had been asked to add and remove the rules itself, one by one.
Missing: calls that panic, see `c112_failing` and `c112_fails`. -/
theorem c112_alone_partial (w : Site σ) (hw : w.Ok) (op : SiteOp σ) (h : (w.step op).2 ≠ .panic) :
    (w.step op).1.Ok ∧ (w.step op).2 = op.answer (w.view op.seat) ∧
    ((w.step op).1.view op.seat = (op.alone (w.view op.seat)).1 ∧
      ((w.step op).1.seats op.seat).got = (w.seats op.seat).got ++ (op.alone (w.view op.seat)).2) ∧
    ∀ j, j ≠ op.seat → (w.step op).1.view j = ((w.view j).run (w.overheard op)).1 ∧
      ((w.step op).1.seats j).got = (w.seats j).got ++ ((w.view j).run (w.overheard op)).2 := by
  have one : ∀ (f : Model → Rule → Model × Res Bool × Option ModEvent) r, (w.withModel (f w.model r)).2.unit ≠ .panic →
      (w.withModel (f w.model r)).2 ≠ .panic := by
    intro f r h e
    rw [e] at h
    exact h rfl
  have quiet : ∀ j (w' : Site σ), w'.view j = w.view j → (w'.seats j).got = (w.seats j).got →
      w'.view j = ((w.view j).run []).1 ∧ (w'.seats j).got = (w.seats j).got ++ ((w.view j).run []).2 := by
    intro j w' h1 h2
    exact ⟨h1, by rw [h2]; exact (List.append_nil _).symm⟩
  match op, h with
  | .call i (.add r), h =>
    obtain ⟨k1, k2⟩ := w.withModel_ok hw (w.model.addRule r) (one Model.addRule r h)
    refine ⟨k1, ?_, (k2 i).1, fun j _ => ?_⟩
    · exact congrArg Res.unit (k2 i).2.symm
    · obtain ⟨a, b⟩ := (k2 j).1
      exact ⟨a, b.trans (by simp [Site.overheard, Enforcer.run, Enforcer.step, Enforcer.addRule, Site.view])⟩
  | .call i (.remove r), h =>
    obtain ⟨k1, k2⟩ := w.withModel_ok hw (w.model.removeRule r) (one Model.removeRule r h)
    refine ⟨k1, ?_, (k2 i).1, fun j _ => ?_⟩
    · exact congrArg Res.unit (k2 i).2.symm
    · obtain ⟨a, b⟩ := (k2 j).1
      exact ⟨a, b.trans (by simp [Site.overheard, Enforcer.run, Enforcer.step, Enforcer.removeRule, Site.view])⟩
  | .call i (.addMany rs), h =>
    obtain ⟨k1, k2, k3, k4⟩ := Site.many_ok Model.addRule i rs w hw h
    refine ⟨k1, k3.symm, k2, fun j (hj : j ≠ i) => ?_⟩
    obtain ⟨⟨a, b⟩, c⟩ := k4 j hj
    have := Enforcer.each_run Model.addRule .add (fun _ _ => rfl) rs (w.view j) c
    exact ⟨a.trans (congrArg Prod.fst this).symm, b.trans (congrArg (_ ++ Prod.snd ·) this).symm⟩
  | .call i (.removeMany rs), h =>
    obtain ⟨k1, k2, k3, k4⟩ := Site.many_ok Model.removeRule i rs w hw h
    refine ⟨k1, k3.symm, k2, fun j (hj : j ≠ i) => ?_⟩
    obtain ⟨⟨a, b⟩, c⟩ := k4 j hj
    have := Enforcer.each_run Model.removeRule .remove (fun _ _ => rfl) rs (w.view j) c
    exact ⟨a.trans (congrArg Prod.fst this).symm, b.trans (congrArg (_ ++ Prod.snd ·) this).symm⟩
  | .call i .flush, _ =>
    refine ⟨Site.flush_ok hw i, (w.flush_view i i).2.2, ?_, fun j (hj : j ≠ i) => ?_⟩
    · obtain ⟨a, b, _⟩ := w.flush_view i i
      rw [if_pos rfl] at a b
      exact ⟨a, b⟩
    · obtain ⟨a, b, _⟩ := w.flush_view i j
      rw [if_neg hj] at a b
      exact ⟨a, b⟩
  | .call i (.autosave b), _ =>
    refine ⟨Site.setAutosave_ok hw i b, rfl, ?_, fun j (hj : j ≠ i) => ?_⟩
    · obtain ⟨a, c⟩ := w.setAutosave_view i i b
      rw [if_pos rfl] at a
      exact ⟨a, c.trans (List.append_nil _).symm⟩
    · obtain ⟨a, c⟩ := w.setAutosave_view i j b
      rw [if_neg hj] at a
      exact quiet j _ a c
  | .call i (.wait n), _ =>
    refine ⟨hw.keep rfl fun j => ?_, rfl, ?_, fun j (hj : j ≠ i) => ?_⟩
    · simp only [Site.step, Site.setSeat]
      split
      · rename_i e; subst e; rfl
      · rfl
    · exact ⟨by simp [Site.step, Site.setSeat, Site.view, SiteOp.alone, SiteOp.seat, Enforcer.step, Enforcer.addWait],
        by simp [Site.step, Site.setSeat, SiteOp.alone, SiteOp.seat, Enforcer.step]⟩
    · have hj' : j ≠ i := hj
      exact quiet j _ (by simp [Site.step, Site.setSeat, Site.view, hj']) (by simp [Site.step, Site.setSeat, hj'])
  | .load i, h =>
    obtain ⟨k1, k2, k3, k4⟩ := Site.loadPolicy_ok i w hw h
    exact ⟨k1, k3.symm, k2, k4⟩
  | .save i, _ =>
    refine ⟨hw.keep rfl fun j => ?_, rfl, ?_, fun j (hj : j ≠ i) => ?_⟩
    · simp only [Site.step, Site.savePolicy, Site.setSeat]
      split
      · rename_i e; subst e; rfl
      · rfl
    · exact ⟨by simp [Site.step, Site.savePolicy, Site.setSeat, Site.view, SiteOp.alone, SiteOp.seat, Enforcer.savePolicy],
        by simp [Site.step, Site.savePolicy, Site.setSeat, SiteOp.alone, SiteOp.seat, Enforcer.savePolicy]⟩
    · have hj' : j ≠ i := hj
      exact quiet j _ (by simp [Site.step, Site.savePolicy, Site.setSeat, Site.view, hj']) (by simp [Site.step, Site.savePolicy, Site.setSeat, hj'])
  | .storage i true, _ =>
    refine ⟨Site.enable_ok hw i, rfl, ?_, fun j (hj : j ≠ i) => ?_⟩
    · obtain ⟨a, c⟩ := w.enable_view i i
      rw [if_pos rfl] at a
      exact ⟨a, c.trans (List.append_nil _).symm⟩
    · obtain ⟨a, c⟩ := w.enable_view i j
      rw [if_neg hj] at a
      exact quiet j _ a c
  | .storage i false, _ =>
    refine ⟨Site.disable_ok hw i, rfl, ?_, fun j (hj : j ≠ i) => ?_⟩
    · obtain ⟨a, c⟩ := w.disable_view i i
      rw [if_pos rfl] at a
      exact ⟨a, c.trans (List.append_nil _).symm⟩
    · obtain ⟨a, c⟩ := w.disable_view i j
      rw [if_neg hj] at a
      exact quiet j _ a c
  | .adapter i A s, _ =>
    refine ⟨Site.setAdapter_ok hw i A s, rfl, ?_, fun j (hj : j ≠ i) => ?_⟩
    · exact ⟨by simp [Site.step, Site.setAdapter, Site.setSeat, Site.view, SiteOp.alone, SiteOp.seat, Enforcer.setAdapter, Site.disable],
        by simp [Site.step, Site.setAdapter, Site.setSeat, SiteOp.alone, SiteOp.seat]⟩
    · have hj' : j ≠ i := hj
      exact quiet j _ (by simp [Site.step, Site.setAdapter, Site.setSeat, Site.view, hj', Site.disable])
        (by simp [Site.step, Site.setAdapter, Site.setSeat, hj', Site.disable])

/-- **C112, the registrations.** Whatever the enforcers do, and whether calls panic or not: exactly the controllers that are switched on are
registered, each once. -/
theorem c112_registered (w : Site σ) (hw : w.Ok) : ∀ ops : List (SiteOp σ), (w.run ops).Ok
  | [] => hw
  | op :: ops => c112_registered _ (Site.step_keeps hw op) ops

/-- **C112, the failing call.** A rule is added (or removed), and the controller of enforcer `i` is the first, in the order of
registration, whose store fails.  Then the call panics; the model has changed nevertheless; the controllers registered before `i` have heard
of the change, and so has `i`; all others are as they were, and will not hear of it. -/
theorem c112_failing (w : Site σ) (hw : w.Ok) (r : Rule) (pre post : List Nat) (i : Nat) (hl : w.listeners = pre ++ i :: post) :
    ((w.model.addRule r).2.1 ≠ .panic → (∀ j ∈ pre, ((w.view j).addRule r).res ≠ .panic) → ((w.view i).addRule r).res = .panic →
      (w.addRule r).2 = .panic ∧ (w.addRule r).1.model = (w.model.addRule r).1 ∧
      (∀ j, j ∈ pre ∨ j = i → (w.addRule r).1.view j = ((w.view j).addRule r).e) ∧
      (∀ j, j ∉ pre → j ≠ i → (w.addRule r).1.seats j = w.seats j)) ∧
    ((w.model.removeRule r).2.1 ≠ .panic → (∀ j ∈ pre, ((w.view j).removeRule r).res ≠ .panic) →
      ((w.view i).removeRule r).res = .panic →
      (w.removeRule r).2 = .panic ∧ (w.removeRule r).1.model = (w.model.removeRule r).1 ∧
      (∀ j, j ∈ pre ∨ j = i → (w.removeRule r).1.view j = ((w.view j).removeRule r).e) ∧
      (∀ j, j ∉ pre → j ≠ i → (w.removeRule r).1.seats j = w.seats j)) := by
  refine ⟨fun h1 h2 h3 => ?_, fun h1 h2 h3 => ?_⟩
  · obtain ⟨a, b, c, d⟩ := w.withModel_fail hw (w.model.addRule r) pre post i hl h1 h2 h3
    exact ⟨a, b, fun j hj => (c j hj).1, d⟩
  · obtain ⟨a, b, c, d⟩ := w.withModel_fail hw (w.model.removeRule r) pre post i hl h1 h2 h3
    exact ⟨a, b, fun j hj => (c j hj).1, d⟩

theorem Enforcer.Story.runs {e e1 : Enforcer σ} (h : Enforcer.Story R view e e1) (H : List Enforcer.Op)
    (hr : ∀ op ∈ H, ∀ r ∈ op.rules, R r) (ht : ∀ c ∈ (e1.run H).2, c.2 = .ok ()) : Enforcer.Story R view e (e1.run H).1 := by
  induction H generalizing e1 with
  | nil => exact h
  | cons op H ih =>
    have e0 : (e1.run (op :: H)) = (((e1.step op).1.run H).1, (e1.step op).2 ++ ((e1.step op).1.run H).2) := rfl
    rw [e0] at ht ⊢
    exact ih (h.call op (hr op List.mem_cons_self) (fun c hc => ht c (List.mem_append_left _ hc)))
      (fun o ho => hr o (List.mem_cons_of_mem _ ho)) (fun c hc => ht c (List.mem_append_right _ hc))

theorem Model.tried_sub (f : Model → Rule → Model × Res Bool × Option ModEvent) : ∀ (rs : List Rule) (m : Model),
    ∀ r ∈ Model.tried f m rs, r ∈ rs
  | [], _, _, h => by cases h
  | x :: rs, m, r, h => by
    simp only [Model.tried, List.mem_cons] at h ⊢
    rcases h with h | h
    · exact .inl h
    · split at h
      · exact .inr (Model.tried_sub f rs _ r h)
      · cases h

theorem SiteStory.ok {w w1 : Site σ} (hw : w.Ok) (h : SiteStory R view w w1) : w1.Ok := by
  induction h with
  | start => exact hw
  | call h i op _ hp ih => exact (c112_alone_partial _ ih (.call i op) hp).1
  | save h i hr ih => exact (c112_alone_partial _ ih (.save i) (by show (Site.savePolicy _ i).2 ≠ _; rw [hr]; exact nofun)).1
  | load h i _ _ hp ih => exact (c112_alone_partial _ ih (.load i) hp).1

theorem Site.got_back {w : Site σ} (hw : w.Ok) (op : SiteOp σ) (hp : (w.step op).2 ≠ .panic)
    (j : Nat) (ht : ∀ c ∈ ((w.step op).1.seats j).got, c.2 = .ok ()) : ∀ c ∈ (w.seats j).got, c.2 = .ok () := by
  intro c hc
  obtain ⟨_, _, ⟨_, c2⟩, d⟩ := c112_alone_partial w hw op hp
  apply ht c
  by_cases hj : j = op.seat
  · subst hj; rw [c2]; exact List.mem_append_left _ hc
  · rw [(d j hj).2]; exact List.mem_append_left _ hc

theorem SiteStory.each {w w1 : Site σ} (hw : w.Ok) (h : SiteStory R view w w1)
    (j : Nat) (ht : ∀ c ∈ (w1.seats j).got, c.2 = .ok ()) : Enforcer.Story R view (w.view j) (w1.view j) := by
  have sub : ∀ {t t' : List (Call × Res Unit)}, (∀ c ∈ t ++ t', c.2 = Res.ok ()) → ∀ c ∈ t', c.2 = Res.ok () :=
    fun h c hc => h c (List.mem_append_right _ hc)
  induction h with
  | start => exact .start
  | @call w1 h i op hr hp ih =>
    have k1 := h.ok hw
    have k2 := ih (Site.got_back k1 _ hp j ht)
    obtain ⟨_, _, ⟨c1, c2⟩, d⟩ := c112_alone_partial w1 k1 (.call i op) hp
    by_cases hj : j = i
    · subst hj
      have := ht
      rw [show (SiteOp.call j op : SiteOp σ).seat = j from rfl] at c1 c2
      rw [c2] at this
      rw [c1]
      exact k2.call op hr (sub this)
    · obtain ⟨d1, d2⟩ := d j hj
      have := ht
      rw [d2] at this
      rw [d1]
      refine k2.runs _ ?_ (sub this)
      intro o ho r hro
      match op, ho with
      | .add x, ho => cases List.mem_singleton.mp ho; exact hr r hro
      | .remove x, ho => cases List.mem_singleton.mp ho; exact hr r hro
      | .addMany rs, ho =>
        obtain ⟨x, hx, rfl⟩ := List.mem_map.mp ho
        cases List.mem_singleton.mp hro
        exact hr _ (Model.tried_sub _ rs _ _ hx)
      | .removeMany rs, ho =>
        obtain ⟨x, hx, rfl⟩ := List.mem_map.mp ho
        cases List.mem_singleton.mp hro
        exact hr _ (Model.tried_sub _ rs _ _ hx)
  | @save w1 h i hr ih =>
    have k1 := h.ok hw
    have hp : (w1.step (.save i)).2 ≠ .panic := by show (Site.savePolicy _ i).2 ≠ _; rw [hr]; exact nofun
    have k2 := ih (Site.got_back k1 (.save i) hp j ht)
    obtain ⟨_, c0, ⟨c1, c2⟩, d⟩ := c112_alone_partial w1 k1 (.save i) hp
    by_cases hj : j = i
    · subst hj
      exact (show (w1.savePolicy j).1.view j = _ from c1) ▸ k2.save (c0.symm.trans hr)
    · exact (show (w1.savePolicy i).1.view j = _ from (d j hj).1) ▸ k2
  | @load w1 h i hr hm hp ih =>
    have k1 := h.ok hw
    have k2 := ih (Site.got_back k1 (.load i) hp j ht)
    obtain ⟨_, c0, ⟨c1, c2⟩, d⟩ := c112_alone_partial w1 k1 (.load i) hp
    by_cases hj : j = i
    · subst hj
      exact (show (w1.loadPolicy j).1.view j = _ from c1) ▸ k2.load hm
    · obtain ⟨d1, d2⟩ := d j hj
      have := ht
      rw [show (w1.loadPolicy i).1 = (w1.step (.load i)).1 from rfl] at this
      rw [d2] at this
      refine (show (w1.loadPolicy i).1.view j = _ from d1) ▸ k2.runs _ ?_ (sub this)
      intro o ho r hro
      obtain ⟨x, hx, rfl⟩ := List.mem_map.mp ho
      cases List.mem_singleton.mp hro
      exact hr _ hx

open Enforcer in
/-- **C112, every store mirrors the model, partial.** Several enforcers on one model; one of them is switched on and has a store that agrees
with the model.  After any history of calls of any of them (rule changes, flushes, autosave switches and waits, saves that succeed, loads
when the model has every rule of the loading enforcer's store), in which no call panics, a `Flush` of an
enforcer that returns nil makes its store and the model agree, if this store has refused no call; the others may have.  Missing: failing stores, see `c112_fails`. -/
theorem c112_mirror_partial {build : Str → Res Stage} {w w1 : Site σ} (hw : w.Ok) (H : SiteStory R view w w1)
    (j : Nat) (ht : ∀ c ∈ (w1.seats j).got, c.2 = .ok ()) (h : Ready build I R view (w.view j))
    (hS : (w.seats j).adapter.Saves I R view) (hL : (w.seats j).adapter.Lists I R view) (hF : ∀ x, R x → w.model.Fits x)
    (hr : (w1.flush j).2 = .ok ()) : ((w1.flush j).1.view j).Agree view := by
  obtain ⟨a, _, c⟩ := w1.flush_view j j
  rw [if_pos rfl] at a
  rw [a]
  exact c89_mirror_partial h hS hL hF (H.each hw j ht) (c.symm.trans hr)

/-! ## Concrete cases -/

namespace EnforcersExample
open ModelExample StorageExample SavingExample

/-- Two enforcers on a model, with a store each; which calls of the first store fail is up to `failing`.  The other numbers are not in use. -/
def site (failing : Nat → Bool) (rules0 rules1 : List Rule) : Site Store :=
  ⟨defs build, fun i =>
    if i = 0 then ⟨adapter .simple failing, ⟨rules0, 0⟩, SC.new false, []⟩
    else if i = 1 then ⟨adapter .batch (fun _ => false), ⟨rules1, 0⟩, SC.new false, []⟩
    else ⟨Enforcer.noopAdapter, ⟨[], 0⟩, ⟨false, false, [], 0⟩, []⟩, [0, 1]⟩

theorem site_ok (failing : Nat → Bool) (a b : List Rule) : (site failing a b).Ok where
  nodup := by show [0, 1].Nodup; decide
  iff := by
    intro i
    show i ∈ [0, 1] ↔ _
    by_cases h0 : i = 0
    · subst h0; simp [site, SC.new]
    · by_cases h1 : i = 1
      · subst h1; simp [site, SC.new]
      · simp [site, h0, h1]

/-- Nothing fails: the first enforcer saves at once, the second collects; the second is asked to add two rules, the first to remove one. -/
def ops : List (SiteOp Store) :=
  [.call 0 (.autosave true), .call 1 (.addMany [pRule, bob]), .call 0 (.remove pRule), .save 1]

example : let w := (site (fun _ => false) [] []).run ops
    w.model.rules = [bob] ∧ (w.seats 0).st.rules = [bob] ∧
    (w.seats 0).got = [(.one .add pRule, .ok ()), (.one .add bob, .ok ()), (.one .remove pRule, .ok ())] ∧
    (w.seats 1).got = [] ∧ (w.seats 1).sc.q = [⟨.add, pRule⟩, ⟨.add, bob⟩, ⟨.remove, pRule⟩] ∧ (w.seats 1).st.rules = [bob] ∧
    (w.flush 1).2 = .ok () ∧ ((w.flush 1).1.seats 1).st.rules = [bob] ∧
    ((w.flush 1).1.seats 1).got = [(.batch .add [pRule, bob], .ok ()), (.batch .remove [pRule], .ok ())] := by
  decide +kernel

/-- The second enforcer loads its store: the model has the rules then, and the first one is told; the controller of the second is registered
behind that of the first, as before.  When the first one loads, the order changes. -/
example : let w := site (fun _ => false) [bob] [pRule]
    (w.loadPolicy 1).2 = .ok () ∧ (w.loadPolicy 1).1.model.rules = [pRule] ∧
    ((w.loadPolicy 1).1.seats 0).sc.q = [⟨.add, pRule⟩] ∧ ((w.loadPolicy 1).1.seats 1).sc.q = [] ∧
    (w.loadPolicy 1).1.listeners = [0, 1] ∧ (w.loadPolicy 0).1.listeners = [1, 0] ∧
    ((w.loadPolicy 0).1.seats 1).sc.q = [⟨.add, bob⟩] ∧ (w.overheard (.load 0)).map Enforcer.Op.rules = [[bob]] := by
  decide +kernel

/-- Storage switched off and on, another adapter, an enforcer made later, a rule of an unknown policy in the middle. -/
example : let w := site (fun _ => false) [] []
    (w.run [.storage 0 false, .call 1 (.add bob)]).listeners = [1] ∧
    ((w.run [.storage 0 false, .call 1 (.add bob), .storage 0 true, .call 1 (.add pRule)]).seats 0).sc.q = [⟨.add, pRule⟩] ∧
    (w.run [.storage 0 false, .storage 0 true, .storage 0 true]).listeners = [1, 0] ∧
    (w.run [.adapter 0 (adapter .batch (fun _ => false)) ⟨[], 0⟩, .adapter 2 (adapter .batch (fun _ => false)) ⟨[], 0⟩]).listeners = [1, 0, 2] ∧
    (w.step (.call 0 (.addMany [bob, [s% "q"], pRule]))).2 = .err ∧
    (w.overheard (.call 0 (.addMany [bob, [s% "q"], pRule]))).map Enforcer.Op.rules = [[bob], [[s% "q"]]] ∧
    ((w.step (.call 0 (.addMany [bob, [s% "q"], pRule]))).1.seats 1).sc.q = [⟨.add, bob⟩] := by
  decide +kernel

/-- An adapter whose load goes on after a rule that the model refuses. -/
def patient : Adapter Store := { adapter .batch (fun _ => false) with
  load := fun s => .add [s% "q"] (fun b => if b.isSome then .done s .panic else .add pRule (fun _ => .done s (.ok ()))) }

/-- Both save at once: the one that is asked writes one batch, the other one rule by rule.  Loading while switched off, with a rule in
the store that the model refuses, and with a patient adapter; another adapter while changes are queued; a wait. -/
example : let w := (site (fun _ => false) [] []).run [.call 0 (.autosave true), .call 1 (.autosave true), .call 1 (.addMany [pRule, bob])]
    (w.seats 0).got = [(.one .add pRule, .ok ()), (.one .add bob, .ok ())] ∧ (w.seats 1).got = [(.batch .add [pRule, bob], .ok ())] ∧
    (w.seats 0).sc.autosave = true ∧ (w.seats 1).sc.autosave = true := by
  decide +kernel

example : let w := site (fun _ => false) [[s% "q"], bob] [pRule]
    (w.run [.storage 1 false, .load 1]).listeners = [0] ∧ ((w.run [.storage 1 false, .load 1]).seats 1).sc.enabled = false ∧
    (w.loadPolicy 0).2 = .err ∧ (w.loadPolicy 0).1.listeners = [1, 0] ∧ (w.loadPolicy 0).1.model.rules = [] ∧
    (w.run [.adapter 2 patient ⟨[], 0⟩, .load 2]).model.rules = [pRule] ∧
    ((w.run [.call 1 (.add bob), .adapter 0 patient ⟨[], 0⟩]).seats 0).sc.q = [] ∧
    ((w.run [.call 1 (.wait 2)]).seats 1).sc.wait = 2 ∧ ((w.run [.call 1 (.wait 2)]).seats 0).sc.wait = 0 := by
  decide +kernel

/-- The end of the following history. -/
def late : Site Store := (site (fun _ => false) [] []).run
  [.call 0 (.autosave true), .call 1 (.addMany [pRule, bob]), .call 0 (.remove pRule), .save 1, .load 0, .call 1 (.add pRule)]

/-- A history as in `c112_mirror_partial`, with both stores of use, and what the theorem gives for each. -/
example : ∃ w1, SiteStory Good StorageExample.view (site (fun _ => false) [] []) w1 ∧ w1.model.rules = [bob, pRule] ∧
    (w1.seats 0).sc.q = [] ∧ (w1.seats 1).sc.q.length = 4 ∧
    ((w1.flush 0).1.view 0).Agree StorageExample.view ∧ ((w1.flush 1).1.view 1).Agree StorageExample.view := by
  have h1 := SiteStory.start (R := Good) (view := StorageExample.view) (w := site (fun _ => false) [] [])
  have h2 := h1.call 0 (.autosave true) (fun _ h => by cases h) (by decide +kernel)
  have h3 := h2.call 1 (.addMany [pRule, bob]) good_many (by decide +kernel)
  have h4 := h3.call 0 (.remove pRule) (fun r h => good_many r (List.mem_of_mem_take (i := 1) h)) (by decide +kernel)
  have h5 := h4.save 1 (by decide +kernel)
  have h6 := h5.load 0 (by
      intro r hr
      have : r ∈ [bob] := by revert hr; exact id
      rw [List.mem_singleton.mp this]
      exact ⟨trivial, .inr rfl⟩) (by
    intro x hx
    have hx' : x ∈ [bob] := of_decide_eq_true hx
    rw [List.mem_singleton.mp hx']
    decide +kernel) (by decide +kernel)
  have h7 : SiteStory Good StorageExample.view (site (fun _ => false) [] []) late := h6.call 1 (.add pRule) (fun r h => good_many r (List.mem_of_mem_take (i := 1) h)) (by decide +kernel)
  exact ⟨late, h7, by decide +kernel, by decide +kernel, by decide +kernel,
    c112_mirror_partial (site_ok _ _ _) h7 0 (by decide +kernel) (begin_ready .simple) ((saves .simple).only _) ((lists .simple).only _) (good_fits _)
      (by decide +kernel),
    c112_mirror_partial (site_ok _ _ _) h7 1 (by decide +kernel) (begin_ready .batch) ((saves .batch).only _) ((lists .batch).only _) (good_fits _)
      (by decide +kernel)⟩

/-- **C112 is false of the code** when a store fails.  The first enforcer saves at once; its store fails once, when a rule is added
through it.  The second enforcer, whose store never fails, is not told of the rule: a later `Flush` of each returns nil, and after that both
stores are without the rule, which the model has. -/
theorem c112_fails :
    let w := ((site (fun n => n == 0) [] []).step (.call 0 (.autosave true))).1
    (site (fun n => n == 0) [] []).Ok ∧
    (w.step (.call 0 (.add bob))).2 = .panic ∧ (w.step (.call 0 (.add bob))).1.model.rules = [bob] ∧
    let w1 := ((w.step (.call 0 (.add bob))).1.flush 0).1
    ((w.step (.call 0 (.add bob))).1.flush 0).2 = .ok () ∧ (w1.flush 1).2 = .ok () ∧
    ((w1.flush 1).1.seats 0).st.rules = [] ∧ ((w1.flush 1).1.seats 1).st.rules = [] ∧ ((w1.flush 1).1.seats 1).got = [] ∧
    (w1.flush 1).1.model.rules = [bob] :=
  ⟨site_ok _ _ _, by decide +kernel⟩

/-- It depends on the order of registration: after a `LoadPolicy` of the first enforcer the second hears of the rule. -/
theorem c112_order_matters :
    let w := ((site (fun n => n == 0) [] []).run [.load 0, .call 0 (.autosave true)])
    (w.step (.call 0 (.add bob))).2 = .panic ∧ ((w.step (.call 0 (.add bob))).1.seats 1).sc.q = [⟨.add, bob⟩] := by
  decide +kernel

/-- The premises of `c112_failing` in this case. -/
example : let w := ((site (fun n => n == 0) [] []).step (.call 0 (.autosave true))).1
    w.listeners = [] ++ 0 :: [1] ∧ (w.model.addRule bob).2.1 ≠ .panic ∧ ((w.view 0).addRule bob).res = .panic := by
  decide +kernel

end EnforcersExample

end Fastac
