import Verif.Lemmas.Failing
import Verif.Props.Saving

/-!
# C91: which rules a failing storage call can put out of step, and what puts them back
-/

namespace Fastac

open Model

variable {σ : Type} {I : σ → Prop} {R : Rule → Prop} {view : σ → Rule → Bool}

namespace Enforcer

theorem Ready.tracksAt {build : Str → Res Stage} {e : Enforcer σ} (h : Ready build I R view e)
    (hM : ∀ y ∈ e.model.rules, R y) (x : Rule) : TracksAt build I R view x e.model.gDefs e.adapter e :=
  ⟨h.made, ⟨h.hooked, h.enabled⟩, rfl, h.state, by rw [h.queue]; simp, hM, by rw [h.queue]; exact (h.agree x).symm, rfl⟩

theorem Ready.settles {build : Str → Res Stage} {e : Enforcer σ} (h : Ready build I R view e)
    (hM : ∀ y ∈ e.model.rules, R y) : Settles build I R e.model.gDefs e.adapter e :=
  ⟨h.made, ⟨h.hooked, h.enabled⟩, rfl, h.state, by rw [h.queue]; simp, hM,
    (by rw [h.queue]; rintro x ⟨o, ho, -⟩; cases ho), rfl⟩

end Enforcer

open Enforcer in
/-- **C91**, the rules out of reach: start with store and model in agreement and nothing queued, and take a rule `x`.
Storage calls may fail in any way, if no change of `x` is queued when the enforcer call begins and the enforcer call is
not about `x`; saves succeed; loads happen when the model has `x` if the store does.  Then store and model agree about
`x` whenever no change of `x` is queued, and after every `Flush` that succeeds. -/
theorem c91_apart {build : Str → Res Stage} {e e1 : Enforcer σ} (h : Ready build I R view e)
    (hA : e.adapter.Frames I R view) (hS : e.adapter.Saves I R view) (hL : e.adapter.Lists I R view)
    (hF : ∀ y, R y → e.model.Fits y) (hM : ∀ y ∈ e.model.rules, R y) {x : Rule} (H : StoryOf R view x e e1) :
    ((∀ o ∈ e1.sc.q, o.rule ≠ x) → (view e1.st x = true ↔ x ∈ e1.model.rules)) ∧
    (e1.flush.res = .ok () → (view e1.flush.e.st x = true ↔ x ∈ e1.flush.e.model.rules)) := by
  have t := H.tracks h.binary h.keeps hA hS hL hF (h.tracksAt hM x)
  refine ⟨fun hq => ?_, fun hr => ?_⟩
  · have := t.same
    rw [held_apart _ hq] at this
    exact this.symm
  · obtain ⟨_, h2, h3, _⟩ := c35_flush e1.adapter e1.sc e1.st hr
    have t1 := t.flush h.keeps h2
    have := t1.same
    rw [show e1.flush.e.sc.q = [] from h3] at this
    exact this.symm

open Enforcer in
/-- **C91**, the rules that change again: whatever storage calls have failed in the history, if a change of `x` is queued
and a `Flush` succeeds, then store and model agree about `x`. -/
theorem c91_touched {build : Str → Res Stage} {e : Enforcer σ} (h : Ready build I R view e)
    (hA : e.adapter.Frames I R view) (hF : ∀ y, R y → e.model.Fits y) (hM : ∀ y ∈ e.model.rules, R y)
    (H : List Enforcer.Op) (hR : ∀ op ∈ H, ∀ r ∈ op.rules, R r) {x : Rule} (hx : ∃ o ∈ (e.run H).1.sc.q, o.rule = x)
    (hr : (e.run H).1.flush.res = .ok ()) :
    view (e.run H).1.flush.e.st x = true ↔ x ∈ (e.run H).1.flush.e.model.rules := by
  have t := Settles.run h.binary hF hA H (h.settles hM) hR
  obtain ⟨_, h2, h3, _⟩ := c35_flush (e.run H).1.adapter (e.run H).1.sc (e.run H).1.st hr
  have hK : (e.run H).1.adapter.Keeps I R view := by rw [t.adapter]; exact h.keeps
  obtain ⟨_, _, c⟩ := drain_held hK _ t.queue _ t.inv h2
  have c := c x
  rw [show (SC.drain (e.run H).1.adapter (e.run H).1.sc.q (e.run H).1.st).q = [] from h3] at c
  show view (SC.drain (e.run H).1.adapter (e.run H).1.sc.q (e.run H).1.st).st x = true ↔ x ∈ (e.run H).1.model.rules
  rw [t.last x hx (view (e.run H).1.st x), ← c]
  exact Iff.rfl

open Enforcer in
/-- **C91**, saving: whatever storage calls have failed in the history, a `SavePolicy` that succeeds makes store and
model agree about every rule; and after any further history without failing storage calls a `Flush` that succeeds makes
them agree again, although operations from before the save may still have been queued. -/
theorem c91_heal {build : Str → Res Stage} {e : Enforcer σ} (h : Ready build I R view e)
    (hA : e.adapter.Frames I R view) (hS : e.adapter.Saves I R view) (hF : ∀ y, R y → e.model.Fits y)
    (hM : ∀ y ∈ e.model.rules, R y) (H H' : List Enforcer.Op) (hR : ∀ op ∈ H ++ H', ∀ r ∈ op.rules, R r)
    (hs : (e.run H).1.savePolicy.res = .ok ()) (ht : ∀ c ∈ ((e.run H).1.savePolicy.e.run H').2, c.2 = .ok ())
    (hr : ((e.run H).1.savePolicy.e.run H').1.flush.res = .ok ()) :
    (e.run H).1.savePolicy.e.Agree view ∧ ((e.run H).1.savePolicy.e.run H').1.flush.e.Agree view := by
  have t := Settles.run h.binary hF hA H (h.settles hM) (fun op ho => hR op (List.mem_append_left _ ho))
  have hrun : ∀ (x : Rule) (H' : List Enforcer.Op) (e1 : Enforcer σ),
      TracksAt build I R view x e.model.gDefs e.adapter e1 → (∀ op ∈ H', ∀ r ∈ op.rules, R r) → AllOk (e1.run H').2 →
      TracksAt build I R view x e.model.gDefs e.adapter (e1.run H').1 := by
    intro x H'
    induction H' with
    | nil => exact fun _ h _ _ => h
    | cons op H' ih =>
      intro e1 h1 hR ht
      have ht' := AllOk.append.mp ht
      exact ih _ (h1.step h.binary hF h.keeps op (hR op List.mem_cons_self) ht'.1)
        (fun o ho => hR o (List.mem_cons_of_mem _ ho)) ht'.2
  refine ⟨fun x => (t.save hS hs x).2, fun x => ?_⟩
  have t1 := hrun x H' _ (t.save hS hs x).1 (fun op ho => hR op (List.mem_append_right _ ho)) ht
  obtain ⟨_, h2, h3, _⟩ := c35_flush _ _ _ hr
  have := (t1.flush h.keeps h2).same
  rw [show ((e.run H).1.savePolicy.e.run H').1.flush.e.sc.q = [] from h3] at this
  exact this.symm

/-! ## Examples -/

namespace FailingExample

open ModelExample StorageExample SavingExample

/-- The adapter of the examples leaves other rules alone, whichever calls fail. -/
theorem frames (k : AdapterKind) (f : Nat → Bool) :
    (adapter k f).Frames (fun _ => True) (fun _ => True) StorageExample.view := by
  have hfold : ∀ (ops : List Operation) (x : Rule) (rs : List Rule), (∀ o ∈ ops, o.rule ≠ x) →
      (x ∈ ops.foldl applyOp rs ↔ x ∈ rs) := by
    intro ops x
    induction ops with
    | nil => exact fun _ _ => Iff.rfl
    | cons o ops ih =>
      intro rs h
      have h1 : o.rule ≠ x := h o List.mem_cons_self
      rw [List.foldl_cons, ih _ fun p hp => h p (List.mem_cons_of_mem _ hp)]
      obtain ⟨c, r⟩ := o
      have h1 : r ≠ x := h1
      cases c
      · simp only [applyOp]; split <;> simp [h1.symm]
      · simp [applyOp, h1.symm]
  intro s c s' res _ _ h
  refine ⟨trivial, fun x hx => ?_⟩
  simp only [adapter] at h
  split at h
  · simp only [Prod.mk.injEq] at h
    rw [← h.1]
    rfl
  · simp only [Prod.mk.injEq] at h
    rw [← h.1]
    simp only [StorageExample.view, hfold _ x _ hx]

/-- Frames, for the rules that fit the model of the examples. -/
theorem frames_only (k : AdapterKind) (f : Nat → Bool) :
    (adapter k f).Frames (Only (fun x => x = pRule ∨ x = bob) (fun _ => True) StorageExample.view) Good
      StorageExample.view := by
  intro s c s' res hs hR h
  refine ⟨⟨trivial, fun x hx => ?_⟩, ((frames k f) s c s' res trivial (fun _ _ => trivial) h).2⟩
  by_cases hm : ∃ o ∈ c.ops, o.rule = x
  · obtain ⟨o, ho, rfl⟩ := hm
    exact (hR o ho).2
  · rw [((frames k f) s c s' res trivial (fun _ _ => trivial) h).2 x fun o ho e => hm ⟨o, ho, e⟩] at hx
    exact hs.2 x hx

theorem saves_any (k : AdapterKind) (f : Nat → Bool) :
    (adapter k f).Saves (fun _ => True) (fun _ => True) StorageExample.view := by
  intro s rs s' _ _ h
  simp only [adapter, Prod.mk.injEq, and_true] at h
  subst h
  exact ⟨trivial, fun x => by simp [StorageExample.view]⟩

theorem lists_any (k : AdapterKind) (f : Nat → Bool) :
    (adapter k f).Lists (fun _ => True) (fun _ => True) StorageExample.view :=
  fun s _ => ⟨s.rules, rfl, fun _ _ => trivial, fun x => by simp [StorageExample.view]⟩

theorem start_ready (k : AdapterKind) (f : Nat → Bool) :
    (start k f).Ready build (Only (fun x => x = pRule ∨ x = bob) (fun _ => True) StorageExample.view) Good
      StorageExample.view :=
  let r := ready k f
  ⟨r.binary, r.made, rfl, rfl, r.keeps.only _, ⟨trivial, fun x hx => by simp [start, StorageExample.view] at hx⟩,
    rfl, r.agree⟩

theorem start_rules (k : AdapterKind) (f : Nat → Bool) : ∀ y ∈ (start k f).model.rules, Good y := by
  have : (start k f).model.rules = [] := by
    show (defs build).rules = []
    decide
  rw [this]
  intro y hy
  cases hy

/-- The second storage call fails. -/
def second (n : Nat) : Bool := n == 1

/-- The second storage call fails with `bob` in it: the model has `bob` and the store never gets it, while nothing is
queued.  `pRule`, stored before, is not affected. -/
theorem c91_lost : ∀ k ∈ [AdapterKind.simple, .batch],
    let e := ((start k second).run [.add pRule, .flush, .add bob, .flush]).1
    e.sc.q = [] ∧ e.flush.res = .ok () ∧ e.flush.e.st.rules = [pRule] ∧ e.flush.e.model.rules = [pRule, bob] := by decide

/-- `c91_apart` applies to `pRule` in that history, whose last call fails. -/
example : let e := ((start .batch second).run [.add pRule, .flush, .add bob, .flush]).1
    StorageExample.view e.st pRule = true ↔ pRule ∈ e.model.rules := by
  have h1 := Enforcer.StoryOf.start (R := Good) (view := StorageExample.view) (x := pRule) (e := start .batch second)
  have h2 := h1.call (.add pRule) (fun r h => good_many r (List.mem_of_mem_take (i := 1) h)) (by decide)
  have h3 := h2.call .flush (fun _ h => by cases h) (by decide)
  have h4 := h3.call (.add bob) (fun r h => good_many r (List.mem_of_mem_drop (i := 1) h)) (by decide)
  have h5 := h4.failing .flush (fun _ h => by cases h) (by decide) (by decide)
  exact (c91_apart (start_ready .batch second) (frames_only _ _) ((saves_any _ _).only _) ((lists_any _ _).only _)
    (good_fits _) (start_rules _ _) h5).1 (by decide)

/-- Its last call does fail. -/
example : ∃ c ∈ ((start .batch second).run [.add pRule, .flush, .add bob, .flush]).2, c.2 = .err := by decide

/-- The first storage call fails.  One at a time, the failed operation is gone and the others stay in order; in batches,
the operation behind the failed batch is gone too. -/
example : let f := fun n => n == 0
    let H : List Enforcer.Op := [.add bob, .remove bob, .add pRule]
    let e := fun k => ((start k f).run H).1
    (e .simple).flush.res = .err ∧ (e .simple).flush.e.sc.q = [⟨.remove, bob⟩, ⟨.add, pRule⟩] ∧
    (e .simple).flush.e.flush.e.st.rules = [pRule] ∧
    (e .batch).flush.res = .err ∧ (e .batch).flush.e.sc.q = [⟨.add, pRule⟩] ∧
    (e .batch).flush.e.flush.e.st.rules = [pRule] := by decide

theorem good_ops (H : List Enforcer.Op) (h : ∀ op ∈ H, ∀ r ∈ op.rules, r ∈ [pRule, bob]) :
    ∀ op ∈ H, ∀ r ∈ op.rules, Good r := fun op ho r hr => good_many r (h op ho r hr)

/-- `c91_touched` applies to `bob` once it is removed and added again. -/
example : let e := ((start .batch second).run [.add pRule, .flush, .add bob, .flush, .remove bob, .add bob]).1
    e.flush.e.st.rules = [pRule, bob] ∧
    (StorageExample.view e.flush.e.st bob = true ↔ bob ∈ e.flush.e.model.rules) :=
  ⟨by decide, c91_touched (start_ready .batch second) (frames_only _ _) (good_fits _) (start_rules _ _) _
    (good_ops _ (by decide)) (by decide) (by decide)⟩

/-- `c91_heal` applies with an operation queued at the save. -/
example : let e := ((start .batch second).run [.add pRule, .flush, .add bob, .flush, .remove pRule]).1
    e.sc.q = [⟨.remove, pRule⟩] ∧ e.savePolicy.e.st.rules = [bob] ∧
    (e.savePolicy.e.Agree StorageExample.view ∧
      (e.savePolicy.e.run [.add pRule]).1.flush.e.Agree StorageExample.view) :=
  ⟨by decide, by decide, c91_heal (start_ready .batch second) (frames_only _ _) ((saves_any _ _).only _) (good_fits _)
    (start_rules _ _) _ _ (good_ops _ (by decide)) (by decide) (by decide) (by decide)⟩

end FailingExample

end Fastac
