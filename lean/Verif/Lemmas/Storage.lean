import Verif.Spec.Storage
import Verif.Lemmas.ModelShape

/-!
# Lemmas on the storage controller and the enforcer
-/

namespace Fastac

variable {σ : Type}

theorem opsOf_cons (c : Call × Res Unit) (t : List (Call × Res Unit)) : opsOf (c :: t) = c.1.ops ++ opsOf t := rfl

theorem opsOf_append (t t' : List (Call × Res Unit)) : opsOf (t ++ t') = opsOf t ++ opsOf t' := by
  simp [opsOf, List.flatMap_append]

theorem held_append (x : Rule) (a b : List Operation) : ∀ now, held x now (a ++ b) = held x (held x now a) b := by
  induction a with
  | nil => intro _; rfl
  | cons o a ih =>
    intro now
    obtain ⟨o, r⟩ := o
    cases o <;> simp only [List.cons_append, held, ih]

/-- Every operation has been handed over, or the last call failed and at most `k` operations after it got
lost. -/
def FlushOut.Good (k : Nat) (ops : List Operation) (o : FlushOut σ) : Prop :=
  (o.res = .ok () ∧ (∀ c ∈ o.trace, c.2 = .ok ()) ∧ o.q = [] ∧ opsOf o.trace = ops) ∨
  (o.res ≠ .ok () ∧ ∃ done call lost, o.trace = done ++ [(call, o.res)] ∧ (∀ c ∈ done, c.2 = .ok ()) ∧
    lost.length ≤ k ∧ ops = opsOf done ++ call.ops ++ lost ++ o.q)

theorem FlushOut.Good.after {k : Nat} {ops : List Operation} {o : FlushOut σ} (h : o.Good k ops) (c : Call) :
    (o.after (c, .ok ())).Good k (c.ops ++ ops) := by
  rcases h with ⟨h1, h2, h3, h4⟩ | ⟨h1, done, call, lost, h2, h3, h4, h5⟩
  · refine Or.inl ⟨h1, ?_, h3, ?_⟩
    · intro d hd
      simp only [FlushOut.after, List.mem_cons] at hd
      rcases hd with rfl | hd
      · rfl
      · exact h2 d hd
    · simp only [FlushOut.after, opsOf_cons, h4]
  · refine Or.inr ⟨h1, (c, .ok ()) :: done, call, lost, ?_, ?_, h4, ?_⟩
    · simp only [FlushOut.after, h2, List.cons_append]
    · intro d hd
      simp only [List.mem_cons] at hd
      rcases hd with rfl | hd
      · rfl
      · exact h3 d hd
    · simp only [FlushOut.after, opsOf_cons, h5, List.append_assoc]

theorem flushSimple_good (A : Adapter σ) (q : List Operation) :
    ∀ s, (SC.flushSimple A q s).Good 0 q := by
  induction q with
  | nil => intro s; exact Or.inl ⟨rfl, by simp [SC.flushSimple], rfl, rfl⟩
  | cons op q ih =>
    intro s
    simp only [SC.flushSimple]
    split
    · exact (ih _).after (.one op.opc op.rule)
    · exact Or.inr ⟨by simp, [], .one op.opc op.rule, [], rfl, by simp, Nat.le_refl 0, rfl⟩
    · exact Or.inr ⟨by simp, [], .one op.opc op.rule, [], rfl, by simp, Nat.le_refl 0, rfl⟩

theorem batchLoop_good (A : Adapter σ) (q : List Operation) :
    ∀ cur rules s, (SC.batchLoop A cur rules q s).Good 1 (rules.map (fun r => ⟨cur, r⟩) ++ q) := by
  induction q with
  | nil =>
    intro cur rules s
    simp only [SC.batchLoop]
    split
    · by_cases hr : (A.step s (.batch cur rules)).2 = .ok ()
      · refine Or.inl ⟨hr, ?_, rfl, ?_⟩
        · intro c hc
          simp only [List.mem_singleton] at hc
          subst hc
          exact hr
        · simp [opsOf, Call.ops]
      · exact Or.inr ⟨hr, [], .batch cur rules, [], rfl, by simp, Nat.zero_le 1, by simp [Call.ops, opsOf]⟩
    · rename_i h
      have : rules = [] := by cases rules with
        | nil => rfl
        | cons => simp at h
      subst this
      exact Or.inl ⟨rfl, by simp, rfl, rfl⟩
  | cons op q ih =>
    intro cur rules s
    simp only [SC.batchLoop]
    split
    · rename_i h
      subst h
      have := ih op.opc (rules ++ [op.rule]) s
      simpa using this
    · split
      · exact (ih op.opc [op.rule] _).after (.batch cur rules)
      · exact Or.inr ⟨by simp, [], .batch cur rules, [op], rfl, by simp, Nat.le_refl 1, by simp [Call.ops, opsOf]⟩
      · exact Or.inr ⟨by simp, [], .batch cur rules, [op], rfl, by simp, Nat.le_refl 1, by simp [Call.ops, opsOf]⟩

theorem batchFlush_good (A : Adapter σ) (q : List Operation) (s : σ) : (SC.batchFlush A q s).Good 1 q := by
  unfold SC.batchFlush
  split
  · exact batchLoop_good A [] .add [] s
  · exact batchLoop_good A _ _ [] s

theorem FlushOut.Good.mono {k k' : Nat} (hk : k ≤ k') {ops : List Operation} {o : FlushOut σ} (h : o.Good k ops) :
    o.Good k' ops := by
  rcases h with h | ⟨h1, done, call, lost, h2, h3, h4, h5⟩
  · exact Or.inl h
  · exact Or.inr ⟨h1, done, call, lost, h2, h3, Nat.le_trans h4 hk, h5⟩

theorem drain_good (A : Adapter σ) (q : List Operation) (s : σ) (hk : A.kind ≠ .other) :
    (SC.drain A q s).Good 1 q := by
  unfold SC.drain
  cases h : A.kind with
  | batch => exact batchFlush_good A q s
  | simple => exact (flushSimple_good A q s).mono (Nat.zero_le 1)
  | other => exact absurd h hk

/-- A trace with successful calls only. -/
def AllOk (t : List (Call × Res Unit)) : Prop := ∀ c ∈ t, c.2 = .ok ()

theorem AllOk.append {t t' : List (Call × Res Unit)} : AllOk (t ++ t') ↔ AllOk t ∧ AllOk t' := by
  constructor
  · exact fun h => ⟨fun c hc => h c (by simp [hc]), fun c hc => h c (by simp [hc])⟩
  · rintro ⟨a, b⟩ c hc
    rcases List.mem_append.mp hc with hc | hc
    · exact a c hc
    · exact b c hc

theorem FlushOut.Good.ok {k : Nat} {ops : List Operation} {o : FlushOut σ} (h : o.Good k ops) (ht : AllOk o.trace) :
    o.res = .ok () ∧ o.q = [] ∧ opsOf o.trace = ops := by
  rcases h with ⟨h1, _, h3, h4⟩ | ⟨h1, done, call, lost, h2, _⟩
  · exact ⟨h1, h3, h4⟩
  · exact absurd (ht (call, o.res) (by rw [h2]; simp)) h1

/-! ## The stored set during a flush -/

variable {I : σ → Prop} {R : Rule → Prop} {view : σ → Rule → Bool}

theorem flushSimple_view {A : Adapter σ} (hA : A.Keeps I R view)
    (q : List Operation) (hq : ∀ o ∈ q, R o.rule) : ∀ s, I s → AllOk (SC.flushSimple A q s).trace →
    I (SC.flushSimple A q s).st ∧ ∀ x,
    view (SC.flushSimple A q s).st x = held x (view s x) (opsOf (SC.flushSimple A q s).trace) := by
  induction q with
  | nil => intro s hs _; exact ⟨hs, fun _ => rfl⟩
  | cons op q ih =>
    intro s hs
    simp only [SC.flushSimple]
    split
    · rename_i s' hstep
      intro ht
      obtain ⟨a, b⟩ := hA _ _ _ hs (by simpa [Call.ops] using hq op (by simp)) hstep
      obtain ⟨c, d⟩ := ih (fun o ho => hq o (by simp [ho])) s' a (fun c hc => ht c (by simp [FlushOut.after, hc]))
      refine ⟨c, fun x => ?_⟩
      simp only [FlushOut.after, opsOf_cons, held_append]
      rw [d, b]
    · intro ht; exact absurd (ht _ (List.mem_singleton.mpr rfl)) (by simp)
    · intro ht; exact absurd (ht _ (List.mem_singleton.mpr rfl)) (by simp)

theorem batchLoop_view {A : Adapter σ} (hA : A.Keeps I R view)
    (q : List Operation) (hq : ∀ o ∈ q, R o.rule) : ∀ cur rules s, I s → (∀ r ∈ rules, R r) →
    AllOk (SC.batchLoop A cur rules q s).trace →
    I (SC.batchLoop A cur rules q s).st ∧ ∀ x,
    view (SC.batchLoop A cur rules q s).st x =
      held x (view s x) (opsOf (SC.batchLoop A cur rules q s).trace) := by
  have hops : ∀ cur rules, (∀ r ∈ rules, R r) → ∀ o ∈ (Call.batch cur rules).ops, R o.rule := by
    intro cur rules h o ho
    simp only [Call.ops, List.mem_map] at ho
    obtain ⟨r, hr, rfl⟩ := ho
    exact h r hr
  induction q with
  | nil =>
    intro cur rules s hs hr
    simp only [SC.batchLoop]
    split
    · intro ht
      have hres : (A.step s (.batch cur rules)).2 = .ok () := ht _ (List.mem_singleton.mpr rfl)
      obtain ⟨a, b⟩ := hA s (.batch cur rules) (A.step s (.batch cur rules)).1 hs (hops cur rules hr)
        (Prod.ext rfl hres)
      refine ⟨a, fun x => ?_⟩
      simp only [opsOf_cons]
      rw [b]
      simp [opsOf]
    · intro _; exact ⟨hs, fun _ => rfl⟩
  | cons op q ih =>
    intro cur rules s hs hr
    have hop := hq op (by simp)
    have hq' : ∀ o ∈ q, R o.rule := fun o ho => hq o (by simp [ho])
    simp only [SC.batchLoop]
    split
    · refine ih hq' _ _ _ hs ?_
      intro r hr'
      simp only [List.mem_append, List.mem_singleton] at hr'
      rcases hr' with hr' | rfl
      · exact hr r hr'
      · exact hop
    · split
      · rename_i s' hstep
        intro ht
        obtain ⟨a, b⟩ := hA _ _ _ hs (hops cur rules hr) hstep
        obtain ⟨c, d⟩ := ih hq' op.opc [op.rule] s' a (by simpa using hop)
          (fun c hc => ht c (by simp [FlushOut.after, hc]))
        refine ⟨c, fun x => ?_⟩
        simp only [FlushOut.after, opsOf_cons, held_append]
        rw [d, b]
      · intro ht; exact absurd (ht _ (List.mem_singleton.mpr rfl)) (by simp)
      · intro ht; exact absurd (ht _ (List.mem_singleton.mpr rfl)) (by simp)

theorem drain_view {A : Adapter σ} (hA : A.Keeps I R view)
    (q : List Operation) (hq : ∀ o ∈ q, R o.rule) (s : σ) (hs : I s) (ht : AllOk (SC.drain A q s).trace) :
    I (SC.drain A q s).st ∧ ∀ x,
    view (SC.drain A q s).st x = held x (view s x) (opsOf (SC.drain A q s).trace) := by
  unfold SC.drain at ht ⊢
  cases hk : A.kind with
  | batch =>
    simp only [hk] at ht ⊢
    cases q with
    | nil => exact batchLoop_view hA _ hq _ _ _ hs (by simp) ht
    | cons op q => exact batchLoop_view hA _ hq _ _ _ hs (by simp) ht
  | simple =>
    simp only [hk] at ht ⊢
    exact flushSimple_view hA q hq s hs ht
  | other => exact ⟨hs, fun _ => rfl⟩

/-- Handing over operations successfully does not change what store and queue amount to. -/
theorem drain_held {A : Adapter σ} (hA : A.Keeps I R view)
    (q : List Operation) (hq : ∀ o ∈ q, R o.rule) (s : σ) (hs : I s) (ht : AllOk (SC.drain A q s).trace) :
    I (SC.drain A q s).st ∧ (∀ o ∈ (SC.drain A q s).q, R o.rule) ∧ ∀ x,
    held x (view (SC.drain A q s).st x) (SC.drain A q s).q = held x (view s x) q := by
  by_cases hk : A.kind = .other
  · unfold SC.drain
    rw [hk]
    exact ⟨hs, hq, fun _ => rfl⟩
  · obtain ⟨_, h2, h3⟩ := (drain_good A q s hk).ok ht
    obtain ⟨a, b⟩ := drain_view hA q hq s hs ht
    refine ⟨a, by rw [h2]; simp, fun x => ?_⟩
    rw [b, h2, h3]
    rfl

/-! ## The enforcer -/

namespace Enforcer

/-- The store is in a state of `I`, the queue has rules of `R`, and the model holds what the store will
hold once the queue has been handed over. -/
structure Sync (I : σ → Prop) (R : Rule → Prop) (view : σ → Rule → Bool) (e : Enforcer σ) : Prop where
  inv : I e.st
  queue : ∀ o ∈ e.sc.q, R o.rule
  rules : ∀ x, x ∈ e.model.rules ↔ held x (view e.st x) e.sc.q = true

/-- The controller listens to the model. -/
def Listens (e : Enforcer σ) : Prop := e.hooked = true ∧ e.sc.enabled = true

theorem flush_sync {e : Enforcer σ} (hA : e.adapter.Keeps I R view) (h : e.Sync I R view)
    (ht : AllOk e.flush.trace) : e.flush.e.Sync I R view := by
  obtain ⟨a, b, c⟩ : I (SC.drain e.adapter e.sc.q e.st).st ∧
      (∀ o ∈ (SC.drain e.adapter e.sc.q e.st).q, R o.rule) ∧ ∀ x,
      held x (view (SC.drain e.adapter e.sc.q e.st).st x) (SC.drain e.adapter e.sc.q e.st).q =
      held x (view e.st x) e.sc.q := drain_held hA _ h.queue _ h.inv ht
  refine ⟨a, b, fun x => ?_⟩
  have hx := h.rules x
  rw [← c x] at hx
  exact hx

theorem onEvent_none (e : Enforcer σ) : e.onEvent none = ⟨e, [], .ok ()⟩ := rfl

/-- `addOp` puts the operation into the queue and possibly flushes. -/
theorem onEvent_some (e : Enforcer σ) (hl : e.Listens) (ev : ModEvent) :
    let e1 : Enforcer σ := { e with sc := { e.sc with q := e.sc.q ++ [ev.op] } }
    (e.onEvent (some ev) =
      ⟨{ e1 with sc := { e1.sc with wait := if e.sc.autosave then e.sc.wait - 1 else e.sc.wait } }, [], .ok ()⟩ ∧
      ¬ (e.sc.autosave = true ∧ e.sc.wait ≤ 1)) ∨
    (let f := Enforcer.flush { e1 with sc := { e1.sc with wait := e.sc.wait - 1 } }
     e.onEvent (some ev) = ⟨f.e, f.trace, if f.res = .ok () then .ok () else .panic⟩ ∧
      e.sc.autosave = true ∧ e.sc.wait ≤ 1) := by
  intro e1
  simp only [onEvent, hl.1, hl.2, Bool.and_self, if_true]
  simp only [SC.addOp]
  cases ha : e.sc.autosave with
  | false => exact Or.inl ⟨by simp [e1, hl.1], by simp⟩
  | true =>
    by_cases hw : e.sc.wait - 1 ≤ 0
    · right
      refine ⟨?_, rfl, by omega⟩
      simp only [hw, if_true]
      simp only [e1, flush, hl.1]
    · left
      refine ⟨?_, by omega⟩
      simp only [hw, if_false, if_true]
      simp only [e1, hl.1]

theorem flush_frame (e : Enforcer σ) : e.flush.e.model = e.model ∧ e.flush.e.adapter = e.adapter ∧
    e.flush.e.hooked = e.hooked ∧ e.flush.e.sc.enabled = e.sc.enabled ∧
    e.flush.e.sc.autosave = e.sc.autosave := ⟨rfl, rfl, rfl, rfl, rfl⟩

theorem onEvent_frame (e : Enforcer σ) (ev : Option ModEvent) : (e.onEvent ev).e.model = e.model ∧
    (e.onEvent ev).e.adapter = e.adapter ∧ (e.onEvent ev).e.hooked = e.hooked ∧
    (e.onEvent ev).e.sc.enabled = e.sc.enabled ∧ (e.onEvent ev).e.sc.autosave = e.sc.autosave := by
  cases ev with
  | none => exact ⟨rfl, rfl, rfl, rfl, rfl⟩
  | some ev =>
    by_cases hl : e.Listens
    · rcases onEvent_some e hl ev with ⟨h, _⟩ | ⟨h, _⟩
      · rw [h]; exact ⟨rfl, rfl, rfl, rfl, rfl⟩
      · rw [h]; exact ⟨rfl, rfl, rfl, rfl, rfl⟩
    · have : (e.hooked && e.sc.enabled) = false := by
        cases h1 : e.hooked <;> cases h2 : e.sc.enabled <;> simp
        exact hl ⟨h1, h2⟩
      simp only [onEvent, this]
      exact ⟨rfl, rfl, rfl, rfl, rfl⟩

theorem withModel_frame (e : Enforcer σ) (x : Model × Res Bool × Option ModEvent) :
    (e.withModel x).e.model = x.1 ∧ (e.withModel x).e.adapter = e.adapter ∧
    (e.withModel x).e.hooked = e.hooked ∧ (e.withModel x).e.sc.enabled = e.sc.enabled ∧
    (e.withModel x).e.sc.autosave = e.sc.autosave :=
  onEvent_frame { e with model := x.1 } x.2.2

/-- The rule of an event. -/
def _root_.Fastac.ModEvent.rule : ModEvent → Rule
  | .added r | .removed r => r

/-- The storage side of an effective change. -/
theorem withModel_sync {e : Enforcer σ} (hA : e.adapter.Keeps I R view) (h : e.Sync I R view)
    (hl : e.Listens) {x : Model × Res Bool × Option ModEvent}
    (hx : ∀ r, r ∈ x.1.rules ↔ replay r (decide (r ∈ e.model.rules)) x.2.2.toList = true)
    (hR : ∀ ev, x.2.2 = some ev → R ev.rule)
    (ht : AllOk (e.withModel x).trace) : (e.withModel x).e.Sync I R view := by
  cases hev : x.2.2 with
  | none =>
    have hx' : ∀ r, r ∈ x.1.rules ↔ r ∈ e.model.rules := by
      intro r
      rw [hx r, hev]
      simp [replay]
    simp only [withModel, hev, onEvent_none]
    refine ⟨h.inv, h.queue, fun r => ?_⟩
    rw [hx' r]
    exact h.rules r
  | some ev =>
    let e' : Enforcer σ := { e with model := x.1 }
    let e1 : Enforcer σ := { e' with sc := { e.sc with q := e.sc.q ++ [ev.op] } }
    have h1 : e1.Sync I R view := by
      refine ⟨h.inv, ?_, fun r => ?_⟩
      · intro o ho
        have ho : o ∈ e.sc.q ++ [ev.op] := ho
        simp only [List.mem_append, List.mem_singleton] at ho
        rcases ho with ho | rfl
        · exact h.queue o ho
        · have := hR ev hev
          cases ev <;> exact this
      · show r ∈ x.1.rules ↔ held r (view e.st r) (e.sc.q ++ [ev.op]) = true
        rw [hx r, hev, held_append]
        have h0 : decide (r ∈ e.model.rules) = held r (view e.st r) e.sc.q := by
          rw [Bool.eq_iff_iff, decide_eq_true_eq]; exact h.rules r
        rw [h0]
        cases ev <;> rfl
    simp only [withModel, hev] at ht ⊢
    rcases onEvent_some e' hl ev with ⟨a, _⟩ | ⟨a, _⟩
    · rw [a]
      exact ⟨h1.inv, h1.queue, h1.rules⟩
    · rw [a] at ht ⊢
      exact flush_sync (e := { e1 with sc := { e1.sc with wait := e.sc.wait - 1 } }) hA
        ⟨h1.inv, h1.queue, h1.rules⟩ ht

end Enforcer

/-- Loading a list of rules. -/
theorem Model.load_ofList (s : σ) (r : Res Unit) (rs : List Rule) : ∀ (m : Model) (d : Model × σ × Res Unit),
    (m.load (LoadProg.ofList s r rs) d).1 = (Model.each Model.addRule m rs).1 ∧
    (m.load (LoadProg.ofList s r rs) d).2.2 = (if (Model.each Model.addRule m rs).2.1 = .ok () then r
      else (Model.each Model.addRule m rs).2.1) := by
  induction rs with
  | nil => intro m d; simp [LoadProg.ofList, Model.load, Model.each]
  | cons x xs ih =>
    intro m d
    simp only [LoadProg.ofList, Model.load, Model.each]
    obtain ⟨res, hr⟩ : ∃ res, (m.addRule x).2.1 = res := ⟨_, rfl⟩
    cases res with
    | ok b => simpa [hr] using ih (m.addRule x).1 d
    | err => simp [hr, Model.load]
    | panic => simp [hr]

end Fastac
