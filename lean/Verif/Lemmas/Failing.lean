import Verif.Spec.Failing
import Verif.Lemmas.Saving

/-!
# One rule of the store and the model
-/

namespace Fastac

open Model

variable {σ : Type} {I : σ → Prop} {R : Rule → Prop} {view : σ → Rule → Bool} {x : Rule} {A : Adapter σ}

/-! ## Flushing operations that are not about the rule -/

/-- What a flush with any outcome leaves: a state of `I`, a part of the queue, and `x` as it was. -/
def FlushOut.Apart (I : σ → Prop) (view : σ → Rule → Bool) (x : Rule) (q : List Operation) (s : σ) (o : FlushOut σ) :
    Prop := I o.st ∧ (∀ p ∈ o.q, p ∈ q) ∧ view o.st x = view s x

theorem flushSimple_apart (hA : A.Frames I R view) (q : List Operation) (hR : ∀ o ∈ q, R o.rule)
    (hx : ∀ o ∈ q, o.rule ≠ x) : ∀ s, I s → (SC.flushSimple A q s).Apart I view x q s := by
  induction q with
  | nil => exact fun s hs => ⟨hs, fun p hp => hp, rfl⟩
  | cons op q ih =>
    intro s hs
    have hops : ∀ o ∈ (Call.one op.opc op.rule).ops, o ∈ op :: q := by
      intro o ho
      rw [List.mem_singleton.mp ho]
      exact List.mem_cons_self
    simp only [SC.flushSimple]
    obtain ⟨⟨s', res⟩, hstep⟩ : ∃ y, A.step s (.one op.opc op.rule) = y := ⟨_, rfl⟩
    obtain ⟨a, b⟩ := hA s _ s' res hs (fun o ho => hR o (hops o ho)) hstep
    have b := b x (fun o ho => hx o (hops o ho))
    rw [hstep]
    cases res with
    | ok _ =>
      obtain ⟨c, d, e⟩ := ih (fun o ho => hR o (List.mem_cons_of_mem _ ho)) (fun o ho => hx o (List.mem_cons_of_mem _ ho)) s' a
      exact ⟨c, fun p hp => List.mem_cons_of_mem _ (d p hp), e.trans b⟩
    | err => exact ⟨a, fun p hp => List.mem_cons_of_mem _ hp, b⟩
    | panic => exact ⟨a, fun p hp => List.mem_cons_of_mem _ hp, b⟩

theorem batchLoop_apart (hA : A.Frames I R view) (q : List Operation) (hR : ∀ o ∈ q, R o.rule)
    (hx : ∀ o ∈ q, o.rule ≠ x) : ∀ cur rules s, (∀ r ∈ rules, R r ∧ r ≠ x) → I s →
    (SC.batchLoop A cur rules q s).Apart I view x q s := by
  have hcall : ∀ (cur : Opc) (rules : List Rule) s s' res, (∀ r ∈ rules, R r ∧ r ≠ x) → I s →
      A.step s (.batch cur rules) = (s', res) → I s' ∧ view s' x = view s x := by
    intro cur rules s s' res hr hs hstep
    have hops : ∀ o ∈ (Call.batch cur rules).ops, R o.rule ∧ o.rule ≠ x := by
      intro o ho
      obtain ⟨r, hm, rfl⟩ := List.mem_map.mp ho
      exact hr r hm
    obtain ⟨a, b⟩ := hA s _ s' res hs (fun o ho => (hops o ho).1) hstep
    exact ⟨a, b x fun o ho => (hops o ho).2⟩
  induction q with
  | nil =>
    intro cur rules s hr hs
    simp only [SC.batchLoop]
    split
    · obtain ⟨⟨s', res⟩, hstep⟩ : ∃ y, A.step s (.batch cur rules) = y := ⟨_, rfl⟩
      obtain ⟨a, b⟩ := hcall cur rules s s' res hr hs hstep
      have h1 : (A.step s (.batch cur rules)).1 = s' := by rw [hstep]
      subst h1
      exact ⟨a, fun p hp => hp, b⟩
    · exact ⟨hs, fun p hp => hp, rfl⟩
  | cons op q ih =>
    intro cur rules s hr hs
    have hop : R op.rule ∧ op.rule ≠ x := ⟨hR op List.mem_cons_self, hx op List.mem_cons_self⟩
    have ih := ih (fun o ho => hR o (List.mem_cons_of_mem _ ho)) (fun o ho => hx o (List.mem_cons_of_mem _ ho))
    simp only [SC.batchLoop]
    split
    · obtain ⟨c, d, e⟩ := ih cur (rules ++ [op.rule]) s (fun r hm => by
        rcases List.mem_append.mp hm with hm | hm
        · exact hr r hm
        · rw [List.mem_singleton.mp hm]; exact hop) hs
      exact ⟨c, fun p hp => List.mem_cons_of_mem _ (d p hp), e⟩
    · obtain ⟨⟨s', res⟩, hstep⟩ : ∃ y, A.step s (.batch cur rules) = y := ⟨_, rfl⟩
      obtain ⟨a, b⟩ := hcall cur rules s s' res hr hs hstep
      rw [hstep]
      cases res with
      | ok _ =>
        obtain ⟨c, d, e⟩ := ih op.opc [op.rule] s' (fun r hm => by rw [List.mem_singleton.mp hm]; exact hop) a
        exact ⟨c, fun p hp => List.mem_cons_of_mem _ (d p hp), e.trans b⟩
      | err => exact ⟨a, fun p hp => List.mem_cons_of_mem _ hp, b⟩
      | panic => exact ⟨a, fun p hp => List.mem_cons_of_mem _ hp, b⟩

theorem drain_apart (hA : A.Frames I R view) (q : List Operation) (hR : ∀ o ∈ q, R o.rule)
    (hx : ∀ o ∈ q, o.rule ≠ x) (s : σ) (hs : I s) : (SC.drain A q s).Apart I view x q s := by
  unfold SC.drain
  cases A.kind with
  | batch =>
    cases q with
    | nil => exact batchLoop_apart hA _ hR hx _ _ _ (by simp) hs
    | cons op q => exact batchLoop_apart hA _ hR hx _ _ _ (by simp) hs
  | simple => exact flushSimple_apart hA q hR hx s hs
  | other => exact ⟨hs, fun p hp => hp, rfl⟩

theorem held_apart (q : List Operation) (hx : ∀ o ∈ q, o.rule ≠ x) : ∀ b, held x b q = b := by
  induction q with
  | nil => exact fun _ => rfl
  | cons o q ih =>
    intro b
    have h1 : o.rule ≠ x := hx o List.mem_cons_self
    have ih := ih (fun o ho => hx o (List.mem_cons_of_mem _ ho))
    obtain ⟨o, r⟩ := o
    have h1 : r ≠ x := h1
    cases o <;> simp [held, ih, h1]

/-! ## The invariant -/

/-- The enforcer, seen from the rule `x`: the model has it if the store will have it once the queue is handed over. -/
structure Enforcer.TracksAt (build : Str → Res Stage) (I : σ → Prop) (R : Rule → Prop) (view : σ → Rule → Bool)
    (x : Rule) (g : GoMap Str Nat) (A : Adapter σ) (e : Enforcer σ) : Prop where
  made : Made build e.model
  listens : e.Listens
  adapter : e.adapter = A
  inv : I e.st
  queue : ∀ o ∈ e.sc.q, R o.rule
  rules : ∀ y ∈ e.model.rules, R y
  same : x ∈ e.model.rules ↔ held x (view e.st x) e.sc.q = true
  defs : e.model.gDefs = g

namespace Enforcer

/-- The rules after a change of the model that emits at most one event, for the rule of the event. -/
structure Change (build : Str → Res Stage) (m : Model) (r : Rule) (y : Model × Res Bool × Option ModEvent) : Prop where
  made : Made build y.1
  defs : y.1.gDefs = m.gDefs
  rules : ∀ z, z ∈ y.1.rules ↔ replay z (decide (z ∈ m.rules)) y.2.2.toList = true
  event : ∀ ev, y.2.2 = some ev → ev.rule = r

theorem change_add {build : Str → Res Stage} (hb : ∀ e s, build e = .ok s → s.Binary) {m : Model}
    (hm : Made build m) {r : Rule} (hf : m.Fits r) : Change build m r (m.addRule r) :=
  ⟨hm.add r hf, gDefs_add m r, addRule_replay hb hm hf, fun _ h => (addRule_event h).symm⟩

theorem change_remove {build : Str → Res Stage} (hb : ∀ e s, build e = .ok s → s.Binary) {m : Model}
    (hm : Made build m) {r : Rule} (hf : m.Fits r) : Change build m r (m.removeRule r) :=
  ⟨hm.remove r hf, gDefs_remove m r, removeRule_replay hb hm hf, fun _ h => (removeRule_event h).symm⟩

theorem replay_from (z : Rule) (ev : Option ModEvent) (b : Bool) (h : replay z b ev.toList = true) :
    b = true ∨ ∃ e, ev = some e ∧ e.rule = z := by
  cases ev with
  | none => exact .inl h
  | some e =>
    cases e with
    | added r =>
      simp only [Option.toList, replay, Bool.or_eq_true, beq_iff_eq] at h
      exact h.imp id fun h => ⟨_, rfl, h⟩
    | removed r =>
      simp only [Option.toList, replay, Bool.and_eq_true] at h
      exact .inl h.1

theorem replay_apart (z : Rule) (ev : Option ModEvent) (b : Bool) (h : ∀ e, ev = some e → e.rule ≠ z) :
    replay z b ev.toList = b := by
  cases ev with
  | none => rfl
  | some e =>
    have h := h e rfl
    cases e with
    | added r => have h : r ≠ z := h; simp [replay, h]
    | removed r => have h : r ≠ z := h; simp [replay, h]

variable {build : Str → Res Stage} {g : GoMap Str Nat}

/-- A flush without a failing storage call. -/
theorem TracksAt.flush {e : Enforcer σ} (hA : A.Keeps I R view) (h : TracksAt build I R view x g A e)
    (ht : AllOk e.flush.trace) : TracksAt build I R view x g A e.flush.e := by
  have hA' : e.adapter.Keeps I R view := by rw [h.adapter]; exact hA
  obtain ⟨a, b, c⟩ := drain_held hA' _ h.queue _ h.inv ht
  refine ⟨h.made, h.listens, h.adapter, a, b, h.rules, ?_, h.defs⟩
  have := h.same
  rw [← c x] at this
  exact this

/-- A flush with any outcome. -/
theorem TracksAt.flush_apart {e : Enforcer σ} (hA : A.Frames I R view) (h : TracksAt build I R view x g A e)
    (hq : ∀ o ∈ e.sc.q, o.rule ≠ x) :
    TracksAt build I R view x g A e.flush.e ∧ ∀ o ∈ e.flush.e.sc.q, o.rule ≠ x := by
  have hA' : e.adapter.Frames I R view := by rw [h.adapter]; exact hA
  obtain ⟨a, b, c⟩ := drain_apart hA' e.sc.q h.queue hq e.st h.inv
  have hq' : ∀ o ∈ e.flush.e.sc.q, o.rule ≠ x := fun o ho => hq o (b o ho)
  refine ⟨⟨h.made, h.listens, h.adapter, a, fun o ho => h.queue o (b o ho), h.rules, ?_, h.defs⟩, hq'⟩
  rw [held_apart _ hq']
  have := h.same
  rw [held_apart _ hq, ← c] at this
  exact this

/-- The model has changed and the operation is queued. -/
theorem TracksAt.queued {e : Enforcer σ} (h : TracksAt build I R view x g A e) {r : Rule} (hR : R r)
    {y : Model × Res Bool × Option ModEvent} (hy : Change build e.model r y) (ev : ModEvent) (hev : y.2.2 = some ev) (w : Int) :
    TracksAt build I R view x g A
      { e with model := y.1, sc := { e.sc with q := e.sc.q ++ [ev.op], wait := w } } := by
  have hrule : ev.op.rule = r := by
    have := hy.event ev hev
    cases ev <;> exact this
  refine ⟨hy.made, h.listens, h.adapter, h.inv, ?_, ?_, ?_, hy.defs.trans h.defs⟩
  · intro o ho
    rcases List.mem_append.mp ho with ho | ho
    · exact h.queue o ho
    · rw [List.mem_singleton.mp ho, hrule]; exact hR
  · intro z hz
    rcases replay_from z _ _ ((hy.rules z).mp hz) with h1 | ⟨e', he, rfl⟩
    · exact h.rules z (of_decide_eq_true h1)
    · rw [hy.event e' he]; exact hR
  · show x ∈ y.1.rules ↔ held x (view e.st x) (e.sc.q ++ [ev.op]) = true
    rw [hy.rules x, hev, held_append]
    have h0 : decide (x ∈ e.model.rules) = held x (view e.st x) e.sc.q := by
      rw [Bool.eq_iff_iff, decide_eq_true_eq]; exact h.same
    rw [h0]
    cases ev <;> rfl

theorem TracksAt.unchanged {e : Enforcer σ} (h : TracksAt build I R view x g A e) {r : Rule}
    {y : Model × Res Bool × Option ModEvent} (hy : Change build e.model r y) (hev : y.2.2 = none) :
    TracksAt build I R view x g A { e with model := y.1 } := by
  have hs : ∀ z, z ∈ y.1.rules ↔ z ∈ e.model.rules := fun z => by rw [hy.rules z, hev]; simp [replay]
  exact ⟨hy.made, h.listens, h.adapter, h.inv, h.queue, fun z hz => h.rules z ((hs z).mp hz), (hs x).trans h.same,
    hy.defs.trans h.defs⟩

theorem TracksAt.withModel {e : Enforcer σ} (hA : A.Keeps I R view) (h : TracksAt build I R view x g A e) {r : Rule}
    (hR : R r) {y : Model × Res Bool × Option ModEvent} (hy : Change build e.model r y)
    (ht : AllOk (e.withModel y).trace) : TracksAt build I R view x g A (e.withModel y).e := by
  cases hev : y.2.2 with
  | none =>
    simp only [Enforcer.withModel, hev, onEvent_none]
    exact h.unchanged hy hev
  | some ev =>
    simp only [Enforcer.withModel, hev] at ht ⊢
    rcases onEvent_some { e with model := y.1 } h.listens ev with ⟨a, _⟩ | ⟨a, _⟩
    · rw [a]
      have hq := h.queued hR hy ev hev 0
      exact ⟨hq.made, hq.listens, hq.adapter, hq.inv, hq.queue, hq.rules, hq.same, hq.defs⟩
    · rw [a] at ht ⊢
      exact (h.queued hR hy ev hev (e.sc.wait - 1)).flush hA ht

theorem TracksAt.withModel_apart {e : Enforcer σ} (hA : A.Frames I R view) (h : TracksAt build I R view x g A e) {r : Rule}
    (hR : R r) (hx : r ≠ x) {y : Model × Res Bool × Option ModEvent} (hy : Change build e.model r y)
    (hq : ∀ o ∈ e.sc.q, o.rule ≠ x) :
    TracksAt build I R view x g A (e.withModel y).e ∧ ∀ o ∈ (e.withModel y).e.sc.q, o.rule ≠ x := by
  cases hev : y.2.2 with
  | none =>
    simp only [Enforcer.withModel, hev, onEvent_none]
    exact ⟨h.unchanged hy hev, hq⟩
  | some ev =>
    have hrule : ev.op.rule = r := by
      have := hy.event ev hev
      cases ev <;> exact this
    have hq1 : ∀ o ∈ e.sc.q ++ [ev.op], o.rule ≠ x := by
      intro o ho
      rcases List.mem_append.mp ho with ho | ho
      · exact hq o ho
      · rw [List.mem_singleton.mp ho, hrule]; exact hx
    simp only [Enforcer.withModel, hev]
    rcases onEvent_some { e with model := y.1 } h.listens ev with ⟨a, _⟩ | ⟨a, _⟩
    · rw [a]
      have hq := h.queued hR hy ev hev 0
      exact ⟨⟨hq.made, hq.listens, hq.adapter, hq.inv, hq.queue, hq.rules, hq.same, hq.defs⟩, hq1⟩
    · rw [a]
      exact (h.queued hR hy ev hev (e.sc.wait - 1)).flush_apart hA hq1

theorem TracksAt.settings {e : Enforcer σ} (h : TracksAt build I R view x g A e) (b : Bool) (w : Int) :
    TracksAt build I R view x g A { e with sc := { e.sc with autosave := b, wait := w } } :=
  ⟨h.made, h.listens, h.adapter, h.inv, h.queue, h.rules, h.same, h.defs⟩

theorem TracksAt.each {call : Enforcer σ → Rule → Out σ Bool} {P : Enforcer σ → Prop}
    {Q : List (Call × Res Unit) → Prop} (hQ : ∀ a b, Q (a ++ b) → Q a ∧ Q b)
    (rs : List Rule) (hc : ∀ (e : Enforcer σ), ∀ r ∈ rs, P e → Q (call e r).trace → P (call e r).e) :
    ∀ {e : Enforcer σ}, P e → Q (Enforcer.each call e rs).trace → P (Enforcer.each call e rs).e := by
  induction rs with
  | nil => exact fun h _ => h
  | cons r rs ih =>
    intro e h
    have hr := hc e r List.mem_cons_self h
    simp only [Enforcer.each]
    split
    · intro ht
      exact ih (fun e r hr => hc e r (List.mem_cons_of_mem _ hr)) (hr (hQ _ _ ht).1) (hQ _ _ ht).2
    · exact hr
    · exact hr

theorem TracksAt.many {call : Enforcer σ → Rule → Out σ Bool} {P : Enforcer σ → Prop}
    {Q : List (Call × Res Unit) → Prop} (hQ : ∀ a b, Q (a ++ b) → Q a ∧ Q b)
    (rs : List Rule) (hc : ∀ (e : Enforcer σ), ∀ r ∈ rs, P e → Q (call e r).trace → P (call e r).e)
    (hset : ∀ (e : Enforcer σ) b, P e → P (e.setAutosave b))
    (hflush : ∀ e : Enforcer σ, P e → Q e.flush.trace → P e.flush.e)
    {e : Enforcer σ} (h : P e) (ht : Q (Enforcer.many call e rs).trace) : P (Enforcer.many call e rs).e := by
  unfold Enforcer.many at ht ⊢
  split
  · rename_i ha
    rw [if_pos ha] at ht
    exact hflush _ (hset _ true (TracksAt.each hQ rs hc (hset e false h) (hQ _ _ ht).1)) (hQ _ _ ht).2
  · rename_i ha
    rw [if_neg ha] at ht
    exact TracksAt.each hQ rs hc h ht

theorem TracksAt.step (hb : ∀ e s, build e = .ok s → s.Binary) {m0 : Model} (hF : ∀ y, R y → m0.Fits y)
    {e : Enforcer σ} (hA : A.Keeps I R view) (h : TracksAt build I R view x m0.gDefs A e) (op : Op)
    (hR : ∀ r ∈ op.rules, R r) (ht : AllOk (e.step op).2) : TracksAt build I R view x m0.gDefs A (e.step op).1 := by
  have hadd : ∀ (e : Enforcer σ) r, R r → TracksAt build I R view x m0.gDefs A e → AllOk (e.addRule r).trace →
      TracksAt build I R view x m0.gDefs A (e.addRule r).e := fun e r hr h ht =>
    h.withModel hA hr (change_add hb h.made (fits_of_gDefs h.defs (hF r hr))) ht
  have hrem : ∀ (e : Enforcer σ) r, R r → TracksAt build I R view x m0.gDefs A e → AllOk (e.removeRule r).trace →
      TracksAt build I R view x m0.gDefs A (e.removeRule r).e := fun e r hr h ht =>
    h.withModel hA hr (change_remove hb h.made (fits_of_gDefs h.defs (hF r hr))) ht
  cases op with
  | add r => exact hadd e r (hR r (by simp [Op.rules])) h ht
  | remove r => exact hrem e r (hR r (by simp [Op.rules])) h ht
  | addMany rs =>
    exact TracksAt.many (P := TracksAt build I R view x m0.gDefs A) (Q := AllOk) (fun _ _ => AllOk.append.mp) rs
      (fun e r hr => hadd e r (hR r hr)) (fun e b h => h.settings b e.sc.wait) (fun e h => h.flush hA) h ht
  | removeMany rs =>
    exact TracksAt.many (P := TracksAt build I R view x m0.gDefs A) (Q := AllOk) (fun _ _ => AllOk.append.mp) rs
      (fun e r hr => hrem e r (hR r hr)) (fun e b h => h.settings b e.sc.wait) (fun e h => h.flush hA) h ht
  | flush => exact h.flush hA ht
  | autosave b => exact h.settings b e.sc.wait
  | wait i => exact h.settings e.sc.autosave (e.sc.wait + i)

theorem TracksAt.step_apart (hb : ∀ e s, build e = .ok s → s.Binary) {m0 : Model} (hF : ∀ y, R y → m0.Fits y)
    {e : Enforcer σ} (hA : A.Frames I R view) (h : TracksAt build I R view x m0.gDefs A e) (op : Op)
    (hR : ∀ r ∈ op.rules, R r) (hx : x ∉ op.rules) (hq : ∀ o ∈ e.sc.q, o.rule ≠ x) :
    TracksAt build I R view x m0.gDefs A (e.step op).1 := by
  let P : Enforcer σ → Prop := fun e => TracksAt build I R view x m0.gDefs A e ∧ ∀ o ∈ e.sc.q, o.rule ≠ x
  have hadd : ∀ (e : Enforcer σ) r, R r → r ≠ x → P e → P (e.addRule r).e := fun e r hr hn h =>
    h.1.withModel_apart hA hr hn (change_add hb h.1.made (fits_of_gDefs h.1.defs (hF r hr))) h.2
  have hrem : ∀ (e : Enforcer σ) r, R r → r ≠ x → P e → P (e.removeRule r).e := fun e r hr hn h =>
    h.1.withModel_apart hA hr hn (change_remove hb h.1.made (fits_of_gDefs h.1.defs (hF r hr))) h.2
  have hne : ∀ r ∈ op.rules, r ≠ x := fun r hr e => hx (e ▸ hr)
  have hQ : ∀ a b : List (Call × Res Unit), True → True ∧ True := fun _ _ _ => ⟨trivial, trivial⟩
  cases op with
  | add r => exact (hadd e r (hR r (by simp [Op.rules])) (hne r (by simp [Op.rules])) ⟨h, hq⟩).1
  | remove r => exact (hrem e r (hR r (by simp [Op.rules])) (hne r (by simp [Op.rules])) ⟨h, hq⟩).1
  | addMany rs =>
    exact (TracksAt.many (P := P) (Q := fun _ => True) hQ rs (fun e r hr h _ => hadd e r (hR r hr) (hne r hr) h)
      (fun e b h => ⟨h.1.settings b e.sc.wait, h.2⟩) (fun e h _ => h.1.flush_apart hA h.2) ⟨h, hq⟩ trivial).1
  | removeMany rs =>
    exact (TracksAt.many (P := P) (Q := fun _ => True) hQ rs (fun e r hr h _ => hrem e r (hR r hr) (hne r hr) h)
      (fun e b h => ⟨h.1.settings b e.sc.wait, h.2⟩) (fun e h _ => h.1.flush_apart hA h.2) ⟨h, hq⟩ trivial).1
  | flush => exact (h.flush_apart hA hq).1
  | autosave b => exact h.settings b e.sc.wait
  | wait i => exact h.settings e.sc.autosave (e.sc.wait + i)

/-- Adding rules up to the first error: only they come in, and nothing goes. -/
theorem each_within (hb : ∀ e s, build e = .ok s → s.Binary) (rs : List Rule) :
    ∀ {m : Model}, Made build m → (∀ r ∈ rs, m.Fits r) →
    Made build (Model.each Model.addRule m rs).1 ∧ (Model.each Model.addRule m rs).1.gDefs = m.gDefs ∧
    ∀ z, (z ∈ m.rules → z ∈ (Model.each Model.addRule m rs).1.rules) ∧
      (z ∈ (Model.each Model.addRule m rs).1.rules → z ∈ m.rules ∨ z ∈ rs) := by
  induction rs with
  | nil => intro m hm _; exact ⟨hm, rfl, fun _ => ⟨id, .inl⟩⟩
  | cons r rs ih =>
    intro m hm hf
    have hfr := hf r List.mem_cons_self
    have hone : ∀ z, (z ∈ m.rules → z ∈ (m.addRule r).1.rules) ∧ (z ∈ (m.addRule r).1.rules → z ∈ m.rules ∨ z ∈ r :: rs) := by
      intro z
      rw [addRule_replay hb hm hfr z]
      cases hev : (m.addRule r).2.2 with
      | none => simp only [Option.toList, replay, decide_eq_true_eq]; exact ⟨id, .inl⟩
      | some ev =>
        rw [addRule_added hev]
        simp only [Option.toList, replay, Bool.or_eq_true, decide_eq_true_eq, beq_iff_eq]
        exact ⟨.inl, fun h => h.imp id fun h => by rw [h]; exact List.mem_cons_self⟩
    have hg := gDefs_add m r
    have hm' := hm.add r hfr
    obtain ⟨a, b, c⟩ := ih hm' (fun y hy => fits_of_gDefs hg (hf y (List.mem_cons_of_mem _ hy)))
    simp only [Model.each]
    split
    · exact ⟨a, b.trans hg, fun z => ⟨fun h => (c z).1 ((hone z).1 h), fun h => ((c z).2 h).elim (hone z).2
        fun h => .inr (List.mem_cons_of_mem _ h)⟩⟩
    · exact ⟨hm', hg, hone⟩
    · exact ⟨hm', hg, hone⟩

theorem StoryOf.tracks {e e1 : Enforcer σ} (hb : ∀ e s, build e = .ok s → s.Binary)
    (hK : e.adapter.Keeps I R view) (hA : e.adapter.Frames I R view) (hS : e.adapter.Saves I R view)
    (hL : e.adapter.Lists I R view) (hF : ∀ y, R y → e.model.Fits y)
    (h0 : TracksAt build I R view x e.model.gDefs e.adapter e) (h : StoryOf R view x e e1) :
    TracksAt build I R view x e.model.gDefs e.adapter e1 := by
  induction h with
  | start => exact h0
  | call h op hr ht ih => exact ih.step hb hF hK op hr ht
  | failing h op hr hx hq ih => exact ih.step_apart hb hF hA op hr hx hq
  | @save e1 h hr t =>
    have hs : e1.adapter.Saves I R view := by rw [t.adapter]; exact hS
    obtain ⟨a, b⟩ := hs e1.st e1.model.rules (e1.adapter.save e1.st e1.model.rules).1 t.inv t.rules (Prod.ext rfl hr)
    refine ⟨t.made, t.listens, t.adapter, a, t.queue, t.rules, ?_, t.defs⟩
    have hv : view (e1.adapter.save e1.st e1.model.rules).1 x = held x (view e1.st x) e1.sc.q := by
      rw [Bool.eq_iff_iff, b x]; exact t.same
    show x ∈ e1.model.rules ↔ held x (view (e1.adapter.save e1.st e1.model.rules).1 x) e1.sc.q = true
    rw [hv, held_again]
    exact t.same
  | @load e1 h hr t =>
    have hl : e1.adapter.Lists I R view := by rw [t.adapter]; exact hL
    obtain ⟨rs, h1, h2, h3⟩ := hl e1.st t.inv
    obtain ⟨-, c1, c2, c3, -, -⟩ := c39_load e1
    obtain ⟨c4, -⟩ := c39_load_list e1 rs _ h1
    have c5 := loadPolicy_st e1 h1
    obtain ⟨a, b, c⟩ := each_within hb rs t.made (fun r hr => fits_of_gDefs t.defs (hF r (h2 r hr)))
    refine ⟨by rw [c4]; exact a, ⟨c3.trans t.listens.1, ?_⟩, c2.trans t.adapter, ?_, ?_, ?_, ?_, ?_⟩
    · rw [c1]; exact t.listens.2
    · rw [c5]; exact t.inv
    · rw [c1]; exact t.queue
    · intro z hz
      rw [c4] at hz
      exact ((c z).2 hz).elim (t.rules z) (h2 z)
    · rw [c4, c5, c1, ← t.same]
      exact ⟨fun hz => ((c x).2 hz).elim id fun hz => hr ((h3 x).mp hz), (c x).1⟩
    · rw [c4, b]; exact t.defs

end Enforcer

/-! ## After any failures: the last queued operation about the rule is the last change of it -/

/-- What a flush with any outcome leaves of the queue: its end. -/
def FlushOut.Ends (I : σ → Prop) (q : List Operation) (o : FlushOut σ) : Prop := I o.st ∧ ∃ p, q = p ++ o.q

theorem flushSimple_ends (hA : A.Frames I R view) (q : List Operation) (hR : ∀ o ∈ q, R o.rule) :
    ∀ s, I s → (SC.flushSimple A q s).Ends I q := by
  induction q with
  | nil => exact fun s hs => ⟨hs, [], rfl⟩
  | cons op q ih =>
    intro s hs
    simp only [SC.flushSimple]
    obtain ⟨⟨s', res⟩, hstep⟩ : ∃ y, A.step s (.one op.opc op.rule) = y := ⟨_, rfl⟩
    have a := (hA s _ s' res hs (fun o ho => by rw [List.mem_singleton.mp ho]; exact hR op List.mem_cons_self) hstep).1
    rw [hstep]
    cases res with
    | ok _ =>
      obtain ⟨c, p, d⟩ := ih (fun o ho => hR o (List.mem_cons_of_mem _ ho)) s' a
      exact ⟨c, op :: p, congrArg (op :: ·) d⟩
    | err => exact ⟨a, [op], rfl⟩
    | panic => exact ⟨a, [op], rfl⟩

theorem batchLoop_ends (hA : A.Frames I R view) (q : List Operation) (hR : ∀ o ∈ q, R o.rule) :
    ∀ cur rules s, (∀ r ∈ rules, R r) → I s → (SC.batchLoop A cur rules q s).Ends I q := by
  have hcall : ∀ (cur : Opc) (rules : List Rule) s, (∀ r ∈ rules, R r) → I s →
      I (A.step s (.batch cur rules)).1 := by
    intro cur rules s hr hs
    refine (hA s _ _ _ hs (fun o ho => ?_) rfl).1
    obtain ⟨r, hm, rfl⟩ := List.mem_map.mp ho
    exact hr r hm
  induction q with
  | nil =>
    intro cur rules s hr hs
    simp only [SC.batchLoop]
    split
    · exact ⟨hcall cur rules s hr hs, [], rfl⟩
    · exact ⟨hs, [], rfl⟩
  | cons op q ih =>
    intro cur rules s hr hs
    have hop : R op.rule := hR op List.mem_cons_self
    have ih := ih (fun o ho => hR o (List.mem_cons_of_mem _ ho))
    simp only [SC.batchLoop]
    split
    · obtain ⟨c, p, d⟩ := ih cur (rules ++ [op.rule]) s (fun r hm => by
        rcases List.mem_append.mp hm with hm | hm
        · exact hr r hm
        · rw [List.mem_singleton.mp hm]; exact hop) hs
      exact ⟨c, op :: p, congrArg (op :: ·) d⟩
    · have a := hcall cur rules s hr hs
      obtain ⟨⟨s', res⟩, hstep⟩ : ∃ y, A.step s (.batch cur rules) = y := ⟨_, rfl⟩
      rw [hstep] at a ⊢
      cases res with
      | ok _ =>
        obtain ⟨c, p, d⟩ := ih op.opc [op.rule] s' (fun r hm => by rw [List.mem_singleton.mp hm]; exact hop) a
        exact ⟨c, op :: p, congrArg (op :: ·) d⟩
      | err => exact ⟨a, [op], rfl⟩
      | panic => exact ⟨a, [op], rfl⟩

theorem drain_ends (hA : A.Frames I R view) (q : List Operation) (hR : ∀ o ∈ q, R o.rule) (s : σ) (hs : I s) :
    (SC.drain A q s).Ends I q := by
  unfold SC.drain
  cases A.kind with
  | batch =>
    cases q with
    | nil => exact batchLoop_ends hA _ hR _ _ _ (by simp) hs
    | cons op q => exact batchLoop_ends hA _ hR _ _ _ (by simp) hs
  | simple => exact flushSimple_ends hA q hR s hs
  | other => exact ⟨hs, [], rfl⟩

theorem held_touched (q : List Operation) (hx : ∃ o ∈ q, o.rule = x) : ∀ b b', held x b q = held x b' q := by
  induction q with
  | nil => obtain ⟨o, ho, -⟩ := hx; cases ho
  | cons o q ih =>
    intro b b'
    by_cases h : ∃ o ∈ q, o.rule = x
    · obtain ⟨c, r⟩ := o
      cases c <;> exact ih h _ _
    · obtain ⟨p, hp, hpx⟩ := hx
      rcases List.mem_cons.mp hp with rfl | hp
      · obtain ⟨c, r⟩ := p
        have hpx : r = x := hpx
        subst hpx
        cases c <;> simp [held]
      · exact absurd ⟨p, hp, hpx⟩ h

/-- The enforcer after any failures: what the queued operations about `x`, if there are any, leave of `x` is what the
model has. -/
structure Enforcer.Settles (build : Str → Res Stage) (I : σ → Prop) (R : Rule → Prop) (g : GoMap Str Nat)
    (A : Adapter σ) (e : Enforcer σ) : Prop where
  made : Made build e.model
  listens : e.Listens
  adapter : e.adapter = A
  inv : I e.st
  queue : ∀ o ∈ e.sc.q, R o.rule
  rules : ∀ y ∈ e.model.rules, R y
  last : ∀ x, (∃ o ∈ e.sc.q, o.rule = x) → ∀ b, (x ∈ e.model.rules ↔ held x b e.sc.q = true)
  defs : e.model.gDefs = g

namespace Enforcer

variable {build : Str → Res Stage} {g : GoMap Str Nat}

/-- A flush with any outcome. -/
theorem Settles.flush {e : Enforcer σ} (hA : A.Frames I R view) (h : Settles build I R g A e) :
    Settles build I R g A e.flush.e := by
  have hA' : e.adapter.Frames I R view := by rw [h.adapter]; exact hA
  obtain ⟨a, p, c⟩ := drain_ends hA' e.sc.q h.queue e.st h.inv
  have hsub : ∀ o ∈ (SC.drain e.adapter e.sc.q e.st).q, o ∈ e.sc.q := fun o ho => by
    rw [c]; exact List.mem_append_right _ ho
  refine ⟨h.made, h.listens, h.adapter, a, fun o ho => h.queue o (hsub o ho), h.rules, ?_, h.defs⟩
  rintro x ⟨o, ho, hx⟩ b
  show x ∈ e.model.rules ↔ held x b (SC.drain e.adapter e.sc.q e.st).q = true
  have h1 : held x b e.sc.q = held x (held x b p) (SC.drain e.adapter e.sc.q e.st).q :=
    (congrArg (held x b) c).trans (held_append x p _ b)
  rw [h.last x ⟨o, hsub o ho, hx⟩ b, h1,
    held_touched (SC.drain e.adapter e.sc.q e.st).q ⟨o, ho, hx⟩ (held x b p) b]

theorem Settles.queued {e : Enforcer σ} (h : Settles build I R g A e) {r : Rule} (hR : R r)
    {y : Model × Res Bool × Option ModEvent} (hy : Change build e.model r y) (ev : ModEvent) (hev : y.2.2 = some ev) (w : Int) :
    Settles build I R g A { e with model := y.1, sc := { e.sc with q := e.sc.q ++ [ev.op], wait := w } } := by
  have hrule : ev.op.rule = r := by
    have := hy.event ev hev
    cases ev <;> exact this
  refine ⟨hy.made, h.listens, h.adapter, h.inv, ?_, ?_, ?_, hy.defs.trans h.defs⟩
  · intro o ho
    rcases List.mem_append.mp ho with ho | ho
    · exact h.queue o ho
    · rw [List.mem_singleton.mp ho, hrule]; exact hR
  · intro z hz
    rcases replay_from z _ _ ((hy.rules z).mp hz) with h1 | ⟨e', he, rfl⟩
    · exact h.rules z (of_decide_eq_true h1)
    · rw [hy.event e' he]; exact hR
  · intro x hx b
    show x ∈ y.1.rules ↔ held x b (e.sc.q ++ [ev.op]) = true
    rw [hy.rules x, hev, held_append]
    by_cases hq : ∃ o ∈ e.sc.q, o.rule = x
    · have h0 : decide (x ∈ e.model.rules) = held x b e.sc.q := by
        rw [Bool.eq_iff_iff, decide_eq_true_eq]; exact h.last x hq b
      rw [h0]
      cases ev <;> rfl
    · have hxr : ev.op.rule = x := by
        obtain ⟨o, ho, hx⟩ := hx
        rcases List.mem_append.mp ho with ho | ho
        · exact absurd ⟨o, ho, hx⟩ hq
        · rw [← List.mem_singleton.mp ho]; exact hx
      rw [held_touched [ev.op] ⟨_, List.mem_singleton.mpr rfl, hxr⟩ (held x b e.sc.q) (decide (x ∈ e.model.rules))]
      cases ev <;> rfl

theorem Settles.withModel {e : Enforcer σ} (hA : A.Frames I R view) (h : Settles build I R g A e) {r : Rule}
    (hR : R r) {y : Model × Res Bool × Option ModEvent} (hy : Change build e.model r y) :
    Settles build I R g A (e.withModel y).e := by
  cases hev : y.2.2 with
  | none =>
    have hs : ∀ z, z ∈ y.1.rules ↔ z ∈ e.model.rules := fun z => by rw [hy.rules z, hev]; simp [replay]
    simp only [Enforcer.withModel, hev, onEvent_none]
    exact ⟨hy.made, h.listens, h.adapter, h.inv, h.queue, fun z hz => h.rules z ((hs z).mp hz),
      fun x hx b => (hs x).trans (h.last x hx b), hy.defs.trans h.defs⟩
  | some ev =>
    simp only [Enforcer.withModel, hev]
    rcases onEvent_some { e with model := y.1 } h.listens ev with ⟨a, _⟩ | ⟨a, _⟩
    · rw [a]
      have hq := h.queued hR hy ev hev 0
      exact ⟨hq.made, hq.listens, hq.adapter, hq.inv, hq.queue, hq.rules, hq.last, hq.defs⟩
    · rw [a]
      exact (h.queued hR hy ev hev (e.sc.wait - 1)).flush hA

theorem Settles.settings {e : Enforcer σ} (h : Settles build I R g A e) (b : Bool) (w : Int) :
    Settles build I R g A { e with sc := { e.sc with autosave := b, wait := w } } :=
  ⟨h.made, h.listens, h.adapter, h.inv, h.queue, h.rules, h.last, h.defs⟩

theorem Settles.step (hb : ∀ e s, build e = .ok s → s.Binary) {m0 : Model} (hF : ∀ y, R y → m0.Fits y)
    {e : Enforcer σ} (hA : A.Frames I R view) (h : Settles build I R m0.gDefs A e) (op : Op)
    (hR : ∀ r ∈ op.rules, R r) : Settles build I R m0.gDefs A (e.step op).1 := by
  have hadd : ∀ (e : Enforcer σ) r, R r → Settles build I R m0.gDefs A e → Settles build I R m0.gDefs A (e.addRule r).e :=
    fun e r hr h => h.withModel hA hr (change_add hb h.made (fits_of_gDefs h.defs (hF r hr)))
  have hrem : ∀ (e : Enforcer σ) r, R r → Settles build I R m0.gDefs A e →
      Settles build I R m0.gDefs A (e.removeRule r).e :=
    fun e r hr h => h.withModel hA hr (change_remove hb h.made (fits_of_gDefs h.defs (hF r hr)))
  have hQ : ∀ a b : List (Call × Res Unit), True → True ∧ True := fun _ _ _ => ⟨trivial, trivial⟩
  cases op with
  | add r => exact hadd e r (hR r (by simp [Op.rules])) h
  | remove r => exact hrem e r (hR r (by simp [Op.rules])) h
  | addMany rs =>
    exact TracksAt.many (P := Settles build I R m0.gDefs A) (Q := fun _ => True) hQ rs
      (fun e r hr h _ => hadd e r (hR r hr) h) (fun e b h => h.settings b e.sc.wait) (fun e h _ => h.flush hA) h trivial
  | removeMany rs =>
    exact TracksAt.many (P := Settles build I R m0.gDefs A) (Q := fun _ => True) hQ rs
      (fun e r hr h _ => hrem e r (hR r hr) h) (fun e b h => h.settings b e.sc.wait) (fun e h _ => h.flush hA) h trivial
  | flush => exact h.flush hA
  | autosave b => exact h.settings b e.sc.wait
  | wait i => exact h.settings e.sc.autosave (e.sc.wait + i)

theorem Settles.run (hb : ∀ e s, build e = .ok s → s.Binary) {m0 : Model} (hF : ∀ y, R y → m0.Fits y)
    (hA : A.Frames I R view) (H : List Op) : ∀ {e : Enforcer σ}, Settles build I R m0.gDefs A e →
    (∀ op ∈ H, ∀ r ∈ op.rules, R r) → Settles build I R m0.gDefs A (e.run H).1 := by
  induction H with
  | nil => exact fun h _ => h
  | cons op H ih =>
    intro e h hR
    exact ih (h.step hb hF hA op (hR op List.mem_cons_self)) (fun o ho => hR o (List.mem_cons_of_mem _ ho))

/-- Saving brings every rule back into step. -/
theorem Settles.save {e : Enforcer σ} (hS : A.Saves I R view) (h : Settles build I R g A e)
    (hr : e.savePolicy.res = .ok ()) (x : Rule) :
    TracksAt build I R view x g A e.savePolicy.e ∧ (view e.savePolicy.e.st x = true ↔ x ∈ e.model.rules) := by
  have hs : e.adapter.Saves I R view := by rw [h.adapter]; exact hS
  obtain ⟨a, b⟩ := hs e.st e.model.rules (e.adapter.save e.st e.model.rules).1 h.inv h.rules (Prod.ext rfl hr)
  refine ⟨⟨h.made, h.listens, h.adapter, a, h.queue, h.rules, ?_, h.defs⟩, b x⟩
  show x ∈ e.model.rules ↔ held x (view (e.adapter.save e.st e.model.rules).1 x) e.sc.q = true
  by_cases hq : ∃ o ∈ e.sc.q, o.rule = x
  · exact h.last x hq _
  · rw [held_apart _ fun o ho hx => hq ⟨o, ho, hx⟩]
    exact (b x).symm

end Enforcer

end Fastac
