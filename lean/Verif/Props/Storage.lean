import Verif.Lemmas.Storage
import Verif.Props.Model

/-!
# C35–C42: storage controller and storage calls of the enforcer
-/

namespace Fastac

open Model

variable {σ : Type} {I : σ → Prop} {R : Rule → Prop}

/-! ## C35 -/

/-- **C35.** For every adapter behaviour, controller and queue: if `Flush` returns nil then every call the
adapter got succeeded, the calls amount to exactly the queued operations, in order and each once (for a
batch adapter: the concatenation of the batches), they are of the adapter's kind, and the queue is empty. -/
theorem c35_flush (A : Adapter σ) (c : SC) (s : σ) (h : (c.flush A s).2.res = .ok ()) :
    opsOf (c.flush A s).2.trace = c.q ∧ (∀ x ∈ (c.flush A s).2.trace, x.2 = .ok ()) ∧
    (c.flush A s).1.q = [] ∧
    (A.kind = .batch → ∀ x ∈ (c.flush A s).2.trace, ∃ o rs, x.1 = .batch o rs) ∧
    (A.kind = .simple → ∀ x ∈ (c.flush A s).2.trace, ∃ o r, x.1 = .one o r) := by
  have hk : A.kind ≠ .other := by
    intro hk
    simp [SC.flush, SC.drain, hk] at h
  have hg := drain_good A c.q s hk
  have hB : ∀ q cur rules s, ∀ x ∈ (SC.batchLoop A cur rules q s).trace, ∃ o rs, x.1 = .batch o rs := by
    intro q
    induction q with
    | nil =>
      intro cur rules s x hx
      simp only [SC.batchLoop] at hx
      split at hx
      · simp only [List.mem_singleton] at hx; subst hx; exact ⟨_, _, rfl⟩
      · simp at hx
    | cons op q ih =>
      intro cur rules s x hx
      simp only [SC.batchLoop] at hx
      split at hx
      · exact ih _ _ _ x hx
      · split at hx
        · simp only [FlushOut.after, List.mem_cons] at hx
          rcases hx with rfl | hx
          · exact ⟨_, _, rfl⟩
          · exact ih _ _ _ x hx
        · simp only [List.mem_singleton] at hx; subst hx; exact ⟨_, _, rfl⟩
        · simp only [List.mem_singleton] at hx; subst hx; exact ⟨_, _, rfl⟩
  have hS : ∀ q s, ∀ x ∈ (SC.flushSimple A q s).trace, ∃ o r, x.1 = .one o r := by
    intro q
    induction q with
    | nil => intro s x hx; simp [SC.flushSimple] at hx
    | cons op q ih =>
      intro s x hx
      simp only [SC.flushSimple] at hx
      split at hx
      · simp only [FlushOut.after, List.mem_cons] at hx
        rcases hx with rfl | hx
        · exact ⟨_, _, rfl⟩
        · exact ih _ x hx
      · simp only [List.mem_singleton] at hx; subst hx; exact ⟨_, _, rfl⟩
      · simp only [List.mem_singleton] at hx; subst hx; exact ⟨_, _, rfl⟩
  rcases hg with ⟨_, h2, h3, h4⟩ | ⟨h1, _⟩
  · refine ⟨h4, h2, h3, ?_, ?_⟩
    · intro hk' x hx
      simp only [SC.flush, SC.drain, hk', SC.batchFlush] at hx
      split at hx <;> exact hB _ _ _ _ x hx
    · intro hk' x hx
      simp only [SC.flush, SC.drain, hk'] at hx
      exact hS _ _ x hx
  · exact absurd h h1

/-! ## C36 -/

/-- **C36.** For every adapter behaviour, controller and queue, whether or not the flush succeeds: each
batch passed to a batch adapter is non-empty (and of one kind, by its type), and two consecutive batches
are of different kind. -/
theorem c36_batches (A : Adapter σ) (c : SC) (s : σ) (hk : A.kind = .batch) :
    (∀ x ∈ (c.flush A s).2.trace, ∃ o rs, x.1 = .batch o rs ∧ rs ≠ []) ∧
    ∀ pre o rs r o' rs' r' post,
      (c.flush A s).2.trace = pre ++ (.batch o rs, r) :: (.batch o' rs', r') :: post → o ≠ o' := by
  -- the trace of the loop starts with a batch of the current kind
  have key : ∀ q cur rules s, (rules = [] → ∃ op q', q = op :: q' ∧ op.opc = cur) →
      (∃ rs r t, (SC.batchLoop A cur rules q s).trace = (.batch cur rs, r) :: t) ∧
      (∀ x ∈ (SC.batchLoop A cur rules q s).trace, ∃ o rs, x.1 = .batch o rs ∧ rs ≠ []) ∧
      ∀ pre o rs r o' rs' r' post, (SC.batchLoop A cur rules q s).trace =
        pre ++ (.batch o rs, r) :: (.batch o' rs', r') :: post → o ≠ o' := by
    intro q
    induction q with
    | nil =>
      intro cur rules s hr
      have hne : rules ≠ [] := fun e => by obtain ⟨_, _, h, _⟩ := hr e; cases h
      have hl : rules.length > 0 := List.length_pos_iff.mpr hne
      simp only [SC.batchLoop, hl, if_true]
      refine ⟨⟨rules, _, [], rfl⟩, ?_, ?_⟩
      · intro x hx
        simp only [List.mem_singleton] at hx; subst hx; exact ⟨_, _, rfl, hne⟩
      · intro pre o rs r o' rs' r' post h
        have := congrArg List.length h
        simp only [List.length_append, List.length_cons, List.length_nil] at this
        omega
    | cons op q ih =>
      intro cur rules s hr
      simp only [SC.batchLoop]
      split
      · exact ih _ _ _ (by simp)
      · rename_i hop
        have hne : rules ≠ [] := by
          intro e
          obtain ⟨_, _, h, h'⟩ := hr e
          cases h
          exact hop h'.symm
        split
        · rename_i s' _
          obtain ⟨⟨rs1, r1, t1, e1⟩, h2, h3⟩ := ih op.opc [op.rule] s' (by simp)
          refine ⟨⟨rules, _, _, rfl⟩, ?_, ?_⟩
          · intro x hx
            simp only [FlushOut.after, List.mem_cons] at hx
            rcases hx with rfl | hx
            · exact ⟨_, _, rfl, hne⟩
            · exact h2 x hx
          · intro pre o rs r o' rs' r' post h
            simp only [FlushOut.after] at h
            cases pre with
            | nil =>
              simp only [List.nil_append, List.cons.injEq, Prod.mk.injEq, Call.batch.injEq] at h
              rw [e1] at h
              simp only [List.cons.injEq, Prod.mk.injEq, Call.batch.injEq] at h
              intro e
              exact hop (by rw [h.1.1.1, e, ← h.2.1.1.1])
            | cons p pre =>
              simp only [List.cons_append, List.cons.injEq] at h
              exact h3 _ _ _ _ _ _ _ _ h.2
        · refine ⟨⟨rules, _, [], rfl⟩, ?_, ?_⟩
          · intro x hx
            simp only [List.mem_singleton] at hx; subst hx; exact ⟨_, _, rfl, hne⟩
          · intro pre o rs r o' rs' r' post h
            have := congrArg List.length h
            simp only [List.length_append, List.length_cons, List.length_nil] at this
            omega
        · refine ⟨⟨rules, _, [], rfl⟩, ?_, ?_⟩
          · intro x hx
            simp only [List.mem_singleton] at hx; subst hx; exact ⟨_, _, rfl, hne⟩
          · intro pre o rs r o' rs' r' post h
            have := congrArg List.length h
            simp only [List.length_append, List.length_cons, List.length_nil] at this
            omega
  simp only [SC.flush, SC.drain, hk, SC.batchFlush]
  split
  · simp [SC.batchLoop]
  · rename_i op q _
    exact (key (op :: q) op.opc [] s (fun _ => ⟨op, q, rfl, rfl⟩)).2

/-! ## C37 -/

theorem addRule_replay {build : Str → Res Stage} (hb : ∀ e s, build e = .ok s → s.Binary) {m : Model}
    (hm : Made build m) {r : Rule} (hf : m.Fits r) (x : Rule) :
    x ∈ (m.addRule r).1.rules ↔ replay x (decide (x ∈ m.rules)) (m.addRule r).2.2.toList = true := by
  have := c34_replay_partial hb [.add r] hm (fun op hop => by
    simp only [List.mem_singleton] at hop; subst hop; exact ⟨r, rfl, hf⟩) x
  simpa [Model.run, Model.step] using this

theorem removeRule_replay {build : Str → Res Stage} (hb : ∀ e s, build e = .ok s → s.Binary) {m : Model}
    (hm : Made build m) {r : Rule} (hf : m.Fits r) (x : Rule) :
    x ∈ (m.removeRule r).1.rules ↔ replay x (decide (x ∈ m.rules)) (m.removeRule r).2.2.toList = true := by
  have := c34_replay_partial hb [.remove r] hm (fun op hop => by
    simp only [List.mem_singleton] at hop; subst hop; exact ⟨r, rfl, hf⟩) x
  simpa [Model.run, Model.step] using this

theorem addRule_event {m : Model} {r : Rule} {ev : ModEvent} (h : (m.addRule r).2.2 = some ev) : r = ev.rule := by
  match r with
  | [] => cases h
  | [] :: _ => cases h
  | (c :: cs) :: f =>
    have : (m.addRule ((c :: cs) :: f)).2.2 =
      if (m.addRule ((c :: cs) :: f)).2.1 = .ok true then some (.added ((c :: cs) :: f)) else none := rfl
    rw [this] at h
    split at h
    · cases h; rfl
    · cases h

theorem removeRule_event {m : Model} {r : Rule} {ev : ModEvent} (h : (m.removeRule r).2.2 = some ev) :
    r = ev.rule := by
  match r with
  | [] => cases h
  | [] :: _ => cases h
  | (c :: cs) :: f =>
    have : (m.removeRule ((c :: cs) :: f)).2.2 =
      if (m.removeRule ((c :: cs) :: f)).2.1 = .ok true then some (.removed ((c :: cs) :: f)) else none := rfl
    rw [this] at h
    split at h
    · cases h; rfl
    · cases h

/-- What the histories of C37 preserve. -/
structure Enforcer.Tracks (build : Str → Res Stage) (I : σ → Prop) (R : Rule → Prop)
    (view : σ → Rule → Bool) (g : GoMap Str Nat) (e : Enforcer σ) : Prop where
  made : Made build e.model
  listens : e.Listens
  keeps : e.adapter.Keeps I R view
  sync : e.Sync I R view
  defs : e.model.gDefs = g

namespace Enforcer

variable {view : σ → Rule → Bool}

theorem Tracks.flush {build : Str → Res Stage} {g : GoMap Str Nat} {e : Enforcer σ}
    (h : Tracks build I R view g e) (ht : AllOk e.flush.trace) : Tracks build I R view g e.flush.e :=
  ⟨h.made, h.listens, h.keeps, flush_sync h.keeps h.sync ht, h.defs⟩

theorem Tracks.addRule {build : Str → Res Stage} (hb : ∀ e s, build e = .ok s → s.Binary)
    {m0 : Model} {e : Enforcer σ} (h : Tracks build I R view m0.gDefs e) {r : Rule}
    (hf : m0.Fits r) (hR : R r) (ht : AllOk (e.addRule r).trace) : Tracks build I R view m0.gDefs (e.addRule r).e := by
  have hf' : e.model.Fits r := fits_of_gDefs h.defs hf
  obtain ⟨a, b, c, d, _⟩ := withModel_frame e (e.model.addRule r)
  refine ⟨?_, ⟨c.trans h.listens.1, d.trans h.listens.2⟩, ?_, ?_, ?_⟩
  · rw [show (e.addRule r).e.model = _ from a]; exact h.made.add r hf'
  · rw [show (e.addRule r).e.adapter = _ from b]; exact h.keeps
  · exact withModel_sync h.keeps h.sync h.listens (addRule_replay hb h.made hf')
      (fun ev hev => addRule_event hev ▸ hR) ht
  · rw [show (e.addRule r).e.model = _ from a, gDefs_add]; exact h.defs

theorem Tracks.removeRule {build : Str → Res Stage} (hb : ∀ e s, build e = .ok s → s.Binary)
    {m0 : Model} {e : Enforcer σ} (h : Tracks build I R view m0.gDefs e) {r : Rule}
    (hf : m0.Fits r) (hR : R r) (ht : AllOk (e.removeRule r).trace) : Tracks build I R view m0.gDefs (e.removeRule r).e := by
  have hf' : e.model.Fits r := fits_of_gDefs h.defs hf
  obtain ⟨a, b, c, d, _⟩ := withModel_frame e (e.model.removeRule r)
  refine ⟨?_, ⟨c.trans h.listens.1, d.trans h.listens.2⟩, ?_, ?_, ?_⟩
  · rw [show (e.removeRule r).e.model = _ from a]; exact h.made.remove r hf'
  · rw [show (e.removeRule r).e.adapter = _ from b]; exact h.keeps
  · exact withModel_sync h.keeps h.sync h.listens (removeRule_replay hb h.made hf')
      (fun ev hev => removeRule_event hev ▸ hR) ht
  · rw [show (e.removeRule r).e.model = _ from a, gDefs_remove]; exact h.defs

theorem Tracks.each {build : Str → Res Stage} {m0 : Model}
    {call : Enforcer σ → Rule → Out σ Bool}
    (hc : ∀ (e : Enforcer σ) r, Tracks build I R view m0.gDefs e → m0.Fits r → R r → AllOk (call e r).trace →
      Tracks build I R view m0.gDefs (call e r).e) (rs : List Rule) (hf : ∀ r ∈ rs, m0.Fits r) (hR : ∀ r ∈ rs, R r) :
    ∀ {e : Enforcer σ}, Tracks build I R view m0.gDefs e → AllOk (Enforcer.each call e rs).trace →
      Tracks build I R view m0.gDefs (Enforcer.each call e rs).e := by
  induction rs with
  | nil => intro e h _; exact h
  | cons r rs ih =>
    intro e h
    simp only [Enforcer.each]
    split
    · intro ht
      have ht' := AllOk.append.mp ht
      exact ih (fun x hx => hf x (by simp [hx])) (fun x hx => hR x (by simp [hx]))
        (hc e r h (hf r (by simp)) (hR r (by simp)) ht'.1) ht'.2
    · exact hc e r h (hf r (by simp)) (hR r (by simp))
    · exact hc e r h (hf r (by simp)) (hR r (by simp))

theorem Tracks.many {build : Str → Res Stage} {m0 : Model}
    {call : Enforcer σ → Rule → Out σ Bool}
    (hc : ∀ (e : Enforcer σ) r, Tracks build I R view m0.gDefs e → m0.Fits r → R r → AllOk (call e r).trace →
      Tracks build I R view m0.gDefs (call e r).e) (rs : List Rule) (hf : ∀ r ∈ rs, m0.Fits r) (hR : ∀ r ∈ rs, R r)
    {e : Enforcer σ} (h : Tracks build I R view m0.gDefs e) (ht : AllOk (Enforcer.many call e rs).trace) :
    Tracks build I R view m0.gDefs (Enforcer.many call e rs).e := by
  have hset : ∀ (e : Enforcer σ) b, Tracks build I R view m0.gDefs e →
      Tracks build I R view m0.gDefs (e.setAutosave b) :=
    fun e b h => ⟨h.made, h.listens, h.keeps, ⟨h.sync.inv, h.sync.queue, h.sync.rules⟩, h.defs⟩
  unfold Enforcer.many at ht ⊢
  split
  · rename_i ha
    rw [if_pos ha] at ht
    have ht' := AllOk.append.mp ht
    have h1 := Tracks.each hc rs hf hR (hset e false h) ht'.1
    exact (hset _ true h1).flush ht'.2
  · rename_i ha
    rw [if_neg ha] at ht
    exact Tracks.each hc rs hf hR h ht

theorem Tracks.step {build : Str → Res Stage} (hb : ∀ e s, build e = .ok s → s.Binary)
    {m0 : Model} {e : Enforcer σ} (h : Tracks build I R view m0.gDefs e) (op : Op)
    (hf : ∀ r ∈ op.rules, m0.Fits r) (hR : ∀ r ∈ op.rules, R r)
    (ht : AllOk (e.step op).2) : Tracks build I R view m0.gDefs (e.step op).1 := by
  cases op with
  | add r => exact h.addRule hb (hf r (by simp [Op.rules])) (hR r (by simp [Op.rules])) ht
  | remove r => exact h.removeRule hb (hf r (by simp [Op.rules])) (hR r (by simp [Op.rules])) ht
  | addMany rs => exact Tracks.many (fun e r h hf hR ht => h.addRule hb hf hR ht) rs hf hR h ht
  | removeMany rs => exact Tracks.many (fun e r h hf hR ht => h.removeRule hb hf hR ht) rs hf hR h ht
  | flush => exact h.flush ht
  | autosave b => exact ⟨h.made, h.listens, h.keeps, ⟨h.sync.inv, h.sync.queue, h.sync.rules⟩, h.defs⟩
  | wait i => exact ⟨h.made, h.listens, h.keeps, ⟨h.sync.inv, h.sync.queue, h.sync.rules⟩, h.defs⟩

theorem Tracks.run {build : Str → Res Stage} (hb : ∀ e s, build e = .ok s → s.Binary)
    {m0 : Model} (H : List Op) : ∀ {e : Enforcer σ}, Tracks build I R view m0.gDefs e →
    (∀ op ∈ H, ∀ r ∈ op.rules, m0.Fits r) → (∀ op ∈ H, ∀ r ∈ op.rules, R r) → AllOk (e.run H).2 → Tracks build I R view m0.gDefs (e.run H).1 := by
  induction H with
  | nil => intro e h _ _ _; exact h
  | cons op H ih =>
    intro e h hf hR ht
    simp only [Enforcer.run] at ht ⊢
    have ht' := AllOk.append.mp ht
    exact ih (h.step hb op (hf op (by simp)) (hR op (by simp)) ht'.1) (fun o ho => hf o (by simp [ho]))
      (fun o ho => hR o (by simp [ho])) ht'.2

/-- The premises of C37: the model results from calls (matchers with at most two alternatives per stage),
the adapter keeps a rule set (in states of `I`, for rules of `R`), the controller listens, nothing is queued
and store and model agree. -/
structure Ready (build : Str → Res Stage) (I : σ → Prop) (R : Rule → Prop) (view : σ → Rule → Bool)
    (e : Enforcer σ) : Prop where
  binary : ∀ e s, build e = .ok s → s.Binary
  made : Made build e.model
  hooked : e.hooked = true
  enabled : e.sc.enabled = true
  keeps : e.adapter.Keeps I R view
  state : I e.st
  queue : e.sc.q = []
  agree : e.Agree view

theorem Ready.tracks {build : Str → Res Stage} {e : Enforcer σ} (h : Ready build I R view e) :
    Tracks build I R view e.model.gDefs e :=
  ⟨h.made, ⟨h.hooked, h.enabled⟩, h.keeps,
    ⟨h.state, by rw [h.queue]; simp, fun x => by rw [h.queue]; exact (h.agree x).symm⟩, rfl⟩

theorem Tracks.agree {build : Str → Res Stage} {g : GoMap Str Nat} {e : Enforcer σ}
    (h : Tracks build I R view g e) (hq : e.sc.q = []) : e.Agree view := by
  intro x
  have := h.sync.rules x
  rw [hq] at this
  exact this.symm

end Enforcer

open Enforcer in
/-- **C37**, the part that holds: after any history of `AddRule`, `RemoveRule`, `AddRules`, `RemoveRules`,
`Flush`, autosave switches and waits, with rules that fit the model and that the adapter can hold, in which the adapter reported no
failure, a `Flush` that returns nil makes store and model agree again.  Missing: failures of the adapter in
between (operations get lost, `c38_fails`) and rules that do not fit the model. -/
theorem c37_mirror_partial {build : Str → Res Stage} {e : Enforcer σ}
    (h : Ready build I R view e) (H : List Enforcer.Op) (hf : ∀ op ∈ H, ∀ r ∈ op.rules, e.model.Fits r)
    (hR : ∀ op ∈ H, ∀ r ∈ op.rules, R r)
    (ht : ∀ c ∈ (e.run H).2, c.2 = .ok ()) (hr : (e.run H).1.flush.res = .ok ()) :
    (e.run H).1.flush.e.Agree view := by
  have h1 := h.tracks.run h.binary H hf hR ht
  obtain ⟨_, h2, h3, _⟩ := c35_flush (e.run H).1.adapter (e.run H).1.sc (e.run H).1.st hr
  exact (h1.flush h2).agree h3

open Enforcer in
/-- **C37**, autosave, the part that holds: after such a history, with autosave on and no wait pending, an
`AddRule` or `RemoveRule` that returns true leaves store and model agreeing at once; so does one that
returns false if nothing was queued before.  Missing: see `c37_fails`. -/
theorem c37_autosave_partial {build : Str → Res Stage} {e : Enforcer σ}
    (h : Ready build I R view e) (H : List Enforcer.Op) (hf : ∀ op ∈ H, ∀ r ∈ op.rules, e.model.Fits r)
    (hR : ∀ op ∈ H, ∀ r ∈ op.rules, R r)
    (ht : ∀ c ∈ (e.run H).2, c.2 = .ok ()) (ha : (e.run H).1.sc.autosave = true)
    (hw : (e.run H).1.sc.wait ≤ 0) (r : Rule) (hfr : e.model.Fits r) (hRr : R r)
    (b : Bool)
    (hb : b = true ∨ (e.run H).1.sc.q = []) :
    (((e.run H).1.addRule r).res = .ok b → ((e.run H).1.addRule r).e.Agree view) ∧
    (((e.run H).1.removeRule r).res = .ok b → ((e.run H).1.removeRule r).e.Agree view) := by
  have h1 := h.tracks.run h.binary H hf hR ht
  generalize (e.run H).1 = e1 at h1 ha hw hb
  have key : ∀ x : Model × Res Bool × Option ModEvent, (x.2.1 = .ok true → ∃ ev, x.2.2 = some ev) →
      (e1.withModel x).res = .ok b → AllOk (e1.withModel x).trace ∧ (e1.withModel x).e.sc.q = [] := by
    intro x hx hres
    simp only [Enforcer.withModel] at hres ⊢
    cases hev : x.2.2 with
    | none =>
      rw [hev] at hres
      simp only [onEvent_none, if_true] at hres ⊢
      rcases hb with hb | hb
      · subst hb
        obtain ⟨ev, h⟩ := hx hres
        rw [hev] at h
        cases h
      · exact ⟨fun c hc => (by cases hc), hb⟩
    | some ev =>
      rw [hev] at hres
      rcases onEvent_some { e1 with model := x.1 } h1.listens ev with ⟨a, hn⟩ | ⟨a, _⟩
      · exact absurd ⟨ha, (by have : e1.sc.wait ≤ 0 := hw
                              show e1.sc.wait ≤ 1
                              omega)⟩ hn
      · rw [a] at hres ⊢
        simp only at hres ⊢
        split at hres
        · rename_i hok
          obtain ⟨_, h2, h3, _⟩ := c35_flush _ _ _ hok
          exact ⟨h2, h3⟩
        · cases hres
  constructor
  · intro hres
    have : (e1.model.addRule r).2.1 = .ok true → ∃ ev, (e1.model.addRule r).2.2 = some ev := by
      intro h
      match r with
      | [] => cases h
      | [] :: _ => cases h
      | (c :: cs) :: f =>
        refine ⟨.added ((c :: cs) :: f), ?_⟩
        have : (e1.model.addRule ((c :: cs) :: f)).2.2 =
          if (e1.model.addRule ((c :: cs) :: f)).2.1 = .ok true then some (.added ((c :: cs) :: f)) else none := rfl
        rw [this, if_pos h]
    obtain ⟨a, b⟩ := key (e1.model.addRule r) this hres
    exact (h1.addRule h.binary hfr hRr a).agree b
  · intro hres
    have : (e1.model.removeRule r).2.1 = .ok true → ∃ ev, (e1.model.removeRule r).2.2 = some ev := by
      intro h
      match r with
      | [] => cases h
      | [] :: _ => cases h
      | (c :: cs) :: f =>
        refine ⟨.removed ((c :: cs) :: f), ?_⟩
        have : (e1.model.removeRule ((c :: cs) :: f)).2.2 =
          if (e1.model.removeRule ((c :: cs) :: f)).2.1 = .ok true then some (.removed ((c :: cs) :: f)) else none := rfl
        rw [this, if_pos h]
    obtain ⟨a, b⟩ := key (e1.model.removeRule r) this hres
    exact (h1.removeRule h.binary hfr hRr a).agree b

/-! ## C38 -/

/-- **C38**, what the code does: if `Flush` fails, the calls before the failing one succeeded and delivered
a prefix of the queue; the operations of the failing call and, for a batch adapter, at most one operation
after them are gone, the rest stays queued.  For an adapter of neither kind everything stays queued. -/
theorem c38_failing_flush_partial (A : Adapter σ) (c : SC) (s : σ) (h : (c.flush A s).2.res ≠ .ok ()) :
    (A.kind = .other ∧ (c.flush A s).1.q = c.q ∧ (c.flush A s).2.trace = []) ∨
    ∃ done call lost, (c.flush A s).2.trace = done ++ [(call, (c.flush A s).2.res)] ∧
      (∀ x ∈ done, x.2 = .ok ()) ∧ lost.length ≤ (if A.kind = .batch then 1 else 0) ∧
      c.q = opsOf done ++ call.ops ++ lost ++ (c.flush A s).1.q := by
  cases hk : A.kind with
  | other => left; simp [SC.flush, SC.drain, hk]
  | batch =>
    right
    have := batchFlush_good A c.q s
    have e : SC.drain A c.q s = SC.batchFlush A c.q s := by simp [SC.drain, hk]
    simp only [SC.flush, e] at h ⊢
    rcases this with ⟨h1, _⟩ | ⟨_, done, call, lost, h2⟩
    · exact absurd h1 h
    · exact ⟨done, call, lost, h2⟩
  | simple =>
    right
    have := flushSimple_good A c.q s
    have e : SC.drain A c.q s = SC.flushSimple A c.q s := by simp [SC.drain, hk]
    simp only [SC.flush, e] at h ⊢
    rcases this with ⟨h1, _⟩ | ⟨_, done, call, lost, h2⟩
    · exact absurd h1 h
    · exact ⟨done, call, lost, h2⟩

/-! ## C39 -/

theorem withModel_quiet (e : Enforcer σ) (he : (e.hooked && e.sc.enabled) = false)
    (x : Model × Res Bool × Option ModEvent) : e.withModel x = ⟨{ e with model := x.1 }, [], x.2.1⟩ := by
  simp only [Enforcer.withModel]
  cases h : x.2.2 with
  | none => rfl
  | some ev => simp [Enforcer.onEvent, he]

theorem runLoad_quiet (p : LoadProg σ) (d : Model × σ × Res Unit) : ∀ (e : Enforcer σ),
    (e.hooked && e.sc.enabled) = false → d.2.1 = e.st →
    e.runLoad p = ⟨{ e with model := (e.model.load p d).1, st := (e.model.load p d).2.1 }, [],
      (e.model.load p d).2.2⟩ := by
  induction p with
  | done s r => intro e _ _; rfl
  | add rule next ih =>
    intro e he hd
    have hw := withModel_quiet e he (e.model.addRule rule)
    simp only [Enforcer.runLoad, Enforcer.addRule, hw, Model.load]
    cases hr : (e.model.addRule rule).2.1 with
    | ok b =>
      simp only [List.nil_append]
      rw [ih (some b) { e with model := (e.model.addRule rule).1 } he hd]
    | err =>
      simp only [List.nil_append]
      rw [ih none { e with model := (e.model.addRule rule).1 } he hd]
    | panic => simp only [hd]

/-- **C39.** For every enforcer and every adapter (with any sequence of `AddRule` calls during its
`LoadPolicy`, and any outcome, also an error or a panic): `LoadPolicy` changes the model as those `AddRule`
calls alone do, queues nothing, makes no storage call, and leaves the storage switch, the autosave setting
and the wait count as they were. -/
theorem c39_load (e : Enforcer σ) :
    e.loadPolicy.trace = [] ∧ e.loadPolicy.e.sc = e.sc ∧ e.loadPolicy.e.adapter = e.adapter ∧
    e.loadPolicy.e.hooked = e.hooked ∧
    e.loadPolicy.e.model = (e.model.load (e.adapter.load e.st) (e.model, e.st, .panic)).1 ∧
    e.loadPolicy.res = (e.model.load (e.adapter.load e.st) (e.model, e.st, .panic)).2.2 := by
  unfold Enforcer.loadPolicy
  split
  · rename_i he
    rw [runLoad_quiet (e.adapter.load e.st) (e.model, e.st, .panic) (e.setStorage false)
      (by simp [Enforcer.setStorage]) rfl]
    refine ⟨rfl, ?_, rfl, rfl, rfl, rfl⟩
    simp only [Enforcer.setStorage]
    cases h : e.sc
    rw [h] at he
    simp at he ⊢
    exact he
  · rename_i he
    rw [runLoad_quiet (e.adapter.load e.st) (e.model, e.st, .panic) e (by simp at he; simp [he]) rfl]
    exact ⟨rfl, rfl, rfl, rfl, rfl, rfl⟩

/-- **C39**, loading a list of rules: for an adapter that holds a list and stops at the first error, the
model changes as by `AddRule` for each rule up to the first error. -/
theorem c39_load_list (e : Enforcer σ) (rs : List Rule) (r : Res Unit)
    (h : e.adapter.load e.st = LoadProg.ofList e.st r rs) :
    e.loadPolicy.e.model = (Model.each Model.addRule e.model rs).1 ∧
    e.loadPolicy.res = (if (Model.each Model.addRule e.model rs).2.1 = .ok () then r
      else (Model.each Model.addRule e.model rs).2.1) := by
  obtain ⟨_, _, _, _, h1, h2⟩ := c39_load e
  rw [h1, h2, h]
  exact Model.load_ofList e.st r rs e.model _

/-! ## C40 -/

/-- The operations queued for events while the controller listens. -/
def Enforcer.queued (e : Enforcer σ) (evs : List ModEvent) : List Operation :=
  if e.hooked && e.sc.enabled then evs.map ModEvent.op else []

theorem withModel_off (e : Enforcer σ) (ha : e.sc.autosave = false)
    (x : Model × Res Bool × Option ModEvent) :
    e.withModel x = ⟨{ e with model := x.1, sc := { e.sc with q := e.sc.q ++ e.queued x.2.2.toList } }, [], x.2.1⟩ := by
  cases he : (e.hooked && e.sc.enabled) with
  | false => rw [withModel_quiet e he]; simp [Enforcer.queued, he]
  | true =>
    simp only [Enforcer.withModel]
    cases h : x.2.2 with
    | none => simp [Enforcer.onEvent, Enforcer.queued]
    | some ev =>
      simp only [Enforcer.onEvent, he, if_true, SC.addOp, ha, Enforcer.queued]
      simp

theorem each_off {call : Enforcer σ → Rule → Out σ Bool}
    {mc : Model → Rule → Model × Res Bool × Option ModEvent}
    (hc : ∀ e r, call e r = e.withModel (mc e.model r)) (rs : List Rule) : ∀ (e : Enforcer σ),
    e.sc.autosave = false →
    Enforcer.each call e rs =
      ⟨{ e with
          model := (Model.each mc e.model rs).1
          sc := { e.sc with q := e.sc.q ++ e.queued (Model.each mc e.model rs).2.2 } }, [],
        (Model.each mc e.model rs).2.1⟩ := by
  induction rs with
  | nil => intro e _; simp [Enforcer.each, Model.each, Enforcer.queued]
  | cons r rs ih =>
    intro e ha
    have hw := withModel_off e ha (mc e.model r)
    simp only [Enforcer.each, hc, hw, Model.each]
    cases hr : (mc e.model r).2.1 with
    | ok b =>
      simp only [List.nil_append]
      rw [ih { e with
        model := (mc e.model r).1
        sc := { e.sc with q := e.sc.q ++ e.queued (mc e.model r).2.2.toList } } ha]
      simp only [Enforcer.queued]
      split <;> simp
    | err => rfl
    | panic => rfl

/-- The two calls of C40: the enforcer's and the model's for one rule. -/
inductive Both (σ : Type) : (Enforcer σ → List Rule → Out σ Unit) →
    (Model → Rule → Model × Res Bool × Option ModEvent) → Prop
  | add : Both σ Enforcer.addRules Model.addRule
  | remove : Both σ Enforcer.removeRules Model.removeRule

/-- **C40.** For every enforcer, adapter and list of rules, for `AddRules` and `RemoveRules`: the model
afterwards is the one after adding (removing) the rules one by one up to the first error; the autosave and
storage settings are as before.  With autosave off, the changes are queued and the outcome is that of the
single calls.  With autosave on, what is handed to the adapter is a flush of the earlier queue with the
changes; if that flush succeeds, exactly these operations have been stored, nothing stays queued and the
outcome is that of the single calls, otherwise the call panics. -/
theorem c40_many {many : Enforcer σ → List Rule → Out σ Unit}
    {one : Model → Rule → Model × Res Bool × Option ModEvent} (hb : Both σ many one) (e : Enforcer σ)
    (rs : List Rule) :
    let o := many e rs
    let m := Model.each one e.model rs
    let todo := e.sc.q ++ (if e.hooked && e.sc.enabled then m.2.2.map ModEvent.op else [])
    o.e.model = m.1 ∧ o.e.sc.autosave = e.sc.autosave ∧ o.e.sc.enabled = e.sc.enabled ∧
    (e.sc.autosave = false → o.trace = [] ∧ o.e.sc.q = todo ∧ o.res = m.2.1) ∧
    (e.sc.autosave = true →
      (o.res ≠ .panic ∨ (∀ c ∈ o.trace, c.2 = .ok ()) ∧ e.adapter.kind ≠ .other →
        opsOf o.trace = todo ∧ (∀ c ∈ o.trace, c.2 = .ok ()) ∧ o.e.sc.q = [] ∧ o.res = m.2.1)) := by
  have key : ∀ (call : Enforcer σ → Rule → Out σ Bool), (∀ e r, call e r = e.withModel (one e.model r)) →
      let o := Enforcer.many call e rs
      let m := Model.each one e.model rs
      let todo := e.sc.q ++ (if e.hooked && e.sc.enabled then m.2.2.map ModEvent.op else [])
      o.e.model = m.1 ∧ o.e.sc.autosave = e.sc.autosave ∧ o.e.sc.enabled = e.sc.enabled ∧
      (e.sc.autosave = false → o.trace = [] ∧ o.e.sc.q = todo ∧ o.res = m.2.1) ∧
      (e.sc.autosave = true →
        (o.res ≠ .panic ∨ (∀ c ∈ o.trace, c.2 = .ok ()) ∧ e.adapter.kind ≠ .other →
          opsOf o.trace = todo ∧ (∀ c ∈ o.trace, c.2 = .ok ()) ∧ o.e.sc.q = [] ∧ o.res = m.2.1)) := by
    intro call hc
    simp only [Enforcer.many]
    cases ha : e.sc.autosave with
    | false =>
      simp only [Bool.false_eq_true, if_false]
      rw [each_off hc rs e ha]
      exact ⟨rfl, ha, rfl, fun _ => ⟨rfl, rfl, rfl⟩, fun h => absurd h (by simp)⟩
    | true =>
      simp only [if_true]
      rw [each_off hc rs (e.setAutosave false) rfl]
      refine ⟨rfl, rfl, rfl, fun h => absurd h (by simp), fun _ h => ?_⟩
      simp only [List.nil_append] at h ⊢
      have hok : ∀ f : SC × FlushOut σ, f = SC.flush e.adapter
          { e.sc with autosave := true, q := e.sc.q ++ e.queued (Model.each one e.model rs).2.2 } e.st →
          f.2.res = .ok () →
          opsOf f.2.trace = e.sc.q ++ e.queued (Model.each one e.model rs).2.2 ∧
            (∀ c ∈ f.2.trace, c.2 = .ok ()) ∧ f.1.q = [] := by
        intro f hf hres
        subst hf
        obtain ⟨a, b, c, _⟩ := c35_flush _ _ _ hres
        exact ⟨a, b, c⟩
      have hres : (SC.flush e.adapter
          { e.sc with autosave := true, q := e.sc.q ++ e.queued (Model.each one e.model rs).2.2 } e.st).2.res
          = .ok () := by
        rcases h with h | ⟨h, hk⟩
        · apply Classical.byContradiction
          intro hn
          exact h (if_neg hn)
        · exact ((drain_good e.adapter _ e.st hk).ok h).1
      obtain ⟨a, b, c⟩ := hok _ rfl hres
      exact ⟨a, b, c, if_pos hres⟩
  cases hb with
  | add => exact key Enforcer.addRule (fun _ _ => rfl)
  | remove => exact key Enforcer.removeRule (fun _ _ => rfl)

/-! ## C65 -/

/-- The operations arriving one after the other, up to the first one that fails. -/
def SC.addOps (A : Adapter σ) : SC → σ → List Operation → SC × FlushOut σ
  | c, s, [] => (c, ⟨c.q, s, [], .ok ()⟩)
  | c, s, op :: ops =>
    let (c', o) := c.addOp A s op
    match o.res with
    | .ok () =>
      let (c'', o') := SC.addOps A c' o.st ops
      (c'', { o' with trace := o.trace ++ o'.trace })
    | _ => (c', o)

/-- **C65**: with autosave on, after a `Flush` and `AddWait(n)`, the next `n - 1` changes are only queued,
whatever they are; the `n`-th one hands all of them to the adapter, in order, and if this succeeds the wait
is over: nothing is queued or waited for any more, and every later change is handed over at once.  Without
`AddWait`, or with `AddWait(1)`, this happens with each change. -/
theorem c65_wait (A : Adapter σ) (c0 : SC) (s0 : σ) (hf : (c0.flush A s0).2.res = .ok ())
    (ha : c0.autosave = true) (n : Nat) (ops : List Operation) (s : σ) :
    let c := { (c0.flush A s0).1 with wait := (c0.flush A s0).1.wait + n }
    (ops.length < n → (SC.addOps A c s ops).2.trace = [] ∧ (SC.addOps A c s ops).1.q = ops ∧
      (SC.addOps A c s ops).2.res = .ok ()) ∧
    (ops.length = n → 0 < n → (SC.addOps A c s ops).2.res = .ok () →
      opsOf (SC.addOps A c s ops).2.trace = ops ∧ (SC.addOps A c s ops).1.q = [] ∧
      ∀ op s', ((SC.addOps A c s ops).1.addOp A s' op).2.res = .ok () →
        opsOf ((SC.addOps A c s ops).1.addOp A s' op).2.trace = [op] ∧
        ((SC.addOps A c s ops).1.addOp A s' op).1.q = []) := by
  have hq0 : (c0.flush A s0).1.q = [] := (c35_flush A c0 s0 hf).2.2.1
  have hw0 : (c0.flush A s0).1.wait = 0 := by simp only [SC.flush] at hf ⊢; rw [hf]; rfl
  have ha0 : (c0.flush A s0).1.autosave = true := ha
  generalize (c0.flush A s0).1 = c at hq0 hw0 ha0
  have hlt : ∀ (ops : List Operation) (c : SC) (s : σ), c.autosave = true → (ops.length : Int) < c.wait →
      SC.addOps A c s ops = ({ c with q := c.q ++ ops, wait := c.wait - ops.length },
        ⟨c.q ++ ops, s, [], .ok ()⟩) := by
    intro ops
    induction ops with
    | nil => intro c s _ _; simp [SC.addOps]
    | cons op ops ih =>
      intro c s ha hw
      simp only [List.length_cons] at hw
      have h1 : c.addOp A s op = ({ c with q := c.q ++ [op], wait := c.wait - 1 },
          ⟨c.q ++ [op], s, [], .ok ()⟩) := by
        simp only [SC.addOp, ha, if_true]
        rw [if_neg (by omega)]
      simp only [SC.addOps, h1]
      rw [ih { c with q := c.q ++ [op], wait := c.wait - 1 } s ha (by simp only; omega)]
      simp only [List.append_assoc, List.cons_append, List.nil_append, List.length_cons]
      congr 2
      omega
  -- a flush that has to happen
  have hnow : ∀ (c : SC) (s : σ) (op : Operation), c.autosave = true → c.wait ≤ 1 →
      (c.addOp A s op).2.res = .ok () → opsOf (c.addOp A s op).2.trace = c.q ++ [op] ∧
        (c.addOp A s op).1.q = [] ∧ (c.addOp A s op).1.wait = 0 ∧ (c.addOp A s op).1.autosave = true := by
    intro c s op ha hw hr
    simp only [SC.addOp, ha, if_true] at hr ⊢
    rw [if_pos (by omega)] at hr ⊢
    simp only at hr ⊢
    have hr' : (SC.flush A { c with q := c.q ++ [op], wait := c.wait - 1 } s).2.res = .ok () := by
      split at hr
      · assumption
      · cases hr
    obtain ⟨h1, -, h3, -⟩ := c35_flush A { c with q := c.q ++ [op], wait := c.wait - 1 } s hr'
    rw [ha] at h1 h3 hr'
    refine ⟨h1, h3, ?_, rfl⟩
    simp only [SC.flush] at hr' ⊢
    rw [hr']
    rfl
  have happ : ∀ (a : List Operation) (op : Operation) (c : SC) (s : σ), (SC.addOps A c s a).2.res = .ok () →
      (SC.addOps A c s a).2.trace = [] →
      (SC.addOps A c s (a ++ [op])).1 = ((SC.addOps A c s a).1.addOp A (SC.addOps A c s a).2.st op).1 ∧
      (SC.addOps A c s (a ++ [op])).2.trace =
        ((SC.addOps A c s a).1.addOp A (SC.addOps A c s a).2.st op).2.trace ∧
      (SC.addOps A c s (a ++ [op])).2.res =
        ((SC.addOps A c s a).1.addOp A (SC.addOps A c s a).2.st op).2.res := by
    intro a
    induction a with
    | nil =>
      intro op c s _ _
      simp only [List.nil_append, SC.addOps]
      generalize c.addOp A s op = y
      obtain ⟨c', q, st, tr, res⟩ := y
      cases res with
      | ok u => cases u; simp
      | err => exact ⟨rfl, rfl, rfl⟩
      | panic => exact ⟨rfl, rfl, rfl⟩
    | cons x a ih =>
      intro op c s hr ht
      simp only [List.cons_append, SC.addOps] at hr ht ⊢
      generalize c.addOp A s x = y at hr ht ⊢
      obtain ⟨c', q, st, tr, res⟩ := y
      cases res with
      | ok u =>
        cases u
        simp only [List.append_eq_nil_iff] at hr ht ⊢
        obtain ⟨i1, i2, i3⟩ := ih op c' st hr ht.2
        rw [i1, i2, i3, ht.1]
        exact ⟨rfl, rfl, rfl⟩
      | err => cases hr
      | panic => cases hr
  dsimp only
  refine ⟨fun hl => ?_, fun hl hn hr => ?_⟩
  · rw [hlt ops { c with wait := c.wait + n } s ha0 (by simp only [hw0]; omega)]
    exact ⟨rfl, by simp [hq0], rfl⟩
  · rcases List.eq_nil_or_concat ops with rfl | ⟨a, op, rfl⟩
    · simp at hl; omega
    · simp only [List.concat_eq_append, List.length_append, List.length_cons, List.length_nil] at hl
      rw [List.concat_eq_append] at hr ⊢
      have h1 := hlt a { c with wait := c.wait + n } s ha0 (by simp only [hw0]; omega)
      obtain ⟨g1, g2, g3⟩ := happ a op { c with wait := c.wait + n } s (by rw [h1]) (by rw [h1])
      rw [h1] at g1 g2 g3
      rw [g3] at hr
      rw [g1, g2]
      obtain ⟨r1, r2, r3, r4⟩ := hnow _ _ _ (by exact ha0) (by simp only [hw0]; omega) hr
      refine ⟨?_, r2, ?_⟩
      · rw [r1, hq0]; rfl
      · intro op' s' hr'
        obtain ⟨t1, t2, -, -⟩ := hnow _ s' op' r4 (by rw [r3]; omega) hr'
        exact ⟨by rw [t1, r2]; rfl, t2⟩

/-! ## C41 -/

/-- **C41**, the part that holds: `SetAdapter` keeps the autosave setting and the model, and if storage was
enabled and nothing queued then nothing else is lost either.  Missing: see `c41_fails`. -/
theorem c41_set_adapter_partial (e : Enforcer σ) (A : Adapter σ) (s : σ) :
    (e.setAdapter A s).sc.autosave = e.sc.autosave ∧ (e.setAdapter A s).model = e.model ∧
    (e.setAdapter A s).adapter = A ∧
    (e.sc.enabled = true → e.sc.q = [] → (e.setAdapter A s).sc.enabled = e.sc.enabled ∧
      (e.setAdapter A s).sc.q = e.sc.q) :=
  ⟨rfl, rfl, rfl, fun h1 h2 => ⟨h1.symm, h2.symm⟩⟩

/-! ## C42 -/

/-- **C42**, the part that holds: if `NewEnforcer` with a file name succeeds, the model is the given one
with the file's rules added (as `AddRule` calls). -/
theorem c42_new_partial (m : Model) (A : Adapter σ) (s : σ) (opts : List Enforcer.Opt) (e : Enforcer σ)
    (h : Enforcer.new m (.file A s) opts = .ok e) :
    e.model = (m.load (A.load s) (m, s, .panic)).1 ∧ (m.load (A.load s) (m, s, .panic)).2.2 = .ok () := by
  have hopt : ∀ (opts : List Enforcer.Opt) (e : Enforcer σ), (opts.foldl Enforcer.setOption e).model = e.model := by
    intro opts
    induction opts with
    | nil => intro e; rfl
    | cons o opts ih => intro e; rw [List.foldl_cons, ih]; cases o <;> rfl
  simp only [Enforcer.new] at h
  rw [runLoad_quiet (A.load s) (m, s, .panic) _ rfl rfl] at h
  simp only at h
  split at h
  · rename_i hr
    cases h
    exact ⟨hopt _ _, hr⟩
  · cases h
  · cases h

/-- **C42 fails**, for every model, file and list of options: the enforcer's adapter is nil, `Flush` makes
no storage call and returns an error, `SavePolicy` and `LoadPolicy` panic. -/
theorem c42_fails (m : Model) (A : Adapter σ) (s : σ) (opts : List Enforcer.Opt) (e : Enforcer σ)
    (h : Enforcer.new m (.file A s) opts = .ok e) :
    e.flush.res = .err ∧ e.flush.trace = [] ∧ e.savePolicy.res = .panic ∧ e.loadPolicy.res = .panic := by
  have hopt : ∀ (opts : List Enforcer.Opt) (e : Enforcer σ),
      (opts.foldl Enforcer.setOption e).adapter = e.adapter := by
    intro opts
    induction opts with
    | nil => intro e; rfl
    | cons o opts ih => intro e; rw [List.foldl_cons, ih]; cases o <;> rfl
  have hA : e.adapter = Enforcer.nilAdapter := by
    simp only [Enforcer.new] at h
    split at h
    · cases h
      exact hopt _ _
    · cases h
    · cases h
  refine ⟨?_, ?_, ?_, ?_⟩
  · simp [Enforcer.flush, SC.flush, SC.drain, hA, Enforcer.nilAdapter]
  · simp [Enforcer.flush, SC.flush, SC.drain, hA, Enforcer.nilAdapter]
  · simp [Enforcer.savePolicy, hA, Enforcer.nilAdapter]
  · rw [(c39_load e).2.2.2.2.2, hA]
    rfl

/-! ## Examples and counterexamples -/

namespace StorageExample

open ModelExample

/-- A store that holds a list of rules; `failing` says which calls fail (by number). -/
structure Store where
  rules : List Rule
  calls : Nat
deriving DecidableEq

def applyOp (rs : List Rule) (o : Operation) : List Rule :=
  match o.opc with
  | .add => if o.rule ∈ rs then rs else rs ++ [o.rule]
  | .remove => rs.filter (· ≠ o.rule)

def adapter (k : AdapterKind) (failing : Nat → Bool) : Adapter Store where
  kind := k
  step s c := if failing s.calls then (⟨s.rules, s.calls + 1⟩, .err)
    else (⟨c.ops.foldl applyOp s.rules, s.calls + 1⟩, .ok ())
  load s := LoadProg.ofList s (.ok ()) s.rules
  save s rs := (⟨rs, s.calls⟩, .ok ())

def view (s : Store) (x : Rule) : Bool := decide (x ∈ s.rules)

theorem keeps (k : AdapterKind) (failing : Nat → Bool) : (adapter k failing).Keeps (fun _ => True) (fun _ => True) view := by
  intro s c s' _ _ h
  refine ⟨trivial, fun x => ?_⟩
  simp only [adapter] at h
  split at h
  · simp at h
  · simp only [Prod.mk.injEq, and_true] at h
    subst h
    simp only [view]
    generalize s.rules = rs
    induction c.ops generalizing rs with
    | nil => rfl
    | cons o ops ih =>
      rw [List.foldl_cons, ih]
      obtain ⟨o, r⟩ := o
      cases o with
      | add =>
        simp only [held, applyOp]
        congr 1
        split
        · rename_i h
          by_cases hx : r = x
          · subst hx; simp [h]
          · simp [hx]
        · rw [Bool.eq_iff_iff]
          simp only [decide_eq_true_eq, List.mem_append, List.mem_singleton, Bool.or_eq_true, beq_iff_eq]
          constructor
          · rintro (h | h)
            · exact Or.inl h
            · exact Or.inr h.symm
          · rintro (h | h)
            · exact Or.inl h
            · exact Or.inr h.symm
      | remove =>
        simp only [held, applyOp]
        congr 1
        rw [Bool.eq_iff_iff]
        simp only [decide_eq_true_eq, List.mem_filter, Bool.and_eq_true, bne_iff_ne]
        constructor
        · rintro ⟨h, h'⟩; exact ⟨h, fun e => h' e.symm⟩
        · rintro ⟨h, h'⟩; exact ⟨h, fun e => h' e.symm⟩

def start (k : AdapterKind) (failing : Nat → Bool) : Enforcer Store :=
  ⟨defs build, adapter k failing, ⟨[], 0⟩, SC.new false, true⟩

theorem ready (k : AdapterKind) (failing : Nat → Bool) : (start k failing).Ready build (fun _ => True) (fun _ => True) view where
  binary := binary
  made := made build
  hooked := rfl
  enabled := rfl
  keeps := keeps k failing
  state := trivial
  queue := rfl
  agree := by
    have : (defs build).rules = [] := by decide
    intro x
    simp [start, view, this]

theorem fits_pRule (m : Model) : m.Fits pRule :=
  ⟨fun _ => by decide, fun h => absurd h (by decide), fun h => absurd h (by decide)⟩

theorem fits_bob (m : Model) : m.Fits [s% "p", s% "bob", s% "read"] :=
  ⟨fun _ => by decide, fun h => absurd h (by decide), fun h => absurd h (by decide)⟩

def bob : Rule := [s% "p", s% "bob", s% "read"]

def H : List Enforcer.Op :=
  [.add pRule, .addMany [bob, pRule, [s% "q"], pRule], .flush, .autosave true, .wait 2, .remove bob,
    .remove bob, .remove pRule, .autosave false, .add bob]

-- the premises of C37 with a history that has an error in it, for both kinds of adapters
example : (∀ op ∈ H, ∀ r ∈ op.rules, (start .batch (fun _ => false)).model.Fits r) ∧
    (∀ c ∈ ((start .batch (fun _ => false)).run H).2, c.2 = .ok ()) ∧
    ((start .batch (fun _ => false)).run H).2.length = 2 ∧
    ((start .simple (fun _ => false)).run H).2.length = 4 ∧
    ((start .batch (fun _ => false)).run H).1.flush.res = .ok () ∧
    ((start .batch (fun _ => false)).run H).1.flush.e.st.rules = [bob] ∧
    ((start .batch (fun _ => false)).run H).1.flush.e.model.rules = [bob] := by
  refine ⟨?_, by decide, by decide, by decide, by decide, by decide, by decide⟩
  intro op hop r hr
  simp only [H, List.mem_cons, List.not_mem_nil, or_false] at hop
  have hq : (start .batch (fun _ => false)).model.Fits [s% "q"] :=
    ⟨fun h => absurd h (by decide), fun h => absurd h (by decide), fun h => absurd h (by decide)⟩
  rcases hop with rfl | rfl | rfl | rfl | rfl | rfl | rfl | rfl | rfl | rfl <;>
    simp only [Enforcer.Op.rules, List.mem_cons, List.not_mem_nil, or_false] at hr
  · subst hr; exact fits_pRule _
  · rcases hr with rfl | rfl | rfl | rfl
    · exact fits_bob _
    · exact fits_pRule _
    · exact hq
    · exact fits_pRule _
  · subst hr; exact fits_bob _
  · subst hr; exact fits_bob _
  · subst hr; exact fits_pRule _
  · subst hr; exact fits_bob _

-- the premises of the autosave part
example : ((start .simple (fun _ => false)).run [.autosave true]).1.sc.autosave = true ∧
    (((start .simple (fun _ => false)).run [.autosave true]).1.addRule pRule).res = .ok true ∧
    (((start .simple (fun _ => false)).run [.autosave true]).1.addRule pRule).e.st.rules = [pRule] := by
  decide

/-- **C37 fails** for autosave: with a change queued before autosave was switched on, an `AddRule` that
returns false leaves store and model apart. -/
theorem c37_fails : let e := ((start .simple (fun _ => false)).run [.add pRule, .autosave true]).1
    e.sc.autosave = true ∧ e.sc.wait ≤ 0 ∧ (e.addRule pRule).res = .ok false ∧
    ¬ (e.addRule pRule).e.Agree view := by
  refine ⟨by decide, by decide, by decide, ?_⟩
  intro h
  have := (h pRule).mpr (by decide)
  revert this
  decide

def ops : List Operation := [⟨.add, pRule⟩, ⟨.remove, bob⟩, ⟨.remove, pRule⟩, ⟨.add, bob⟩]

-- C35, C36: a queue with three runs
example : ((⟨true, false, ops, 0⟩ : SC).flush (adapter .batch (fun _ => false)) ⟨[], 0⟩).2.trace =
    [(.batch .add [pRule], .ok ()), (.batch .remove [bob, pRule], .ok ()), (.batch .add [bob], .ok ())] := by
  decide

/-- **C38 fails**: with an adapter whose first call fails, the operation of a simple adapter is neither
acknowledged nor queued; of a batch adapter the whole batch and the operation after it are. -/
theorem c38_fails :
    ((⟨true, false, ops, 0⟩ : SC).flush (adapter .simple (· == 0)) ⟨[], 0⟩).2.res = .err ∧
    ((⟨true, false, ops, 0⟩ : SC).flush (adapter .simple (· == 0)) ⟨[], 0⟩).1.q = ops.drop 1 ∧
    ((⟨true, false, ops, 0⟩ : SC).flush (adapter .batch (· == 0)) ⟨[], 0⟩).2.res = .err ∧
    ((⟨true, false, ops, 0⟩ : SC).flush (adapter .batch (· == 0)) ⟨[], 0⟩).1.q = ops.drop 2 := by
  decide

-- C39: loading two rules, one of which is unknown to the model, with a change pending
example : let e : Enforcer Store := { start .batch (fun _ => false) with
      st := ⟨[bob, [s% "q"], pRule], 0⟩, sc := ⟨true, true, ops, 3⟩ }
    e.adapter.load e.st = LoadProg.ofList e.st (.ok ()) e.st.rules ∧ e.loadPolicy.res = .err ∧
    e.loadPolicy.e.model.rules = [bob] ∧ e.loadPolicy.e.sc = e.sc := by
  refine ⟨rfl, (c39_load_list _ _ _ rfl).2.trans (by decide),
    (congrArg Model.rules (c39_load_list _ _ _ rfl).1).trans (by decide), (c39_load _).2.1⟩

-- C40: a change pending, autosave on, an error in the middle
example : let e : Enforcer Store := { start .batch (fun _ => false) with sc := ⟨true, true, ops, 3⟩ }
    (e.addRules [bob, [s% "q"], pRule]).res = .err ∧
    (e.addRules [bob, [s% "q"], pRule]).e.model.rules = [bob] ∧
    opsOf (e.addRules [bob, [s% "q"], pRule]).trace = ops ++ [⟨.add, bob⟩] := by
  decide

/-- **C41 fails**: `SetAdapter` loses a queued change and switches storage on. -/
theorem c41_fails : ∃ (e : Enforcer Store) (A : Adapter Store) (s : Store),
    e.sc.q = [⟨.add, pRule⟩] ∧ e.sc.enabled = false ∧ (e.setAdapter A s).sc.q = [] ∧
    (e.setAdapter A s).sc.enabled = true :=
  ⟨(((start .simple (fun _ => false)).run [.add pRule]).1.setStorage false), adapter .simple (fun _ => false),
    ⟨[], 0⟩, by decide, by decide, by decide, by decide⟩

-- C65: the premises, and a wait of four changes: the first three are queued, the fourth writes all
example : let c : SC := ⟨true, true, [⟨.add, bob⟩], 5⟩
    let A := adapter .batch (fun _ => false)
    let c' := { (c.flush A ⟨[], 0⟩).1 with wait := (c.flush A ⟨[], 0⟩).1.wait + 4 }
    (c.flush A ⟨[], 0⟩).2.res = .ok () ∧ c.autosave = true ∧ ops.length = 4 ∧
    (SC.addOps A c' ⟨[], 0⟩ (ops.take 3)).2.trace = [] ∧ (SC.addOps A c' ⟨[], 0⟩ ops).2.res = .ok () ∧
    opsOf (SC.addOps A c' ⟨[], 0⟩ ops).2.trace = ops := by
  decide

-- the premise of C42: the file's rules are loaded, nothing can be saved
example : (Enforcer.new (defs build) (.file (adapter .batch (fun _ => false)) ⟨[pRule], 0⟩)
    [.autosave true]).map (fun e => (e.model.rules, (e.addRule bob).res)) = .ok ([pRule], .panic) := by
  decide +kernel

end StorageExample

end Fastac
