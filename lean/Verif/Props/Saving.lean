import Verif.Lemmas.Saving

/-!
# C89, C90: saving, loading and replacing the model in the middle of a history
-/

namespace Fastac

open Model

variable {σ : Type} {I : σ → Prop} {R : Rule → Prop} {view : σ → Rule → Bool}

/-! ## C89 -/

open Enforcer in
/-- **C89**, the part that holds: start with store and model in agreement and nothing queued.  After any history of rule
changes, flushes, autosave switches and waits without failing storage calls, of `SavePolicy` calls that succeed, and of
`LoadPolicy` calls at moments when the model has every stored rule, a `Flush` that returns nil makes them agree.
Missing: `LoadPolicy` while a removal is queued (`c89_load_pending`, `c89_fails`), failing storage calls. -/
theorem c89_mirror_partial {build : Str → Res Stage} {e e1 : Enforcer σ} (h : Ready build I R view e)
    (hS : e.adapter.Saves I R view) (hL : e.adapter.Lists I R view) (hF : ∀ x, R x → e.model.Fits x)
    (H : Story R view e e1) (hr : e1.flush.res = .ok ()) : e1.flush.e.Agree view := by
  obtain ⟨t, -⟩ := H.tracks h.binary hS hL hF h.tracks
  obtain ⟨_, h2, h3, _⟩ := c35_flush e1.adapter e1.sc e1.st hr
  exact (t.flush h2).agree h3

open Enforcer in
/-- **C89**, `SavePolicy`: after such a history a `SavePolicy` that succeeds makes store and model agree at once, with
changes queued or not, and leaves the model and the queue alone. -/
theorem c89_save {build : Str → Res Stage} {e e1 : Enforcer σ} (h : Ready build I R view e)
    (hS : e.adapter.Saves I R view) (hL : e.adapter.Lists I R view) (hF : ∀ x, R x → e.model.Fits x)
    (H : Story R view e e1) (hr : e1.savePolicy.res = .ok ()) :
    e1.savePolicy.e.Agree view ∧ e1.savePolicy.e.model = e1.model ∧ e1.savePolicy.e.sc = e1.sc := by
  obtain ⟨t, ha⟩ := H.tracks h.binary hS hL hF h.tracks
  have hR := t.sync.storable (Lists.storable (ha ▸ hL))
  exact ⟨((ha ▸ hS : e1.adapter.Saves I R view) e1.st e1.model.rules _ t.sync.inv hR (Prod.ext rfl hr)).2, rfl, rfl⟩

open Enforcer in
/-- **C89**, `LoadPolicy` with changes queued: after such a history, if all policies exist, `LoadPolicy` succeeds and
adds every stored rule to the model, also those whose removal is queued; a `Flush` that succeeds then leaves the store
with the rules that the model had before.  So they agree afterwards iff the model had every stored rule. -/
theorem c89_load_pending {build : Str → Res Stage} {e e1 : Enforcer σ} (h : Ready build I R view e)
    (hS : e.adapter.Saves I R view) (hL : e.adapter.Lists I R view) (hF : ∀ x, R x → e.model.Fits x)
    (H : Story R view e e1) (hk : ∀ x, R x → ∃ k fs, x = k :: fs ∧ e1.model.Knows k)
    (hr : e1.loadPolicy.e.flush.res = .ok ()) :
    e1.loadPolicy.res = .ok () ∧
    (∀ x, x ∈ e1.loadPolicy.e.flush.e.model.rules ↔ x ∈ e1.model.rules ∨ view e1.st x = true) ∧
    (∀ x, view e1.loadPolicy.e.flush.e.st x = true ↔ x ∈ e1.model.rules) ∧
    (e1.loadPolicy.e.flush.e.Agree view ↔ ∀ x, view e1.st x = true → x ∈ e1.model.rules) := by
  obtain ⟨t, ha⟩ := H.tracks h.binary hS hL hF h.tracks
  obtain ⟨rs, h1, h2, h3⟩ := (ha ▸ hL : e1.adapter.Lists I R view) e1.st t.sync.inv
  obtain ⟨-, c1, c2, -, -, -⟩ := c39_load e1
  obtain ⟨c4, c6⟩ := c39_load_list e1 rs _ h1
  have c5 := loadPolicy_st e1 h1
  obtain ⟨a, b⟩ := each_add h.binary rs t.made (fun r hr => fits_of_gDefs t.defs (hF r (h2 r hr)))
    (fun r hr => hk r (h2 r hr))
  have m1 : ∀ x, x ∈ e1.loadPolicy.e.flush.e.model.rules ↔ x ∈ e1.model.rules ∨ view e1.st x = true := by
    intro x
    show x ∈ e1.loadPolicy.e.model.rules ↔ _
    rw [c4, b x, h3 x]
  have m2 : ∀ x, view e1.loadPolicy.e.flush.e.st x = true ↔ x ∈ e1.model.rules := by
    intro x
    have hf : e1.flush.res = .ok () := by
      have : e1.loadPolicy.e.flush.res = (e1.loadPolicy.e.sc.flush e1.loadPolicy.e.adapter e1.loadPolicy.e.st).2.res := rfl
      rw [this, c1, c2, c5] at hr
      exact hr
    have hs : e1.loadPolicy.e.flush.e.st = e1.flush.e.st := by
      show (e1.loadPolicy.e.sc.flush e1.loadPolicy.e.adapter e1.loadPolicy.e.st).2.st = _
      rw [c1, c2, c5]
      rfl
    obtain ⟨_, g2, g3, _⟩ := c35_flush e1.adapter e1.sc e1.st hf
    rw [hs]
    exact (t.flush g2).agree g3 x
  refine ⟨by rw [c6, a]; simp, m1, m2, fun hag x hx => (m2 x).mp ((hag x).mpr ((m1 x).mpr (.inr hx))), fun hsub x => ?_⟩
  rw [m1 x, m2 x]
  exact ⟨.inl, fun h => h.elim id (hsub x)⟩

/-! ### The file adapter -/

open Enforcer in
/-- **C89 for the file adapter**: the file holds storable rules that fit the model, exactly those of the model; the
history is as in `c89_mirror_partial`, with storable rules that fit.  Then a `Flush` that returns nil leaves the file
with exactly the rules of the model. -/
theorem c89_file_partial {build : Str → Res Stage} (hb : ∀ e s, build e = .ok s → s.Binary) {env : Env}
    (henv : env.Ok) {e e1 : Enforcer (Option Str)} (hA : e.adapter = fileAdapter env) (hm : Made build e.model)
    (hh : e.hooked = true) (he : e.sc.enabled = true) (hq : e.sc.q = []) {rs : List Rule} (hrs : Holds e.st rs)
    (hs : ∀ r ∈ rs, Storable r ∧ e.model.Fits r) (hag : ∀ x, x ∈ rs ↔ x ∈ e.model.rules)
    (H : Story (fun x => Storable x ∧ e.model.Fits x) fileView e e1) (hr : e1.flush.res = .ok ()) :
    ∃ rs', Holds e1.flush.e.st rs' ∧ ∀ x, x ∈ rs' ↔ x ∈ e1.flush.e.model.rules := by
  have hs1 : ∀ r ∈ rs, Storable r := fun r hr => (hs r hr).1
  have hv : ∀ x, fileView e.st x = true ↔ x ∈ rs := fun x => by rw [fileView_eq hrs hs1, decide_eq_true_eq]
  have ready : e.Ready build (Only e.model.Fits Sound fileView) (fun x => Storable x ∧ e.model.Fits x) fileView :=
    ⟨hb, hm, hh, he, hA ▸ (fileAdapter_keeps henv).only _, ⟨⟨rs, hrs, hs1⟩, fun x hx => (hs x ((hv x).mp hx)).2⟩, hq,
      fun x => (hv x).trans (hag x)⟩
  have hS := (fileAdapter_saves henv).only e.model.Fits
  have hL := (fileAdapter_lists env).only e.model.Fits
  rw [← hA] at hS hL
  have h1 := c89_mirror_partial ready hS hL (fun _ h => h.2) H hr
  obtain ⟨t, -⟩ := H.tracks hb hS hL (fun _ h => h.2) ready.tracks
  obtain ⟨_, h3, _⟩ := c35_flush e1.adapter e1.sc e1.st hr
  obtain ⟨⟨rs', h4, h5⟩, -⟩ := (t.flush h3).sync.inv
  refine ⟨rs', h4, fun x => ?_⟩
  have := h1 x
  rw [fileView_eq h4 h5, decide_eq_true_eq] at this
  exact this

/-! ## C90 -/

/-- **C90**, a defect: after `SetModel` with another model, with nothing queued, no history of rule changes, flushes and
autosave switches makes a storage call, queues anything or changes the store, for any adapter and any settings. -/
theorem c90_detached (e : Enforcer σ) (m : Model) (hq : e.sc.q = []) (H : List Enforcer.Op) :
    ((e.setModel m).run H).2 = [] ∧ ((e.setModel m).run H).1.sc.q = [] ∧ ((e.setModel m).run H).1.st = e.st := by
  obtain ⟨a, b⟩ := Enforcer.Detached.run (e := e) (e1 := e.setModel m) H ⟨rfl, hq, rfl⟩
  exact ⟨b, a.queue, a.store⟩

open Enforcer in
/-- **C90**, the remedy: `SetAdapter` after `SetModel` (with a model that agrees with the store of the adapter) listens
to the new model; after any history as in C37 a `Flush` that succeeds makes the two agree. -/
theorem c90_attached {build : Str → Res Stage} (hb : ∀ e s, build e = .ok s → s.Binary) (e : Enforcer σ) (m : Model)
    (hm : Made build m) (A : Adapter σ) (s : σ) (hA : A.Keeps I R view) (hs : I s)
    (hag : ∀ x, view s x = true ↔ x ∈ m.rules) (H : List Enforcer.Op)
    (hf : ∀ op ∈ H, ∀ r ∈ op.rules, m.Fits r) (hR : ∀ op ∈ H, ∀ r ∈ op.rules, R r)
    (ht : ∀ c ∈ (((e.setModel m).setAdapter A s).run H).2, c.2 = .ok ())
    (hr : (((e.setModel m).setAdapter A s).run H).1.flush.res = .ok ()) :
    (((e.setModel m).setAdapter A s).run H).1.flush.e.Agree view :=
  c37_mirror_partial (e := (e.setModel m).setAdapter A s) (build := build) (I := I) (R := R)
    ⟨hb, hm, rfl, rfl, hA, hs, rfl, hag⟩ H hf hR ht hr

/-! ## Examples and counterexamples -/

namespace SavingExample

open ModelExample StorageExample

/-- The adapter of the examples saves and lists. -/
theorem saves (k : AdapterKind) : (adapter k (fun _ => false)).Saves (fun _ => True) (fun _ => True) StorageExample.view := by
  intro s rs s' _ _ h
  simp only [adapter, Prod.mk.injEq, and_true] at h
  subst h
  exact ⟨trivial, fun x => by simp [StorageExample.view]⟩

theorem lists (k : AdapterKind) : (adapter k (fun _ => false)).Lists (fun _ => True) (fun _ => True) StorageExample.view :=
  fun s _ => ⟨s.rules, rfl, fun _ _ => trivial, fun x => by simp [StorageExample.view]⟩

def begin (k : AdapterKind) : Enforcer Store := start k (fun _ => false)

def pending (k : AdapterKind) : Enforcer Store := ((begin k).run [.add pRule, .add bob, .flush, .remove pRule]).1

/-- **C89 fails** when a removal is queued: `LoadPolicy` brings the rule back into the model without an event, and the
`Flush` takes it out of the store. -/
theorem c89_fails : ∀ k ∈ [AdapterKind.simple, .batch],
    (pending k).model.rules = [bob] ∧ (pending k).loadPolicy.res = .ok () ∧
    (pending k).loadPolicy.e.flush.res = .ok () ∧
    (pending k).loadPolicy.e.flush.e.st.rules = [bob] ∧
    pRule ∈ (pending k).loadPolicy.e.flush.e.model.rules := by decide +kernel

/-- The rules of the examples. -/
def Good (x : Rule) : Prop := True ∧ (x = pRule ∨ x = bob)

theorem good_fits (m : Model) : ∀ x, Good x → m.Fits x := by
  rintro x ⟨-, rfl | rfl⟩
  · exact fits_pRule m
  · exact fits_bob m

theorem good_many : ∀ r ∈ [pRule, bob], Good r := by
  intro r hr
  simp only [List.mem_cons, List.not_mem_nil, or_false] at hr
  exact ⟨trivial, hr⟩

theorem begin_ready (k : AdapterKind) :
    (begin k).Ready build (Only (fun x => x = pRule ∨ x = bob) (fun _ => True) StorageExample.view) Good
      StorageExample.view :=
  let r := ready k (fun _ => false)
  ⟨r.binary, r.made, rfl, rfl, r.keeps.only _, ⟨trivial, fun x hx => by simp [begin, start, StorageExample.view] at hx⟩,
    rfl, r.agree⟩

/-- A history with a save while a removal is queued, a load after the flush, and one more change. -/
theorem story : ∃ e1, Enforcer.Story Good StorageExample.view (begin .batch) e1 ∧ e1.sc.q = [⟨.add, pRule⟩] ∧
    e1.flush.res = .ok () ∧ e1.flush.e.st.rules = [bob, pRule] ∧ e1.flush.e.model.rules = [bob, pRule] := by
  have h1 := Enforcer.Story.start (R := Good) (view := StorageExample.view) (e := begin .batch)
  have h2 := h1.call (.addMany [pRule, bob]) good_many (by decide)
  have h3 := h2.call .flush (fun _ h => by cases h) (by decide)
  have h4 := h3.call (.remove pRule) (fun r h => good_many r (List.mem_of_mem_take (i := 1) h)) (by decide)
  have h5 := h4.save (by decide)
  have h6 := h5.call .flush (fun _ h => by cases h) (by decide)
  have h7 := h6.load (by
    intro x hx
    have hx' : x ∈ [bob] := of_decide_eq_true hx
    rw [List.mem_singleton.mp hx']
    decide)
  have h8 := h7.call (.add pRule) (fun r h => good_many r (List.mem_of_mem_take (i := 1) h)) (by decide +kernel)
  exact ⟨_, h8, by decide +kernel, by decide +kernel, by decide +kernel, by decide +kernel⟩

/-- The hypotheses of `c89_mirror_partial` hold of it. -/
example : ∃ e1 : Enforcer Store, e1.sc.q = [⟨.add, pRule⟩] ∧ e1.flush.e.Agree StorageExample.view := by
  obtain ⟨e1, h, hq, hr, -⟩ := story
  exact ⟨e1, hq, c89_mirror_partial (begin_ready .batch) ((saves .batch).only _) ((lists .batch).only _)
    (good_fits _) h hr⟩

/-- The hypotheses of `c89_load_pending` hold of the counterexample. -/
example : ∀ x, x ∈ (pending .batch).loadPolicy.e.flush.e.model.rules ↔
    x ∈ (pending .batch).model.rules ∨ StorageExample.view (pending .batch).st x = true := by
  have h1 := Enforcer.Story.start (R := Good) (view := StorageExample.view) (e := begin .batch)
  have h2 := h1.call (.add pRule) (fun r h => good_many r (List.mem_of_mem_take (i := 1) h)) (by decide)
  have h3 := h2.call (.add bob) (fun r h => good_many r (List.mem_of_mem_drop (i := 1) h)) (by decide)
  have h4 := h3.call .flush (fun _ h => by cases h) (by decide)
  have h5 := h4.call (.remove pRule) (fun r h => good_many r (List.mem_of_mem_take (i := 1) h)) (by decide)
  refine (c89_load_pending (begin_ready .batch) ((saves .batch).only _) ((lists .batch).only _) (good_fits _) h5 ?_
    (by decide +kernel)).2.1
  rintro x ⟨-, rfl | rfl⟩
  · exact ⟨_, _, rfl, .inl ⟨by decide, by decide⟩⟩
  · exact ⟨_, _, rfl, .inl ⟨by decide, by decide⟩⟩

/-- After `SetModel` a rule is in the model and never in the store; after `SetAdapter` the next one is. -/
example : let e := ((begin .simple).setModel (defs build)).run [.autosave true, .add pRule, .flush]
    e.2 = [] ∧ e.1.model.rules = [pRule] ∧ e.1.st.rules = [] ∧
    ((e.1.setAdapter e.1.adapter e.1.st).run [.add bob]).1.st.rules = [bob] := by decide

end SavingExample

end Fastac
