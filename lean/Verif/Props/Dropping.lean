import Verif.Lemmas.Dropping
import Verif.Props.Saving

/-!
# C92: emptying a policy does not reach the store
-/

namespace Fastac

open Model

variable {σ : Type} {I : σ → Prop} {R : Rule → Prop} {view : σ → Rule → Bool}

open Enforcer in
/-- **C92**, what happens instead: after a history as in C89 the policy `key` is cleared, defined again or its definition
removed.  The call reaches no storage.  A `Flush` that succeeds then leaves the store with exactly the rules that the
model had before the call, while the model has those that are not of `key`.  So they agree iff `key` had no rules.
Missing for the claim: everything else, it is false (`c92_fails`). -/
theorem c92_drop_partial {build : Str → Res Stage} {e e1 : Enforcer σ} (h : Ready build I R view e)
    (hS : e.adapter.Saves I R view) (hL : e.adapter.Lists I R view) (hF : ∀ x, R x → e.model.Fits x)
    (H : Story R view e e1) {key : Str} {m' : Model} (hd : e1.model.Drops key m')
    (hr : ({ e1 with model := m' } : Enforcer σ).flush.res = .ok ()) :
    let e2 := ({ e1 with model := m' } : Enforcer σ).flush.e
    (∀ x, view e2.st x = true ↔ x ∈ e1.model.rules) ∧
    (∀ x, x ∈ e2.model.rules ↔ x ∈ e1.model.rules ∧ x.head? ≠ some key) ∧
    (e2.Agree view ↔ ∀ x ∈ e1.model.rules, x.head? ≠ some key) := by
  obtain ⟨t, -⟩ := H.tracks h.binary hS hL hF h.tracks
  have hr : e1.flush.res = .ok () := hr
  obtain ⟨_, h2, h3, _⟩ := c35_flush e1.adapter e1.sc e1.st hr
  have hv : ∀ x, view e1.flush.e.st x = true ↔ x ∈ e1.model.rules := (t.flush h2).agree h3
  have hm := (hd.emptied t.made).2
  refine ⟨hv, hm, fun ha x hx => ?_, fun hn x => ?_⟩
  · exact ((hm x).mp ((ha x).mp ((hv x).mpr hx))).2
  · show view e1.flush.e.st x = true ↔ x ∈ m'.rules
    rw [hv x, hm x]
    exact ⟨fun hx => ⟨hx, hn x hx⟩, And.left⟩

open Enforcer in
/-- **C92**, loading: `LoadPolicy` after that `Flush` brings the rules of the policy back, if it is still defined and they
fit its definition. -/
theorem c92_restore {build : Str → Res Stage} {e e1 : Enforcer σ} (h : Ready build I R view e)
    (hS : e.adapter.Saves I R view) (hL : e.adapter.Lists I R view) (hF : ∀ x, R x → e.model.Fits x)
    (H : Story R view e e1) {key : Str} {m' : Model} (hd : e1.model.Drops key m')
    (hk : ∀ x, R x → m'.Fits x ∧ ∃ k fs, x = k :: fs ∧ m'.Knows k)
    (hr : ({ e1 with model := m' } : Enforcer σ).flush.res = .ok ()) :
    let e3 := ({ e1 with model := m' } : Enforcer σ).flush.e.loadPolicy
    e3.res = .ok () ∧ e3.e.Agree view ∧ ∀ x, x ∈ e3.e.model.rules ↔ x ∈ e1.model.rules := by
  obtain ⟨a, b, -⟩ := c92_drop_partial h hS hL hF H hd hr
  obtain ⟨t, ha⟩ := H.tracks h.binary hS hL hF h.tracks
  obtain ⟨_, h2, h3, _⟩ := c35_flush e1.adapter e1.sc e1.st hr
  have hi := (t.flush h2).sync.inv
  obtain ⟨rs, l1, l2, l3⟩ := (ha ▸ hL : e1.adapter.Lists I R view) e1.flush.e.st hi
  obtain ⟨c4, c6⟩ := c39_load_list ({ e1 with model := m' } : Enforcer σ).flush.e rs _ l1
  have c5 := loadPolicy_st ({ e1 with model := m' } : Enforcer σ).flush.e l1
  obtain ⟨g, f⟩ := each_add h.binary rs (hd.emptied t.made).1 (fun r hr => (hk r (l2 r hr)).1) (fun r hr => (hk r (l2 r hr)).2)
  have hm : ∀ x, x ∈ ({ e1 with model := m' } : Enforcer σ).flush.e.loadPolicy.e.model.rules ↔ x ∈ e1.model.rules := by
    intro x
    rw [c4]
    show x ∈ (Model.each Model.addRule m' rs).1.rules ↔ _
    rw [f x, l3 x]
    exact ⟨fun h => h.elim (fun h => ((b x).mp h).1) (a x).mp, fun h => .inr ((a x).mpr h)⟩
  have g : (Model.each Model.addRule ({ e1 with model := m' } : Enforcer σ).flush.e.model rs).2.1 = .ok () := g
  refine ⟨by rw [c6, g]; simp, fun x => ?_, hm⟩
  · rw [hm x, c5]
    exact a x

open Enforcer in
/-- **C92**, the remedy: `SavePolicy` after that `Flush` takes the rules of the policy out of the store. -/
theorem c92_save {build : Str → Res Stage} {e e1 : Enforcer σ} (h : Ready build I R view e)
    (hS : e.adapter.Saves I R view) (hL : e.adapter.Lists I R view) (hF : ∀ x, R x → e.model.Fits x)
    (H : Story R view e e1) {key : Str} {m' : Model} (hd : e1.model.Drops key m')
    (hr : ({ e1 with model := m' } : Enforcer σ).flush.res = .ok ())
    (hs : ({ e1 with model := m' } : Enforcer σ).flush.e.savePolicy.res = .ok ()) :
    let e3 := ({ e1 with model := m' } : Enforcer σ).flush.e.savePolicy.e
    e3.Agree view ∧ e3.Ready build I R view ∧ ∀ x, view e3.st x = true ↔ x ∈ e1.model.rules ∧ x.head? ≠ some key := by
  obtain ⟨a, b, -⟩ := c92_drop_partial h hS hL hF H hd hr
  obtain ⟨t, ha⟩ := H.tracks h.binary hS hL hF h.tracks
  obtain ⟨_, h2, h3, _⟩ := c35_flush e1.adapter e1.sc e1.st hr
  have t1 := t.flush h2
  have hR : ∀ y ∈ m'.rules, R y := fun y hy => by
    have := t1.sync.storable (Lists.storable (A := e1.flush.e.adapter) (show e1.adapter.Lists I R view from ha ▸ hL))
    exact this y ((b y).mp hy).1
  obtain ⟨i, v⟩ := (ha ▸ hS : e1.adapter.Saves I R view) e1.flush.e.st m'.rules _ t1.sync.inv hR (Prod.ext rfl hs)
  exact ⟨v, ⟨h.binary, (hd.emptied t.made).1, t1.listens.1, t1.listens.2, t1.keeps, i, h3, v⟩, fun x => (v x).trans (b x)⟩

/-! ## Examples and counterexamples -/

namespace DroppingExample

open ModelExample StorageExample SavingExample

/-- One rule is stored, the other queued. -/
def half (k : AdapterKind) : Enforcer Store := ((begin k).run [.add pRule, .flush, .add bob]).1

def cleared (k : AdapterKind) : Enforcer Store := { half k with model := ((half k).model.clearPolicy (s% "p")).1 }

/-- **C92 fails**: the policy is cleared, and after the `Flush` both rules are in the store, also the one that was only
queued when the policy was cleared; loading brings them back. -/
theorem c92_fails : ∀ k ∈ [AdapterKind.simple, .batch],
    ((half k).model.clearPolicy (s% "p")).2 = .ok () ∧ (cleared k).flush.res = .ok () ∧
    (cleared k).flush.e.model.rules = [] ∧ (cleared k).flush.e.st.rules = [pRule, bob] ∧
    (cleared k).flush.e.loadPolicy.e.model.rules = [pRule, bob] ∧
    (cleared k).flush.e.savePolicy.e.st.rules = [] := by decide +kernel

theorem half_story : Enforcer.Story Good StorageExample.view (begin .batch) (half .batch) := by
  have h1 := Enforcer.Story.start (R := Good) (view := StorageExample.view) (e := begin .batch)
  have h2 := h1.call (.add pRule) (fun r h => good_many r (List.mem_of_mem_take (i := 1) h)) (by decide)
  have h3 := h2.call .flush (fun _ h => by cases h) (by decide)
  exact h3.call (.add bob) (fun r h => good_many r (List.mem_of_mem_drop (i := 1) h)) (by decide)

/-- The hypotheses of the theorems hold of it, for clearing and for defining the policy again. -/
example : ∀ m' ∈ [((half .batch).model.clearPolicy (s% "p")).1,
      ((half .batch).model.setDef 'p' (s% "p") (s% "sub, obj, act")).1],
    let e2 := ({ half .batch with model := m' } : Enforcer Store).flush.e
    (∀ x, StorageExample.view e2.st x = true ↔ x ∈ (half .batch).model.rules) ∧
    e2.loadPolicy.e.Agree StorageExample.view ∧
    e2.savePolicy.e.Agree StorageExample.view := by
  intro m' hm
  have hd : (half .batch).model.Drops (s% "p") m' := by
    simp only [List.mem_cons, List.not_mem_nil, or_false] at hm
    rcases hm with rfl | rfl
    · exact .clear
    · exact .define 'p' _ rfl (.inl rfl)
  have hp : m'.pMap.has (s% "p") = true := by
    simp only [List.mem_cons, List.not_mem_nil, or_false] at hm
    rcases hm with rfl | rfl <;> decide
  have hr : ({ half .batch with model := m' } : Enforcer Store).flush.res = .ok () :=
    show (half .batch).flush.res = .ok () by decide
  have hS := (saves .batch).only (fun x => x = pRule ∨ x = bob)
  have hL := (lists .batch).only (fun x => x = pRule ∨ x = bob)
  refine ⟨(c92_drop_partial (begin_ready .batch) hS hL (good_fits _) half_story hd hr).1,
    (c92_restore (begin_ready .batch) hS hL (good_fits _) half_story hd ?_ hr).2.1,
    (c92_save (begin_ready .batch) hS hL (good_fits _) half_story hd hr rfl).1⟩
  intro x hx
  refine ⟨good_fits _ x hx, ?_⟩
  rcases hx with ⟨-, rfl | rfl⟩
  · exact ⟨_, _, rfl, .inl ⟨rfl, hp⟩⟩
  · exact ⟨_, _, rfl, .inl ⟨rfl, hp⟩⟩

end DroppingExample

end Fastac
