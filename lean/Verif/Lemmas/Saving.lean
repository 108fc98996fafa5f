import Verif.Spec.Saving
import Verif.Props.File

/-!
# Saving and loading in the middle of a history
-/

namespace Fastac

open Model

variable {σ : Type} {I : σ → Prop} {R : Rule → Prop} {view : σ → Rule → Bool}

/-- Replaying operations once more changes nothing: the last operation about a rule decides. -/
theorem held_twice (x : Rule) (q : List Operation) : ∀ a b, held x (held x a q) q = held x b q ∨
    (∀ c, held x c q = c) := by
  induction q with
  | nil => exact fun _ _ => .inr fun _ => rfl
  | cons o q ih =>
    intro a b
    have key : (∀ c c', held x c q = held x c' q) ∨ (∀ c, held x c q = c) := by
      by_cases h : ∀ c, held x c q = c
      · exact .inr h
      · refine .inl fun c c' => ?_
        have hc : ∀ c c', held x (held x c q) q = held x c' q := fun c c' => (ih c c').resolve_right h
        rw [← hc c c, hc c c']
    obtain ⟨o, r⟩ := o
    rcases key with h | h
    · cases o <;> exact .inl (h _ _)
    · by_cases hx : r = x
      · cases o <;> simp [held, h, hx]
      · cases o <;> exact .inr fun c => by simp [held, h, hx]

theorem held_again (x : Rule) (q : List Operation) (a : Bool) : held x (held x a q) q = held x a q := by
  rcases held_twice x q a a with h | h
  · exact h
  · rw [h, h]

/-- Nothing comes in that was neither there nor added. -/
theorem held_from (x : Rule) (q : List Operation) : ∀ a, held x a q = true → a = true ∨ ∃ o ∈ q, o.rule = x := by
  induction q with
  | nil => exact fun a h => .inl h
  | cons o q ih =>
    intro a h
    obtain ⟨o, r⟩ := o
    cases o with
    | add =>
      rcases ih _ h with h | ⟨o, ho, e⟩
      · simp only [Bool.or_eq_true, beq_iff_eq] at h
        rcases h with h | h
        · exact .inl h
        · exact .inr ⟨_, List.mem_cons_self, h⟩
      · exact .inr ⟨o, List.mem_cons_of_mem _ ho, e⟩
    | remove =>
      rcases ih _ h with h | ⟨o, ho, e⟩
      · simp only [Bool.and_eq_true] at h
        exact .inl h.1
      · exact .inr ⟨o, List.mem_cons_of_mem _ ho, e⟩

theorem addRule_added {m : Model} {r : Rule} {ev : ModEvent} (h : (m.addRule r).2.2 = some ev) : ev = .added r := by
  match r with
  | [] => cases h
  | [] :: _ => cases h
  | (c :: cs) :: f =>
    have : (m.addRule ((c :: cs) :: f)).2.2 =
      if (m.addRule ((c :: cs) :: f)).2.1 = .ok true then some (.added ((c :: cs) :: f)) else none := rfl
    rw [this] at h
    split at h
    · cases h; rfl
    · cases h

/-- Adding rules that are there, up to the first error. -/
theorem each_present {build : Str → Res Stage} (hb : ∀ e s, build e = .ok s → s.Binary) (rs : List Rule) :
    ∀ {m : Model}, Made build m → (∀ r ∈ rs, m.Fits r) → (∀ r ∈ rs, r ∈ m.rules) →
    Made build (Model.each Model.addRule m rs).1 ∧ (Model.each Model.addRule m rs).1.gDefs = m.gDefs ∧
    ∀ x, x ∈ (Model.each Model.addRule m rs).1.rules ↔ x ∈ m.rules := by
  induction rs with
  | nil => intro m hm _ _; exact ⟨hm, rfl, fun _ => Iff.rfl⟩
  | cons r rs ih =>
    intro m hm hf hp
    have hfr := hf r List.mem_cons_self
    have hsame : ∀ x, x ∈ (m.addRule r).1.rules ↔ x ∈ m.rules := by
      intro x
      rw [addRule_replay hb hm hfr x]
      cases hev : (m.addRule r).2.2 with
      | none => simp [replay]
      | some ev =>
        rw [addRule_added hev]
        simp only [Option.toList, replay, Bool.or_eq_true, decide_eq_true_eq, beq_iff_eq]
        exact ⟨fun h => h.elim id (fun h => h ▸ hp r List.mem_cons_self), .inl⟩
    have hg := gDefs_add m r
    have hm' := hm.add r hfr
    obtain ⟨a, b, c⟩ := ih hm' (fun y hy => fits_of_gDefs hg (hf y (List.mem_cons_of_mem _ hy)))
      (fun y hy => (hsame y).mpr (hp y (List.mem_cons_of_mem _ hy)))
    simp only [Model.each]
    split
    · exact ⟨a, b.trans hg, fun x => (c x).trans (hsame x)⟩
    · exact ⟨hm', hg, hsame⟩
    · exact ⟨hm', hg, hsame⟩

theorem load_state (s : σ) (r : Res Unit) (rs : List Rule) : ∀ (m : Model) (d : Model × σ × Res Unit), d.2.1 = s →
    (m.load (LoadProg.ofList s r rs) d).2.1 = s := by
  induction rs with
  | nil => intro m d _; rfl
  | cons x xs ih =>
    intro m d hd
    simp only [LoadProg.ofList, Model.load]
    obtain ⟨res, hr⟩ : ∃ res, (m.addRule x).2.1 = res := ⟨_, rfl⟩
    cases res with
    | ok b => simpa [hr] using ih (m.addRule x).1 d hd
    | err => simp [hr, Model.load]
    | panic => simpa [hr] using hd

/-! ## Fewer rules -/

/-- A store that has only rules of `P`. -/
def Only (P : Rule → Prop) (I : σ → Prop) (view : σ → Rule → Bool) (s : σ) : Prop := I s ∧ ∀ x, view s x = true → P x

theorem Adapter.Keeps.only {A : Adapter σ} (h : A.Keeps I R view) (P : Rule → Prop) :
    A.Keeps (Only P I view) (fun x => R x ∧ P x) view := by
  rintro s c s' ⟨hi, hp⟩ hc hstep
  obtain ⟨a, b⟩ := h s c s' hi (fun o ho => (hc o ho).1) hstep
  refine ⟨⟨a, fun x hx => ?_⟩, b⟩
  rw [b x] at hx
  rcases held_from x _ _ hx with h1 | ⟨o, ho, rfl⟩
  · exact hp x h1
  · exact (hc o ho).2

theorem Adapter.Saves.only {A : Adapter σ} (h : A.Saves I R view) (P : Rule → Prop) :
    A.Saves (Only P I view) (fun x => R x ∧ P x) view := by
  rintro s rs s' ⟨hi, -⟩ hr hsave
  obtain ⟨a, b⟩ := h s rs s' hi (fun r hm => (hr r hm).1) hsave
  exact ⟨⟨a, fun x hx => (hr x ((b x).mp hx)).2⟩, b⟩

theorem Adapter.Lists.only {A : Adapter σ} (h : A.Lists I R view) (P : Rule → Prop) :
    A.Lists (Only P I view) (fun x => R x ∧ P x) view := by
  rintro s ⟨hi, hp⟩
  obtain ⟨rs, h1, h2, h3⟩ := h s hi
  exact ⟨rs, h1, fun r hr => ⟨h2 r hr, hp r ((h3 r).mp hr)⟩, h3⟩

namespace Enforcer

/-- Loading a list of rules leaves the store as it was. -/
theorem loadPolicy_st (e : Enforcer σ) {rs : List Rule} {r : Res Unit}
    (h : e.adapter.load e.st = LoadProg.ofList e.st r rs) : e.loadPolicy.e.st = e.st := by
  unfold Enforcer.loadPolicy
  split
  · rw [runLoad_quiet (e.adapter.load e.st) (e.model, e.st, .panic) (e.setStorage false)
      (by simp [Enforcer.setStorage]) rfl, h]
    exact load_state _ _ _ _ _ rfl
  · rename_i he
    rw [runLoad_quiet (e.adapter.load e.st) (e.model, e.st, .panic) e (by simp at he; simp [he]) rfl, h]
    exact load_state _ _ _ _ _ rfl

/-- The rules of a model in step with its store are ones of `R`. -/
theorem Sync.storable {e : Enforcer σ} (h : e.Sync I R view) (hV : ∀ s x, I s → view s x = true → R x) :
    ∀ x ∈ e.model.rules, R x := by
  intro x hx
  rcases held_from x _ _ ((h.rules x).mp hx) with h1 | ⟨o, ho, rfl⟩
  · exact hV _ _ h.inv h1
  · exact h.queue o ho

theorem Lists.storable {A : Adapter σ} (h : A.Lists I R view) : ∀ s x, I s → view s x = true → R x := by
  intro s x hs hx
  obtain ⟨rs, -, hr, hv⟩ := h s hs
  exact hr x ((hv x).mpr hx)

theorem step_adapter (e : Enforcer σ) (op : Op) : (e.step op).1.adapter = e.adapter := by
  have heach : ∀ (call : Enforcer σ → Rule → Out σ Bool), (∀ e r, (call e r).e.adapter = e.adapter) →
      ∀ rs (e : Enforcer σ), (Enforcer.each call e rs).e.adapter = e.adapter := by
    intro call hc rs
    induction rs with
    | nil => exact fun _ => rfl
    | cons r rs ih =>
      intro e
      simp only [Enforcer.each]
      split
      · exact (ih _).trans (hc e r)
      · exact hc e r
      · exact hc e r
  have hmany : ∀ (call : Enforcer σ → Rule → Out σ Bool), (∀ e r, (call e r).e.adapter = e.adapter) →
      ∀ rs (e : Enforcer σ), (Enforcer.many call e rs).e.adapter = e.adapter := by
    intro call hc rs e
    unfold Enforcer.many
    split
    · exact heach call hc rs (e.setAutosave false)
    · exact heach call hc rs e
  cases op with
  | add r => exact (withModel_frame e _).2.1
  | remove r => exact (withModel_frame e _).2.1
  | addMany rs => exact hmany _ (fun e r => (withModel_frame e _).2.1) rs e
  | removeMany rs => exact hmany _ (fun e r => (withModel_frame e _).2.1) rs e
  | flush => rfl
  | autosave b => rfl
  | wait i => rfl

/-- What the histories preserve. -/
theorem Story.tracks {build : Str → Res Stage} {e e1 : Enforcer σ} (hb : ∀ e s, build e = .ok s → s.Binary)
    (hS : e.adapter.Saves I R view) (hL : e.adapter.Lists I R view) (hF : ∀ x, R x → e.model.Fits x)
    (h0 : Tracks build I R view e.model.gDefs e) (h : Story R view e e1) :
    Tracks build I R view e.model.gDefs e1 ∧ e1.adapter = e.adapter := by
  induction h with
  | start => exact ⟨h0, rfl⟩
  | call h op hr ht ih =>
    exact ⟨ih.1.step hb op (fun r hrm => hF r (hr r hrm)) hr ht, (step_adapter _ op).trans ih.2⟩
  | @save e1 h hr ih =>
    obtain ⟨t, ha⟩ := ih
    have hR := t.sync.storable (Lists.storable (ha ▸ hL))
    have hs : e1.adapter.Saves I R view := ha ▸ hS
    obtain ⟨a, b⟩ := hs e1.st e1.model.rules (e1.adapter.save e1.st e1.model.rules).1 t.sync.inv hR (Prod.ext rfl hr)
    refine ⟨⟨t.made, t.listens, t.keeps, ⟨a, t.sync.queue, fun x => ?_⟩, t.defs⟩, ha⟩
    have hv : view (e1.adapter.save e1.st e1.model.rules).1 x = held x (view e1.st x) e1.sc.q := by
      rw [Bool.eq_iff_iff, b x]; exact t.sync.rules x
    show x ∈ e1.model.rules ↔ held x (view (e1.adapter.save e1.st e1.model.rules).1 x) e1.sc.q = true
    rw [hv, held_again]
    exact t.sync.rules x
  | @load e1 h hr ih =>
    obtain ⟨t, ha⟩ := ih
    obtain ⟨rs, h1, h2, h3⟩ := (ha ▸ hL : e1.adapter.Lists I R view) e1.st t.sync.inv
    obtain ⟨-, c1, c2, c3, -, -⟩ := c39_load e1
    obtain ⟨c4, -⟩ := c39_load_list e1 rs _ h1
    have c5 := loadPolicy_st e1 h1
    obtain ⟨a, b, c⟩ := each_present hb rs t.made (fun r hr => fits_of_gDefs t.defs (hF r (h2 r hr)))
      (fun r hrm => hr r ((h3 r).mp hrm))
    refine ⟨⟨by rw [c4]; exact a, ⟨c3.trans t.listens.1, ?_⟩, ?_, ⟨?_, ?_, ?_⟩, ?_⟩, c2.trans ha⟩
    · rw [c1]; exact t.listens.2
    · rw [c2]; exact t.keeps
    · rw [c5]; exact t.sync.inv
    · rw [c1]; exact t.sync.queue
    · intro x; rw [c4, c5, c1, c x]; exact t.sync.rules x
    · rw [c4, b]; exact t.defs

end Enforcer

/-! ## The file adapter -/

theorem fileAdapter_saves {env : Env} (henv : env.Ok) : (fileAdapter env).Saves Sound Storable fileView := by
  intro file rs file' _ hs hsave
  have hperm := henv.order rs
  have hs' : ∀ r ∈ env.order rs, Storable r := fun r hr => hs r (hperm.mem_iff.mp hr)
  have hfile : file' = some (fileText (env.order rs)) := by
    simp only [fileAdapter, fileSave] at hsave
    split at hsave
    · rw [saveSteps_final, henv.chunks] at hsave
      exact (Prod.ext_iff.mp hsave).1.symm
    · simp at hsave
  have hh := holds_fileText (env.order rs) hs'
  rw [← hfile] at hh
  refine ⟨⟨_, hh, hs'⟩, fun x => ?_⟩
  rw [fileView_eq hh hs', decide_eq_true_eq]
  exact hperm.mem_iff

theorem fileAdapter_lists (env : Env) : (fileAdapter env).Lists Sound Storable fileView := by
  rintro file ⟨rs, hh, hs⟩
  refine ⟨rs, hh, hs, fun x => ?_⟩
  rw [fileView_eq hh hs, decide_eq_true_eq]

/-! ## Nobody listens -/

namespace Enforcer

theorem drain_nil (A : Adapter σ) (s : σ) : (SC.drain A [] s).q = [] ∧ (SC.drain A [] s).st = s ∧
    (SC.drain A [] s).trace = [] := by
  unfold SC.drain
  cases A.kind <;> exact ⟨rfl, rfl, rfl⟩

/-- Nobody listens and nothing is queued. -/
structure Detached (e e1 : Enforcer σ) : Prop where
  hooked : e1.hooked = false
  queue : e1.sc.q = []
  store : e1.st = e.st

theorem Detached.withModel {e e1 : Enforcer σ} (h : Detached e e1) (x : Model × Res Bool × Option ModEvent) :
    Detached e (e1.withModel x).e ∧ (e1.withModel x).trace = [] := by
  rw [withModel_quiet e1 (by simp [h.hooked]) x]
  exact ⟨⟨h.hooked, h.queue, h.store⟩, rfl⟩

theorem Detached.flush {e e1 : Enforcer σ} (h : Detached e e1) : Detached e e1.flush.e ∧ e1.flush.trace = [] := by
  obtain ⟨a, b, c⟩ := drain_nil e1.adapter e1.st
  refine ⟨⟨h.hooked, ?_, ?_⟩, ?_⟩
  · show (SC.drain e1.adapter e1.sc.q e1.st).q = []
    rw [h.queue]; exact a
  · show (SC.drain e1.adapter e1.sc.q e1.st).st = e.st
    rw [h.queue, b]; exact h.store
  · show (SC.drain e1.adapter e1.sc.q e1.st).trace = []
    rw [h.queue]; exact c

theorem Detached.each {e : Enforcer σ} {call : Enforcer σ → Rule → Out σ Bool}
    (hc : ∀ e1 r, Detached e e1 → Detached e (call e1 r).e ∧ (call e1 r).trace = []) (rs : List Rule) :
    ∀ {e1 : Enforcer σ}, Detached e e1 → Detached e (Enforcer.each call e1 rs).e ∧ (Enforcer.each call e1 rs).trace = [] := by
  induction rs with
  | nil => exact fun h => ⟨h, rfl⟩
  | cons r rs ih =>
    intro e1 h
    obtain ⟨a, b⟩ := hc e1 r h
    simp only [Enforcer.each]
    split
    · obtain ⟨c, d⟩ := ih a
      exact ⟨c, by simp only [b, d, List.append_nil]⟩
    · exact ⟨a, b⟩
    · exact ⟨a, b⟩

theorem Detached.many {e : Enforcer σ} {call : Enforcer σ → Rule → Out σ Bool}
    (hc : ∀ e1 r, Detached e e1 → Detached e (call e1 r).e ∧ (call e1 r).trace = []) (rs : List Rule)
    {e1 : Enforcer σ} (h : Detached e e1) :
    Detached e (Enforcer.many call e1 rs).e ∧ (Enforcer.many call e1 rs).trace = [] := by
  unfold Enforcer.many
  split
  · obtain ⟨a, b⟩ := Detached.each hc rs (e1 := e1.setAutosave false) ⟨h.hooked, h.queue, h.store⟩
    obtain ⟨c, d⟩ := Detached.flush (e1 := (Enforcer.each call (e1.setAutosave false) rs).e.setAutosave true)
      ⟨a.hooked, a.queue, a.store⟩
    exact ⟨c, by simp only [b, d, List.append_nil]⟩
  · exact Detached.each hc rs h

theorem Detached.step {e e1 : Enforcer σ} (h : Detached e e1) (op : Op) :
    Detached e (e1.step op).1 ∧ (e1.step op).2 = [] := by
  cases op with
  | add r => exact h.withModel _
  | remove r => exact h.withModel _
  | addMany rs => exact Detached.many (fun e1 r h => h.withModel _) rs h
  | removeMany rs => exact Detached.many (fun e1 r h => h.withModel _) rs h
  | flush => exact h.flush
  | autosave b => exact ⟨⟨h.hooked, h.queue, h.store⟩, rfl⟩
  | wait i => exact ⟨⟨h.hooked, h.queue, h.store⟩, rfl⟩

theorem Detached.run {e : Enforcer σ} (H : List Op) : ∀ {e1 : Enforcer σ}, Detached e e1 →
    Detached e (e1.run H).1 ∧ (e1.run H).2 = [] := by
  induction H with
  | nil => exact fun h => ⟨h, rfl⟩
  | cons op H ih =>
    intro e1 h
    obtain ⟨a, b⟩ := h.step op
    obtain ⟨c, d⟩ := ih a
    simp only [Enforcer.run]
    exact ⟨c, by simp only [b, d, List.append_nil]⟩

end Enforcer

end Fastac
