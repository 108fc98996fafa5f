import Verif.Model.RoleThreads
import Verif.Spec.RoleThreads

/-!
# Calls that run at the same time: invariants, and the answers of questions
-/

namespace Fastac

namespace Thread

variable {S α β γ : Type}

/-- Whatever the others do, as long as the invariant `I` holds between two steps, the call keeps it, does not panic and
returns something with `Q`. -/
def Safe (I : S → Prop) (Q : α → Prop) : Thread S α → Prop
  | .ret a => Q a
  | .crash => False
  | .act f k => ∀ s, I s → I (f s) ∧ (k s).Safe I Q

theorem Safe.bind {I : S → Prop} {Q : α → Prop} {P : β → Prop} {g : α → Thread S β} (hg : ∀ a, Q a → (g a).Safe I P) :
    ∀ {t : Thread S α}, t.Safe I Q → (t.bind g).Safe I P
  | .ret a, h => hg a h
  | .crash, h => h.elim
  | .act _ _, h => fun s hs => ⟨(h s hs).1, Safe.bind hg (h s hs).2⟩

theorem Safe.ret {I : S → Prop} {Q : α → Prop} {a : α} (h : Q a) : (Thread.ret a : Thread S α).Safe I Q := h

theorem Safe.read {I : S → Prop} {Q : α → Prop} {g : S → α} (h : ∀ s, I s → Q (g s)) : (Thread.read g).Safe I Q :=
  fun s hs => ⟨hs, h s hs⟩

theorem Safe.write {I : S → Prop} {f : S → S} (h : ∀ s, I s → I (f s)) : (Thread.write f).Safe I (fun _ => True) :=
  fun s hs => ⟨h s hs, trivial⟩

theorem Safe.weaken {I : S → Prop} {Q P : α → Prop} (h : ∀ a, Q a → P a) : ∀ {t : Thread S α}, t.Safe I Q → t.Safe I P
  | .ret a, x => h a x
  | .crash, x => x.elim
  | .act _ _, x => fun s hs => ⟨(x s hs).1, Safe.weaken h (x s hs).2⟩

theorem Safe.each {I : S → Prop} {body : β → Thread S Unit} : ∀ {l : List β},
    (∀ x ∈ l, (body x).Safe I (fun _ => True)) → (Thread.each body l).Safe I (fun _ => True)
  | [], _ => trivial
  | x :: _, h => Safe.bind (fun _ _ => Safe.each (fun y hy => h y (List.mem_cons_of_mem _ hy))) (h x List.mem_cons_self)

theorem Safe.collect_nil {I : S → Prop} {body : β → Thread S (List α)} : ∀ {l : List β},
    (∀ x ∈ l, (body x).Safe I (fun ys => ys = [])) → (Thread.collect body l).Safe I (fun ys => ys = [])
  | [], _ => rfl
  | x :: xs, h =>
    Safe.bind (fun ys hy => Safe.bind (fun zs hz => by subst hy; subst hz; rfl)
      (Safe.collect_nil (fun y hy => h y (List.mem_cons_of_mem _ hy)))) (h x List.mem_cons_self)

theorem Safe.exec {I : S → Prop} {Q : α → Prop} : ∀ {t : Thread S α}, t.Safe I Q → ∀ s, I s →
    I (t.exec s).1 ∧ ∃ a, (t.exec s).2 = some a ∧ Q a
  | .ret a, h, _, hs => ⟨hs, a, rfl, h⟩
  | .crash, h, _, _ => h.elim
  | .act _ _, h, s, hs => Safe.exec (h s hs).2 _ (h s hs).1

theorem exec_bind (g : α → Thread S β) : ∀ (t : Thread S α) (s : S),
    (t.bind g).exec s = match (t.exec s).2 with | some a => (g a).exec (t.exec s).1 | none => ((t.exec s).1, none)
  | .ret _, _ => rfl
  | .crash, _ => rfl
  | .act f k, s => exec_bind g (k s) (f s)

end Thread

/-! ## The system -/

namespace RSystem

variable {α : Type}

theorem step_other {y : RSystem α} {i j : Nat} (h : j ≠ i) : (y.step i).calls[j]? = y.calls[j]? := by
  unfold step
  split
  · rfl
  · exact List.getElem?_set_ne (fun e => h e.symm)

theorem step_length (y : RSystem α) (i : Nat) : (y.step i).calls.length = y.calls.length := by
  unfold step
  split
  · rfl
  · simp

theorem run_length (is : List Nat) : ∀ y : RSystem α, (y.run is).calls.length = y.calls.length := by
  induction is with
  | nil => exact fun _ => rfl
  | cons i is ih => exact fun y => (ih _).trans (step_length y i)

theorem step_self {y : RSystem α} {i : Nat} {t : Thread RHeap α} (h : y.calls[i]? = some t) :
    (y.step i).heap = (t.step y.heap).1 ∧ (y.step i).calls[i]? = some (t.step y.heap).2 := by
  have hl := (List.getElem?_eq_some_iff.1 h).1
  unfold step
  rw [h]
  exact ⟨rfl, List.getElem?_set_self hl⟩

/-- The invariant holds, and every call is safe. -/
structure AllSafe (I : RHeap → Prop) (Q : Nat → α → Prop) (y : RSystem α) : Prop where
  inv : I y.heap
  safe : ∀ i (t : Thread RHeap α), y.calls[i]? = some t → t.Safe I (Q i)

theorem AllSafe.step {I : RHeap → Prop} {Q : Nat → α → Prop} {y : RSystem α} (h : y.AllSafe I Q) (i : Nat) :
    (y.step i).AllSafe I Q := by
  cases hi : y.calls[i]? with
  | none =>
    have : y.step i = y := by unfold RSystem.step; rw [hi]
    rw [this]; exact h
  | some t =>
    obtain ⟨e1, e2⟩ := step_self hi
    have ht := h.safe i t hi
    have key : I (t.step y.heap).1 ∧ (t.step y.heap).2.Safe I (Q i) := by
      cases t with
      | ret a => exact ⟨h.inv, ht⟩
      | crash => exact ht.elim
      | act f k => exact ht _ h.inv
    refine ⟨by rw [e1]; exact key.1, fun j t' hj => ?_⟩
    by_cases c : j = i
    · subst c
      rw [e2] at hj
      cases hj
      exact key.2
    · rw [step_other c] at hj
      exact h.safe j t' hj

theorem AllSafe.run {I : RHeap → Prop} {Q : Nat → α → Prop} (is : List Nat) : ∀ {y : RSystem α}, y.AllSafe I Q →
    (y.run is).AllSafe I Q := by
  induction is with
  | nil => exact fun h => h
  | cons i is ih => exact fun h => ih (h.step i)

theorem AllSafe.answer {I : RHeap → Prop} {Q : Nat → α → Prop} {y : RSystem α} (h : y.AllSafe I Q) {i : Nat} {a : α}
    (ha : y.answer i = some a) : Q i a := by
  unfold RSystem.answer at ha
  split at ha
  · rename_i a' hi
    cases ha
    exact h.safe i _ hi
  · cases ha

theorem AllSafe.crashed {I : RHeap → Prop} {Q : Nat → α → Prop} {y : RSystem α} (h : y.AllSafe I Q) (i : Nat) :
    y.crashed i = false := by
  unfold RSystem.crashed
  split
  · rename_i hi
    exact (h.safe i _ hi).elim
  · rfl

end RSystem

/-! ## Heaps without patterns -/

namespace RHeap

theorem role_upd (s : RHeap) (a b : Nat) (g : RObj → RObj) :
    (s.upd a g).role b = if a = b ∧ b < s.objs.length then g (s.role b) else s.role b := by
  unfold upd role
  simp only [List.getElem?_modify]
  by_cases c : a = b
  · subst c
    by_cases d : a < s.objs.length
    · simp [d]
    · simp [d]
  · simp [c]

/-- The roles and users in the heap are those of `L` and `U`. -/
structure Base (h : RHeap) (L U : Str → Str → Prop) : Prop where
  valid : ∀ n a, h.all.get n = some a → a < h.objs.length
  inj : ∀ n n' a, h.all.get n = some a → h.all.get n' = some a → n = n'
  bare : ∀ a, (h.role a).matched = [] ∧ (h.role a).matchedBy = []
  rwf : ∀ a, (h.role a).roles.WF
  uwf : ∀ a, (h.role a).users.WF
  roles : ∀ n a, h.all.get n = some a → ∀ r b, (h.role a).roles.get r = some b ↔ L n r ∧ h.all.get r = some b
  users : ∀ n a, h.all.get n = some a → ∀ u b, (h.role a).users.get u = some b ↔ U u n ∧ h.all.get u = some b
  lk : ∀ u r, L u r → h.all.has u = true ∧ h.all.has r = true
  uk : ∀ u r, U u r → h.all.has u = true ∧ h.all.has r = true

theorem Base.new : Base new (fun _ _ => False) (fun _ _ => False) := by
  constructor <;> simp [RHeap.new, role, GoMap.WF]

theorem Base.congr {h : RHeap} {L U L' U' : Str → Str → Prop} (b : Base h L U) (hl : ∀ u r, L u r ↔ L' u r)
    (hu : ∀ u r, U u r ↔ U' u r) : Base h L' U' := by
  have e1 : L = L' := funext fun u => funext fun r => propext (hl u r)
  have e2 : U = U' := funext fun u => funext fun r => propext (hu u r)
  exact e1 ▸ e2 ▸ b

/-- What questions may do to the heap `h`: make roles without links for names that are not in use, and take them out. -/
structure Ext (h s : RHeap) : Prop where
  len : h.objs.length ≤ s.objs.length
  old : ∀ a, a < h.objs.length → s.objs[a]? = h.objs[a]?
  fresh : ∀ a, h.objs.length ≤ a → (s.role a).roles = [] ∧ (s.role a).users = [] ∧ (s.role a).matched = [] ∧
    (s.role a).matchedBy = []
  known : ∀ n a, h.all.get n = some a → s.all.get n = some a
  new : ∀ n a, h.all.get n = none → s.all.get n = some a → h.objs.length ≤ a ∧ a < s.objs.length ∧
    (s.role a).name = n

theorem Ext.refl (h : RHeap) : Ext h h := by
  refine ⟨Nat.le_refl _, fun _ _ => rfl, fun a ha => ?_, fun _ _ e => e, fun n a e e' => ?_⟩
  · unfold role
    rw [List.getElem?_eq_none ha]
    simp
  · rw [e] at e'; cases e'

/-- An address that a call has got for the name `n`. -/
def At (h : RHeap) (n : Str) (a : Nat) : Prop :=
  h.all.get n = some a ∨ (h.all.get n = none ∧ h.objs.length ≤ a)

theorem Ext.role_old {h s : RHeap} (e : Ext h s) {a : Nat} (ha : a < h.objs.length) : s.role a = h.role a := by
  unfold role
  rw [e.old a ha]

theorem Ext.bare {h s : RHeap} {L U : Str → Str → Prop} (e : Ext h s) (b : Base h L U) (a : Nat) :
    (s.role a).matched = [] ∧ (s.role a).matchedBy = [] := by
  by_cases ha : a < h.objs.length
  · rw [e.role_old ha]; exact b.bare a
  · exact ⟨(e.fresh a (Nat.le_of_not_lt ha)).2.2.1, (e.fresh a (Nat.le_of_not_lt ha)).2.2.2⟩

theorem Ext.roles {h s : RHeap} {L U : Str → Str → Prop} (e : Ext h s) (b : Base h L U) {n : Str} {a : Nat}
    (ha : h.At n a) (r : Str) (x : Nat) : (r, x) ∈ (s.role a).roles ↔ L n r ∧ h.all.get r = some x := by
  rcases ha with ha | ⟨hn, ha⟩
  · rw [e.role_old (b.valid n a ha), ← b.roles n a ha]
    exact ⟨(b.rwf a).get_of_mem, GoMap.mem_of_get⟩
  · rw [(e.fresh a ha).1]
    constructor
    · intro h; cases h
    · rintro ⟨hl, _⟩
      have := (b.lk n r hl).1
      rw [GoMap.has, hn] at this
      cases this

theorem Ext.users {h s : RHeap} {L U : Str → Str → Prop} (e : Ext h s) (b : Base h L U) {n : Str} {a : Nat}
    (ha : h.At n a) (u : Str) (x : Nat) : (u, x) ∈ (s.role a).users ↔ U u n ∧ h.all.get u = some x := by
  rcases ha with ha | ⟨hn, ha⟩
  · rw [e.role_old (b.valid n a ha), ← b.users n a ha]
    exact ⟨(b.uwf a).get_of_mem, GoMap.mem_of_get⟩
  · rw [(e.fresh a ha).2.1]
    constructor
    · intro h; cases h
    · rintro ⟨hl, _⟩
      have := (b.uk u n hl).2
      rw [GoMap.has, hn] at this
      cases this

theorem Ext.roles_wf {h s : RHeap} {L U : Str → Str → Prop} (e : Ext h s) (b : Base h L U) (a : Nat) :
    (s.role a).roles.WF := by
  by_cases ha : a < h.objs.length
  · rw [e.role_old ha]; exact b.rwf a
  · rw [(e.fresh a (Nat.le_of_not_lt ha)).1]; exact GoMap.WF.nil

theorem Ext.users_wf {h s : RHeap} {L U : Str → Str → Prop} (e : Ext h s) (b : Base h L U) (a : Nat) :
    (s.role a).users.WF := by
  by_cases ha : a < h.objs.length
  · rw [e.role_old ha]; exact b.uwf a
  · rw [(e.fresh a (Nat.le_of_not_lt ha)).2.1]; exact GoMap.WF.nil

end RHeap

/-! ## Questions -/

namespace RConf

open RHeap

variable {c : RConf} {h : RHeap} {L U : Str → Str → Prop}

/-- No patterns; maps are ranged over in any order. -/
structure Plain (c : RConf) : Prop where
  matcher : c.matcher = none
  perm : ∀ l, (c.ord l).Perm l

theorem Plain.nil (hc : c.Plain) : c.ord [] = [] := (hc.perm []).eq_nil

theorem Plain.mem (hc : c.Plain) {l : GoMap Str Nat} {e : Str × Nat} : e ∈ c.ord l ↔ e ∈ l := (hc.perm l).mem_iff

theorem Plain.matches (hc : c.Plain) (x y : Str) : c.matches x y = false := by
  unfold RConf.matches
  rw [hc.matcher]

theorem getRole_plain (hc : c.Plain) (n : Str) : c.getRole n =
    .act id (fun s => match s.all.get n with
      | some a => .ret (a, false)
      | none => (create n).bind fun a => .ret (a, true)) := by
  unfold getRole
  simp only [Thread.read, Thread.bind, hc.matcher]
  congr 1

theorem Ext.create {s : RHeap} (e : Ext h s) {n : Str} (hn : h.all.get n = none) :
    Ext h { s with objs := s.objs ++ [{ name := n }], all := s.all.set n s.objs.length } := by
  have hr : ∀ a, (RHeap.role { s with objs := s.objs ++ [{ name := n }], all := s.all.set n s.objs.length } a) =
      if a = s.objs.length then { name := n } else s.role a := by
    intro a
    unfold RHeap.role
    simp only [List.getElem?_append]
    by_cases c1 : a < s.objs.length
    · rw [if_pos c1, if_neg (by omega)]
    · rw [if_neg c1]
      by_cases c2 : a = s.objs.length
      · simp [c2]
      · rw [if_neg c2, List.getElem?_eq_none (Nat.le_of_not_lt c1)]
        rw [List.getElem?_eq_none (by simp; omega)]
  refine ⟨by simp only [List.length_append, List.length_singleton]; have := e.len; omega, fun a ha => ?_, fun a ha => ?_, fun m a hm => ?_,
    fun m a hm hm' => ?_⟩
  · simp only
    rw [List.getElem?_append_left (by have := e.len; omega)]
    exact e.old a ha
  · rw [hr]
    split
    · exact ⟨rfl, rfl, rfl, rfl⟩
    · exact e.fresh a ha
  · simp only [GoMap.get_set]
    split
    · rename_i x; rw [← x, hn] at hm; cases hm
    · exact e.known m a hm
  · simp only [GoMap.get_set] at hm'
    rw [hr]
    simp only [List.length_append, List.length_singleton]
    split at hm'
    · rename_i x
      cases hm'
      have := e.len
      rw [if_pos rfl]
      exact ⟨by omega, by omega, x⟩
    · obtain ⟨h1, h2, h3⟩ := e.new m a hm hm'
      rw [if_neg (by omega)]
      exact ⟨h1, by omega, h3⟩

theorem Ext.delete {s : RHeap} (e : Ext h s) {n : Str} (hn : h.all.get n = none) :
    Ext h { s with all := s.all.del n } := by
  refine ⟨e.len, e.old, e.fresh, fun m a hm => ?_, fun m a hm hm' => ?_⟩
  · simp only [GoMap.get_del]
    split
    · rename_i x; rw [← x, hn] at hm; cases hm
    · exact e.known m a hm
  · simp only [GoMap.get_del] at hm'
    split at hm'
    · cases hm'
    · exact e.new m a hm hm'

theorem Ext.patterns {s : RHeap} (e : Ext h s) (ps : List Str) : Ext h { s with patterns := ps } :=
  ⟨e.len, e.old, e.fresh, e.known, e.new⟩

theorem getRole_safe (hc : c.Plain) (n : Str) :
    (c.getRole n).Safe (Ext h) (fun x => h.At n x.1 ∧ (x.2 = true → h.all.get n = none)) := by
  rw [getRole_plain hc]
  intro s e
  refine ⟨e, ?_⟩
  simp only
  cases hn : h.all.get n with
  | some a =>
    rw [e.known n a hn]
    exact ⟨.inl hn, fun x => by cases x⟩
  | none =>
    cases hs : s.all.get n with
    | some a => exact ⟨.inr ⟨hn, (e.new n a hn hs).1⟩, fun x => by cases x⟩
    | none => exact fun s' e' => ⟨Ext.create e' hn, .inr ⟨hn, e'.len⟩, fun _ => rfl⟩

theorem removeRole_safe (hc : c.Plain) (b : Base h L U) {n : Str} (hn : h.all.get n = none) :
    (c.removeRole n).Safe (Ext h) (fun _ => True) := by
  unfold removeRole
  refine Thread.Safe.bind (Q := fun _ => True) (fun x _ => ?_) (Thread.Safe.read fun _ _ => trivial)
  refine Thread.Safe.bind (Q := fun _ => True) (fun _ _ => Thread.Safe.write fun s e => Ext.patterns e _) ?_
  cases x with
  | none => trivial
  | some a =>
    refine Thread.Safe.bind (Q := fun _ => True) (fun _ _ => ?_) (Thread.Safe.write fun s e => Ext.delete e hn)
    unfold removeMatches
    refine Thread.Safe.bind (Q := fun es => es = []) (fun es he => ?_)
      (Thread.Safe.read fun s e => by rw [(e.bare b a).1]; exact hc.nil)
    subst he
    refine Thread.Safe.bind (Q := fun _ => True) (fun _ _ => ?_) trivial
    refine Thread.Safe.bind (Q := fun es => es = []) (fun es he => ?_)
      (Thread.Safe.read fun s e => by rw [(e.bare b a).2]; exact hc.nil)
    subst he
    trivial

theorem removeIf_safe (hc : c.Plain) (b : Base h L U) {n : Str} {x : Bool} (hn : x = true → h.all.get n = none) :
    (c.removeIf x n).Safe (Ext h) (fun _ => True) := by
  unfold removeIf
  split
  · rename_i e; exact removeRole_safe hc b (hn e)
  · trivial

theorem rangeRoles_safe (hc : c.Plain) (b : Base h L U) {n : Str} {a : Nat} (ha : h.At n a) :
    (c.rangeRoles a).Safe (Ext h) (fun es => (es.map Prod.fst).Nodup ∧
      ∀ r x, (r, x) ∈ es ↔ L n r ∧ h.all.get r = some x) := by
  unfold rangeRoles
  refine Thread.Safe.bind (fun r1 h1 => ?_) (Thread.Safe.read
    (Q := fun es => (es.map Prod.fst).Nodup ∧ ∀ r x, (r, x) ∈ es ↔ L n r ∧ h.all.get r = some x) fun s e =>
      ⟨(e.roles_wf b a).perm (hc.perm _), fun r x => by rw [hc.mem]; exact e.roles b ha r x⟩)
  refine Thread.Safe.bind (Q := fun _ => True) (fun r2 _ => ?_) (Thread.Safe.read fun _ _ => trivial)
  refine Thread.Safe.bind (fun ms hm => ?_) (Thread.Safe.collect_nil fun e _ => Thread.Safe.read fun s x => by
    rw [(x.bare b _).1]; exact hc.nil)
  refine Thread.Safe.bind (Q := fun es => es = []) (fun bs hb => ?_)
    (Thread.Safe.read fun s x => by rw [(x.bare b _).2]; exact hc.nil)
  subst hm hb
  simp only [Thread.collect, Thread.bind, List.append_nil]
  exact h1

theorem rangeUsers_safe (hc : c.Plain) (b : Base h L U) {n : Str} {a : Nat} (ha : h.At n a) :
    (c.rangeUsers a).Safe (Ext h) (fun es => (es.map Prod.fst).Nodup ∧
      ∀ u x, (u, x) ∈ es ↔ U u n ∧ h.all.get u = some x) := by
  unfold rangeUsers
  refine Thread.Safe.bind (fun r1 h1 => ?_) (Thread.Safe.read
    (Q := fun es => (es.map Prod.fst).Nodup ∧ ∀ u x, (u, x) ∈ es ↔ U u n ∧ h.all.get u = some x) fun s e =>
      ⟨(e.users_wf b a).perm (hc.perm _), fun r x => by rw [hc.mem]; exact e.users b ha r x⟩)
  refine Thread.Safe.bind (Q := fun _ => True) (fun r2 _ => ?_) (Thread.Safe.read fun _ _ => trivial)
  refine Thread.Safe.bind (fun ms hm => ?_) (Thread.Safe.collect_nil fun e _ => Thread.Safe.read fun s x => by
    rw [(x.bare b _).1]; exact hc.nil)
  refine Thread.Safe.bind (Q := fun es => es = []) (fun bs hb => ?_)
    (Thread.Safe.read fun s x => by rw [(x.bare b _).2]; exact hc.nil)
  subst hm hb
  simp only [Thread.collect, Thread.bind, List.append_nil]
  exact h1

/-! ### The search -/

/-- The names of the map, with addresses that calls may have. -/
def Front (h : RHeap) (m : GoMap Str Nat) : Prop := ∀ n a, (n, a) ∈ m → h.At n a

theorem mem_keys_set {m : GoMap Str Nat} {k : Str} {v : Nat} {n : Str} :
    (∃ a, (n, a) ∈ m.set k v) ↔ (∃ a, (n, a) ∈ m) ∨ n = k := by
  have key : ∀ (m : GoMap Str Nat) (n : Str), (∃ a, (n, a) ∈ m) ↔ (m.get n).isSome = true := by
    intro m n
    rw [← GoMap.mem_keys_iff]
    simp
  rw [key, key, GoMap.get_set]
  by_cases c : k = n
  · simp [c]
  · simp [c]
    exact fun e => absurd e.symm c

theorem foldl_set {xs : List (Str × Nat)} : ∀ {m : GoMap Str Nat},
    (∀ n, (∃ a, (n, a) ∈ xs.foldl (fun m e => m.set e.1 e.2) m) ↔ (∃ a, (n, a) ∈ m) ∨ ∃ a, (n, a) ∈ xs) ∧
    ∀ e ∈ xs.foldl (fun m e => m.set e.1 e.2) m, e ∈ m ∨ e ∈ xs := by
  induction xs with
  | nil => intro m; exact ⟨fun n => by simp, fun e he => .inl he⟩
  | cons x xs ih =>
    intro m
    simp only [List.foldl_cons]
    obtain ⟨h1, h2⟩ := ih (m := m.set x.1 x.2)
    refine ⟨fun n => ?_, fun e he => ?_⟩
    · rw [h1, mem_keys_set]
      simp only [List.mem_cons]
      constructor
      · rintro ((h | rfl) | ⟨a, h⟩)
        · exact .inl h
        · exact .inr ⟨x.2, .inl rfl⟩
        · exact .inr ⟨a, .inr h⟩
      · rintro (h | ⟨a, h | h⟩)
        · exact .inl (.inl h)
        · exact .inl (.inr (by rw [← h]))
        · exact .inr ⟨a, h⟩
    · rcases h2 e he with h | h
      · have : e = (x.1, x.2) ∨ e ∈ m := by
          clear he h1 h2 ih
          induction m with
          | nil => left; simpa [GoMap.set] using h
          | cons y m ih =>
            unfold GoMap.set at h
            split at h
            · rcases List.mem_cons.1 h with h | h
              · exact .inl h
              · exact .inr (List.mem_cons_of_mem _ h)
            · rcases List.mem_cons.1 h with h | h
              · exact .inr (h ▸ List.mem_cons_self)
              · rcases ih h with h | h
                · exact .inl h
                · exact .inr (List.mem_cons_of_mem _ h)
        rcases this with h | h
        · exact .inr (h ▸ List.mem_cons_self)
        · exact .inl h
      · exact .inr (List.mem_cons_of_mem _ h)

theorem visit_safe (hc : c.Plain) (b : Base h L U) (target : Str) : ∀ (es : List (Str × Nat)) (next : GoMap Str Nat),
    Front h es → Front h next →
    (c.visit target es next).Safe (Ext h) (fun
      | none => ∃ a, (target, a) ∈ es
      | some m => (∀ a, (target, a) ∉ es) ∧ Front h m ∧
        ∀ r, (∃ a, (r, a) ∈ m) ↔ (∃ a, (r, a) ∈ next) ∨ ∃ n a, (n, a) ∈ es ∧ L n r)
  | [], next, _, hn => ⟨by simp, hn, fun r => by simp⟩
  | (n, a) :: es, next, he, hn => by
    unfold visit
    rw [hc.matches]
    by_cases ht : target = n
    · simp only [ht, true_or, if_true]
      exact ⟨a, List.mem_cons_self⟩
    · simp only [ht, Bool.false_eq_true, or_self, if_false]
      refine Thread.Safe.bind (fun xs ⟨_, hx⟩ => ?_) (rangeRoles_safe hc b (he n a List.mem_cons_self))
      obtain ⟨f1, f2⟩ := foldl_set (xs := xs) (m := next)
      refine (visit_safe hc b target es _ (fun n' a' hm => he n' a' (List.mem_cons_of_mem _ hm)) ?_).weaken ?_
      · intro n' a' hm
        rcases f2 _ hm with hm | hm
        · exact hn _ _ hm
        · exact .inl ((hx _ _).1 hm).2
      · intro o ho
        cases o with
        | none =>
          obtain ⟨a', ha'⟩ := ho
          exact ⟨a', List.mem_cons_of_mem _ ha'⟩
        | some m =>
          obtain ⟨g1, g2, g3⟩ := ho
          refine ⟨fun a' hm => ?_, g2, fun r => ?_⟩
          · rcases List.mem_cons.1 hm with hm | hm
            · exact ht (Prod.mk.inj hm).1
            · exact g1 a' hm
          · rw [g3, f1]
            constructor
            · rintro ((h1 | ⟨x, h1⟩) | ⟨n', a', h1, h2⟩)
              · exact .inl h1
              · exact .inr ⟨n, a, List.mem_cons_self, ((hx r x).1 h1).1⟩
              · exact .inr ⟨n', a', List.mem_cons_of_mem _ h1, h2⟩
            · rintro (h1 | ⟨n', a', h1, h2⟩)
              · exact .inl (.inl h1)
              · rcases List.mem_cons.1 h1 with h1 | h1
                · cases h1
                  obtain ⟨x, hx'⟩ := Option.isSome_iff_exists.1 (b.lk n r h2).2
                  exact .inl (.inr ⟨x, (hx r x).2 ⟨h2, hx'⟩⟩)
                · exact .inr ⟨n', a', h1, h2⟩

theorem helper_safe (hc : c.Plain) (b : Base h L U) (target : Str) : ∀ (level : Nat) (m : GoMap Str Nat),
    Front h m → (c.helper target level m).Safe (Ext h)
      (fun x => x = true ↔ ∃ k, k < level ∧ ∃ n a, (n, a) ∈ m ∧ Reach L k n target)
  | 0, m, _ => by
    show (false = true ↔ _)
    simp
  | level + 1, m, hm => by
    unfold helper
    split
    · rename_i he
      have : m = [] := List.isEmpty_iff.1 he
      subst this
      show (false = true ↔ _)
      simp
    · refine Thread.Safe.bind (fun o ho => ?_) (visit_safe hc b target (c.ord m) [] (fun n a he => hm n a (hc.mem.1 he))
        (fun n a he => by cases he))
      cases o with
      | none =>
        obtain ⟨a, ha⟩ := ho
        show (true = true ↔ _)
        simp only [true_iff]
        exact ⟨0, by omega, target, a, hc.mem.1 ha, .refl _⟩
      | some next =>
        obtain ⟨g1, g2, g3⟩ := ho
        refine (helper_safe hc b target level next g2).weaken fun x hx => ?_
        rw [hx]
        constructor
        · rintro ⟨k, hk, n, a, hn, hr⟩
          rcases (g3 n).1 ⟨a, hn⟩ with ⟨a', h1⟩ | ⟨n', a', h1, h2⟩
          · cases h1
          · exact ⟨k + 1, by omega, n', a', hc.mem.1 h1, .step h2 hr⟩
        · rintro ⟨k, hk, n, a, hn, hr⟩
          cases hr with
          | refl => exact absurd (hc.mem.2 hn) (g1 a)
          | step h1 h2 =>
            rename_i k' y
            obtain ⟨a', ha'⟩ := (g3 y).2 (.inr ⟨n, a, hc.mem.2 hn, h1⟩)
            exact ⟨k', by omega, y, a', ha', h2⟩

end RConf

end Fastac
