import Verif.Lemmas.RoleThreads
import Verif.Lemmas.RoleRuns

/-!
# Calls that run at the same time: what is left of questions, and histories
-/

namespace Fastac

namespace Thread

variable {α β : Type}

/-- The call is going to take `n` out of `allRoles`, or to find that it is not there. -/
def Owes (n : Str) : Thread RHeap α → Prop
  | .ret _ => False
  | .crash => True
  | .act f k => ∀ s, (f s).all.get n = none ∨ (k s).Owes n

/-- The call brings no name into `allRoles`. -/
def NoNew : Thread RHeap α → Prop
  | .ret _ => True
  | .crash => True
  | .act f k => ∀ s, (∀ n, s.all.get n = none → (f s).all.get n = none) ∧ (k s).NoNew

/-- What the call brings into `allRoles` it owes, except for the names in use in `h`. -/
def Neat (h : RHeap) : Thread RHeap α → Prop
  | .ret _ => True
  | .crash => True
  | .act f k => ∀ s, (∀ n, h.all.get n = none → s.all.get n = none → (f s).all.get n = none ∨ (k s).Owes n) ∧
      (k s).Neat h

theorem Owes.bind_left {n : Str} {g : α → Thread RHeap β} : ∀ {t : Thread RHeap α}, t.Owes n → (t.bind g).Owes n
  | .ret _, h => h.elim
  | .crash, _ => trivial
  | .act _ _, h => fun s => (h s).imp id Owes.bind_left

theorem Owes.bind_right {n : Str} {g : α → Thread RHeap β} (hg : ∀ a, (g a).Owes n) : ∀ {t : Thread RHeap α},
    (t.bind g).Owes n
  | .ret a => hg a
  | .crash => trivial
  | .act _ _ => fun _ => .inr (Owes.bind_right hg)

theorem NoNew.bind {g : α → Thread RHeap β} (hg : ∀ a, (g a).NoNew) : ∀ {t : Thread RHeap α}, t.NoNew → (t.bind g).NoNew
  | .ret a, _ => hg a
  | .crash, _ => trivial
  | .act _ _, h => fun s => ⟨(h s).1, NoNew.bind hg (h s).2⟩

theorem NoNew.ret (a : α) : (Thread.ret a).NoNew := trivial

theorem Neat.ret {h : RHeap} (a : α) : (Thread.ret a : Thread RHeap α).Neat h := trivial

theorem NoNew.patterns (g : RHeap → List Str) : (Thread.write fun s => { s with patterns := g s }).NoNew :=
  fun _ => ⟨fun _ e => e, trivial⟩

theorem NoNew.read (g : RHeap → α) : (Thread.read g).NoNew := fun _ => ⟨fun _ e => e, trivial⟩

theorem NoNew.upd (a : RHeap → Nat) (g : RHeap → RObj → RObj) : (Thread.write fun s => s.upd (a s) (g s)).NoNew :=
  fun _ => ⟨fun _ e => e, trivial⟩

theorem NoNew.each {body : β → Thread RHeap Unit} (h : ∀ x, (body x).NoNew) : ∀ l, (Thread.each body l).NoNew
  | [] => trivial
  | x :: xs => NoNew.bind (fun _ => NoNew.each h xs) (h x)

theorem NoNew.collect {body : β → Thread RHeap (List α)} (h : ∀ x, (body x).NoNew) : ∀ l, (Thread.collect body l).NoNew
  | [] => trivial
  | x :: xs => NoNew.bind (fun _ => NoNew.bind (fun _ => .ret _) (NoNew.collect h xs)) (h x)

theorem NoNew.neat {h : RHeap} : ∀ {t : Thread RHeap α}, t.NoNew → t.Neat h
  | .ret _, _ => trivial
  | .crash, _ => trivial
  | .act _ _, x => fun s => ⟨fun n _ e => .inl ((x s).1 n e), (x s).2.neat⟩

theorem Neat.bind {h : RHeap} {g : α → Thread RHeap β} (hg : ∀ a, (g a).Neat h) : ∀ {t : Thread RHeap α}, t.Neat h →
    (t.bind g).Neat h
  | .ret a, _ => hg a
  | .crash, _ => trivial
  | .act _ _, x => fun s => ⟨fun n e e' => ((x s).1 n e e').imp id Owes.bind_left, Neat.bind hg (x s).2⟩

end Thread

namespace RConf

open RHeap Thread

variable {c : RConf} {h : RHeap} {L U : Str → Str → Prop}

theorem rangeRoles_noNew (a : Nat) : (c.rangeRoles a).NoNew :=
  .bind (fun _ => .bind (fun _ => .bind (fun _ => .bind (fun _ => .bind (fun _ => .ret _)
    (.collect (fun _ => .read _) _)) (.read _)) (.collect (fun _ => .read _) _)) (.read _)) (.read _)

theorem rangeUsers_noNew (a : Nat) : (c.rangeUsers a).NoNew :=
  .bind (fun _ => .bind (fun _ => .bind (fun _ => .bind (fun _ => .bind (fun _ => .ret _)
    (.collect (fun _ => .read _) _)) (.read _)) (.collect (fun _ => .read _) _)) (.read _)) (.read _)

theorem visit_noNew (target : Str) : ∀ (es : List (Str × Nat)) (next : GoMap Str Nat), (c.visit target es next).NoNew
  | [], _ => trivial
  | (n, a) :: es, next => by
    unfold visit
    split
    · trivial
    · exact .bind (fun _ => visit_noNew target es _) (rangeRoles_noNew a)

theorem helper_noNew (target : Str) : ∀ (level : Nat) (m : GoMap Str Nat), (c.helper target level m).NoNew
  | 0, _ => trivial
  | level + 1, m => by
    unfold helper
    split
    · trivial
    · refine .bind (fun o => ?_) (visit_noNew target _ _)
      cases o with
      | none => trivial
      | some next => exact helper_noNew target level next

theorem removeMatch_noNew (pn : Str) (p : Nat) (rn : Str) (r : Nat) : (removeMatch pn p rn r).NoNew :=
  .bind (fun _ => .upd (fun _ => r) (fun _ => _)) (.upd (fun _ => p) (fun _ => _))

theorem removeMatches_noNew (n : Str) (a : Nat) : (c.removeMatches n a).NoNew :=
  .bind (fun _ => .bind (fun _ => .bind (fun _ => .each (fun _ => removeMatch_noNew _ _ _ _) _) (.read _))
    (.each (fun _ => removeMatch_noNew _ _ _ _) _)) (.read _)

theorem removeRole_noNew (n : Str) : (c.removeRole n).NoNew := by
  refine .bind (fun x => .bind (fun _ => .patterns _) ?_) (.read _)
  cases x with
  | none => trivial
  | some a =>
    refine .bind (fun _ => removeMatches_noNew n a) (fun s => ⟨fun m e => ?_, trivial⟩)
    simp only [GoMap.get_del]
    split
    · rfl
    · exact e

theorem removeIf_noNew (b : Bool) (n : Str) : (c.removeIf b n).NoNew := by
  unfold removeIf
  split
  · exact removeRole_noNew n
  · trivial

theorem removeRole_owes (n : Str) : (c.removeRole n).Owes n := by
  intro s
  cases e : s.all.get n with
  | none => exact .inl e
  | some a =>
    refine .inr ?_
    show Owes n (((c.removeLoaded n (s.all.get n))).bind _)
    rw [e]
    exact fun s' => .inl (GoMap.get_del_self _ _)

theorem removeIf_owes {b : Bool} (hb : b = true) (n : Str) : (c.removeIf b n).Owes n := by
  unfold removeIf
  rw [if_pos hb]
  exact removeRole_owes n

/-- A role that `getRole` makes has to be taken out by what comes after. -/
theorem getRole_neat {β : Type} (hc : c.Plain) {n : Str} {g : Nat × Bool → Thread RHeap β}
    (ho : ∀ x, x.2 = true → (g x).Owes n) (hg : ∀ x, (g x).Neat h) : ((c.getRole n).bind g).Neat h := by
  rw [getRole_plain hc]
  intro s
  refine ⟨fun m _ e => .inl e, ?_⟩
  simp only
  cases s.all.get n with
  | some a => exact hg _
  | none =>
    refine fun s' => ⟨fun m _ e => ?_, hg _⟩
    by_cases hm : n = m
    · subst hm
      exact .inr (ho _ rfl)
    · refine .inl ?_
      simp only [GoMap.get_set, if_neg hm]
      exact e

theorem hasLink_neat (hc : c.Plain) (u r : Str) : (c.hasLink u r).Neat h := by
  unfold hasLink
  split
  · trivial
  · refine getRole_neat hc (fun x hx => ?_) fun x => ?_
    · exact .bind_right fun y => .bind_right fun b => .bind_right fun _ => .bind_left (removeIf_owes hx u)
    · refine getRole_neat hc (fun y hy => ?_) fun y => ?_
      · exact .bind_right fun b => .bind_left (removeIf_owes hy r)
      · exact (NoNew.bind (fun _ => .bind (fun _ => .bind (fun _ => .ret _) (removeIf_noNew _ _)) (removeIf_noNew _ _))
          (helper_noNew _ _ _)).neat

theorem question_neat (hc : c.Plain) {x : RCall} (hx : x.asks = true) : (c.thread x).Neat h := by
  cases x with
  | add u r => cases hx
  | del u r => cases hx
  | hasLink u r =>
    refine .bind (fun _ => .ret _) (hasLink_neat hc u r)
  | getRoles n =>
    refine .bind (fun _ => .ret _) (getRole_neat hc (fun x hx => ?_) fun x => ?_)
    · exact .bind_right fun y => .bind_left (removeIf_owes hx n)
    · exact (NoNew.bind (fun _ => .bind (fun _ => .ret _) (removeIf_noNew _ _)) (rangeRoles_noNew _)).neat
  | getUsers n =>
    refine .bind (fun _ => .ret _) (getRole_neat hc (fun x hx => ?_) fun x => ?_)
    · exact .bind_right fun y => .bind_left (removeIf_owes hx n)
    · exact (NoNew.bind (fun _ => .bind (fun _ => .ret _) (removeIf_noNew _ _)) (rangeUsers_noNew _)).neat

/-! ### The answers -/

/-- The right answer, with the users of a role kept apart. -/
def Right2 (level : Nat) (L U : Str → Str → Prop) : RCall → RAns → Prop
  | .getUsers n, .names ns => ns.Nodup ∧ ∀ u, u ∈ ns ↔ U u n
  | x, a => x.Right level L a

theorem Right2.same {level : Nat} {L : Str → Str → Prop} : ∀ {x : RCall} {a : RAns}, Right2 level L L x a →
    x.Right level L a
  | .add _ _, _, h => h
  | .del _ _, _, h => h
  | .hasLink _ _, _, h => h
  | .getRoles _, _, h => h
  | .getUsers _, .names _, h => h
  | .getUsers _, .bool _, h => h

theorem mem_names {es : List (Str × Nat)} {P : Str → Prop} (b : ∀ r, P r → h.all.has r = true)
    (he : ∀ r x, (r, x) ∈ es ↔ P r ∧ h.all.get r = some x) (r : Str) : r ∈ es.map Prod.fst ↔ P r := by
  simp only [List.mem_map, Prod.exists, exists_and_right, exists_eq_right]
  constructor
  · rintro ⟨x, hx⟩
    exact ((he r x).1 hx).1
  · intro hr
    obtain ⟨x, hx⟩ := Option.isSome_iff_exists.1 (b r hr)
    exact ⟨x, (he r x).2 ⟨hr, hx⟩⟩

theorem hasLink_safe (hc : c.Plain) (b : Base h L U) (u r : Str) :
    (c.hasLink u r).Safe (Ext h) (fun x => x = true ↔ u = r ∨ ∃ k, k < c.level ∧ Reach L k u r) := by
  unfold hasLink
  rw [hc.matches]
  split
  · rename_i e
    have e : u = r := e.resolve_right (by simp)
    exact ⟨fun _ => .inl e, fun _ => rfl⟩
  · rename_i e
    have e : u ≠ r := fun x => e (.inl x)
    refine .bind (fun x hx => ?_) (getRole_safe (h := h) hc u)
    refine .bind (fun y hy => ?_) (getRole_safe (h := h) hc r)
    refine .bind (fun a ha => ?_) (helper_safe hc b r c.level [(u, x.1)] ?_)
    · refine .bind (fun _ _ => ?_) (removeIf_safe hc b hy.2)
      refine .bind (fun _ _ => ?_) (removeIf_safe hc b hx.2)
      show a = true ↔ _
      rw [ha]
      constructor
      · rintro ⟨k, hk, n, a', hm, hr⟩
        cases hm with
        | head => exact .inr ⟨k, hk, hr⟩
        | tail _ hm => cases hm
      · rintro (hh | ⟨k, hk, hr⟩)
        · exact absurd hh e
        · exact ⟨k, hk, u, x.1, List.mem_cons_self, hr⟩
    · intro n a hm
      cases hm with
      | head => exact hx.1
      | tail _ hm => cases hm

theorem question_safe (hc : c.Plain) (b : Base h L U) {x : RCall} (hx : x.asks = true) :
    (c.thread x).Safe (Ext h) (Right2 c.level L U x) := by
  cases x with
  | add u r => cases hx
  | del u r => cases hx
  | hasLink u r =>
    refine Safe.bind (Q := fun x => x = true ↔ u = r ∨ ∃ k, k < c.level ∧ Reach L k u r) (fun _ h => Safe.ret h) (hasLink_safe hc b u r)
  | getRoles n =>
    refine Safe.bind (Q := fun ns => ns.Nodup ∧ ∀ r, r ∈ ns ↔ L n r) (fun _ h => Safe.ret h) ?_
    refine .bind (fun x hx => ?_) (getRole_safe (h := h) hc n)
    refine .bind (fun es he => ?_) (rangeRoles_safe hc b hx.1)
    refine .bind (fun _ _ => ?_) (removeIf_safe hc b hx.2)
    exact ⟨he.1, mem_names (fun r hr => (b.lk n r hr).2) he.2⟩
  | getUsers n =>
    refine Safe.bind (Q := fun ns => ns.Nodup ∧ ∀ u, u ∈ ns ↔ U u n) (fun _ h => Safe.ret h) ?_
    refine .bind (fun x hx => ?_) (getRole_safe (h := h) hc n)
    refine .bind (fun es he => ?_) (rangeUsers_safe hc b hx.1)
    refine .bind (fun _ _ => ?_) (removeIf_safe hc b hx.2)
    exact ⟨he.1, mem_names (fun u hu => (b.uk u n hu).1) he.2⟩

end RConf

/-! ### Questions leave nothing -/

namespace RSystem

variable {α : Type}

open Thread

/-- Whatever is in `allRoles` beyond the names in use in `h` is owed by a call. -/
structure Neat (h : RHeap) (y : RSystem α) : Prop where
  neat : ∀ (i : Nat) (t : Thread RHeap α), y.calls[i]? = some t → t.Neat h
  owed : ∀ n, h.all.get n = none → y.heap.all.get n = none ∨ ∃ (i : Nat) (t : Thread RHeap α),
    y.calls[i]? = some t ∧ t.Owes n

theorem Neat.step {h : RHeap} {y : RSystem α} (d : y.Neat h) (i : Nat) : (y.step i).Neat h := by
  cases hi : y.calls[i]? with
  | none =>
    have : y.step i = y := by unfold RSystem.step; rw [hi]
    rw [this]; exact d
  | some t =>
    obtain ⟨e1, e2⟩ := step_self hi
    have key : (t.step y.heap).2.Neat h ∧
        (∀ n, h.all.get n = none → y.heap.all.get n = none →
          (t.step y.heap).1.all.get n = none ∨ (t.step y.heap).2.Owes n) ∧
        ∀ n, t.Owes n → (t.step y.heap).1.all.get n = none ∨ (t.step y.heap).2.Owes n := by
      have ht := d.neat i t hi
      cases t with
      | ret a => exact ⟨trivial, fun n _ e => .inl e, fun n e => e.elim⟩
      | crash => exact ⟨trivial, fun n _ e => .inl e, fun n _ => .inr trivial⟩
      | act f k => exact ⟨(ht y.heap).2, (ht y.heap).1, fun n e => e y.heap⟩
    refine ⟨fun j t' hj => ?_, fun n hn => ?_⟩
    · by_cases c : j = i
      · subst c
        rw [e2] at hj
        cases hj
        exact key.1
      · rw [step_other c] at hj
        exact d.neat j t' hj
    · rw [e1]
      have own : ((t.step y.heap).1.all.get n = none ∨ (t.step y.heap).2.Owes n) →
          (t.step y.heap).1.all.get n = none ∨ ∃ (i' : Nat) (t : Thread RHeap α),
            (y.step i).calls[i']? = some t ∧ t.Owes n :=
        fun o => o.imp id fun o => ⟨i, _, e2, o⟩
      rcases d.owed n hn with hh | ⟨j, t', hj, ho⟩
      · exact own (key.2.1 n hn hh)
      · by_cases c : j = i
        · subst c
          rw [hi] at hj
          cases hj
          exact own (key.2.2 n ho)
        · exact .inr ⟨j, t', by rw [step_other c]; exact hj, ho⟩

theorem Neat.run {h : RHeap} (is : List Nat) : ∀ {y : RSystem α}, y.Neat h → (y.run is).Neat h := by
  induction is with
  | nil => exact fun d => d
  | cons i is ih => exact fun d => ih (d.step i)

theorem Neat.over {h : RHeap} {y : RSystem α} (d : y.Neat h) (o : y.Over) {n : Str} (hn : h.all.get n = none) :
    y.heap.all.get n = none := by
  rcases d.owed n hn with e | ⟨i, t, hi, ho⟩
  · exact e
  · have hl := (List.getElem?_eq_some_iff.1 hi).1
    have := o i hl
    unfold RSystem.answer at this
    rw [hi] at this
    cases t with
    | ret a => exact ho.elim
    | crash => cases this
    | act f k => cases this

theorem Neat.begin {h s : RHeap} {ts : List (Thread RHeap α)} (ht : ∀ t ∈ ts, t.Neat h)
    (hs : ∀ n, h.all.get n = none → s.all.get n = none) : (RSystem.mk s ts).Neat h :=
  ⟨fun _ t hi => ht t (List.mem_of_getElem? hi), fun n hn => .inl (hs n hn)⟩

end RSystem

namespace RHeap

variable {h s : RHeap} {L U : Str → Str → Prop}

theorem Ext.all_eq (e : Ext h s) (hn : ∀ n, h.all.get n = none → s.all.get n = none) (n : Str) :
    s.all.get n = h.all.get n := by
  cases x : h.all.get n with
  | none => exact hn n x
  | some a => exact e.known n a x

/-- Only addresses that nobody has any more are added. -/
theorem Ext.base (e : Ext h s) (b : Base h L U) (hn : ∀ n, h.all.get n = none → s.all.get n = none) : Base s L U := by
  have ha := e.all_eq hn
  have hh : ∀ n, s.all.has n = h.all.has n := fun n => by unfold GoMap.has; rw [ha]
  refine ⟨fun n a x => ?_, fun n n' a x y => ?_, e.bare b, e.roles_wf b, e.users_wf b, fun n a x r d => ?_,
    fun n a x u d => ?_, fun u r x => ?_, fun u r x => ?_⟩
  · rw [ha] at x; exact Nat.lt_of_lt_of_le (b.valid n a x) e.len
  · rw [ha] at x y; exact b.inj n n' a x y
  · rw [ha] at x ⊢; rw [e.role_old (b.valid n a x)]; exact b.roles n a x r d
  · rw [ha] at x ⊢; rw [e.role_old (b.valid n a x)]; exact b.users n a x u d
  · rw [hh, hh]; exact b.lk u r x
  · rw [hh, hh]; exact b.uk u r x

end RHeap

end Fastac
