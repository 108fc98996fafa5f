import Verif.Lemmas.RoleParts

/-!
# `AddLink` and `DeleteLink` that run at the same time, for names in use
-/

namespace Fastac

namespace Thread

variable {S α β : Type}

/-- As `Safe`, and no step changes what `G` compares. -/
def Keeps (I : S → Prop) (G : S → S → Prop) (Q : α → Prop) : Thread S α → Prop
  | .ret a => Q a
  | .crash => False
  | .act f k => ∀ s, I s → I (f s) ∧ G s (f s) ∧ (k s).Keeps I G Q

/-- The call makes the change `A` in one of its steps, and none in the others. -/
def Does (I : S → Prop) (G A : S → S → Prop) (Q : α → Prop) : Thread S α → Prop
  | .ret _ => False
  | .crash => False
  | .act f k => ∀ s, I s → I (f s) ∧ ((G s (f s) ∧ (k s).Does I G A Q) ∨ (A s (f s) ∧ (k s).Keeps I G Q))

variable {I : S → Prop} {G A : S → S → Prop}

theorem Keeps.bind {Q : α → Prop} {P : β → Prop} {g : α → Thread S β} (hg : ∀ a, Q a → (g a).Keeps I G P) :
    ∀ {t : Thread S α}, t.Keeps I G Q → (t.bind g).Keeps I G P
  | .ret a, h => hg a h
  | .crash, h => h.elim
  | .act _ _, h => fun s hs => ⟨(h s hs).1, (h s hs).2.1, Keeps.bind hg (h s hs).2.2⟩

theorem Keeps.ret {Q : α → Prop} {a : α} (h : Q a) : (Thread.ret a : Thread S α).Keeps I G Q := h

theorem Keeps.read (hG : ∀ s, G s s) {Q : α → Prop} {g : S → α} (h : ∀ s, I s → Q (g s)) : (Thread.read g).Keeps I G Q :=
  fun s hs => ⟨hs, hG s, h s hs⟩

theorem Keeps.write {f : S → S} (h : ∀ s, I s → I (f s) ∧ G s (f s)) : (Thread.write f).Keeps I G (fun _ => True) :=
  fun s hs => ⟨(h s hs).1, (h s hs).2, trivial⟩

theorem Keeps.collect {body : β → Thread S (List α)} (h : ∀ x, (body x).Keeps I G (fun _ => True)) :
    ∀ l, (Thread.collect body l).Keeps I G (fun _ => True)
  | [] => trivial
  | x :: xs => Keeps.bind (fun _ _ => Keeps.bind (fun _ _ => .ret trivial) (Keeps.collect h xs)) (h x)

theorem Does.before {Q : α → Prop} {P : β → Prop} {g : α → Thread S β} (hg : ∀ a, Q a → (g a).Does I G A P) :
    ∀ {t : Thread S α}, t.Keeps I G Q → (t.bind g).Does I G A P
  | .ret a, h => hg a h
  | .crash, h => h.elim
  | .act _ _, h => fun s hs => ⟨(h s hs).1, .inl ⟨(h s hs).2.1, Does.before hg (h s hs).2.2⟩⟩

theorem Does.after {Q : α → Prop} {P : β → Prop} {g : α → Thread S β} (hg : ∀ a, Q a → (g a).Keeps I G P) :
    ∀ {t : Thread S α}, t.Does I G A Q → (t.bind g).Does I G A P
  | .ret _, h => h.elim
  | .crash, h => h.elim
  | .act _ _, h => fun s hs => ⟨(h s hs).1, (h s hs).2.imp (fun x => ⟨x.1, Does.after hg x.2⟩)
      (fun x => ⟨x.1, Keeps.bind hg x.2⟩)⟩

end Thread

namespace RHeap

/-- What calls may do to the heap `h` that use only its names in `AddLink` and `DeleteLink`. -/
structure Fits (h s : RHeap) : Prop where
  len : h.objs.length ≤ s.objs.length
  fresh : ∀ a, h.objs.length ≤ a → (s.role a).roles = [] ∧ (s.role a).users = []
  bare : ∀ a, (s.role a).matched = [] ∧ (s.role a).matchedBy = []
  known : ∀ n a, h.all.get n = some a → s.all.get n = some a
  new : ∀ n a, h.all.get n = none → s.all.get n = some a → h.objs.length ≤ a
  rwf : ∀ a, (s.role a).roles.WF
  uwf : ∀ a, (s.role a).users.WF
  rptr : ∀ n a, h.all.get n = some a → ∀ r d, (s.role a).roles.get r = some d → h.all.get r = some d
  uptr : ∀ n a, h.all.get n = some a → ∀ u d, (s.role a).users.get u = some d → h.all.get u = some d

/-- Whether `r` is among the roles of `u`, where `h` tells the address of `u`. -/
def linkOf (h s : RHeap) (u r : Str) : Bool :=
  match h.all.get u with
  | some a => (s.role a).roles.has r
  | none => false

def userOf (h s : RHeap) (u r : Str) : Bool :=
  match h.all.get r with
  | some a => (s.role a).users.has u
  | none => false

/-- The links stay. -/
def SameLinks (h s s' : RHeap) : Prop := ∀ u r, linkOf h s' u r = linkOf h s u r

/-- The links change as by one operation. -/
def Linked1 (h : RHeap) (op : LinkOp) (s s' : RHeap) : Prop :=
  ∀ u r, linkOf h s' u r = linkAfter u r (linkOf h s u r) [op]

variable {h s : RHeap} {L U : Str → Str → Prop}

theorem Base.fits (b : Base h L U) : Fits h h := by
  refine ⟨Nat.le_refl _, fun a ha => ?_, b.bare, fun _ _ e => e, fun n a e e' => ?_, b.rwf, b.uwf, fun n a e r d e' => ?_,
    fun n a e r d e' => ?_⟩
  · have := (Ext.refl h).fresh a ha
    exact ⟨this.1, this.2.1⟩
  · rw [e] at e'; cases e'
  · exact ((b.roles n a e r d).1 e').2
  · exact ((b.users n a e r d).1 e').2

theorem Base.linkOf (b : Base h L U) (u r : Str) : linkOf h h u r = true ↔ L u r := by
  unfold RHeap.linkOf
  cases hu : h.all.get u with
  | none =>
    refine ⟨fun x => (by cases x), fun x => ?_⟩
    have := (b.lk u r x).1
    rw [GoMap.has, hu] at this
    cases this
  | some a =>
    unfold GoMap.has
    rw [Option.isSome_iff_exists]
    constructor
    · rintro ⟨x, hx⟩; exact ((b.roles u a hu r x).1 hx).1
    · intro x
      obtain ⟨d, hd⟩ := Option.isSome_iff_exists.1 (b.lk u r x).2
      exact ⟨d, (b.roles u a hu r d).2 ⟨x, hd⟩⟩

theorem Fits.base (b : Base h L U) (f : Fits h s) (hn : ∀ n, h.all.get n = none → s.all.get n = none) :
    Base s (fun u r => linkOf h s u r = true) (fun u r => userOf h s u r = true) := by
  have ha : ∀ n, s.all.get n = h.all.get n := fun n => by
    cases x : h.all.get n with
    | none => exact hn n x
    | some a => exact f.known n a x
  have hh : ∀ n, s.all.has n = h.all.has n := fun n => by unfold GoMap.has; rw [ha]
  refine ⟨fun n a x => ?_, fun n n' a x y => ?_, f.bare, f.rwf, f.uwf, fun n a x r d => ?_,
    fun n a x u d => ?_, fun u r x => ?_, fun u r x => ?_⟩
  · rw [ha] at x; exact Nat.lt_of_lt_of_le (b.valid n a x) f.len
  · rw [ha] at x y; exact b.inj n n' a x y
  · rw [ha] at x ⊢
    simp only [RHeap.linkOf, x]
    constructor
    · intro e; exact ⟨by rw [GoMap.has, e]; rfl, f.rptr n a x r d e⟩
    · rintro ⟨e1, e2⟩
      obtain ⟨d', hd⟩ := Option.isSome_iff_exists.1 e1
      have := f.rptr n a x r d' hd
      rw [e2] at this
      cases this
      exact hd
  · rw [ha] at x ⊢
    simp only [RHeap.userOf, x]
    constructor
    · intro e; exact ⟨by rw [GoMap.has, e]; rfl, f.uptr n a x u d e⟩
    · rintro ⟨e1, e2⟩
      obtain ⟨d', hd⟩ := Option.isSome_iff_exists.1 e1
      have := f.uptr n a x u d' hd
      rw [e2] at this
      cases this
      exact hd
  · rw [hh, hh]
    simp only [RHeap.linkOf] at x
    cases hu : h.all.get u with
    | none => rw [hu] at x; cases x
    | some a =>
      rw [hu] at x
      obtain ⟨d, hd⟩ := Option.isSome_iff_exists.1 x
      exact ⟨by rw [GoMap.has, hu]; rfl, by rw [GoMap.has, f.rptr u a hu r d hd]; rfl⟩
  · rw [hh, hh]
    simp only [RHeap.userOf] at x
    cases hu : h.all.get r with
    | none => rw [hu] at x; cases x
    | some a =>
      rw [hu] at x
      obtain ⟨d, hd⟩ := Option.isSome_iff_exists.1 x
      exact ⟨by rw [GoMap.has, f.uptr r a hu u d hd]; rfl, by rw [GoMap.has, hu]; rfl⟩

theorem SameLinks.refl (h s : RHeap) : SameLinks h s s := fun _ _ => rfl

/-- The names of `h` have addresses of `h`, each its own. -/
structure Addr (h : RHeap) : Prop where
  valid : ∀ n a, h.all.get n = some a → a < h.objs.length
  inj : ∀ n n' a, h.all.get n = some a → h.all.get n' = some a → n = n'

theorem Base.addr (b : Base h L U) : Addr h := ⟨b.valid, b.inj⟩

theorem role_create (s : RHeap) (n : Str) (a : Nat) :
    (RHeap.role { s with objs := s.objs ++ [{ name := n }], all := s.all.set n s.objs.length } a) =
      if a = s.objs.length then { name := n } else s.role a := by
  unfold RHeap.role
  simp only [List.getElem?_append]
  by_cases c1 : a < s.objs.length
  · rw [if_pos c1, if_neg (by omega)]
  · rw [if_neg c1]
    by_cases c2 : a = s.objs.length
    · simp [c2]
    · rw [if_neg c2, List.getElem?_eq_none (Nat.le_of_not_lt c1), List.getElem?_eq_none (by simp; omega)]

theorem Fits.create (w : Addr h) (f : Fits h s) {n : Str} (hn : h.all.get n = none) :
    Fits h { s with objs := s.objs ++ [{ name := n }], all := s.all.set n s.objs.length } ∧
    SameLinks h s { s with objs := s.objs ++ [{ name := n }], all := s.all.set n s.objs.length } := by
  have hr := role_create s n
  have old : ∀ m a, h.all.get m = some a →
      RHeap.role { s with objs := s.objs ++ [{ name := n }], all := s.all.set n s.objs.length } a = s.role a :=
    fun m a e => by rw [hr, if_neg (by have := w.valid m a e; have := f.len; omega)]
  refine ⟨⟨by simp only [List.length_append, List.length_singleton]; have := f.len; omega, fun a ha => ?_, fun a => ?_,
    fun m a hm => ?_, fun m a hm hm' => ?_, fun a => ?_, fun a => ?_, fun m a e r d => ?_, fun m a e r d => ?_⟩,
    fun u r => ?_⟩
  · rw [hr]; split
    · exact ⟨rfl, rfl⟩
    · exact f.fresh a ha
  · rw [hr]; split
    · exact ⟨rfl, rfl⟩
    · exact f.bare a
  · simp only [GoMap.get_set]
    split
    · rename_i x; rw [← x, hn] at hm; cases hm
    · exact f.known m a hm
  · simp only [GoMap.get_set] at hm'
    split at hm'
    · cases hm'; exact f.len
    · exact f.new m a hm hm'
  · rw [hr]; split
    · exact GoMap.WF.nil
    · exact f.rwf a
  · rw [hr]; split
    · exact GoMap.WF.nil
    · exact f.uwf a
  · rw [old m a e]; exact f.rptr m a e r d
  · rw [old m a e]; exact f.uptr m a e r d
  · unfold RHeap.linkOf
    cases e : h.all.get u with
    | none => rfl
    | some a => simp only; rw [old u a e]

theorem Fits.delete (f : Fits h s) {n : Str} (hn : h.all.get n = none) :
    Fits h { s with all := s.all.del n } ∧ SameLinks h s { s with all := s.all.del n } := by
  refine ⟨⟨f.len, f.fresh, f.bare, fun m a hm => ?_, fun m a hm hm' => ?_, f.rwf, f.uwf, f.rptr, f.uptr⟩, fun _ _ => rfl⟩
  · simp only [GoMap.get_del]
    split
    · rename_i x; rw [← x, hn] at hm; cases hm
    · exact f.known m a hm
  · simp only [GoMap.get_del] at hm'
    split at hm'
    · cases hm'
    · exact f.new m a hm hm'

theorem Fits.patterns (f : Fits h s) (ps : List Str) :
    Fits h { s with patterns := ps } ∧ SameLinks h s { s with patterns := ps } :=
  ⟨⟨f.len, f.fresh, f.bare, f.known, f.new, f.rwf, f.uwf, f.rptr, f.uptr⟩, fun _ _ => rfl⟩

theorem Fits.role_upd (w : Addr h) (f : Fits h s) {n : Str} {a : Nat} (hn : h.all.get n = some a) (g : RObj → RObj)
    (x : Nat) : (s.upd a g).role x = if a = x then g (s.role x) else s.role x := by
  rw [RHeap.role_upd]
  by_cases c : a = x
  · subst c
    have := w.valid n a hn
    have := f.len
    rw [if_pos ⟨rfl, by omega⟩, if_pos rfl]
  · rw [if_neg (fun e => c e.1), if_neg c]

theorem Fits.setRoles (w : Addr h) (f : Fits h s) {u : Str} {a : Nat} (hu : h.all.get u = some a)
    {F : GoMap Str Nat → GoMap Str Nat} (hw : (F (s.role a).roles).WF)
    (hF : ∀ r d, (F (s.role a).roles).get r = some d → h.all.get r = some d) :
    Fits h (s.upd a fun o => { o with roles := F o.roles }) ∧
    ∀ v r, linkOf h (s.upd a fun o => { o with roles := F o.roles }) v r =
      if v = u then (F (s.role a).roles).has r else linkOf h s v r := by
  have hr := f.role_upd w hu (fun o => { o with roles := F o.roles })
  refine ⟨⟨by rw [upd_length]; exact f.len, fun x hx => ?_, fun x => ?_, f.known, f.new, fun x => ?_, fun x => ?_,
    fun n x e r d => ?_, fun n x e r d => ?_⟩, fun v r => ?_⟩
  · rw [hr, if_neg (by have := w.valid u a hu; omega)]; exact f.fresh x hx
  · rw [hr]; split <;> exact f.bare x
  · rw [hr]; split
    · rename_i c; subst c; exact hw
    · exact f.rwf x
  · rw [hr]; split <;> exact f.uwf x
  · rw [hr]; split
    · rename_i c; subst c; exact hF r d
    · exact f.rptr n x e r d
  · rw [hr]; split <;> exact f.uptr n x e r d
  · unfold RHeap.linkOf
    by_cases c : v = u
    · subst c
      rw [hu]
      simp only [if_true]
      rw [hr, if_pos rfl]
    · rw [if_neg c]
      cases e : h.all.get v with
      | none => rfl
      | some x =>
        simp only
        rw [hr, if_neg (fun c' => c (w.inj v u a (by rw [e, c']) hu))]

theorem Fits.setUsers (w : Addr h) (f : Fits h s) {n : Str} {a : Nat} (hn : h.all.get n = some a)
    {F : GoMap Str Nat → GoMap Str Nat} (hw : (F (s.role a).users).WF)
    (hF : ∀ r d, (F (s.role a).users).get r = some d → h.all.get r = some d) :
    Fits h (s.upd a fun o => { o with users := F o.users }) ∧
    SameLinks h s (s.upd a fun o => { o with users := F o.users }) := by
  have hr := f.role_upd w hn (fun o => { o with users := F o.users })
  refine ⟨⟨by rw [upd_length]; exact f.len, fun x hx => ?_, fun x => ?_, f.known, f.new, fun x => ?_, fun x => ?_,
    fun n x e r d => ?_, fun n x e r d => ?_⟩, fun v r => ?_⟩
  · rw [hr, if_neg (by have := w.valid n a hn; omega)]; exact f.fresh x hx
  · rw [hr]; split <;> exact f.bare x
  · rw [hr]; split <;> exact f.rwf x
  · rw [hr]; split
    · rename_i c; subst c; exact hw
    · exact f.uwf x
  · rw [hr]; split <;> exact f.rptr n x e r d
  · rw [hr]; split
    · rename_i c; subst c; exact hF r d
    · exact f.uptr n x e r d
  · unfold RHeap.linkOf
    cases h.all.get v with
    | none => rfl
    | some x => simp only; rw [hr]; split <;> rfl

end RHeap

namespace RConf

open RHeap Thread

variable {c : RConf} {h : RHeap}

theorem getRole_keeps (hc : c.Plain) (w : Addr h) (n : Str) : (c.getRole n).Keeps (Fits h) (SameLinks h)
    (fun x => (∀ a, h.all.get n = some a → x.1 = a) ∧ (x.2 = true → h.all.get n = none)) := by
  rw [getRole_plain hc]
  intro s f
  refine ⟨f, .refl h s, ?_⟩
  simp only
  cases hn : h.all.get n with
  | some a =>
    rw [f.known n a hn]
    exact ⟨fun a' e => by cases e; rfl, fun x => by cases x⟩
  | none =>
    cases hs : s.all.get n with
    | some a => exact ⟨fun _ e => (by cases e), fun x => by cases x⟩
    | none =>
      exact fun s' f' => ⟨(f'.create w hn).1, (f'.create w hn).2, fun _ e => (by cases e), fun _ => rfl⟩

theorem same_refl {s : RHeap} : SameLinks h s s := .refl h s

theorem removeRole_keeps (hc : c.Plain) {n : Str} (hn : h.all.get n = none) :
    (c.removeRole n).Keeps (Fits h) (SameLinks h) (fun _ => True) := by
  unfold removeRole
  refine .bind (Q := fun _ => True) (fun x _ => ?_) (.read (fun _ => same_refl) fun _ _ => trivial)
  refine .bind (Q := fun _ => True) (fun _ _ => .write fun s f => f.patterns _) ?_
  cases x with
  | none => trivial
  | some a =>
    refine .bind (Q := fun _ => True) (fun _ _ => ?_) (.write fun s f => f.delete hn)
    unfold removeMatches
    refine .bind (Q := fun es => es = []) (fun es he => ?_)
      (.read (fun _ => same_refl) fun s f => by rw [(f.bare a).1]; exact hc.nil)
    subst he
    refine .bind (Q := fun _ => True) (fun _ _ => ?_) (.ret trivial)
    refine .bind (Q := fun es => es = []) (fun es he => ?_)
      (.read (fun _ => same_refl) fun s f => by rw [(f.bare a).2]; exact hc.nil)
    subst he
    trivial

theorem removeIf_keeps (hc : c.Plain) {n : Str} {x : Bool} (hn : x = true → h.all.get n = none) :
    (c.removeIf x n).Keeps (Fits h) (SameLinks h) (fun _ => True) := by
  unfold removeIf
  split
  · rename_i e; exact removeRole_keeps hc (hn e)
  · trivial

theorem read_keeps {α : Type} (g : RHeap → α) : (Thread.read g).Keeps (Fits h) (SameLinks h) (fun _ => True) :=
  .read (fun _ => same_refl) fun _ _ => trivial

theorem rangeRoles_keeps (a : Nat) : (c.rangeRoles a).Keeps (Fits h) (SameLinks h) (fun _ => True) :=
  .bind (fun _ _ => .bind (fun _ _ => .bind (fun _ _ => .bind (fun _ _ => .bind (fun _ _ => .ret trivial)
    (.collect (fun _ => read_keeps _) _)) (read_keeps _)) (.collect (fun _ => read_keeps _) _)) (read_keeps _))
    (read_keeps _)

theorem rangeUsers_keeps (a : Nat) : (c.rangeUsers a).Keeps (Fits h) (SameLinks h) (fun _ => True) :=
  .bind (fun _ _ => .bind (fun _ _ => .bind (fun _ _ => .bind (fun _ _ => .bind (fun _ _ => .ret trivial)
    (.collect (fun _ => read_keeps _) _)) (read_keeps _)) (.collect (fun _ => read_keeps _) _)) (read_keeps _))
    (read_keeps _)

theorem visit_keeps (target : Str) : ∀ (es : List (Str × Nat)) (next : GoMap Str Nat),
    (c.visit target es next).Keeps (Fits h) (SameLinks h) (fun _ => True)
  | [], _ => trivial
  | (n, a) :: es, next => by
    unfold visit
    split
    · trivial
    · exact .bind (fun _ _ => visit_keeps target es _) (rangeRoles_keeps a)

theorem helper_keeps (target : Str) : ∀ (level : Nat) (m : GoMap Str Nat),
    (c.helper target level m).Keeps (Fits h) (SameLinks h) (fun _ => True)
  | 0, _ => trivial
  | level + 1, m => by
    unfold helper
    split
    · trivial
    · refine .bind (fun o _ => ?_) (visit_keeps target _ _)
      cases o with
      | none => trivial
      | some next => exact helper_keeps target level next

theorem question_keeps (hc : c.Plain) (w : Addr h) {x : RCall} (hx : x.asks = true) :
    (c.thread x).Keeps (Fits h) (SameLinks h) (fun _ => True) := by
  cases x with
  | add u r => cases hx
  | del u r => cases hx
  | hasLink u r =>
    refine .bind (Q := fun _ => True) (fun _ _ => .ret trivial) ?_
    unfold hasLink
    split
    · trivial
    · exact .bind (fun x hx => .bind (fun y hy => .bind (fun _ _ => .bind (fun _ _ => .bind (fun _ _ => .ret trivial)
        (removeIf_keeps hc hx.2)) (removeIf_keeps hc hy.2)) (helper_keeps _ _ _)) (getRole_keeps hc w r))
        (getRole_keeps hc w u)
  | getRoles n =>
    exact .bind (Q := fun _ => True) (fun _ _ => .ret trivial) (.bind (fun x hx => .bind (fun _ _ => .bind
      (fun _ _ => .ret trivial) (removeIf_keeps hc hx.2)) (rangeRoles_keeps _)) (getRole_keeps hc w n))
  | getUsers n =>
    exact .bind (Q := fun _ => True) (fun _ _ => .ret trivial) (.bind (fun x hx => .bind (fun _ _ => .bind
      (fun _ _ => .ret trivial) (removeIf_keeps hc hx.2)) (rangeUsers_keeps _)) (getRole_keeps hc w n))

theorem has_set (m : GoMap Str Nat) (k k' : Str) (v : Nat) : (m.set k v).has k' = (m.has k' || k == k') := by
  unfold GoMap.has
  rw [GoMap.get_set]
  by_cases e : k = k' <;> simp [e]

theorem has_del (m : GoMap Str Nat) (k k' : Str) : (m.del k).has k' = (m.has k' && !(k == k')) := by
  unfold GoMap.has
  rw [GoMap.get_del]
  by_cases e : k = k' <;> simp [e]

theorem addLink_does (hc : c.Plain) (w : Addr h) {u r : Str} {a d : Nat} (hu : h.all.get u = some a)
    (hr : h.all.get r = some d) :
    (c.addLink u r).Does (Fits h) (SameLinks h) (Linked1 h (.add u r)) (fun _ => True) := by
  unfold addLink
  refine .before (fun x hx => .before (fun y hy => ?_) (getRole_keeps hc w r)) (getRole_keeps hc w u)
  have ex := hx.1 a hu
  have ey := hy.1 d hr
  rw [ex, ey]
  intro s f
  refine ⟨f, ?_⟩
  show _ ∨ _
  simp only [Thread.bind, id]
  cases hb : (s.role a).roles.has r with
  | true =>
    refine .inr ⟨fun v q => ?_, .ret trivial⟩
    simp only [linkAfter]
    by_cases e : u = v ∧ r = q
    · obtain ⟨e1, e2⟩ := e
      subst e1 e2
      unfold linkOf
      rw [hu]
      simp [hb]
    · have : (u == v && r == q) = false := by
        rw [Bool.eq_false_iff]; simpa using e
      rw [this, Bool.or_false]
  | false =>
    refine .inl ⟨same_refl, fun s' f' => ?_⟩
    obtain ⟨g1, g2⟩ := f'.setRoles w hu (F := fun m => m.set r d) ((f'.rwf a).set r d) (fun q x e => by
      simp only [GoMap.get_set] at e
      split at e
      · rename_i e'; cases e; rw [← e']; exact hr
      · exact f'.rptr u a hu q x e)
    refine ⟨g1, .inr ⟨fun v q => ?_, ?_⟩⟩
    · refine (g2 v q).trans ?_
      simp only [linkAfter]
      by_cases e : v = u
      · subst e
        simp only [if_true, has_set, linkOf, hu, beq_self_eq_true, Bool.true_and]
      · rw [if_neg e]
        have : (u == v) = false := by simpa using Ne.symm e
        rw [this, Bool.false_and, Bool.or_false]
    · refine .bind (fun _ _ => .ret trivial) (.write fun s f => ?_)
      exact f.setUsers w hr (F := fun m => m.set u a) ((f.uwf d).set u a) (fun q x e => by
        simp only [GoMap.get_set] at e
        split at e
        · rename_i e'; cases e; rw [← e']; exact hu
        · exact f.uptr r d hr q x e)

theorem deleteLink_does (hc : c.Plain) (w : Addr h) {u r : Str} {a d : Nat} (hu : h.all.get u = some a)
    (hr : h.all.get r = some d) :
    (c.deleteLink u r).Does (Fits h) (SameLinks h) (Linked1 h (.del u r)) (fun _ => True) := by
  unfold deleteLink
  refine .before (fun x hx => .before (fun y hy => ?_) (getRole_keeps hc w r)) (getRole_keeps hc w u)
  have ex := hx.1 a hu
  have ey := hy.1 d hr
  rw [ex, ey]
  intro s f
  refine ⟨f, ?_⟩
  show _ ∨ _
  simp only [Thread.bind, id]
  cases hb : (s.role a).roles.has r with
  | false =>
    refine .inr ⟨fun v q => ?_, .ret trivial⟩
    simp only [linkAfter]
    by_cases e : u = v ∧ r = q
    · obtain ⟨e1, e2⟩ := e
      subst e1 e2
      unfold linkOf
      rw [hu]
      simp [hb]
    · have : (u == v && r == q) = false := by
        rw [Bool.eq_false_iff]; simpa using e
      rw [this, Bool.not_false, Bool.and_true]
  | true =>
    refine .inl ⟨same_refl, fun s' f' => ?_⟩
    obtain ⟨g1, g2⟩ := f'.setRoles w hu (F := fun m => m.del r) ((f'.rwf a).del r) (fun q x e => by
      simp only [GoMap.get_del] at e
      split at e
      · cases e
      · exact f'.rptr u a hu q x e)
    refine ⟨g1, .inr ⟨fun v q => ?_, ?_⟩⟩
    · refine (g2 v q).trans ?_
      simp only [linkAfter]
      by_cases e : v = u
      · subst e
        simp only [if_true, has_del, linkOf, hu, beq_self_eq_true, Bool.true_and]
      · rw [if_neg e]
        have : (u == v) = false := by simpa using Ne.symm e
        rw [this, Bool.false_and, Bool.not_false, Bool.and_true]
    · refine .bind (fun _ _ => .ret trivial) (.write fun s f => ?_)
      exact f.setUsers w hr (F := fun m => m.del u) ((f.uwf d).del u) (fun q x e => by
        simp only [GoMap.get_del] at e
        split at e
        · cases e
        · exact f.uptr r d hr q x e)

/-- The names in calls of `AddLink` and `DeleteLink` are in use in `h`. -/
def Uses (h : RHeap) (x : RCall) : Prop := x.asks = false → ∀ n ∈ x.about, h.all.has n = true

theorem write_does (hc : c.Plain) (w : Addr h) {x : RCall} (hx : x.asks = false) (hu : Uses h x) :
    (c.thread x).Does (Fits h) (SameLinks h) (Linked1 h x.op) (fun _ => True) := by
  have get : ∀ n ∈ x.about, ∃ a, h.all.get n = some a := fun n hn => Option.isSome_iff_exists.1 (hu hx n hn)
  cases x with
  | add u r =>
    obtain ⟨a, ha⟩ := get u (by simp [RCall.about])
    obtain ⟨d, hd⟩ := get r (by simp [RCall.about])
    exact .after (fun _ _ => .ret trivial) (addLink_does hc w ha hd)
  | del u r =>
    obtain ⟨a, ha⟩ := get u (by simp [RCall.about])
    obtain ⟨d, hd⟩ := get r (by simp [RCall.about])
    exact .after (fun _ _ => .ret trivial) (deleteLink_does hc w ha hd)
  | hasLink u r => cases hx
  | getRoles n => cases hx
  | getUsers n => cases hx

theorem getRole_neat_known {β : Type} (hc : c.Plain) {n : Str} (hn : h.all.get n ≠ none) {g : Nat × Bool → Thread RHeap β}
    (hg : ∀ x, (g x).Neat h) : ((c.getRole n).bind g).Neat h := by
  rw [getRole_plain hc]
  intro s
  refine ⟨fun m _ e => .inl e, ?_⟩
  simp only
  cases s.all.get n with
  | some a => exact hg _
  | none =>
    refine fun s' => ⟨fun m hm e => .inl ?_, hg _⟩
    simp only [GoMap.get_set]
    rw [if_neg (fun e' : n = m => hn (e' ▸ hm))]
    exact e

theorem write_neat (hc : c.Plain) {x : RCall} (hx : x.asks = false) (hu : Uses h x) : (c.thread x).Neat h := by
  have get : ∀ n ∈ x.about, h.all.get n ≠ none := fun n hn e => by
    have := hu hx n hn; rw [GoMap.has, e] at this; cases this
  cases x with
  | add u r =>
    refine .bind (fun _ => .ret _) (getRole_neat_known hc (get u (by simp [RCall.about])) fun x =>
      getRole_neat_known hc (get r (by simp [RCall.about])) fun y => NoNew.neat (.bind (fun b => ?_) (.read _)))
    cases b with
    | true => exact .ret _
    | false =>
      exact .bind (fun _ => .bind (fun _ => .ret _) (.upd (fun _ => y.1) (fun _ => _))) (.upd (fun _ => x.1) (fun _ => _))
  | del u r =>
    refine .bind (fun _ => .ret _) (getRole_neat_known hc (get u (by simp [RCall.about])) fun x =>
      getRole_neat_known hc (get r (by simp [RCall.about])) fun y => NoNew.neat (.bind (fun b => ?_) (.read _)))
    cases b with
    | false => exact .ret _
    | true =>
      exact .bind (fun _ => .bind (fun _ => .ret _) (.upd (fun _ => y.1) (fun _ => _))) (.upd (fun _ => x.1) (fun _ => _))
  | hasLink u r => cases hx
  | getRoles n => cases hx
  | getUsers n => cases hx

end RConf

/-! ### The order of the changes -/

namespace RSystem

open RHeap Thread

/-- The calls that change links, by number. -/
def writer (xs : List RCall) (i : Nat) : Option RCall :=
  match xs[i]? with
  | some x => if x.asks then none else some x
  | none => none

/-- The calls `xs` run on `h`; those with the numbers `dn` have made their change, in this order. -/
structure Lin (h : RHeap) (ops : List LinkOp) (xs : List RCall) (y : RSystem RAns) (dn : List Nat) : Prop where
  fits : Fits h y.heap
  nodup : dn.Nodup
  mem : ∀ i ∈ dn, (writer xs i).isSome = true
  links : ∀ u r, linkOf h y.heap u r = linked (ops ++ (dn.filterMap (writer xs)).map RCall.op) u r
  calls : ∀ (i : Nat) (t : Thread RHeap RAns), y.calls[i]? = some t →
    (∃ x, writer xs i = some x ∧ i ∉ dn ∧ t.Does (Fits h) (SameLinks h) (Linked1 h x.op) (fun _ => True)) ∨
    ((writer xs i = none ∨ i ∈ dn) ∧ t.Keeps (Fits h) (SameLinks h) (fun _ => True))

variable {h : RHeap} {ops : List LinkOp} {xs : List RCall} {y : RSystem RAns} {dn : List Nat}

theorem Lin.step (l : y.Lin h ops xs dn) (i : Nat) : ∃ dn', (y.step i).Lin h ops xs dn' := by
  cases hi : y.calls[i]? with
  | none =>
    have : y.step i = y := by unfold RSystem.step; rw [hi]
    rw [this]; exact ⟨dn, l⟩
  | some t =>
    obtain ⟨e1, e2⟩ := step_self hi
    -- a step without a change
    have stay : Fits h (t.step y.heap).1 → SameLinks h y.heap (t.step y.heap).1 →
        ((∃ x, writer xs i = some x ∧ i ∉ dn ∧
            (t.step y.heap).2.Does (Fits h) (SameLinks h) (Linked1 h x.op) (fun _ => True)) ∨
          ((writer xs i = none ∨ i ∈ dn) ∧ (t.step y.heap).2.Keeps (Fits h) (SameLinks h) (fun _ => True))) →
        (y.step i).Lin h ops xs dn := by
      intro f g k
      refine ⟨by rw [e1]; exact f, l.nodup, l.mem, fun u r => by rw [e1, g u r]; exact l.links u r, fun j t' hj => ?_⟩
      by_cases c : j = i
      · subst c
        rw [e2] at hj
        cases hj
        exact k
      · rw [step_other c] at hj
        exact l.calls j t' hj
    rcases l.calls i t hi with ⟨x, hx, hd, ht⟩ | ⟨hd, ht⟩
    · cases t with
      | ret a => exact ht.elim
      | crash => exact ht.elim
      | act f k =>
        obtain ⟨g1, ⟨g2, g3⟩ | ⟨g2, g3⟩⟩ := ht y.heap l.fits
        · exact ⟨dn, stay g1 g2 (.inl ⟨x, hx, hd, g3⟩)⟩
        · refine ⟨dn ++ [i], by rw [e1]; exact g1, ?_, fun j hj => ?_, fun u r => ?_, fun j t' hj => ?_⟩
          · rw [List.nodup_append]
            refine ⟨l.nodup, by simp, fun a ha b hb => ?_⟩
            rw [List.mem_singleton] at hb
            subst hb
            exact fun e => hd (e ▸ ha)
          · rcases List.mem_append.1 hj with hj | hj
            · exact l.mem j hj
            · rw [List.mem_singleton] at hj
              subst hj
              rw [hx]; rfl
          · rw [e1]
            refine (g2 u r).trans ?_
            rw [l.links, List.filterMap_append, List.map_append, ← List.append_assoc]
            simp only [List.filterMap_cons, hx, List.filterMap_nil, List.map_cons, List.map_nil]
            unfold linked
            rw [linkAfter_append _ _ (_ ++ _) [x.op]]
          · by_cases c : j = i
            · subst c
              rw [e2] at hj
              cases hj
              exact .inr ⟨.inr (by simp), g3⟩
            · rw [step_other c] at hj
              refine (l.calls j t' hj).imp (fun ⟨x, h1, h2, h3⟩ => ⟨x, h1, ?_, h3⟩)
                (fun ⟨h1, h2⟩ => ⟨h1.imp id (fun h => List.mem_append_left _ h), h2⟩)
              intro hm
              rcases List.mem_append.1 hm with hm | hm
              · exact h2 hm
              · exact c (List.mem_singleton.1 hm)
    · cases t with
      | ret a => exact ⟨dn, stay l.fits (.refl h _) (.inr ⟨hd, ht⟩)⟩
      | crash => exact ht.elim
      | act f k =>
        obtain ⟨g1, g2, g3⟩ := ht y.heap l.fits
        exact ⟨dn, stay g1 g2 (.inr ⟨hd, g3⟩)⟩

theorem Lin.run (is : List Nat) : ∀ {y : RSystem RAns} {dn : List Nat}, y.Lin h ops xs dn → ∃ dn', (y.run is).Lin h ops xs dn' := by
  induction is with
  | nil => exact fun l => ⟨_, l⟩
  | cons i is ih =>
    intro y dn l
    obtain ⟨dn', l'⟩ := l.step i
    exact ih l'

theorem Lin.crashed (l : y.Lin h ops xs dn) (i : Nat) : y.crashed i = false := by
  unfold RSystem.crashed
  split
  · rename_i hi
    rcases l.calls i _ hi with ⟨_, _, _, h⟩ | ⟨_, h⟩ <;> exact h.elim
  · rfl

theorem filterMap_writer (xs : List RCall) : (List.range xs.length).filterMap (writer xs) =
    xs.filter (fun x => !x.asks) := by
  have key : ∀ (ys zs : List RCall), (List.range' ys.length zs.length).filterMap (writer (ys ++ zs)) =
      zs.filter (fun x => !x.asks) := by
    intro ys zs
    induction zs generalizing ys with
    | nil => rfl
    | cons z zs ih =>
      have := ih (ys ++ [z])
      rw [List.append_assoc, List.singleton_append, List.length_append, List.length_singleton] at this
      rw [List.length_cons, List.range'_succ, List.filterMap_cons, this, List.filter_cons]
      have e : writer (ys ++ z :: zs) ys.length = if z.asks then none else some z := by
        unfold writer
        rw [List.getElem?_append_right (Nat.le_refl _)]
        simp
      rw [e]
      cases z.asks <;> rfl
  rw [List.range_eq_range']
  exact key [] xs

/-- When all have returned, every change has been made. -/
theorem Lin.order (l : y.Lin h ops xs dn) (hl : y.calls.length = xs.length) (o : y.Over) :
    (dn.filterMap (writer xs) ++ xs.filter (fun x => x.asks)).Perm xs := by
  have h1 : dn.Perm ((List.range xs.length).filter fun i => (writer xs i).isSome) := by
    refine (List.perm_ext_iff_of_nodup l.nodup (List.Pairwise.filter _ List.nodup_range)).2 fun i => ?_
    rw [List.mem_filter, List.mem_range]
    constructor
    · intro hi
      refine ⟨?_, l.mem i hi⟩
      have := l.mem i hi
      unfold writer at this
      cases e : xs[i]? with
      | none => rw [e] at this; cases this
      | some x => exact (List.getElem?_eq_some_iff.1 e).1
    · rintro ⟨hi, hw⟩
      have ho := o i (by omega)
      unfold RSystem.answer at ho
      cases e : y.calls[i]? with
      | none => rw [e] at ho; cases ho
      | some t =>
        rw [e] at ho
        cases t with
        | act f k => cases ho
        | crash => cases ho
        | ret a =>
          rcases l.calls i _ e with ⟨_, _, _, ht⟩ | ⟨hd | hd, _⟩
          · exact ht.elim
          · rw [hd] at hw; cases hw
          · exact hd
  have h2 : ((List.range xs.length).filter fun i => (writer xs i).isSome).filterMap (writer xs) =
      xs.filter (fun x => !x.asks) := by
    rw [← filterMap_writer, List.filterMap_filter]
    congr 1
    funext i
    cases writer xs i <;> rfl
  refine ((h1.filterMap _).append_right _).trans ?_
  rw [h2]
  refine List.perm_append_comm.trans ?_
  exact List.filter_append_perm (fun x => x.asks) xs

end RSystem

namespace RConf

open RHeap Thread RSystem

variable {c : RConf} {h : RHeap} {U : Str → Str → Prop} {ops : List LinkOp} {xs : List RCall}

theorem lin_start (hc : c.Plain) (f : Fit h ops U) (hx : ∀ x ∈ xs, Uses h x) : (c.start h xs).Lin h ops xs [] := by
  refine ⟨f.base.fits, by simp, by simp, fun u r => ?_, fun i t ht => ?_⟩
  · simp only [List.filterMap_nil, List.map_nil, List.append_nil]
    have := f.base.linkOf u r
    show linkOf h h u r = _
    rw [Bool.eq_iff_iff]
    exact this
  · unfold RConf.start at ht
    rw [List.getElem?_map] at ht
    obtain ⟨x, hi, rfl⟩ := Option.map_eq_some_iff.1 ht
    unfold writer
    rw [hi]
    cases ha : x.asks with
    | true => exact .inr ⟨.inl (by simp [ha]), question_keeps hc f.base.addr ha⟩
    | false =>
      exact .inl ⟨x, by simp [ha], by simp, write_does hc f.base.addr ha (hx x (List.mem_of_getElem? hi))⟩

theorem neat_start (hc : c.Plain) (hx : ∀ x ∈ xs, Uses h x) : (c.start h xs).Neat h := by
  refine RSystem.Neat.begin (fun t ht => ?_) (fun _ e => e)
  obtain ⟨x, hxs, rfl⟩ := List.mem_map.1 ht
  cases ha : x.asks with
  | true => exact question_neat hc ha
  | false => exact write_neat hc ha (hx x hxs)

theorem known_append (ops : List LinkOp) (n : Str) : ∀ (xs : List RCall), known (ops ++ xs.map RCall.op) n = true ↔
    known ops n = true ∨ ∃ x ∈ xs, x.asks = false ∧ n ∈ x.about := by
  intro xs
  induction xs generalizing ops with
  | nil => simp
  | cons x xs ih =>
    have := ih (ops ++ [x.op])
    rw [List.append_assoc, List.singleton_append] at this
    rw [List.map_cons, this, known_snoc]
    cases x <;> simp [RCall.asks, RCall.about, or_assoc, eq_comm (a := n)]

/-- Calls of any kind at the same time, where those that change links use names in use. -/
theorem fit_writers (hc : c.Plain) (f : Fit h ops U) (hx : ∀ x ∈ xs, Uses h x) {sched : List Nat}
    (ho : ((c.start h xs).run sched).Over) : ∃ (zs : List RCall) (U' : Str → Str → Prop), zs.Perm xs ∧
    Fit (c.round h (.together xs sched)) (ops ++ zs.map RCall.op) U' := by
  obtain ⟨dn, l⟩ := (lin_start hc f hx).run sched
  have hl : ((c.start h xs).run sched).calls.length = xs.length := by
    rw [run_length]; simp [RConf.start]
  have hn := fun n => ((neat_start (h := h) hc hx).run sched).over ho (n := n)
  have hp := l.order hl ho
  refine ⟨dn.filterMap (writer xs) ++ xs.filter (fun x => x.asks), _, hp,
    ((l.fits.base f.base hn).congr (fun u r => ?_) (fun _ _ => Iff.rfl)), fun n => ?_⟩
  · rw [l.links, List.map_append, ← List.append_assoc, (ops_ask (xs := xs.filter fun x => x.asks) ?_ _).1]
    intro x hx'
    exact (List.mem_filter.1 hx').2
  · have e : ((c.start h xs).run sched).heap.all.has n = h.all.has n := by
      unfold GoMap.has
      cases e : h.all.get n with
      | none => rw [hn n e]
      | some a => rw [l.fits.known n a e]
    show ((c.start h xs).run sched).heap.all.has n = _
    rw [e, f.names, Bool.eq_iff_iff, known_append]
    refine ⟨.inl, fun hh => hh.elim id ?_⟩
    rintro ⟨x, hx', ha, hn'⟩
    rw [← f.names]
    exact hx x (hp.mem_iff.1 hx') ha n hn'

/-- The names of the history `pre` are in use: they occur in `AddLink` or `DeleteLink`. -/
def Before (pre : List Round) (n : Str) : Prop := ∃ R ∈ pre, ∃ y ∈ R.calls, y.asks = false ∧ n ∈ y.about

theorem fit_merge (hc : c.Plain) : ∀ (Rs pre : List Round) {h : RHeap} {ops : List LinkOp} {U : Str → Str → Prop},
    Fit h ops U → (∀ n, Before pre n → known ops n = true) →
    (∀ p xs sched q, Rs = p ++ .together xs sched :: q → ∀ x ∈ xs, x.asks = false → ∀ n ∈ x.about, Before (pre ++ p) n) →
    c.Ended h Rs → ∃ (ops' : List LinkOp) (U' : Str → Str → Prop), Merge Rs ops' ∧ Fit (c.rounds h Rs) (ops ++ ops') U'
  | [], _, h, ops, U, f, _, _, _ => ⟨[], U, rfl, by rw [List.append_nil]; exact f⟩
  | R :: Rs, pre, h, ops, U, f, hp, hq, he => by
    have step : ∃ (zs : List RCall) (U' : Str → Str → Prop), zs.Perm R.calls ∧ Fit (c.round h R) (ops ++ zs.map RCall.op) U' := by
      cases R with
      | alone x =>
        obtain ⟨U', f', _⟩ := fit_alone hc f x
        exact ⟨[x], U', List.Perm.refl _, f'⟩
      | together xs sched =>
        refine fit_writers hc f (fun x hx ha n hn => ?_) he.1
        rw [f.names]
        have := hq [] xs sched Rs rfl x hx ha n hn
        rw [List.append_nil] at this
        exact hp n this
    obtain ⟨zs, U', hz, f'⟩ := step
    have he' : c.Ended (c.round h R) Rs := by
      cases R with
      | alone x => exact he
      | together xs sched => exact he.2
    have hp' : ∀ n, Before (pre ++ [R]) n → known (ops ++ zs.map RCall.op) n = true := by
      rintro n ⟨R', hR, y, hy, h1, h2⟩
      rw [known_append]
      rcases List.mem_append.1 hR with hR | hR
      · exact .inl (hp n ⟨R', hR, y, hy, h1, h2⟩)
      · rw [List.mem_singleton] at hR
        subst hR
        exact .inr ⟨y, hz.mem_iff.2 hy, h1, h2⟩
    have hq' : ∀ p xs sched q, Rs = p ++ .together xs sched :: q → ∀ x ∈ xs, x.asks = false → ∀ n ∈ x.about,
        Before (pre ++ [R] ++ p) n := by
      intro p xs sched q e x hx ha n hn
      have := hq (R :: p) xs sched q (by rw [e]; rfl) x hx ha n hn
      rw [List.append_assoc]
      exact this
    obtain ⟨ops', U'', hm, f''⟩ := fit_merge hc Rs (pre ++ [R]) f' hp' hq' he'
    refine ⟨zs.map RCall.op ++ ops', U'', ⟨zs, ops', hz, rfl, hm⟩, ?_⟩
    rw [← List.append_assoc]
    exact f''

end RConf

end Fastac
