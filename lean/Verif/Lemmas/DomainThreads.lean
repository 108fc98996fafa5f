import Verif.Spec.DomainThreads
import Verif.Lemmas.RoleWriters

/-!
# Domain managers used at the same time: the tree of managers
-/

namespace Fastac

theorem RCall.stores_eq (x : RCall) : x.stores = !x.asks := by cases x <;> rfl

namespace DHeap

/-- The domain manager that a path leads to. -/
def nodeAt (s : DHeap) : Nat → List Str → Option Nat
  | a, [] => some a
  | a, d :: ds => ((s.dm a).subs.get d).bind fun b => nodeAt s b ds

/-- The role manager that a path leads to. -/
def rmAt (s : DHeap) (a : Nat) (ds : List Str) : Option Nat := (s.nodeAt a ds).bind fun b => (s.dm b).dflt

theorem rmAt_cons (s : DHeap) (a : Nat) (d : Str) (ds : List Str) :
    s.rmAt a (d :: ds) = ((s.dm a).subs.get d).bind fun b => s.rmAt b ds := by
  unfold rmAt
  rw [nodeAt]
  cases (s.dm a).subs.get d <;> rfl

theorem nodeAt_snoc (s : DHeap) (d : Str) : ∀ (ds : List Str) (a : Nat),
    s.nodeAt a (ds ++ [d]) = (s.nodeAt a ds).bind fun b => (s.dm b).subs.get d
  | [], a => by
    show ((s.dm a).subs.get d).bind (fun b => some b) = (s.dm a).subs.get d
    cases (s.dm a).subs.get d <;> rfl
  | e :: ds, a => by
    show ((s.dm a).subs.get e).bind (fun b => s.nodeAt b (ds ++ [d])) = _
    rw [show s.nodeAt a (e :: ds) = ((s.dm a).subs.get e).bind fun b => s.nodeAt b ds from rfl]
    cases (s.dm a).subs.get e with
    | none => rfl
    | some b => exact nodeAt_snoc s d ds b

/-- Managers are a tree. -/
structure Tree (s : DHeap) : Prop where
  root : 0 < s.dms.length
  valid : ∀ a d b, (s.dm a).subs.get d = some b → b < s.dms.length ∧ b ≠ 0
  inj : ∀ a d a' d' b, (s.dm a).subs.get d = some b → (s.dm a').subs.get d' = some b → a = a' ∧ d = d'
  rvalid : ∀ a j, (s.dm a).dflt = some j → j < s.rms.length
  rinj : ∀ a a' j, (s.dm a).dflt = some j → (s.dm a').dflt = some j → a = a'

theorem dm_of_ge {s : DHeap} {a : Nat} (h : s.dms.length ≤ a) : s.dm a = {} := by
  unfold dm
  rw [List.getElem?_eq_none h]
  rfl

theorem lt_of_subs {s : DHeap} {a b : Nat} {d : Str} (h : (s.dm a).subs.get d = some b) : a < s.dms.length := by
  rcases Nat.lt_or_ge a s.dms.length with h' | h'
  · exact h'
  · rw [dm_of_ge h'] at h
    cases h

theorem lt_of_dflt {s : DHeap} {a j : Nat} (h : (s.dm a).dflt = some j) : a < s.dms.length := by
  rcases Nat.lt_or_ge a s.dms.length with h' | h'
  · exact h'
  · rw [dm_of_ge h'] at h
    cases h

theorem Tree.new : Tree DHeap.new := by
  have e : ∀ a, DHeap.new.dm a = {} := by
    intro a
    rcases a with _ | a <;> rfl
  refine ⟨Nat.one_pos, ?_, ?_, ?_, ?_⟩
  · intro a d b h
    rw [e] at h
    cases h
  · intro a d a' d' b h
    rw [e] at h
    cases h
  · intro a j h
    rw [e] at h
    cases h
  · intro a a' j h
    rw [e] at h
    cases h

theorem Tree.node_inj {s : DHeap} (t : s.Tree) : ∀ {P Q : List Str} {b : Nat}, s.nodeAt 0 P = some b →
    s.nodeAt 0 Q = some b → P = Q := by
  have snoc : ∀ (P : List Str), P = [] ∨ ∃ P' d, P = P' ++ [d] := fun P => by
    rcases List.eq_nil_or_concat P with h | ⟨P', d, h⟩
    · exact .inl h
    · exact .inr ⟨P', d, by rw [h]; simp⟩
  intro P
  generalize hn : P.length = n
  induction n generalizing P with
  | zero =>
    intro Q b hP hQ
    have : P = [] := List.length_eq_zero_iff.1 hn
    subst this
    have hb : 0 = b := by injection hP
    subst hb
    rcases snoc Q with rfl | ⟨Q', d, rfl⟩
    · rfl
    · rw [nodeAt_snoc] at hQ
      obtain ⟨a, -, ha⟩ := Option.bind_eq_some_iff.1 hQ
      exact absurd rfl (t.valid _ _ _ ha).2
  | succ n ih =>
    intro Q b hP hQ
    rcases snoc P with rfl | ⟨P', d, rfl⟩
    · cases hn
    · rw [nodeAt_snoc] at hP
      obtain ⟨a, ha, ha'⟩ := Option.bind_eq_some_iff.1 hP
      rcases snoc Q with rfl | ⟨Q', d', rfl⟩
      · have hb : 0 = b := by injection hQ
        exact absurd hb.symm (t.valid _ _ _ ha').2
      · rw [nodeAt_snoc] at hQ
        obtain ⟨a', hq, hq'⟩ := Option.bind_eq_some_iff.1 hQ
        obtain ⟨rfl, rfl⟩ := t.inj _ _ _ _ _ ha' hq'
        rw [ih (by simpa using hn) ha hq]

theorem Tree.rm_inj {s : DHeap} (t : s.Tree) {P Q : List Str} {j : Nat} (hP : s.rmAt 0 P = some j)
    (hQ : s.rmAt 0 Q = some j) : P = Q := by
  obtain ⟨a, ha, ha'⟩ := Option.bind_eq_some_iff.1 hP
  obtain ⟨b, hb, hb'⟩ := Option.bind_eq_some_iff.1 hQ
  obtain rfl := t.rinj _ _ _ ha' hb'
  exact t.node_inj ha hb

theorem Tree.rm_lt {s : DHeap} (t : s.Tree) {a : Nat} {P : List Str} {j : Nat} (hP : s.rmAt a P = some j) :
    j < s.rms.length := by
  obtain ⟨a, ha, ha'⟩ := Option.bind_eq_some_iff.1 hP
  exact t.rvalid _ _ ha'

/-! ## Calls of a role manager -/

theorem updRM_length (s : DHeap) (j : Nat) (f : RHeap → RHeap) : (s.updRM j f).rms.length = s.rms.length :=
  List.length_modify ..

theorem rm_upd_self {s : DHeap} {j : Nat} (h : j < s.rms.length) (f : RHeap → RHeap) : (s.updRM j f).rm j = f (s.rm j) := by
  unfold rm updRM
  rw [List.getElem?_modify, List.getElem?_eq_getElem h]
  simp

theorem rm_upd_ne {s : DHeap} {j k : Nat} (h : k ≠ j) (f : RHeap → RHeap) : (s.updRM j f).rm k = s.rm k := by
  unfold rm updRM
  rw [List.getElem?_modify]
  simp [Ne.symm h]

theorem updRM_updRM (s : DHeap) (j : Nat) (f g : RHeap → RHeap) : (s.updRM j f).updRM j g = s.updRM j (fun h => g (f h)) := by
  unfold updRM
  rw [List.modify_modify_eq]
  rfl

theorem updRM_id (s : DHeap) (j : Nat) {f : RHeap → RHeap} (h : f (s.rm j) = s.rm j) : s.updRM j f = s := by
  unfold updRM
  have : s.rms.modify j f = s.rms := by
    apply List.ext_getElem?
    intro i
    rw [List.getElem?_modify]
    cases hi : s.rms[i]? with
    | none => rfl
    | some x =>
      by_cases c : j = i
      · subst c
        have : s.rm j = x := by unfold rm; rw [hi]; rfl
        rw [this] at h
        simp [h]
      · simp [c]
  rw [this]

theorem exec_inRM {α : Type} {j : Nat} : ∀ (t : Thread RHeap α) {s : DHeap}, j < s.rms.length →
    (t.inRM j).exec s = (s.updRM j (fun _ => (t.exec (s.rm j)).1), (t.exec (s.rm j)).2)
  | .ret a, s, _ => by
    rw [updRM_id]
    · rfl
    · rfl
  | .crash, s, _ => by
    rw [updRM_id]
    · rfl
    · rfl
  | .act f k, s, h => by
    show ((k (s.rm j)).inRM j).exec (s.updRM j f) = _
    rw [exec_inRM (k (s.rm j)) (by rw [updRM_length]; exact h), updRM_updRM, rm_upd_self h]
    rfl

theorem updRM_dm (s : DHeap) (j : Nat) (f : RHeap → RHeap) (a : Nat) : (s.updRM j f).dm a = s.dm a := rfl

theorem nodeAt_dms {s s' : DHeap} (e : s'.dms = s.dms) : ∀ (ds : List Str) (a : Nat), s'.nodeAt a ds = s.nodeAt a ds
  | [], _ => rfl
  | d :: ds, a => by
    have : s'.dm a = s.dm a := by unfold dm; rw [e]
    show ((s'.dm a).subs.get d).bind _ = ((s.dm a).subs.get d).bind _
    rw [this]
    cases (s.dm a).subs.get d with
    | none => rfl
    | some b => exact nodeAt_dms e ds b

theorem rmAt_dms {s s' : DHeap} (e : s'.dms = s.dms) (a : Nat) (ds : List Str) : s'.rmAt a ds = s.rmAt a ds := by
  unfold rmAt
  rw [nodeAt_dms e]
  have : ∀ b, s'.dm b = s.dm b := fun b => by unfold dm; rw [e]
  simp only [this]

theorem Tree.of_dms {s s' : DHeap} (t : s.Tree) (e : s'.dms = s.dms) (el : s'.rms.length = s.rms.length) : s'.Tree := by
  have hd : ∀ a, s'.dm a = s.dm a := fun a => by unfold dm; rw [e]
  refine ⟨by rw [e]; exact t.root, fun a d b h => ?_, fun a d a' d' b h h' => ?_, fun a j h => ?_, fun a a' j h h' => ?_⟩
  · rw [hd] at h
    rw [e]
    exact t.valid a d b h
  · rw [hd] at h h'
    exact t.inj a d a' d' b h h'
  · rw [hd] at h
    rw [el]
    exact t.rvalid a j h
  · rw [hd] at h h'
    exact t.rinj a a' j h h'

/-! ## New managers -/

/-- `s'` has more managers: domain managers, and role managers from `j` on. -/
structure Grows (s s' : DHeap) (j : Nat) : Prop where
  dlen : s.dms.length ≤ s'.dms.length
  rlen : s.rms.length ≤ s'.rms.length
  subs : ∀ a d b, (s.dm a).subs.get d = some b → (s'.dm a).subs.get d = some b
  dflt : ∀ a k, (s.dm a).dflt = some k → (s'.dm a).dflt = some k
  rm : ∀ k, k < s.rms.length → s'.rm k = s.rm k
  back : ∀ a d b, (s'.dm a).subs.get d = some b → b < s.dms.length → (s.dm a).subs.get d = some b
  dback : ∀ a k, (s'.dm a).dflt = some k → (s.dm a).dflt = some k ∨ k = j

theorem Grows.refl (s : DHeap) (j : Nat) : Grows s s j :=
  ⟨Nat.le_refl _, Nat.le_refl _, fun _ _ _ h => h, fun _ _ h => h, fun _ _ => rfl, fun _ _ _ h _ => h, fun _ _ h => .inl h⟩

theorem Grows.trans {s s' s'' : DHeap} {j : Nat} (g : Grows s s' j) (g' : Grows s' s'' j) : Grows s s'' j :=
  ⟨Nat.le_trans g.dlen g'.dlen, Nat.le_trans g.rlen g'.rlen, fun _ _ _ h => g'.subs _ _ _ (g.subs _ _ _ h),
    fun _ _ h => g'.dflt _ _ (g.dflt _ _ h),
    fun k h => (g'.rm k (Nat.lt_of_lt_of_le h g.rlen)).trans (g.rm k h),
    fun a d b h hb => g.back a d b (g'.back a d b h (Nat.lt_of_lt_of_le hb g.dlen)) hb,
    fun a k h => (g'.dback a k h).elim (fun h => g.dback a k h) .inr⟩

theorem Grows.node {s s' : DHeap} {j : Nat} (g : Grows s s' j) : ∀ {ds : List Str} {a b : Nat}, s.nodeAt a ds = some b →
    s'.nodeAt a ds = some b
  | [], _, _, h => h
  | d :: ds, a, b, h => by
    obtain ⟨e, he, he'⟩ := Option.bind_eq_some_iff.1 h
    exact Option.bind_eq_some_iff.2 ⟨e, g.subs _ _ _ he, g.node he'⟩

theorem Grows.rmAt {s s' : DHeap} {j : Nat} (g : Grows s s' j) {ds : List Str} {a k : Nat} (h : s.rmAt a ds = some k) :
    s'.rmAt a ds = some k := by
  obtain ⟨e, he, he'⟩ := Option.bind_eq_some_iff.1 h
  exact Option.bind_eq_some_iff.2 ⟨e, g.node he, g.dflt _ _ he'⟩

theorem Grows.node_back {s s' : DHeap} {j : Nat} (g : Grows s s' j) : ∀ {ds : List Str} {b : Nat},
    s'.nodeAt 0 ds = some b → b < s.dms.length → s.nodeAt 0 ds = some b := by
  intro ds
  generalize hn : ds.length = n
  induction n generalizing ds with
  | zero =>
    intro b h _
    rw [List.length_eq_zero_iff.1 hn] at h ⊢
    exact h
  | succ n ih =>
    intro b h hb
    rcases List.eq_nil_or_concat ds with rfl | ⟨es, d, e⟩
    · cases hn
    · rw [List.concat_eq_append] at e
      subst e
      rw [nodeAt_snoc] at h ⊢
      obtain ⟨a, ha, ha'⟩ := Option.bind_eq_some_iff.1 h
      have h1 := g.back _ _ _ ha' hb
      exact Option.bind_eq_some_iff.2 ⟨a, ih (by simpa using hn) ha (lt_of_subs h1), h1⟩

theorem Grows.rmAt_back {s s' : DHeap} {j : Nat} (g : Grows s s' j) {ds : List Str} {k : Nat} (h : s'.rmAt 0 ds = some k)
    (hk : k ≠ j) : s.rmAt 0 ds = some k := by
  obtain ⟨a, ha, ha'⟩ := Option.bind_eq_some_iff.1 h
  have h1 := (g.dback a k ha').resolve_right hk
  exact Option.bind_eq_some_iff.2 ⟨a, g.node_back ha (lt_of_dflt h1), h1⟩

/-- The new domain manager of `subManager`. -/
def addSub (s : DHeap) (a : Nat) (d : Str) : DHeap :=
  { s with dms := s.dms.modify a (fun o => { o with subs := o.subs.set d s.dms.length }) ++ [{}] }

theorem addSub_dm {s : DHeap} {a : Nat} (h : a < s.dms.length) (d : Str) (b : Nat) : (s.addSub a d).dm b =
    if b = a then { (s.dm a) with subs := (s.dm a).subs.set d s.dms.length } else s.dm b := by
  unfold dm addSub
  show (s.dms.modify a _ ++ [({} : DObj)])[b]?.getD {} = _
  rcases Nat.lt_or_ge b s.dms.length with hb | hb
  · rw [List.getElem?_append_left (by rw [List.length_modify]; exact hb), List.getElem?_modify]
    by_cases e : a = b
    · subst e
      rw [List.getElem?_eq_getElem h]
      simp
    · rw [if_neg (fun x => e x.symm)]
      simp [e]
  · rw [List.getElem?_append_right (by rw [List.length_modify]; exact hb), if_neg (by omega), List.getElem?_eq_none hb,
      List.length_modify]
    rcases b - s.dms.length with _ | n <;> rfl

theorem addSub_grows {s : DHeap} {a : Nat} (h : a < s.dms.length) {d : Str} (hd : (s.dm a).subs.get d = none) (j : Nat) :
    Grows s (s.addSub a d) j := by
  refine ⟨by simp [addSub], Nat.le_refl _, fun b e k hk => ?_, fun b k hk => ?_, fun _ _ => rfl, fun b e k hk hl => ?_,
    fun b k hk => ?_⟩
  · rw [addSub_dm h]
    split
    · rename_i c
      subst c
      show (GoMap.set _ d _).get e = _
      rw [GoMap.get_set]
      split
      · rename_i c
        subst c
        rw [hd] at hk
        cases hk
      · exact hk
    · exact hk
  · rw [addSub_dm h]
    split
    · rename_i c
      subst c
      exact hk
    · exact hk
  · rw [addSub_dm h] at hk
    split at hk
    · rename_i c
      subst c
      replace hk : (GoMap.set _ d _).get e = _ := hk
      rw [GoMap.get_set] at hk
      split at hk
      · injection hk with hk
        omega
      · exact hk
    · exact hk
  · rw [addSub_dm h] at hk
    split at hk
    · rename_i c
      subst c
      exact .inl hk
    · exact .inl hk

theorem addSub_tree {s : DHeap} (t : s.Tree) {a : Nat} (h : a < s.dms.length) (d : Str) : (s.addSub a d).Tree := by
  have hs : ∀ b e k, ((s.addSub a d).dm b).subs.get e = some k →
      (b = a ∧ e = d ∧ k = s.dms.length) ∨ (s.dm b).subs.get e = some k := by
    intro b e k hk
    rw [addSub_dm h] at hk
    split at hk
    · rename_i c
      subst c
      replace hk : (GoMap.set _ d _).get e = _ := hk
      rw [GoMap.get_set] at hk
      split at hk
      · rename_i c
        injection hk with hk
        exact .inl ⟨rfl, c.symm, hk.symm⟩
      · exact .inr hk
    · exact .inr hk
  have hd : ∀ b, ((s.addSub a d).dm b).dflt = (s.dm b).dflt := by
    intro b
    rw [addSub_dm h]
    split
    · rename_i c
      subst c
      rfl
    · rfl
  have hl : (s.addSub a d).dms.length = s.dms.length + 1 := by simp [addSub]
  refine ⟨by omega, fun b e k hk => ?_, fun b e b' e' k hk hk' => ?_, fun b j hj => ?_, fun b b' j hj hj' => ?_⟩
  · rw [hl]
    rcases hs b e k hk with ⟨_, _, hk⟩ | hk
    · have := t.root
      omega
    · have := t.valid _ _ _ hk
      omega
  · rcases hs b e k hk with ⟨r1, r2, r3⟩ | hk <;> rcases hs b' e' k hk' with ⟨q1, q2, q3⟩ | hk'
    · exact ⟨r1.trans q1.symm, r2.trans q2.symm⟩
    · have := (t.valid _ _ _ hk').1
      omega
    · have := (t.valid _ _ _ hk).1
      omega
    · exact t.inj _ _ _ _ _ hk hk'
  · rw [hd] at hj
    exact t.rvalid _ _ hj
  · rw [hd] at hj hj'
    exact t.rinj _ _ _ hj hj'

/-- The new role manager of `dfltManager`. -/
def addDflt (s : DHeap) (a : Nat) : DHeap :=
  { dms := s.dms.modify a (fun o => { o with dflt := some s.rms.length }), rms := s.rms ++ [RHeap.new] }

theorem addDflt_dm {s : DHeap} {a : Nat} (h : a < s.dms.length) (b : Nat) : (s.addDflt a).dm b =
    if b = a then { (s.dm a) with dflt := some s.rms.length } else s.dm b := by
  unfold dm addDflt
  show (s.dms.modify a _)[b]?.getD {} = _
  rw [List.getElem?_modify]
  by_cases e : a = b
  · subst e
    rw [List.getElem?_eq_getElem h]
    simp
  · rw [if_neg (fun x => e x.symm)]
    simp [e]

theorem addDflt_grows {s : DHeap} {a : Nat} (h : a < s.dms.length) (hd : (s.dm a).dflt = none) :
    Grows s (s.addDflt a) s.rms.length := by
  have hs : ∀ b, ((s.addDflt a).dm b).subs = (s.dm b).subs := by
    intro b
    rw [addDflt_dm h]
    split
    · rename_i c
      subst c
      rfl
    · rfl
  refine ⟨by simp [addDflt], by simp [addDflt], fun b e k hk => by rw [hs]; exact hk, fun b k hk => ?_, fun k hk => ?_,
    fun b e k hk _ => by rw [hs] at hk; exact hk, fun b k hk => ?_⟩
  · rw [addDflt_dm h]
    split
    · rename_i c
      subst c
      rw [hd] at hk
      cases hk
    · exact hk
  · unfold rm addDflt
    show (s.rms ++ [RHeap.new])[k]?.getD _ = _
    rw [List.getElem?_append_left hk]
  · rw [addDflt_dm h] at hk
    split at hk
    · injection hk with hk
      exact .inr hk.symm
    · exact .inl hk

theorem addDflt_tree {s : DHeap} (t : s.Tree) {a : Nat} (h : a < s.dms.length) : (s.addDflt a).Tree := by
  have hs : ∀ b, ((s.addDflt a).dm b).subs = (s.dm b).subs := by
    intro b
    rw [addDflt_dm h]
    split
    · rename_i c
      subst c
      rfl
    · rfl
  have hd : ∀ b j, ((s.addDflt a).dm b).dflt = some j → (b = a ∧ j = s.rms.length) ∨ (s.dm b).dflt = some j := by
    intro b j hj
    rw [addDflt_dm h] at hj
    split at hj
    · rename_i c
      injection hj with hj
      exact .inl ⟨c, hj.symm⟩
    · exact .inr hj
  have hl : (s.addDflt a).dms.length = s.dms.length := by simp [addDflt]
  have hr : (s.addDflt a).rms.length = s.rms.length + 1 := by simp [addDflt]
  refine ⟨by rw [hl]; exact t.root, fun b e k hk => ?_, fun b e b' e' k hk hk' => ?_, fun b j hj => ?_,
    fun b b' j hj hj' => ?_⟩
  · rw [hs] at hk
    rw [hl]
    exact t.valid _ _ _ hk
  · rw [hs] at hk hk'
    exact t.inj _ _ _ _ _ hk hk'
  · rw [hr]
    rcases hd b j hj with ⟨_, rfl⟩ | hj
    · omega
    · have := t.rvalid _ _ hj
      omega
  · rcases hd b j hj with ⟨r1, r2⟩ | hj <;> rcases hd b' j hj' with ⟨q1, q2⟩ | hj'
    · rw [r1, q1]
    · have := t.rvalid _ _ hj'
      omega
    · have := t.rvalid _ _ hj
      omega
    · exact t.rinj _ _ _ hj hj'

theorem addDflt_rm (s : DHeap) (a : Nat) : (s.addDflt a).rm s.rms.length = RHeap.new := by
  unfold rm addDflt
  show (s.rms ++ [RHeap.new])[s.rms.length]?.getD _ = _
  simp

end DHeap

/-! ## A call alone -/

namespace RConf

open DHeap

/-- Down the path without storing. -/
theorem descend_read : ∀ (ds : List Str) (a : Nat) (s : DHeap), (descend false a ds).exec s = (s, some (s.rmAt a ds))
  | [], a, s => by
    show (Thread.exec _ s) = _
    unfold descend dfltManager
    rw [Thread.exec_bind]
    show (match ((s.dm a).dflt) with
      | some j => Thread.ret (some j) | none => _ : Thread DHeap (Option Nat)).exec s = (s, some ((s.dm a).dflt))
    cases (s.dm a).dflt <;> rfl
  | d :: ds, a, s => by
    rw [rmAt_cons]
    unfold descend subManager
    rw [Thread.exec_bind, Thread.exec_bind]
    cases h : (s.dm a).subs.get d with
    | none =>
      have : (Thread.read fun s : DHeap => (s.dm a).subs.get d).exec s = (s, some none) := by rw [← h]; rfl
      rw [this]
      rfl
    | some b =>
      have : (Thread.read fun s : DHeap => (s.dm a).subs.get d).exec s = (s, some (some b)) := by rw [← h]; rfl
      rw [this]
      exact descend_read ds b s

/-- Down the path with storing: afterwards it leads to a role manager, a new one if there was none. -/
theorem descend_store : ∀ (ds : List Str) (a : Nat) (s : DHeap), s.Tree → a < s.dms.length →
    ∃ s' j, (descend true a ds).exec s = (s', some (some j)) ∧ s'.Tree ∧ Grows s s' j ∧ s'.rmAt a ds = some j ∧
      (s.rmAt a ds = some j ∨ s.rmAt a ds = none ∧ s'.rm j = RHeap.new ∧ s.rms.length ≤ j)
  | [], a, s, t, ha => by
    cases h : (s.dm a).dflt with
    | some j =>
      refine ⟨s, j, ?_, t, .refl s j, h, .inl h⟩
      unfold descend dfltManager
      rw [Thread.exec_bind]
      have : (Thread.read fun s : DHeap => (s.dm a).dflt).exec s = (s, some (some j)) := by rw [← h]; rfl
      rw [this]
      rfl
    | none =>
      refine ⟨s.addDflt a, s.rms.length, ?_, addDflt_tree t ha, addDflt_grows ha h, ?_, .inr ⟨h, addDflt_rm s a, Nat.le_refl _⟩⟩
      · unfold descend dfltManager
        rw [Thread.exec_bind]
        have : (Thread.read fun s : DHeap => (s.dm a).dflt).exec s = (s, some none) := by rw [← h]; rfl
        rw [this]
        rfl
      · show ((s.addDflt a).dm a).dflt = _
        rw [addDflt_dm ha, if_pos rfl]
  | d :: ds, a, s, t, ha => by
    cases h : (s.dm a).subs.get d with
    | some b =>
      obtain ⟨s', j, h1, h2, h3, h4, h5⟩ := descend_store ds b s t (t.valid _ _ _ h).1
      have e : ∀ s0 : DHeap, (s0.dm a).subs.get d = some b → s0.rmAt a (d :: ds) = s0.rmAt b ds := fun s0 h0 => by
        rw [rmAt_cons, h0]
        rfl
      refine ⟨s', j, ?_, h2, h3, by rw [e _ (h3.subs _ _ _ h)]; exact h4, by rw [e _ h]; exact h5⟩
      unfold descend subManager
      rw [Thread.exec_bind, Thread.exec_bind]
      have : (Thread.read fun s : DHeap => (s.dm a).subs.get d).exec s = (s, some (some b)) := by rw [← h]; rfl
      rw [this]
      exact h1
    | none =>
      have hn : s.dms.length < (s.addSub a d).dms.length := by simp [addSub]
      have hd : (s.addSub a d).rmAt s.dms.length ds = none := by
        have hx : (s.addSub a d).dm s.dms.length = {} := by
          rw [addSub_dm ha, if_neg (by omega), dm_of_ge (Nat.le_refl _)]
        cases ds with
        | nil => show ((s.addSub a d).dm s.dms.length).dflt = none; rw [hx]
        | cons e ds => rw [rmAt_cons, hx]; rfl
      have hg : ((s.addSub a d).dm a).subs.get d = some s.dms.length := by
        rw [addSub_dm ha, if_pos rfl]
        exact GoMap.get_set_self ..
      obtain ⟨s', j, h1, h2, h3, h4, h5⟩ := descend_store ds s.dms.length (s.addSub a d) (addSub_tree t ha d) hn
      obtain h5 | ⟨-, h6, h7⟩ := h5
      · rw [hd] at h5; cases h5
      refine ⟨s', j, ?_, h2, (addSub_grows ha h j).trans h3, ?_, .inr ⟨?_, h6, h7⟩⟩
      · unfold descend subManager
        rw [Thread.exec_bind, Thread.exec_bind]
        have : (Thread.read fun s : DHeap => (s.dm a).subs.get d).exec s = (s, some none) := by rw [← h]; rfl
        rw [this]
        exact h1
      · rw [rmAt_cons, h3.subs _ _ _ hg]
        exact h4
      · rw [rmAt_cons, h]
        rfl

end RConf

end Fastac
