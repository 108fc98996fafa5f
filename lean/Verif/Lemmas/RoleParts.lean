import Verif.Lemmas.RoleRounds

/-!
# Calls of a role manager alone, and histories of calls
-/

namespace Fastac

namespace RHeap

variable {h s : RHeap} {L U : Str → Str → Prop}

theorem upd_length (s : RHeap) (a : Nat) (g : RObj → RObj) : (s.upd a g).objs.length = s.objs.length := by
  simp [upd]

/-- The link from `u` to `r` is there now, or is not. -/
def relink (L : Str → Str → Prop) (u r : Str) (now : Prop) (x y : Str) : Prop := if x = u ∧ y = r then now else L x y

theorem Base.setRoles (b : Base h L U) {u : Str} {a : Nat} (hu : h.all.get u = some a) {L' : Str → Str → Prop}
    {F : GoMap Str Nat → GoMap Str Nat} (hw : (F (h.role a).roles).WF)
    (hF : ∀ r x, (F (h.role a).roles).get r = some x ↔ L' u r ∧ h.all.get r = some x)
    (hL : ∀ v r, v ≠ u → (L' v r ↔ L v r)) (hk : ∀ r, L' u r → h.all.has r = true) :
    Base (h.upd a fun o => { o with roles := F o.roles }) L' U := by
  have hr : ∀ x, (h.upd a fun o => { o with roles := F o.roles }).role x =
      if a = x then { h.role x with roles := F (h.role x).roles } else h.role x := by
    intro x
    rw [role_upd]
    by_cases c : a = x
    · subst c; simp [b.valid u a hu]
    · simp [c]
  refine ⟨fun n x e => by rw [upd_length]; exact b.valid n x e, b.inj, fun x => ?_, fun x => ?_, fun x => ?_,
    fun n x e => ?_, fun n x e => ?_, fun v r e => ?_, b.uk⟩
  · rw [hr]; split <;> exact b.bare x
  · rw [hr]; split
    · rename_i c; subst c; exact hw
    · exact b.rwf x
  · rw [hr]; split <;> exact b.uwf x
  · intro r y
    rw [hr]; split
    · rename_i c
      subst c
      have : n = u := b.inj _ _ _ e hu
      subst this
      exact hF r y
    · rename_i c
      have : n ≠ u := fun c' => c (by subst c'; rw [show h.all.get n = some x from e] at hu; cases hu; rfl)
      rw [hL n r this]
      exact b.roles n x e r y
  · intro v y
    rw [hr]; split <;> exact b.users n x e v y
  · by_cases c : v = u
    · subst c
      exact ⟨by show (h.all.get v).isSome = true; rw [hu]; rfl, hk r e⟩
    · exact b.lk v r ((hL v r c).1 e)

theorem Base.setUsers (b : Base h L U) {r : Str} {a : Nat} (hr' : h.all.get r = some a) {U' : Str → Str → Prop}
    {F : GoMap Str Nat → GoMap Str Nat} (hw : (F (h.role a).users).WF)
    (hF : ∀ u x, (F (h.role a).users).get u = some x ↔ U' u r ∧ h.all.get u = some x)
    (hL : ∀ u v, v ≠ r → (U' u v ↔ U u v)) (hk : ∀ u, U' u r → h.all.has u = true) :
    Base (h.upd a fun o => { o with users := F o.users }) L U' := by
  have hr : ∀ x, (h.upd a fun o => { o with users := F o.users }).role x =
      if a = x then { h.role x with users := F (h.role x).users } else h.role x := by
    intro x
    rw [role_upd]
    by_cases c : a = x
    · subst c; simp [b.valid r a hr']
    · simp [c]
  refine ⟨fun n x e => by rw [upd_length]; exact b.valid n x e, b.inj, fun x => ?_, fun x => ?_, fun x => ?_,
    fun n x e => ?_, fun n x e => ?_, b.lk, fun u v e => ?_⟩
  · rw [hr]; split <;> exact b.bare x
  · rw [hr]; split <;> exact b.rwf x
  · rw [hr]; split
    · rename_i c; subst c; exact hw
    · exact b.uwf x
  · intro v y
    rw [hr]; split <;> exact b.roles n x e v y
  · intro u y
    rw [hr]; split
    · rename_i c
      subst c
      have : n = r := b.inj _ _ _ e hr'
      subst this
      exact hF u y
    · rename_i c
      have : n ≠ r := fun c' => c (by subst c'; rw [show h.all.get n = some x from e] at hr'; cases hr'; rfl)
      rw [hL u n this]
      exact b.users n x e u y
  · by_cases c : v = r
    · subst c
      exact ⟨hk u e, by show (h.all.get v).isSome = true; rw [hr']; rfl⟩
    · exact b.uk u v ((hL u v c).1 e)

theorem Base.addRole (b : Base h L U) {u r : Str} {a d : Nat} (hu : h.all.get u = some a) (hr : h.all.get r = some d) :
    Base (h.upd a fun o => { o with roles := o.roles.set r d }) (relink L u r True) U := by
  refine b.setRoles (F := fun m => m.set r d) hu ((b.rwf a).set r d) (fun r' x => ?_) (fun v r' hv => ?_) fun r' e => ?_
  · simp only [GoMap.get_set, relink, true_and]
    by_cases c : r = r'
    · subst c; simp [hr]
    · rw [if_neg c, if_neg (Ne.symm c)]; exact b.roles u a hu r' x
  · simp only [relink, hv, false_and, if_false]
  · simp only [relink, true_and] at e
    by_cases c : r' = r
    · subst c; show (h.all.get r').isSome = true; rw [hr]; rfl
    · rw [if_neg c] at e; exact (b.lk u r' e).2

theorem Base.delRole (b : Base h L U) {u r : Str} {a : Nat} (hu : h.all.get u = some a) :
    Base (h.upd a fun o => { o with roles := o.roles.del r }) (relink L u r False) U := by
  refine b.setRoles (F := fun m => m.del r) hu ((b.rwf a).del r) (fun r' x => ?_) (fun v r' hv => ?_) fun r' e => ?_
  · simp only [GoMap.get_del, relink, true_and]
    by_cases c : r = r'
    · subst c; simp
    · rw [if_neg c, if_neg (Ne.symm c)]; exact b.roles u a hu r' x
  · simp only [relink, hv, false_and, if_false]
  · simp only [relink, true_and] at e
    by_cases c : r' = r
    · rw [if_pos c] at e; exact e.elim
    · rw [if_neg c] at e; exact (b.lk u r' e).2

theorem Base.addUser (b : Base h L U) {u r : Str} {a d : Nat} (hu : h.all.get u = some a) (hr : h.all.get r = some d) :
    Base (h.upd d fun o => { o with users := o.users.set u a }) L (relink U u r True) := by
  refine b.setUsers (F := fun m => m.set u a) hr ((b.uwf d).set u a) (fun u' x => ?_) (fun u' v hv => ?_) fun u' e => ?_
  · simp only [GoMap.get_set, relink, and_true]
    by_cases c : u = u'
    · subst c; simp [hu]
    · rw [if_neg c, if_neg (Ne.symm c)]; exact b.users r d hr u' x
  · simp only [relink, hv, and_false, if_false]
  · simp only [relink, and_true] at e
    by_cases c : u' = u
    · subst c; show (h.all.get u').isSome = true; rw [hu]; rfl
    · rw [if_neg c] at e; exact (b.uk u' r e).1

theorem Base.delUser (b : Base h L U) {u r : Str} {d : Nat} (hr : h.all.get r = some d) :
    Base (h.upd d fun o => { o with users := o.users.del u }) L (relink U u r False) := by
  refine b.setUsers (F := fun m => m.del u) hr ((b.uwf d).del u) (fun u' x => ?_) (fun u' v hv => ?_) fun u' e => ?_
  · simp only [GoMap.get_del, relink, and_true]
    by_cases c : u = u'
    · subst c; simp
    · rw [if_neg c, if_neg (Ne.symm c)]; exact b.users r d hr u' x
  · simp only [relink, hv, and_false, if_false]
  · simp only [relink, and_true] at e
    by_cases c : u' = u
    · rw [if_pos c] at e; exact e.elim
    · rw [if_neg c] at e; exact (b.uk u' r e).1

end RHeap

namespace RConf

open RHeap Thread

variable {c : RConf} {h : RHeap} {L U : Str → Str → Prop}

/-- After `getRole` the name is in use. -/
structure Got (h : RHeap) (n : Str) (L U : Str → Str → Prop) (a : Nat) (s : RHeap) : Prop where
  base : Base s L U
  at' : s.all.get n = some a
  keep : ∀ m x, h.all.get m = some x → s.all.get m = some x
  has : ∀ m, s.all.has m = (h.all.has m || n == m)

theorem getRole_exec (hc : c.Plain) (b : Base h L U) (n : Str) : ∃ s a x, (c.getRole n).exec h = (s, some (a, x)) ∧
    Got h n L U a s := by
  rw [getRole_plain hc]
  simp only [Thread.exec, id]
  cases hn : h.all.get n with
  | some a =>
    refine ⟨h, a, false, rfl, b, hn, fun _ _ e => e, fun m => ?_⟩
    by_cases e : n = m
    · subst e; simp [GoMap.has, hn]
    · simp [e]
  | none =>
    refine ⟨_, h.objs.length, true, rfl, ?_, GoMap.get_set_self _ _ _, fun m x e => ?_, fun m => ?_⟩
    · have e := Ext.create (Ext.refl h) hn
      have hg : ∀ m, m ≠ n → (h.all.set n h.objs.length).get m = h.all.get m := fun m hm => by
        rw [GoMap.get_set, if_neg (Ne.symm hm)]
      have nl : ∀ r, ¬ L n r ∧ ¬ L r n ∧ ¬ U n r ∧ ¬ U r n := fun r => by
        refine ⟨fun x => ?_, fun x => ?_, fun x => ?_, fun x => ?_⟩
        · have := (b.lk _ _ x).1; simp [GoMap.has, hn] at this
        · have := (b.lk _ _ x).2; simp [GoMap.has, hn] at this
        · have := (b.uk _ _ x).1; simp [GoMap.has, hn] at this
        · have := (b.uk _ _ x).2; simp [GoMap.has, hn] at this
      have kn : ∀ m, h.all.has m = true → (h.all.set n h.objs.length).has m = true := fun m hm => by
        simp only [GoMap.has, GoMap.get_set] at hm ⊢
        split
        · rfl
        · exact hm
      refine ⟨fun m a hm => ?_, fun m m' a hm hm' => ?_, e.bare b, e.roles_wf b, e.users_wf b, fun m a hm r x => ?_,
        fun m a hm r x => ?_, fun u r x => ⟨kn u (b.lk u r x).1, kn r (b.lk u r x).2⟩,
        fun u r x => ⟨kn u (b.uk u r x).1, kn r (b.uk u r x).2⟩⟩
      · simp only [GoMap.get_set, List.length_append, List.length_singleton] at hm ⊢
        split at hm
        · cases hm; omega
        · have := b.valid m a hm; omega
      · simp only [GoMap.get_set] at hm hm'
        split at hm
        · cases hm
          split at hm'
          · rename_i e1 e2; rw [← e1, ← e2]
          · have := b.valid m' _ hm'; omega
        · split at hm'
          · cases hm'
            have := b.valid m _ hm; omega
          · exact b.inj m m' a hm hm'
      · by_cases hmn : m = n
        · subst hmn
          rw [GoMap.get_set_self] at hm
          cases hm
          rw [(e.fresh _ (Nat.le_refl _)).1]
          simp [(nl r).1]
        · rw [hg m hmn] at hm
          rw [e.role_old (b.valid m a hm), b.roles m a hm]
          by_cases hr : r = n
          · subst hr
            simp [(nl m).2.1]
          · simp only [hg r hr]
      · by_cases hmn : m = n
        · subst hmn
          rw [GoMap.get_set_self] at hm
          cases hm
          rw [(e.fresh _ (Nat.le_refl _)).2.1]
          simp [(nl r).2.2.2]
        · rw [hg m hmn] at hm
          rw [e.role_old (b.valid m a hm), b.users m a hm]
          by_cases hr : r = n
          · subst hr
            simp [(nl m).2.2.1]
          · simp only [hg r hr]
    · simp only [GoMap.get_set]
      split
      · rename_i e'; rw [← e', hn] at e; cases e
      · exact e
    · simp only [GoMap.has, GoMap.get_set]
      by_cases e : n = m
      · simp [e]
      · simp [e]

/-- The names in use after a call of `AddLink` or `DeleteLink`. -/
def Names (h : RHeap) (u r : Str) (s : RHeap) : Prop := ∀ m, s.all.has m = (h.all.has m || u == m || r == m)

theorem exec_bind_some {S α β : Type} {t : Thread S α} {g : α → Thread S β} {s s' : S} {a : α}
    (e : t.exec s = (s', some a)) : (t.bind g).exec s = (g a).exec s' := by
  rw [exec_bind, e]

theorem has_role {s : RHeap} (b : Base s L U) {u r : Str} {a d : Nat} (hu : s.all.get u = some a)
    (hr : s.all.get r = some d) : (s.role a).roles.has r = true ↔ L u r := by
  unfold GoMap.has
  rw [Option.isSome_iff_exists]
  constructor
  · rintro ⟨x, hx⟩; exact ((b.roles u a hu r x).1 hx).1
  · intro x; exact ⟨d, (b.roles u a hu r d).2 ⟨x, hr⟩⟩

theorem addLink_exec (hc : c.Plain) (b : Base h L U) (u r : Str) : ∃ s x, (c.addLink u r).exec h = (s, some x) ∧
    Names h u r s ∧ ((L u r ∧ x = false ∧ Base s L U) ∨
      (¬ L u r ∧ x = true ∧ Base s (relink L u r True) (relink U u r True))) := by
  obtain ⟨s1, a, x, e1, g1⟩ := getRole_exec hc b u
  obtain ⟨s2, d, y, e2, g2⟩ := getRole_exec hc g1.base r
  have hu := g2.keep u a g1.at'
  have nm : Names h u r s2 := fun m => by rw [g2.has, g1.has]
  have hl := has_role g2.base hu g2.at'
  unfold addLink
  rw [exec_bind_some e1, exec_bind_some e2]
  simp only [Thread.read, Thread.bind, Thread.exec, id]
  cases hb : (s2.role a).roles.has r with
  | true => exact ⟨s2, false, rfl, nm, .inl ⟨hl.1 hb, rfl, g2.base⟩⟩
  | false =>
    have hn : ¬ L u r := fun x => by rw [hl.2 x] at hb; cases hb
    refine ⟨_, true, rfl, nm, .inr ⟨hn, rfl, ?_⟩⟩
    have b1 := g2.base.addRole hu g2.at'
    exact b1.addUser hu g2.at'

theorem deleteLink_exec (hc : c.Plain) (b : Base h L U) (u r : Str) : ∃ s x, (c.deleteLink u r).exec h = (s, some x) ∧
    Names h u r s ∧ ((¬ L u r ∧ x = false ∧ Base s L U) ∨
      (L u r ∧ x = true ∧ Base s (relink L u r False) (relink U u r False))) := by
  obtain ⟨s1, a, x, e1, g1⟩ := getRole_exec hc b u
  obtain ⟨s2, d, y, e2, g2⟩ := getRole_exec hc g1.base r
  have hu := g2.keep u a g1.at'
  have nm : Names h u r s2 := fun m => by rw [g2.has, g1.has]
  have hl := has_role g2.base hu g2.at'
  unfold deleteLink
  rw [exec_bind_some e1, exec_bind_some e2]
  simp only [Thread.read, Thread.bind, Thread.exec, id]
  cases hb : (s2.role a).roles.has r with
  | false =>
    have hn : ¬ L u r := fun x => by rw [hl.2 x] at hb; cases hb
    exact ⟨s2, false, rfl, nm, .inl ⟨hn, rfl, g2.base⟩⟩
  | true =>
    refine ⟨_, true, rfl, nm, .inr ⟨hl.1 hb, rfl, ?_⟩⟩
    have b1 := g2.base.delRole (r := r) hu
    exact b1.delUser g2.at'

/-! ### Histories -/

/-- The heap has the links and names of the calls `ops`. -/
structure Fit (h : RHeap) (ops : List LinkOp) (U : Str → Str → Prop) : Prop where
  base : Base h (fun u r => linked ops u r = true) U
  names : ∀ n, h.all.has n = known ops n

theorem linked_snoc (ops : List LinkOp) (x : RCall) (u r : Str) : linked (ops ++ [x.op]) u r =
    match x with
    | .add a b => linked ops u r || (a == u && b == r)
    | .del a b => linked ops u r && !(a == u && b == r)
    | _ => linked ops u r := by
  unfold linked
  rw [linkAfter_append]
  cases x <;> rfl

theorem known_snoc (ops : List LinkOp) (x : RCall) (n : Str) : known (ops ++ [x.op]) n =
    match x with
    | .add a b => known ops n || a == n || b == n
    | .del a b => known ops n || a == n || b == n
    | _ => known ops n := by
  unfold known
  rw [knownAfter_append]
  cases x <;> rfl

theorem fit_alone (hc : c.Plain) {ops : List LinkOp} (f : Fit h ops U) (x : RCall) : ∃ U',
    Fit (c.round h (.alone x)) (ops ++ [x.op]) U' ∧ ((∀ u r, U u r ↔ linked ops u r = true) →
      ∀ u r, U' u r ↔ linked (ops ++ [x.op]) u r = true) := by
  by_cases hx : x.asks = true
  · have hl : ∀ u r, linked (ops ++ [x.op]) u r = linked ops u r := fun u r => by
      rw [linked_snoc]; cases x <;> first | rfl | cases hx
    have hk : ∀ n, known (ops ++ [x.op]) n = known ops n := fun n => by
      rw [known_snoc]; cases x <;> first | rfl | cases hx
    obtain ⟨e, a, ha, -⟩ := (question_safe hc f.base hx).exec h (Ext.refl h)
    have hn : ∀ n, h.all.get n = none → ((c.thread x).exec h).1.all.get n = none := by
      have key : ∀ (t : Thread RHeap RAns) (s : RHeap) (n : Str), t.Neat h → h.all.get n = none →
          (s.all.get n = none ∨ t.Owes n) → (t.exec s).2 ≠ none → (t.exec s).1.all.get n = none := by
        intro t
        induction t with
        | ret a => exact fun s n _ _ o _ => o.resolve_right id
        | crash => exact fun s n _ _ _ o => absurd rfl o
        | act f k ih =>
          intro s n d hn o ho
          refine ih s (f s) n (d s).2 hn ?_ ho
          rcases o with o | o
          · exact (d s).1 n hn o
          · exact o s
      exact fun n hn => key _ h n (question_neat hc hx) hn (.inl hn) (by rw [ha]; simp)
    refine ⟨U, ⟨(Ext.base e f.base hn).congr (fun u r => by rw [hl]) (fun _ _ => Iff.rfl), fun n => ?_⟩,
      fun hU u r => by rw [hl]; exact hU u r⟩
    rw [hk, ← f.names]
    unfold GoMap.has
    exact congrArg _ (e.all_eq hn n)
  · cases x with
    | add u r =>
      obtain ⟨s, x, e, nm, hb⟩ := addLink_exec hc f.base u r
      have es : c.round h (.alone (.add u r)) = s := by
        show (((c.addLink u r).bind fun b => .ret (RAns.bool b)).exec h).1 = s
        rw [exec_bind_some e]; rfl
      rw [es]
      have hl : ∀ x y, linked (ops ++ [(RCall.add u r).op]) x y = true ↔ relink (fun u r => linked ops u r = true) u r True x y := by
        intro x y
        rw [linked_snoc]
        simp only [relink, eq_comm (a := x), eq_comm (a := y)]
        by_cases e1 : u = x <;> by_cases e2 : r = y <;> simp [e1, e2]
      have hk : ∀ n, s.all.has n = known (ops ++ [(RCall.add u r).op]) n := fun n => by
        rw [known_snoc, nm, f.names]
      rcases hb with ⟨h1, h2, h3⟩ | ⟨h1, h2, h3⟩
      · refine ⟨U, ⟨h3.congr (fun x y => ?_) (fun _ _ => Iff.rfl), hk⟩, fun hU x y => ?_⟩
        · rw [hl]; unfold relink; split
          · rename_i e; rw [e.1, e.2]; simp [h1]
          · rfl
        · rw [hl, hU]; unfold relink; split
          · rename_i e; rw [e.1, e.2]; simp [h1]
          · rfl
      · refine ⟨relink U u r True, ⟨h3.congr (fun x y => (hl x y).symm) (fun _ _ => Iff.rfl), hk⟩, fun hU x y => ?_⟩
        rw [hl]; unfold relink; split
        · rfl
        · exact hU x y
    | del u r =>
      obtain ⟨s, x, e, nm, hb⟩ := deleteLink_exec hc f.base u r
      have es : c.round h (.alone (.del u r)) = s := by
        show (((c.deleteLink u r).bind fun b => .ret (RAns.bool b)).exec h).1 = s
        rw [exec_bind_some e]; rfl
      rw [es]
      have hl : ∀ x y, linked (ops ++ [(RCall.del u r).op]) x y = true ↔ relink (fun u r => linked ops u r = true) u r False x y := by
        intro x y
        rw [linked_snoc]
        simp only [relink, eq_comm (a := x), eq_comm (a := y)]
        by_cases e1 : u = x <;> by_cases e2 : r = y <;> simp [e1, e2]
      have hk : ∀ n, s.all.has n = known (ops ++ [(RCall.del u r).op]) n := fun n => by
        rw [known_snoc, nm, f.names]
      rcases hb with ⟨h1, h2, h3⟩ | ⟨h1, h2, h3⟩
      · refine ⟨U, ⟨h3.congr (fun x y => ?_) (fun _ _ => Iff.rfl), hk⟩, fun hU x y => ?_⟩
        · rw [hl]; unfold relink; split
          · rename_i e; rw [e.1, e.2]; simpa using h1
          · rfl
        · rw [hl, hU]; unfold relink; split
          · rename_i e; rw [e.1, e.2]; simpa using h1
          · rfl
      · refine ⟨relink U u r False, ⟨h3.congr (fun x y => (hl x y).symm) (fun _ _ => Iff.rfl), hk⟩, fun hU x y => ?_⟩
        rw [hl]; unfold relink; split
        · rfl
        · exact hU x y
    | hasLink u r => exact absurd rfl hx
    | getRoles n => exact absurd rfl hx
    | getUsers n => exact absurd rfl hx

theorem ops_ask {xs : List RCall} (hx : ∀ x ∈ xs, x.asks = true) (ops : List LinkOp) :
    (∀ u r, linked (ops ++ xs.map RCall.op) u r = linked ops u r) ∧ ∀ n, known (ops ++ xs.map RCall.op) n = known ops n := by
  induction xs generalizing ops with
  | nil => simp
  | cons x xs ih =>
    obtain ⟨h1, h2⟩ := ih (fun y hy => hx y (List.mem_cons_of_mem _ hy)) (ops ++ [x.op])
    have hx' := hx x List.mem_cons_self
    simp only [List.append_assoc, List.singleton_append] at h1 h2
    refine ⟨fun u r => ?_, fun n => ?_⟩
    · rw [List.map_cons, h1, linked_snoc]; cases x <;> first | rfl | cases hx'
    · rw [List.map_cons, h2, known_snoc]; cases x <;> first | rfl | cases hx'

/-- Questions at the same time: every answer is right. -/
theorem safe_together (hc : c.Plain) (b : Base h L U) {xs : List RCall} (hx : ∀ x ∈ xs, x.asks = true) :
    (c.start h xs).AllSafe (Ext h) (fun i a => ∀ x, xs[i]? = some x → Right2 c.level L U x a) := by
  refine ⟨Ext.refl h, fun i t ht => ?_⟩
  unfold RConf.start at ht
  rw [List.getElem?_map] at ht
  obtain ⟨x, hi, rfl⟩ := Option.map_eq_some_iff.1 ht
  refine (question_safe hc b (hx x (List.mem_of_getElem? hi))).weaken fun a ha y hy => ?_
  rw [hi] at hy
  cases hy
  exact ha

theorem neat_together (hc : c.Plain) {xs : List RCall} (hx : ∀ x ∈ xs, x.asks = true) : (c.start h xs).Neat h := by
  refine RSystem.Neat.begin (fun t ht => ?_) (fun _ e => e)
  obtain ⟨x, hxs, rfl⟩ := List.mem_map.1 ht
  exact question_neat hc (hx x hxs)

theorem fit_together (hc : c.Plain) {ops : List LinkOp} (f : Fit h ops U) {xs : List RCall}
    (hx : ∀ x ∈ xs, x.asks = true) {sched : List Nat} (ho : ((c.start h xs).run sched).Over) :
    Fit (c.round h (.together xs sched)) (ops ++ xs.map RCall.op) U := by
  obtain ⟨h1, h2⟩ := ops_ask hx ops
  have e := ((safe_together hc f.base hx).run sched).inv
  have hn := fun n => ((neat_together (h := h) hc hx).run sched).over ho (n := n)
  refine ⟨(Ext.base e f.base hn).congr (fun u r => by rw [h1]) (fun _ _ => Iff.rfl), fun n => ?_⟩
  rw [h2, ← f.names]
  unfold GoMap.has
  exact congrArg _ (e.all_eq hn n)

theorem Fit.new : Fit RHeap.new [] (fun u r => linked [] u r = true) :=
  ⟨Base.new.congr (fun _ _ => by simp [linked, linkAfter]) (fun _ _ => by simp [linked, linkAfter]),
    fun _ => rfl⟩

theorem fit_rounds (hc : c.Plain) : ∀ (Rs : List Round) {h : RHeap} {ops : List LinkOp},
    Fit h ops (fun u r => linked ops u r = true) →
    (∀ xs sched, .together xs sched ∈ Rs → ∀ x ∈ xs, x.asks = true) → c.Ended h Rs →
    Fit (c.rounds h Rs) (ops ++ linkOpsOf Rs) (fun u r => linked (ops ++ linkOpsOf Rs) u r = true)
  | [], h, ops, f, _, _ => by
    have : ops ++ linkOpsOf [] = ops := by simp [linkOpsOf]
    rw [this]; exact f
  | .alone x :: Rs, h, ops, f, hq, he => by
    obtain ⟨U', f', hU⟩ := fit_alone hc f x
    have f'' : Fit (c.round h (.alone x)) (ops ++ [x.op]) (fun u r => linked (ops ++ [x.op]) u r = true) :=
      ⟨f'.base.congr (fun _ _ => Iff.rfl) (hU fun _ _ => Iff.rfl), f'.names⟩
    have := fit_rounds hc Rs f'' (fun xs sched hm => hq xs sched (List.mem_cons_of_mem _ hm)) he
    simpa [linkOpsOf, Round.calls, RConf.rounds] using this
  | .together xs sched :: Rs, h, ops, f, hq, he => by
    have hx := hq xs sched List.mem_cons_self
    have f' := fit_together hc f hx he.1
    have f'' : Fit (c.round h (.together xs sched)) (ops ++ xs.map RCall.op)
        (fun u r => linked (ops ++ xs.map RCall.op) u r = true) :=
      ⟨f'.base.congr (fun _ _ => Iff.rfl) (fun u r => by rw [(ops_ask hx ops).1]), f'.names⟩
    have := fit_rounds hc Rs f'' (fun xs sched hm => hq xs sched (List.mem_cons_of_mem _ hm)) he.2
    simpa [linkOpsOf, Round.calls, RConf.rounds] using this

end RConf

/-! ### Every call ends -/

namespace RSystem

variable {α : Type}

theorem run_append (is js : List Nat) : ∀ y : RSystem α, y.run (is ++ js) = (y.run is).run js := by
  induction is with
  | nil => exact fun _ => rfl
  | cons i is ih => exact fun y => ih _

theorem run_idle {i : Nat} : ∀ (is : List Nat) {y : RSystem α}, i ∉ is → (y.run is).calls[i]? = y.calls[i]?
  | [], _, _ => rfl
  | j :: js, y, h => by
    have h1 : i ≠ j := fun e => h (e ▸ List.mem_cons_self)
    exact (run_idle js (fun e => h (List.mem_cons_of_mem _ e))).trans (step_other h1)

/-- A call that is let run again and again comes to its end. -/
theorem ends {i : Nat} {σ : Nat → Nat} (hσ : ∀ m, ∃ k, m ≤ k ∧ σ k = i) : ∀ (t : Thread RHeap α) (m : Nat) {y : RSystem α},
    (y.run ((List.range m).map σ)).calls[i]? = some t → ∃ k, (∃ a, (y.run ((List.range k).map σ)).calls[i]? = some (.ret a)) ∨
      (y.run ((List.range k).map σ)).calls[i]? = some .crash := by
  intro t
  induction t with
  | ret a => exact fun m y h => ⟨m, .inl ⟨a, h⟩⟩
  | crash => exact fun m y h => ⟨m, .inr h⟩
  | act f k ih =>
    intro m y h
    -- the next time `i` is let run
    have hex : ∀ d m, (∃ k, m ≤ k ∧ k < m + d ∧ σ k = i) → ∃ k, m ≤ k ∧ σ k = i ∧ ∀ j, m ≤ j → j < k → σ j ≠ i := by
      intro d
      induction d with
      | zero => rintro m ⟨k, h1, h2, _⟩; omega
      | succ d ih =>
        rintro m ⟨k, h1, h2, h3⟩
        by_cases c : σ m = i
        · exact ⟨m, Nat.le_refl m, c, fun j h1 h2 => by omega⟩
        · have hk : m + 1 ≤ k := by
            rcases Nat.lt_or_ge m k with h | h
            · exact h
            · have : m = k := by omega
              rw [this] at c; exact absurd h3 c
          obtain ⟨k', g1, g2, g3⟩ := ih (m + 1) ⟨k, hk, by omega, h3⟩
          refine ⟨k', by omega, g2, fun j h1 h2 => ?_⟩
          by_cases e : j = m
          · rw [e]; exact c
          · exact g3 j (by omega) h2
    obtain ⟨k0, h1, h2⟩ := hσ m
    obtain ⟨k1, g1, g2, g3⟩ := hex (k0 - m + 1) m ⟨k0, h1, by omega, h2⟩
    have e : (List.range (k1 + 1)).map σ = (List.range m).map σ ++ (((List.range' m (k1 - m)).map σ) ++ [i]) := by
      rw [List.range_succ, List.map_append, List.map_singleton, g2, ← List.append_assoc, ← List.map_append]
      congr 2
      have := List.range'_append_1 (s := 0) (m := m) (n := k1 - m)
      rw [Nat.zero_add, show m + (k1 - m) = k1 by omega] at this
      rw [List.range_eq_range', List.range_eq_range', this]
    have hidle : i ∉ (List.range' m (k1 - m)).map σ := by
      intro hm
      obtain ⟨j, hj, hj'⟩ := List.mem_map.1 hm
      rw [List.mem_range'_1] at hj
      exact g3 j hj.1 (by omega) hj'
    have h3 : ((y.run ((List.range m).map σ)).run ((List.range' m (k1 - m)).map σ)).calls[i]? = some (.act f k) :=
      (run_idle _ hidle).trans h
    have h4 := (step_self h3).2
    refine ih ((y.run ((List.range m).map σ)).run ((List.range' m (k1 - m)).map σ)).heap (k1 + 1) (y := y) ?_
    rw [e, run_append, run_append]
    exact h4

end RSystem

end Fastac
