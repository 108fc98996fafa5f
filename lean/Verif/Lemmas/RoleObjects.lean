import Verif.Lemmas.RoleCalls
import Verif.Model.RoleObjects

/-!
# The calls of Model/RoleObjects and those of Model/RoleManager
-/

namespace Fastac

namespace RConf

open RHeap

variable {c : RConf} {h : RHeap} {rm : RM} {L : Str → Str → Prop}

/-! ## Writing -/

theorem Sim.mark (s : Sim h rm) {n : Str} {a : Nat} (ha : h.all.get n = some a) (G : List Str → List Str) :
    Sim (h.upd a fun o => { o with redundant := G o.redundant })
      { rm with obj := updRole rm.obj n fun x => { x with redundant := G x.redundant } } := by
  have hf : ∀ f m, ((updRole rm.obj n fun x => { x with redundant := G x.redundant }) m).fld f = (rm.obj m).fld f := by
    intro f m
    unfold updRole
    split
    · cases f <;> rfl
    · rfl
  refine ⟨(s.pic.mark ha G).congr (fun f m k => by rw [hf]) fun m _ => ?_, s.wf, s.names, s.pats, fun f m => by
    rw [hf]; exact s.nd f m⟩
  simp only [updRole]
  split <;> rfl

theorem Sim.link (s : Sim h rm) {u r : Str} {a b : Nat} (ha : h.all.get u = some a) (hb : h.all.get r = some b) :
    Sim ((h.upd a fun o => { o with roles := o.roles.set r b }).upd b fun o => { o with users := o.users.set u a })
      { rm with
        obj := updRole (updRole rm.obj u (fun x => { x with roles := sins x.roles r })) r
          (fun x => { x with users := sins x.users u }) } := by
  refine ⟨((s.pic.add .roles ha hb).add .users hb ha).congr (fun f m k => ?_) fun m _ => ?_, s.wf, s.names, s.pats, fun f m => ?_⟩
  · simp only [plusT, updRole]
    by_cases c1 : m = r <;> by_cases c2 : m = u <;> cases f <;>
      simp [c1, c2, Role.fld] <;> (try (intro e; simp_all)) <;> simp_all
  · simp only [updRole]
    by_cases c1 : m = r <;> by_cases c2 : m = u <;> simp [c1, c2] <;> (try simp_all)
  · have hd := s.nd f m
    simp only [updRole]
    by_cases c1 : m = r <;> by_cases c2 : m = u <;> cases f <;> simp [c1, c2, Role.fld] at hd ⊢ <;>
      first
        | exact hd
        | exact nodup_sins hd
        | (subst c1; subst c2; first | exact hd | exact nodup_sins hd)
        | (split <;> first | exact hd | exact nodup_sins hd)

theorem Sim.unlink (s : Sim h rm) {u r : Str} {a b : Nat} (ha : h.all.get u = some a) (hb : h.all.get r = some b) :
    Sim ((h.upd a fun o => { o with roles := o.roles.del r }).upd b fun o => { o with users := o.users.del u })
      { rm with
        obj := updRole (updRole rm.obj u (fun x => { x with roles := sdel x.roles r })) r
          (fun x => { x with users := sdel x.users u }) } := by
  refine ⟨((s.pic.del .roles r ha).del .users u hb).congr (fun f m k => ?_) fun m _ => ?_, s.wf, s.names, s.pats, fun f m => ?_⟩
  · simp only [minusT, updRole]
    by_cases c1 : m = r <;> by_cases c2 : m = u <;> cases f <;>
      simp [c1, c2, Role.fld] <;> (try (intro e; simp_all)) <;> simp_all
  · simp only [updRole]
    by_cases c1 : m = r <;> by_cases c2 : m = u <;> simp [c1, c2] <;> (try simp_all)
  · have hd := s.nd f m
    simp only [updRole]
    by_cases c1 : m = r <;> by_cases c2 : m = u <;> cases f <;> simp [c1, c2, Role.fld] at hd ⊢ <;>
      first
        | exact hd
        | exact nodup_sdel hd
        | (subst c1; subst c2; first | exact hd | exact nodup_sdel hd)
        | (split <;> first | exact hd | exact nodup_sdel hd)

theorem Sim.has (s : Sim h rm) (f : RField) {n : Str} {a : Nat} (ha : h.all.get n = some a) (k : Str) :
    ((h.role a).fld f).has k = decide (k ∈ (rm.obj n).fld f) := by
  rw [Bool.eq_iff_iff, decide_eq_true_eq, GoMap.has, Option.isSome_iff_exists]
  constructor
  · rintro ⟨x, hx⟩; exact ((s.pic.get f n a ha k x).1 hx).1
  · intro e
    obtain ⟨x, hx⟩ := Option.isSome_iff_exists.1 (s.pic.closed f n k e).2
    exact ⟨x, (s.pic.get f n a ha k x).2 ⟨e, hx⟩⟩

theorem addLinkD_runs (hp : ∀ l, (c.ord l).Perm l) (hm : c.matcher = rm.matcher) (s : Sim h rm) (i : rm.Inv L) (u r : Str)
    (ds : List Str) : ∃ h', (c.addLinkD u r ds).exec h = (h', some (rm.addLink u r ds).2) ∧ Sim h' (rm.addLink u r ds).1 := by
  obtain ⟨h1, a, e1, s1, a1, -⟩ := getRole_runs hp hm s i u
  obtain ⟨h2, b, e2, s2, b2, k2⟩ := getRole_runs hp (hm.trans RM.getRole_matcher.symm) s1 (i.getRole u) r
  have a2 := k2 u a a1
  unfold addLinkD RM.addLink
  simp only
  rw [exec_bind_some e1, exec_bind_some e2]
  generalize ((rm.getRole u).1.getRole r).1 = m at s2
  -- from the mark on
  have key : ∀ (h3 : RHeap) (obj : Str → Role), h3.all = h2.all → Sim h3 { m with obj := obj } → ∃ h',
      ((Thread.read fun s => (s.role a).roles.has r).bind fun
        | true => .ret false
        | false =>
          (Thread.write fun s : RHeap => s.upd a fun o => { o with roles := o.roles.set r b }).bind fun _ =>
          (Thread.write fun s => s.upd b fun o => { o with users := o.users.set u a }).bind fun _ =>
          .ret true).exec h3 = (h', some (if r ∈ (obj u).roles then
            (({ m with obj := obj }, false) : RM × Bool)
          else ({ m with
            obj := updRole (updRole obj u (fun x => { x with roles := sins x.roles r })) r
              (fun x => { x with users := sins x.users u }) }, true)).2) ∧ Sim h' (if r ∈ (obj u).roles then
            (({ m with obj := obj }, false) : RM × Bool)
          else ({ m with
            obj := updRole (updRole obj u (fun x => { x with roles := sins x.roles r })) r
              (fun x => { x with users := sins x.users u }) }, true)).1 := by
    intro h3 obj hk s3
    have hh := s3.has .roles (hk ▸ a2) r
    simp only [Role.fld, RObj.fld] at hh
    simp only [Thread.read, Thread.bind, Thread.exec, id, hh]
    by_cases c1 : r ∈ (obj u).roles
    · simp only [c1, decide_true, if_true]
      exact ⟨h3, rfl, s3⟩
    · simp only [c1, decide_false, if_false]
      exact ⟨_, rfl, s3.link (hk ▸ a2) (hk ▸ b2)⟩
  by_cases hd : ds.head? = some redundantRole
  · rw [if_pos hd]
    simp only [if_pos hd]
    exact key _ _ rfl (s2.mark a2 fun l => sins l r)
  · rw [if_neg hd]
    simp only [if_neg hd]
    exact key _ _ rfl s2

theorem deleteLinkD_runs (hp : ∀ l, (c.ord l).Perm l) (hm : c.matcher = rm.matcher) (s : Sim h rm) (i : rm.Inv L) (u r : Str)
    (ds : List Str) : ∃ h', (c.deleteLinkD u r ds).exec h = (h', some (rm.deleteLink u r ds).2) ∧
      Sim h' (rm.deleteLink u r ds).1 := by
  obtain ⟨h1, a, e1, s1, a1, -⟩ := getRole_runs hp hm s i u
  obtain ⟨h2, b, e2, s2, b2, k2⟩ := getRole_runs hp (hm.trans RM.getRole_matcher.symm) s1 (i.getRole u) r
  have a2 := k2 u a a1
  unfold deleteLinkD RM.deleteLink
  simp only
  rw [exec_bind_some e1, exec_bind_some e2]
  generalize ((rm.getRole u).1.getRole r).1 = m at s2
  have key : ∀ (h3 : RHeap) (obj : Str → Role), h3.all = h2.all → Sim h3 { m with obj := obj } → ∃ h',
      ((Thread.read fun s => (s.role a).roles.has r).bind fun
        | false => .ret false
        | true =>
          (Thread.write fun s : RHeap => s.upd a fun o => { o with roles := o.roles.del r }).bind fun _ =>
          (Thread.write fun s => s.upd b fun o => { o with users := o.users.del u }).bind fun _ =>
          .ret true).exec h3 = (h', some (if r ∈ (obj u).roles then
            (({ m with
              obj := updRole (updRole obj u (fun x => { x with roles := sdel x.roles r })) r
                (fun x => { x with users := sdel x.users u }) }, true) : RM × Bool)
          else ({ m with obj := obj }, false)).2) ∧ Sim h' (if r ∈ (obj u).roles then
            (({ m with
              obj := updRole (updRole obj u (fun x => { x with roles := sdel x.roles r })) r
                (fun x => { x with users := sdel x.users u }) }, true) : RM × Bool)
          else ({ m with obj := obj }, false)).1 := by
    intro h3 obj hk s3
    have hh := s3.has .roles (hk ▸ a2) r
    simp only [Role.fld, RObj.fld] at hh
    simp only [Thread.read, Thread.bind, Thread.exec, id, hh]
    by_cases c1 : r ∈ (obj u).roles
    · simp only [c1, decide_true, if_true]
      exact ⟨_, rfl, s3.unlink (hk ▸ a2) (hk ▸ b2)⟩
    · simp only [c1, decide_false, if_false]
      exact ⟨h3, rfl, s3⟩
  by_cases hd : ds.head? = some redundantRole
  · rw [if_pos hd]
    simp only [if_pos hd]
    exact key _ _ rfl (s2.mark a2 fun l => sdel l r)
  · rw [if_neg hd]
    simp only [if_neg hd]
    exact key _ _ rfl s2

/-! ## Questions -/

theorem removeIf_runs (hp : ∀ l, (c.ord l).Perm l) (i : rm.Inv L) (nd : ∀ f m, ((rm.obj m).fld f).Nodup) {n : Str}
    (s : Sim h (rm.getRole n).1) : ∃ h', (c.removeIf (rm.getRole n).2 n).exec h = (h', some ()) ∧ Sim h' rm := by
  unfold removeIf
  rw [RM.getRole_created]
  by_cases hn : n ∈ rm.names
  · rw [RM.getRole_of_mem hn] at s
    simp only [hn, not_true_eq_false, decide_false]
    exact ⟨h, rfl, s⟩
  · simp only [hn, not_false_eq_true, decide_true, if_true]
    exact removeRole_runs hp i hn nd s

theorem hasLink_runs (hp : ∀ l, (c.ord l).Perm l) (hm : c.matcher = rm.matcher) (hl : c.level = rm.level) (s : Sim h rm)
    (i : rm.Inv L) (u r : Str) : ∃ h', (c.hasLink u r).exec h = (h', some (rm.hasLink u r).2) ∧ Sim h' rm := by
  have hmm : c.matches u r = rm.matches u r := by
    unfold RConf.matches RM.matches; rw [hm]; cases rm.matcher <;> rfl
  unfold hasLink RM.hasLink
  by_cases hc : u = r ∨ c.matches u r = true
  · have : (u == r || rm.matches u r) = true := by
      rw [← hmm]; rcases hc with e | e <;> simp [e]
    rw [if_pos hc, if_pos this]
    exact ⟨h, rfl, s⟩
  · have : ¬ (u == r || rm.matches u r) = true := by
      rw [← hmm]; simpa using hc
    rw [if_neg hc, if_neg this]
    obtain ⟨h1, a, e1, s1, a1, -⟩ := getRole_runs hp hm s i u
    obtain ⟨h2, b, e2, s2, b2, k2⟩ := getRole_runs hp (hm.trans RM.getRole_matcher.symm) s1 (i.getRole u) r
    have e3 := helper_runs hp (hm.trans (RM.getRole_matcher.symm.trans RM.getRole_matcher.symm)) s2 r c.level [(u, a)] [u]
      (by simp [GoMap.WF]) (fun k x hx => by
        simp only [GoMap.get] at hx
        split at hx
        · rename_i e
          cases hx
          rw [← e]
          exact k2 _ _ a1
        · cases hx) (fun k => by
        simp only [GoMap.has, GoMap.get]
        by_cases e : u = k
        · simp [e]
        · simp [e, Ne.symm e])
    obtain ⟨h4, e4, s4⟩ := removeIf_runs hp (i.getRole u) s1.nd s2
    obtain ⟨h5, e5, s5⟩ := removeIf_runs hp i s.nd s4
    refine ⟨h5, ?_, s5⟩
    rw [exec_bind_some e1, exec_bind_some e2, exec_bind_some e3, exec_bind_some e4, exec_bind_some e5]
    simp only [Thread.exec]
    rw [hl, RM.getRole_level, RM.getRole_level]

theorem getRoles_runs (hp : ∀ l, (c.ord l).Perm l) (hm : c.matcher = rm.matcher) (s : Sim h rm)
    (i : rm.Inv L) (n : Str) : ∃ h' ns, (c.getRoles n).exec h = (h', some ns) ∧ ns.Perm (rm.getRoles n).2 ∧ Sim h' rm := by
  obtain ⟨h1, a, e1, s1, a1, -⟩ := getRole_runs hp hm s i n
  obtain ⟨es, e2, p2, -⟩ := rangeRoles_runs hp s1 a1
  obtain ⟨h3, e3, s3⟩ := removeIf_runs hp i s.nd s1
  refine ⟨h3, es.map Prod.fst, ?_, p2, s3⟩
  unfold getRoles
  rw [exec_bind_some e1, exec_bind_some e2, exec_bind_some e3]
  rfl

theorem getUsers_runs (hp : ∀ l, (c.ord l).Perm l) (hm : c.matcher = rm.matcher) (s : Sim h rm)
    (i : rm.Inv L) (n : Str) : ∃ h' ns, (c.getUsers n).exec h = (h', some ns) ∧ ns.Perm (rm.getUsers n).2 ∧ Sim h' rm := by
  obtain ⟨h1, a, e1, s1, a1, -⟩ := getRole_runs hp hm s i n
  obtain ⟨es, e2, p2⟩ := rangeUsers_runs hp s1 a1
  obtain ⟨h3, e3, s3⟩ := removeIf_runs hp i s.nd s1
  refine ⟨h3, es.map Prod.fst, ?_, p2, s3⟩
  unfold getUsers
  rw [exec_bind_some e1, exec_bind_some e2, exec_bind_some e3]
  rfl

theorem range_runs (hp : ∀ l, (c.ord l).Perm l) (s : Sim h rm) (i : rm.Inv L) :
    ∃ ls, c.range.exec h = (h, some ls) ∧ ls.Perm rm.links := by
  refine ⟨_, rfl, ?_⟩
  have hk : ((c.ord h.all).map Prod.fst).Perm rm.names := by
    refine ((hp _).map _).trans ?_
    refine (List.perm_ext_iff_of_nodup s.wf i.nodup).2 fun k => ?_
    rw [← s.names, GoMap.has, Option.isSome_iff_exists]
    simp only [List.mem_map, Prod.exists, exists_and_right, exists_eq_right]
    exact ⟨fun ⟨x, hx⟩ => ⟨x, s.wf.get_of_mem hx⟩, fun ⟨x, hx⟩ => ⟨x, GoMap.mem_of_get hx⟩⟩
  have : ∀ es : List (Str × Nat), (∀ e ∈ es, h.all.get e.1 = some e.2) →
      (es.flatMap fun e => ((c.ord (h.role e.2).roles).filter fun l => l.1 ∉ (h.role e.2).redundant).map
        fun l => ((h.role e.2).name, l.1)).Perm ((es.map Prod.fst).flatMap fun u =>
        ((rm.obj u).roles.filter fun r => r ∉ (rm.obj u).redundant).map fun r => (u, r)) := by
    intro es
    induction es with
    | nil => exact fun _ => .nil
    | cons e es ih =>
      intro he
      simp only [List.flatMap_cons, List.map_cons]
      refine List.Perm.append ?_ (ih fun e' h' => he e' (List.mem_cons_of_mem _ h'))
      have h1 := he e List.mem_cons_self
      rw [s.pic.nm _ _ h1, s.pic.red _ _ h1]
      have h2 := names_perm hp s .roles h1
      have h3 := (h2.filter fun r => r ∉ (rm.obj e.1).redundant).map fun r => (e.1, r)
      rw [List.filter_map, List.map_map] at h3
      exact h3
  exact (this _ fun e he => s.wf.get_of_mem ((hp _).mem_iff.1 he)).trans (hk.flatMap_right _)

/-! ## Starting again -/

theorem clear_runs (h : RHeap) (rm : RM) : ∃ h', RConf.clear.exec h = (h', some ()) ∧ Sim h' rm.clear := by
  refine ⟨_, rfl, ⟨?_, ?_, ?_, ?_, ?_, ?_, ?_⟩, GoMap.WF.nil, fun n => ?_, rfl, fun f n => ?_⟩
  · intro n a e; cases e
  · intro n n' a e; cases e
  · intro f n a e; cases e
  · intro f n a e; cases e
  · intro f n k e
    cases f <;> cases e
  · intro n a e; cases e
  · intro n a e; cases e
  · simp [RM.clear, GoMap.has]
  · cases f <;> exact List.nodup_nil

theorem addAll_runs (hp : ∀ l, (c.ord l).Perm l) : ∀ (ls : List (Str × Str)) (h : RHeap) (rm : RM) (L : Str → Str → Prop),
    c.matcher = rm.matcher → Sim h rm → rm.Inv L →
    ∃ h', (Thread.each (fun l : Str × Str => (c.addLinkD l.1 l.2 []).bind fun _ => .ret ()) ls).exec h = (h', some ()) ∧
      Sim h' (ls.foldl (fun s l => (s.addLink l.1 l.2 []).1) rm)
  | [], h, _, _, _, s, _ => ⟨h, rfl, s⟩
  | l :: ls, h, rm, L, hm, s, i => by
    obtain ⟨h1, e1, s1⟩ := addLinkD_runs hp hm s i l.1 l.2 []
    obtain ⟨i1, sm, -, -⟩ := i.addLink l.1 l.2 []
    obtain ⟨h2, e2, s2⟩ := addAll_runs hp ls h1 _ _ (hm.trans sm.matcher.symm) s1 i1
    refine ⟨h2, ?_, s2⟩
    unfold Thread.each
    have : ((c.addLinkD l.1 l.2 []).bind fun _ => Thread.ret ()).exec h = (h1, some ()) := by
      rw [exec_bind_some e1]; rfl
    rw [exec_bind_some this]
    exact e2

theorem rebuild_runs (hp : ∀ l, (c.ord l).Perm l) (s : Sim h rm) (i : rm.Inv L) :
    ∃ h' ls, c.rebuild.exec h = (h', some ()) ∧ ls.Perm rm.links ∧ Sim h' (rm.setMatcher c.matcher fun _ => ls) := by
  obtain ⟨ls, e1, p1⟩ := range_runs hp s i
  obtain ⟨h2, e2, s2⟩ := clear_runs h { rm with matcher := c.matcher }
  have i2 : ({ rm with matcher := c.matcher } : RM).clear.Inv (fun _ _ => False) := RM.Inv.clear
  obtain ⟨h3, e3, s3⟩ := addAll_runs hp ls h2 _ _ rfl s2 i2
  refine ⟨h3, ls, ?_, p1, s3⟩
  unfold rebuild
  rw [exec_bind_some e1, exec_bind_some e2]
  exact e3

end RConf

end Fastac
