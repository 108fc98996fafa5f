import Verif.Lemmas.RoleObjects
import Verif.Lemmas.RoleOrder
import Verif.Lemmas.ReservedNames
import Verif.Spec.RoleObjects

/-!
# What role managers with pointers remember
-/

namespace Fastac

theorem flatMap_nil_nil : ∀ l : List Str, (l.flatMap fun _ => ([] : List Str)) = []
  | [] => rfl
  | _ :: l => flatMap_nil_nil l

/-- The role manager remembers `s`. -/
structure RM.Recalls (rm : RM) (level : Nat) (s : Memory) : Prop where
  inv : rm.Inv s.links
  has : rm.unmark.HasIn level s.matcher s.links s.used
  marks : ∀ x y, y ∈ (rm.obj x).redundant ↔ s.marked x y

namespace RM.Recalls

variable {rm : RM} {level : Nat} {s : Memory}

theorem matcher (h : rm.Recalls level s) : rm.matcher = s.matcher := h.has.has.matcher

theorem level_eq (h : rm.Recalls level s) : rm.level = level := h.has.has.level

theorem new (level : Nat) (m : Option PMatcher) : (RM.new level m).Recalls level (.none m) :=
  ⟨RM.new_inv level m, RM.HasIn.new level m, fun x y => by simp [RM.new, Memory.none]⟩

theorem addLink (h : rm.Recalls level s) (u r : Str) (ds : List Str) :
    ∃ s', s.Next s' (.add u r ds) ∧ (rm.addLink u r ds).1.Recalls level s' ∧
      s.Right level (.add u r ds) (.bool (rm.addLink u r ds).2) := by
  obtain ⟨i, -, a, d⟩ := h.inv.addLink u r ds
  have e := h.has.addLink u r
  rw [unmark_addLink rm u r ds] at e
  exact ⟨⟨addL s.links u r, fun x y => s.marked x y ∨ (ds.head? = some redundantRole ∧ x = u ∧ y = r),
    useName (useName s.used u) r, s.matcher⟩, ⟨fun _ _ => Iff.rfl, fun _ _ => Iff.rfl, rfl, rfl⟩,
    ⟨i, e, fun x y => by rw [d, h.marks]⟩, a⟩

theorem deleteLink (h : rm.Recalls level s) (u r : Str) (ds : List Str) :
    ∃ s', s.Next s' (.del u r ds) ∧ (rm.deleteLink u r ds).1.Recalls level s' ∧
      s.Right level (.del u r ds) (.bool (rm.deleteLink u r ds).2) := by
  obtain ⟨i, -, a, d⟩ := h.inv.deleteLink u r ds
  have e := h.has.deleteLink u r
  rw [unmark_deleteLink rm u r ds] at e
  exact ⟨⟨delL s.links u r, fun x y => s.marked x y ∧ ¬ (ds.head? = some redundantRole ∧ x = u ∧ y = r),
    useName (useName s.used u) r, s.matcher⟩, ⟨fun _ _ => Iff.rfl, fun _ _ => Iff.rfl, rfl, rfl⟩,
    ⟨i, e, fun x y => by rw [d, h.marks]⟩, a⟩

theorem clear (h : rm.Recalls level s) : rm.clear.Recalls level (.none s.matcher) :=
  ⟨RM.Inv.clear, by rw [unmark_clear]; exact h.has.clear, fun x y => by simp [RM.clear, Memory.none]⟩

theorem hasLink (h : rm.Recalls level s) (a b : Str) : s.Right level (.hasLink a b) (.bool (rm.hasLink a b).2) := by
  have := h.has.hasLink a b
  rw [unmark_hasLink] at this
  exact this

theorem mem_links (h : rm.Recalls level s) (a b : Str) : (a, b) ∈ rm.links ↔ s.links a b ∧ ¬ s.marked a b := by
  simp only [RM.links, List.mem_flatMap, List.mem_map, List.mem_filter, Prod.mk.injEq, decide_eq_true_eq]
  constructor
  · rintro ⟨x, _, y, ⟨hy, hn⟩, rfl, rfl⟩
    exact ⟨(h.inv.roles _ _).1 hy, fun e => hn ((h.marks _ _).2 e)⟩
  · rintro ⟨hl, hn⟩
    exact ⟨a, (h.inv.known hl).1, b, ⟨(h.inv.roles a b).2 hl, fun e => hn ((h.marks _ _).1 e)⟩, rfl, rfl⟩

theorem setMatcher (h : rm.Recalls level s) (m : Option PMatcher) {ls : List (Str × Str)} (p : ls.Perm rm.links) :
    ∃ s', s.Next s' (.setMatcher m) ∧ (rm.setMatcher m fun _ => ls).Recalls level s' := by
  have hls : ∀ a b, (a, b) ∈ ls ↔ s.links a b ∧ ¬ s.marked a b := fun a b => by rw [p.mem_iff, h.mem_links]
  have h0 : ({ rm.clear with matcher := m } : RM).HasIn level m (fun _ _ => False) [] :=
    ⟨⟨by constructor <;> simp [RM.clear], by simp [RM.clear], fun _ => rfl, rfl, h.level_eq⟩, rfl,
      by intro p n _; simp [RM.clear]⟩
  have h1 := RM.HasIn.addLinks ls _ _ _ h0
  have h2 := h1.has.congr (L' := fun a b => s.links a b ∧ ¬ s.marked a b) (K' := (· ∈ namesIn ls))
    (fun u r => by simp [hls]) (fun _ => Iff.rfl)
  have hu : (rm.setMatcher m fun _ => ls).unmark = rm.setMatcher m fun _ => ls := by
    have : ∀ x : RM, (∀ n, (x.obj n).redundant = []) → x.unmark = x := by
      intro x hx
      unfold RM.unmark unmarked
      congr 1
      funext n
      have := hx n
      revert this
      generalize x.obj n = o
      intro e
      cases o
      simp only at e
      rw [e]
    exact this _ h2.red
  refine ⟨⟨fun a b => s.links a b ∧ ¬ s.marked a b, fun _ _ => False, namesIn ls, m⟩, ?_, h2.inv, ?_, fun x y => ?_⟩
  · exact ⟨ls, p.nodup_iff.2 h.inv.links_nodup, hls, fun _ _ => Iff.rfl, fun _ _ => id, rfl, rfl⟩
  · rw [hu]
    exact ⟨h2, h1.names, h1.ord⟩
  · have := h2.red x
    show y ∈ ((rm.setMatcher m fun _ => ls).obj x).redundant ↔ False
    rw [show ((rm.setMatcher m fun _ => ls).obj x).redundant = [] from this]
    simp

theorem edge (h : rm.Recalls level s) (n x y : Str) :
    ((s.links x y ∨ (∃ p, s.links x p ∧ y ∈ ((rm.getRole n).1.obj p).matched) ∨
      (∃ p, s.links p y ∧ x ∈ ((rm.getRole n).1.obj p).matched)) ↔ s.Edge (useName s.used n) x y) := by
  have i := h.inv.getRole n
  unfold Memory.Edge
  cases hm : s.matcher with
  | none =>
    have : ∀ p, ((rm.getRole n).1.obj p).matched = [] := by
      intro p
      apply List.eq_nil_iff_forall_not_mem.2
      intro k hk
      obtain ⟨-, -, m, e, -⟩ := i.mnames p k hk
      rw [RM.getRole_matcher, h.matcher, hm] at e
      cases e
    simp [this]
  | some m =>
    have hr : rm.unmark.matcher = some m := h.matcher.trans hm
    have o := RM.Ord.getRole h.has.has.inv h.has.ord n
    have i' := h.has.has.inv.getRole n
    have e := fun p k => RM.matched_in i' o (RM.getRole_matcher.trans hr) p k
    rw [unmark_getRole] at e
    have hn : (rm.getRole n).1.unmark.names = useName s.used n := by
      show (rm.getRole n).1.names = _
      rw [RM.getRole_order]
      rw [show rm.names = s.used from h.has.names]
    simp only [hn] at e
    have e' : ∀ p k, k ∈ ((rm.getRole n).1.obj p).matched ↔ m.coversIn (useName s.used n) p k := e
    simp only [e', PMatcher.edgeIn]

theorem getRoles (h : rm.Recalls level s) (n : Str) {ns : List Str} (p : ns.Perm (rm.getRoles n).2) :
    s.Right level (.getRoles n) (.names ns) := by
  have i := h.inv.getRole n
  refine ⟨fun r => ?_, fun hm => ?_⟩
  · rw [p.mem_iff, ← h.edge n n r]
    exact i.mem_rangeRoles n r
  · refine p.nodup_iff.2 ?_
    show ((rm.getRole n).1.rangeRoles n).Nodup
    have hz : ∀ p, ((rm.getRole n).1.obj p).matched = [] := by
      intro p
      apply List.eq_nil_iff_forall_not_mem.2
      intro k hk
      obtain ⟨-, -, m, e, -⟩ := i.mnames p k hk
      rw [RM.getRole_matcher, h.matcher, hm] at e
      cases e
    have hb : ∀ p, ((rm.getRole n).1.obj p).matchedBy = [] := by
      intro p
      apply List.eq_nil_iff_forall_not_mem.2
      intro k hk
      have := (i.msym k p).2 hk
      rw [hz] at this
      cases this
    unfold RM.rangeRoles
    simp only [hz, hb, flatMap_nil_nil]
    simpa using i.rolesNodup n

theorem getUsers (h : rm.Recalls level s) (n : Str) {ns : List Str} (nd : ((rm.getRole n).1.obj n).users.Nodup)
    (p : ns.Perm (rm.getUsers n).2) : s.Right level (.getUsers n) (.names ns) := by
  have i := h.inv.getRole n
  refine ⟨fun r => ?_, fun hm => ?_⟩
  · rw [p.mem_iff, ← h.edge n r n]
    exact i.mem_rangeUsers r n
  · refine p.nodup_iff.2 ?_
    show ((rm.getRole n).1.rangeUsers n).Nodup
    have hz : ∀ p, ((rm.getRole n).1.obj p).matched = [] := by
      intro p
      apply List.eq_nil_iff_forall_not_mem.2
      intro k hk
      obtain ⟨-, -, m, e, -⟩ := i.mnames p k hk
      rw [RM.getRole_matcher, h.matcher, hm] at e
      cases e
    have hb : ∀ p, ((rm.getRole n).1.obj p).matchedBy = [] := by
      intro p
      apply List.eq_nil_iff_forall_not_mem.2
      intro k hk
      have := (i.msym k p).2 hk
      rw [hz] at this
      cases this
    unfold RM.rangeUsers
    simp only [hz, hb, flatMap_nil_nil]
    simpa using nd

end RM.Recalls

namespace HeapRM

open RConf

/-- The call on a role manager with names; `ls` is the order in which `SetMatcher` adds the links. -/
def onNames (rm : RM) (ls : List (Str × Str)) : RoleOp → RM × RoleAns
  | .add u r ds => ((rm.addLink u r ds).1, .bool (rm.addLink u r ds).2)
  | .del u r ds => ((rm.deleteLink u r ds).1, .bool (rm.deleteLink u r ds).2)
  | .hasLink u r => (rm, .bool (rm.hasLink u r).2)
  | .getRoles n => (rm, .names (rm.getRoles n).2)
  | .getUsers n => (rm, .names (rm.getUsers n).2)
  | .range => (rm, .links rm.links)
  | .clear => (rm.clear, .done)
  | .setMatcher m => (rm.setMatcher m fun _ => ls, .done)

/-- The two models side by side. -/
structure Fits (y : HeapRM) (rm : RM) (s : Memory) : Prop where
  sim : Sim y.heap rm
  mem : rm.Recalls y.level s
  matcher : y.matcher = rm.matcher

theorem Fits.new (level : Nat) (m : Option PMatcher) : Fits (.new level m) (RM.new level m) (.none m) :=
  ⟨Sim.new level m, .new level m, rfl⟩

theorem Fits.call {y : HeapRM} {rm : RM} {s : Memory} (f : Fits y rm s) {ord : GoMap Str Nat → GoMap Str Nat}
    (hp : ∀ l, (ord l).Perm l) (x : RoleOp) : ∃ a ls s', (y.call ord x).2 = some a ∧ ls.Perm rm.links ∧
      a.Same (onNames rm ls x).2 ∧ s.Right y.level x a ∧ s.Next s' x ∧ Fits (y.call ord x).1 (onNames rm ls x).1 s' ∧
      (y.call ord x).1.level = y.level := by
  have hm : (RConf.mk y.level y.matcher ord).matcher = rm.matcher := f.matcher
  have hl : (RConf.mk y.level y.matcher ord).level = rm.level := f.mem.level_eq.symm
  cases x with
  | add u r ds =>
    obtain ⟨h', e, s1⟩ := addLinkD_runs (c := ⟨y.level, y.matcher, ord⟩) hp hm f.sim f.mem.inv u r ds
    obtain ⟨s', n, m, a⟩ := f.mem.addLink u r ds
    obtain ⟨-, sm, -, -⟩ := f.mem.inv.addLink u r ds
    have e' := exec_bind_some (g := fun b => .ret (RoleAns.bool b)) e
    refine ⟨_, _, s', congrArg Prod.snd e', .refl _, rfl, a, n, ⟨?_, m, f.matcher.trans sm.matcher.symm⟩, rfl⟩
    rw [show (y.call ord (.add u r ds)).1.heap = h' from congrArg Prod.fst e']
    exact s1
  | del u r ds =>
    obtain ⟨h', e, s1⟩ := deleteLinkD_runs (c := ⟨y.level, y.matcher, ord⟩) hp hm f.sim f.mem.inv u r ds
    obtain ⟨s', n, m, a⟩ := f.mem.deleteLink u r ds
    obtain ⟨-, sm, -, -⟩ := f.mem.inv.deleteLink u r ds
    have e' := exec_bind_some (g := fun b => .ret (RoleAns.bool b)) e
    refine ⟨_, _, s', congrArg Prod.snd e', .refl _, rfl, a, n, ⟨?_, m, f.matcher.trans sm.matcher.symm⟩, rfl⟩
    rw [show (y.call ord (.del u r ds)).1.heap = h' from congrArg Prod.fst e']
    exact s1
  | hasLink u r =>
    obtain ⟨h', e, s1⟩ := hasLink_runs (c := ⟨y.level, y.matcher, ord⟩) hp hm hl f.sim f.mem.inv u r
    have e' := exec_bind_some (g := fun b => .ret (RoleAns.bool b)) e
    refine ⟨_, _, s, congrArg Prod.snd e', .refl _, rfl, f.mem.hasLink u r, rfl, ⟨?_, f.mem, f.matcher⟩, rfl⟩
    rw [show (y.call ord (.hasLink u r)).1.heap = h' from congrArg Prod.fst e']
    exact s1
  | getRoles n =>
    obtain ⟨h', ns, e, p, s1⟩ := getRoles_runs (c := ⟨y.level, y.matcher, ord⟩) hp hm f.sim f.mem.inv n
    have e' := exec_bind_some (g := fun b => .ret (RoleAns.names b)) e
    refine ⟨_, _, s, congrArg Prod.snd e', .refl _, p, f.mem.getRoles n p, rfl, ⟨?_, f.mem, f.matcher⟩, rfl⟩
    rw [show (y.call ord (.getRoles n)).1.heap = h' from congrArg Prod.fst e']
    exact s1
  | getUsers n =>
    obtain ⟨h', ns, e, p, s1⟩ := getUsers_runs (c := ⟨y.level, y.matcher, ord⟩) hp hm f.sim f.mem.inv n
    obtain ⟨_, _, -, s2, -⟩ := getRole_runs (c := ⟨y.level, y.matcher, ord⟩) hp hm f.sim f.mem.inv n
    have e' := exec_bind_some (g := fun b => .ret (RoleAns.names b)) e
    refine ⟨_, _, s, congrArg Prod.snd e', .refl _, p, f.mem.getUsers n (s2.nd .users n) p, rfl, ⟨?_, f.mem, f.matcher⟩, rfl⟩
    rw [show (y.call ord (.getUsers n)).1.heap = h' from congrArg Prod.fst e']
    exact s1
  | range =>
    obtain ⟨ls, e, p⟩ := range_runs (c := ⟨y.level, y.matcher, ord⟩) hp f.sim f.mem.inv
    have e' := exec_bind_some (g := fun b => .ret (RoleAns.links b)) e
    refine ⟨_, _, s, congrArg Prod.snd e', .refl _, p, ⟨p.nodup_iff.2 f.mem.inv.links_nodup, fun a b => ?_⟩, rfl,
      ⟨?_, f.mem, f.matcher⟩, rfl⟩
    · rw [p.mem_iff, f.mem.mem_links]
    · rw [show (y.call ord .range).1.heap = y.heap from congrArg Prod.fst e']
      exact f.sim
  | clear =>
    obtain ⟨h', e, s1⟩ := clear_runs y.heap rm
    have e' := exec_bind_some (g := fun _ => .ret RoleAns.done) e
    refine ⟨_, _, _, congrArg Prod.snd e', .refl _, trivial, trivial, rfl, ⟨?_, f.mem.clear, f.matcher⟩, rfl⟩
    rw [show (y.call ord .clear).1.heap = h' from congrArg Prod.fst e']
    exact s1
  | setMatcher m =>
    obtain ⟨h', ls, e, p, s1⟩ := rebuild_runs (c := ⟨y.level, m, ord⟩) hp f.sim f.mem.inv
    obtain ⟨s', n, r⟩ := f.mem.setMatcher m p
    refine ⟨.done, ls, s', ?_, p, trivial, trivial, n, ⟨?_, r, ?_⟩, rfl⟩
    · simp only [HeapRM.call, e, Option.map]
    · simp only [HeapRM.call, e]
      exact s1
    · have := r.matcher
      obtain ⟨_, -, -, -, -, -, x⟩ := n
      exact (this.trans x).symm

theorem Fits.run : ∀ (xs : List ((GoMap Str Nat → GoMap Str Nat) × RoleOp)) {y : HeapRM} {rm : RM} {s : Memory},
    Fits y rm s → (∀ x ∈ xs, ∀ l, (x.1 l).Perm l) → Memory.Explains y.level s (xs.map Prod.snd) (y.run xs).2
  | [], _, _, s, _, _ => .nil s
  | (ord, x) :: xs, y, rm, s, f, hp => by
    obtain ⟨a, ls, s', e, -, -, r, n, f', hl⟩ := f.call (hp _ List.mem_cons_self) x
    have := Fits.run xs f' fun x' h' => hp x' (List.mem_cons_of_mem _ h')
    rw [hl] at this
    show Memory.Explains y.level s (x :: _) ((y.call ord x).2 :: _)
    rw [e]
    exact .cons r n this

end HeapRM

end Fastac
