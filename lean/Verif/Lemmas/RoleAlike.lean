import Verif.Lemmas.RoleMemory

/-!
# Role managers that differ only in the order of their maps
-/

namespace Fastac

theorem RM.addLink_matched (rm : RM) (u r : Str) (ds : List Str) (k : Str) :
    ((rm.addLink u r ds).1.obj k).matched = (((rm.getRole u).1.getRole r).1.obj k).matched := by
  have h := unmark_addLink rm u r ds
  have h1 := (rm.unmark.addLink_same u r [] (by simp)).2.2 k
  rw [h, unmark_getRole, unmark_getRole] at h1
  exact h1

theorem RM.deleteLink_matched (rm : RM) (u r : Str) (ds : List Str) (k : Str) :
    ((rm.deleteLink u r ds).1.obj k).matched = (((rm.getRole u).1.getRole r).1.obj k).matched := by
  have h := unmark_deleteLink rm u r ds
  have h1 := (rm.unmark.deleteLink_same u r [] (by simp)).2.2 k
  rw [h, unmark_getRole, unmark_getRole] at h1
  exact h1

/-- Role managers with the same entries in their maps. -/
structure RM.Alike (rm rm' : RM) (L : Str → Str → Prop) : Prop where
  inv : rm.Inv L
  inv' : rm'.Inv L
  names : ∀ n, n ∈ rm.names ↔ n ∈ rm'.names
  matched : ∀ p n, n ∈ (rm.obj p).matched ↔ n ∈ (rm'.obj p).matched
  red : ∀ x y, y ∈ (rm.obj x).redundant ↔ y ∈ (rm'.obj x).redundant
  matcher : rm.matcher = rm'.matcher
  level : rm.level = rm'.level

namespace RM.Alike

variable {rm rm' : RM} {L : Str → Str → Prop}

theorem refl (i : rm.Inv L) : rm.Alike rm L :=
  ⟨i, i, fun _ => Iff.rfl, fun _ _ => Iff.rfl, fun _ _ => Iff.rfl, rfl, rfl⟩

theorem getRole (h : rm.Alike rm' L) (n : Str) : (rm.getRole n).1.Alike (rm'.getRole n).1 L := by
  refine ⟨h.inv.getRole n, h.inv'.getRole n, fun k => ?_, fun p k => ?_, fun x y => ?_, ?_, ?_⟩
  · rw [RM.mem_getRole_names, RM.mem_getRole_names, h.names]
  · by_cases hn : n ∈ rm.names
    · rw [RM.getRole_of_mem hn, RM.getRole_of_mem ((h.names n).1 hn)]
      exact h.matched p k
    · have hn' : n ∉ rm'.names := fun e => hn ((h.names n).2 e)
      rw [h.inv.getRole_obj hn, h.inv'.getRole_obj hn']
      have e1 : ∀ k, k ∈ rm.newKs n ↔ k ∈ rm'.newKs n := by
        intro k; rw [RM.mem_newKs, RM.mem_newKs, h.names, h.matcher]
      have e2 : ∀ k, k ∈ rm.newPs n ↔ k ∈ rm'.newPs n := by
        intro k; rw [h.inv.mem_newPs, h.inv'.mem_newPs, h.names, h.matcher]
      simp only
      by_cases c1 : p = n
      · rw [if_pos c1, if_pos c1, mem_foldl_sins, mem_foldl_sins, e1]
      · rw [if_neg c1, if_neg c1]
        by_cases c2 : p ∈ rm.newPs n
        · rw [if_pos c2, if_pos ((e2 p).1 c2), mem_sins, mem_sins, h.matched]
        · rw [if_neg c2, if_neg fun e => c2 ((e2 p).2 e), h.matched]
  · rw [RM.getRole_red h.inv, RM.getRole_red h.inv', h.red]
  · rw [RM.getRole_matcher, RM.getRole_matcher, h.matcher]
  · rw [RM.getRole_level, RM.getRole_level, h.level]

theorem addLink (h : rm.Alike rm' L) (u r : Str) (ds : List Str) :
    (rm.addLink u r ds).1.Alike (rm'.addLink u r ds).1 (addL L u r) ∧ (rm.addLink u r ds).2 = (rm'.addLink u r ds).2 := by
  obtain ⟨i, s, a, d⟩ := h.inv.addLink u r ds
  obtain ⟨i', s', a', d'⟩ := h.inv'.addLink u r ds
  refine ⟨⟨i, i', fun n => by rw [s.names, s'.names, h.names], fun p n => ?_, fun x y => by rw [d, d', h.red],
    by rw [s.matcher, s'.matcher, h.matcher], by rw [s.level, s'.level, h.level]⟩, by rw [Bool.eq_iff_iff, a, a']⟩
  rw [RM.addLink_matched, RM.addLink_matched]
  exact ((h.getRole u).getRole r).matched p n

theorem deleteLink (h : rm.Alike rm' L) (u r : Str) (ds : List Str) :
    (rm.deleteLink u r ds).1.Alike (rm'.deleteLink u r ds).1 (delL L u r) ∧
      (rm.deleteLink u r ds).2 = (rm'.deleteLink u r ds).2 := by
  obtain ⟨i, s, a, d⟩ := h.inv.deleteLink u r ds
  obtain ⟨i', s', a', d'⟩ := h.inv'.deleteLink u r ds
  refine ⟨⟨i, i', fun n => by rw [s.names, s'.names, h.names], fun p n => ?_, fun x y => by rw [d, d', h.red],
    by rw [s.matcher, s'.matcher, h.matcher], by rw [s.level, s'.level, h.level]⟩, by rw [Bool.eq_iff_iff, a, a']⟩
  rw [RM.deleteLink_matched, RM.deleteLink_matched]
  exact ((h.getRole u).getRole r).matched p n

theorem mem_rangeRoles (h : rm.Alike rm' L) (x y : Str) : y ∈ rm.rangeRoles x ↔ y ∈ rm'.rangeRoles x := by
  rw [h.inv.mem_rangeRoles, h.inv'.mem_rangeRoles]
  simp only [h.matched]

theorem hasLink (h : rm.Alike rm' L) (u r : Str) : (rm.hasLink u r).2 = (rm'.hasLink u r).2 := by
  rw [Bool.eq_iff_iff, RM.hasLink_result, RM.hasLink_result]
  have hm : ∀ c, rm.matches c r = rm'.matches c r := by
    intro c; unfold RM.matches; rw [h.matcher]
  have h2 := (h.getRole u).getRole r
  have he : (fun a b => b ∈ ((rm.getRole u).1.getRole r).1.rangeRoles a) =
      fun a b => b ∈ ((rm'.getRole u).1.getRole r).1.rangeRoles a := by
    funext a b
    exact propext (h2.mem_rangeRoles a b)
  simp only [hm, h.level, he]

/-- The maps of the roles, up to order. -/
theorem fld (h : rm.Alike rm' L) (nd : ∀ f n, ((rm.obj n).fld f).Nodup) (nd' : ∀ f n, ((rm'.obj n).fld f).Nodup) (f : RField)
    (n : Str) : ((rm.obj n).fld f).Perm ((rm'.obj n).fld f) := by
  refine (List.perm_ext_iff_of_nodup (nd f n) (nd' f n)).2 fun k => ?_
  cases f with
  | roles => exact (h.inv.roles n k).trans (h.inv'.roles n k).symm
  | users => exact (h.inv.users k n).trans (h.inv'.users k n).symm
  | matched => exact h.matched n k
  | matchedBy => exact (h.inv.msym k n).symm.trans ((h.matched k n).trans (h.inv'.msym k n))

theorem flatMap_fld (h : rm.Alike rm' L) (nd : ∀ f n, ((rm.obj n).fld f).Nodup) (nd' : ∀ f n, ((rm'.obj n).fld f).Nodup)
    (f : RField) : ∀ ns : List Str, (ns.flatMap fun n => (rm.obj n).fld f).Perm (ns.flatMap fun n => (rm'.obj n).fld f)
  | [] => .nil
  | n :: ns => by
    simp only [List.flatMap_cons]
    exact (h.fld nd nd' f n).append (flatMap_fld h nd nd' f ns)

theorem rangeRoles (h : rm.Alike rm' L) (nd : ∀ f n, ((rm.obj n).fld f).Nodup) (nd' : ∀ f n, ((rm'.obj n).fld f).Nodup)
    (n : Str) : (rm.rangeRoles n).Perm (rm'.rangeRoles n) :=
  ((h.fld nd nd' .roles n).append ((h.flatMap_fld nd nd' .matched _).trans ((h.fld nd nd' .roles n).flatMap_right _))).append
    ((h.flatMap_fld nd nd' .roles _).trans ((h.fld nd nd' .matchedBy n).flatMap_right _))

theorem rangeUsers (h : rm.Alike rm' L) (nd : ∀ f n, ((rm.obj n).fld f).Nodup) (nd' : ∀ f n, ((rm'.obj n).fld f).Nodup)
    (n : Str) : (rm.rangeUsers n).Perm (rm'.rangeUsers n) :=
  ((h.fld nd nd' .users n).append ((h.flatMap_fld nd nd' .matched _).trans ((h.fld nd nd' .users n).flatMap_right _))).append
    ((h.flatMap_fld nd nd' .users _).trans ((h.fld nd nd' .matchedBy n).flatMap_right _))

theorem mem_links (h : rm.Alike rm' L) (a b : Str) : (a, b) ∈ rm.links ↔ (a, b) ∈ rm'.links := by
  simp only [RM.links, List.mem_flatMap, List.mem_map, List.mem_filter, Prod.mk.injEq, decide_eq_true_eq, h.names, h.red,
    h.inv.roles, h.inv'.roles]

theorem links (h : rm.Alike rm' L) : rm.links.Perm rm'.links :=
  (List.perm_ext_iff_of_nodup h.inv.links_nodup h.inv'.links_nodup).2 fun ⟨a, b⟩ => h.mem_links a b

theorem clear (h : rm.Alike rm' L) : rm.clear.Alike rm'.clear (fun _ _ => False) :=
  ⟨.clear, .clear, fun _ => Iff.rfl, fun _ _ => Iff.rfl, fun _ _ => Iff.rfl, h.matcher, h.level⟩

/-- If no pattern matches another one, then the order in which links are added does not matter. -/
theorem of_flat {K : Str → Prop} (i : rm.Inv L) (i' : rm'.Inv L) (hn : ∀ n, n ∈ rm.names ↔ n ∈ rm'.names)
    (hr : ∀ x, (rm.obj x).redundant = []) (hr' : ∀ x, (rm'.obj x).redundant = []) (hm : rm.matcher = rm'.matcher)
    (hl : rm.level = rm'.level) (hk : ∀ n ∈ rm.names, K n) (hf : ∀ m, rm.matcher = some m → m.FlatOn K) :
    rm.Alike rm' L := by
  have key : ∀ p n, covers rm.matcher p n → p ∈ rm.names → n ∈ rm.names → ¬ isPat rm.matcher n := by
    rintro p n ⟨m, e, c1, c2, c3⟩ hp hn ⟨m', e', x⟩
    rw [e] at e'; cases e'
    have := hf m e n p (hk n hn) (hk p hp) x c1 c2
    rw [c3] at this; cases this
  refine ⟨i, i', hn, fun p n => ⟨fun e => ?_, fun e => ?_⟩, fun x y => by rw [hr, hr'], hm, hl⟩
  · obtain ⟨a, b, c⟩ := i.mnames p n e
    exact i'.mcomplete p n ((hn p).1 b) ((hn n).1 a) (hm ▸ c) (hm ▸ key p n c b a)
  · obtain ⟨a, b, c⟩ := i'.mnames p n e
    rw [← hm] at c
    exact i.mcomplete p n ((hn p).2 b) ((hn n).2 a) c (key p n c ((hn p).2 b) ((hn n).2 a))

end RM.Alike

theorem mem_namesIn {ls : List (Str × Str)} {n : Str} : n ∈ namesIn ls ↔ ∃ l ∈ ls, n = l.1 ∨ n = l.2 := by
  have : ∀ (ls : List (Str × Str)) (O : List Str), n ∈ ls.foldl (fun O l => useName (useName O l.1) l.2) O ↔
      n ∈ O ∨ ∃ l ∈ ls, n = l.1 ∨ n = l.2 := by
    intro ls
    induction ls with
    | nil => simp
    | cons l ls ih =>
      intro O
      rw [List.foldl_cons, ih, mem_useName, mem_useName]
      simp only [List.mem_cons, exists_eq_or_imp, or_assoc]
  unfold namesIn
  rw [this]
  simp

theorem RoleAns.Same.symm : ∀ {a b : RoleAns}, a.Same b → b.Same a
  | .bool _, .bool _, h => Eq.symm h
  | .names _, .names _, h => List.Perm.symm h
  | .links _, .links _, h => List.Perm.symm h
  | .done, .done, _ => trivial

theorem RoleAns.Same.trans : ∀ {a b c : RoleAns}, a.Same b → b.Same c → a.Same c
  | .bool _, .bool _, .bool _, h, h' => Eq.trans h h'
  | .names _, .names _, .names _, h, h' => List.Perm.trans h h'
  | .links _, .links _, .links _, h, h' => List.Perm.trans h h'
  | .done, .done, .done, _, _ => trivial

/-- The names to which links are made. -/
def RoleOp.In (K : Str → Prop) : RoleOp → Prop
  | .add u r _ => K u ∧ K r
  | _ => True

/-- A new matcher has no pattern that matches another one. -/
def RoleOp.FlatIn (K : Str → Prop) : RoleOp → Prop
  | .setMatcher (some m) => m.FlatOn K
  | _ => True

namespace HeapRM

open RConf

theorem setMatcher_has {rm : RM} {level : Nat} {s : Memory} (h : rm.Recalls level s) (m : Option PMatcher)
    {ls : List (Str × Str)} (p : ls.Perm rm.links) :
    (rm.setMatcher m fun _ => ls).Inv (fun a b => (a, b) ∈ rm.links) ∧ (rm.setMatcher m fun _ => ls).names = namesIn ls ∧
      (∀ x, ((rm.setMatcher m fun _ => ls).obj x).redundant = []) ∧ (rm.setMatcher m fun _ => ls).matcher = m ∧
      (rm.setMatcher m fun _ => ls).level = level := by
  have h0 : ({ rm.clear with matcher := m } : RM).HasIn level m (fun _ _ => False) [] :=
    ⟨⟨by constructor <;> simp [RM.clear], by simp [RM.clear], fun _ => rfl, rfl, h.level_eq⟩, rfl,
      by intro p n _; simp [RM.clear]⟩
  have h1 := RM.HasIn.addLinks ls _ _ _ h0
  have h2 := h1.has.congr (L' := fun a b => (a, b) ∈ rm.links) (K' := (· ∈ namesIn ls))
    (fun u r => by simp [p.mem_iff]) (fun _ => Iff.rfl)
  exact ⟨h2.inv, h1.names, h2.red, h2.matcher, h2.level⟩

/-- What the same call does to role managers that are alike. -/
theorem onNames_alike {rm rm' : RM} {L : Str → Str → Prop} {K : Str → Prop} {level : Nat} {s s' : Memory} (h : rm.Alike rm' L)
    (nd : ∀ n f k, (((rm.getRole n).1.obj k).fld f).Nodup) (nd' : ∀ n f k, (((rm'.getRole n).1.obj k).fld f).Nodup)
    (r : rm.Recalls level s) (r' : rm'.Recalls level s') (hk : ∀ a b, L a b → K a ∧ K b) {x : RoleOp} (hx : x.In K)
    (hf : x.FlatIn K) {ls ls' : List (Str × Str)} (p : ls.Perm rm.links) (p' : ls'.Perm rm'.links) :
    (onNames rm ls x).2.Same (onNames rm' ls' x).2 ∧
      ∃ L', (onNames rm ls x).1.Alike (onNames rm' ls' x).1 L' ∧ ∀ a b, L' a b → K a ∧ K b := by
  cases x with
  | add u r ds =>
    obtain ⟨a, b⟩ := h.addLink u r ds
    refine ⟨b, _, a, ?_⟩
    rintro a b (x | ⟨rfl, rfl⟩)
    · exact hk a b x
    · exact hx
  | del u r ds =>
    obtain ⟨a, b⟩ := h.deleteLink u r ds
    exact ⟨b, _, a, fun a b x => hk a b x.1⟩
  | hasLink u r => exact ⟨h.hasLink u r, L, h, hk⟩
  | getRoles n => exact ⟨(h.getRole n).rangeRoles (nd n) (nd' n) n, L, h, hk⟩
  | getUsers n => exact ⟨(h.getRole n).rangeUsers (nd n) (nd' n) n, L, h, hk⟩
  | range => exact ⟨h.links, L, h, hk⟩
  | clear => exact ⟨trivial, _, h.clear, fun _ _ e => e.elim⟩
  | setMatcher m =>
    obtain ⟨a1, a2, a3, a4, a5⟩ := setMatcher_has r m p
    obtain ⟨b1, b2, b3, b4, b5⟩ := setMatcher_has r' m p'
    have he : (fun a b => (a, b) ∈ rm'.links) = fun a b => (a, b) ∈ rm.links := by
      funext a b; exact propext (h.mem_links a b).symm
    have hl : ∀ a b, (a, b) ∈ rm.links → K a ∧ K b := by
      intro a b e
      apply hk
      simp only [RM.links, List.mem_flatMap, List.mem_map, List.mem_filter, Prod.mk.injEq] at e
      obtain ⟨x, _, y, ⟨hy, _⟩, rfl, rfl⟩ := e
      exact (h.inv.roles _ _).1 hy
    rw [he] at b1
    refine ⟨trivial, _, RM.Alike.of_flat (K := K) a1 b1 (fun n => ?_) a3 b3 (a4.trans b4.symm) (a5.trans b5.symm) (fun n hn => ?_)
      (fun m' e => ?_), hl⟩
    · show n ∈ (rm.setMatcher m fun _ => ls).names ↔ n ∈ (rm'.setMatcher m fun _ => ls').names
      rw [a2, b2, mem_namesIn, mem_namesIn]
      simp only [p.mem_iff, p'.mem_iff, h.links.mem_iff]
    · have : n ∈ namesIn ls := a2 ▸ hn
      obtain ⟨⟨a, b⟩, h1, h2⟩ := mem_namesIn.1 this
      have := hl a b (p.mem_iff.1 h1)
      rcases h2 with rfl | rfl
      · exact this.1
      · exact this.2
    · have e' : m = some m' := a4.symm.trans e
      subst e'
      exact hf

theorem Fits.nodup {y : HeapRM} {rm : RM} {s : Memory} (f : Fits y rm s) (n : Str) (g : RField) (k : Str) :
    (((rm.getRole n).1.obj k).fld g).Nodup := by
  obtain ⟨_, _, -, s2, -⟩ := getRole_runs (c := ⟨y.level, y.matcher, id⟩) (fun _ => .refl _) f.matcher f.sim f.mem.inv n
  exact s2.nd g k

theorem Fits.run_alike {K : Str → Prop} : ∀ (xs xs' : List ((GoMap Str Nat → GoMap Str Nat) × RoleOp)) {y y' : HeapRM}
    {rm rm' : RM} {s s' : Memory} {L : Str → Str → Prop}, Fits y rm s → Fits y' rm' s' → y.level = y'.level →
    rm.Alike rm' L → (∀ a b, L a b → K a ∧ K b) → (∀ x ∈ xs, ∀ l, (x.1 l).Perm l) → (∀ x ∈ xs', ∀ l, (x.1 l).Perm l) →
    (∀ x ∈ xs, x.2.In K ∧ x.2.FlatIn K) → xs.map Prod.snd = xs'.map Prod.snd →
    ∀ (i : Nat) a, (y.run xs).2[i]? = some (some a) → ∃ b, (y'.run xs').2[i]? = some (some b) ∧ a.Same b
  | [], _, _, _, _, _, _, _, _, _, _, _, _, _, _, _, _, _, i, a, e => by cases e
  | _ :: _, [], _, _, _, _, _, _, _, _, _, _, _, _, _, _, _, he, _, _, _ => by cases he
  | (ord, x) :: xs, (ord', x') :: xs', y, y', rm, rm', s, s', L, f, f', hl, h, hk, hp, hp', hx, he, i, a, e => by
    simp only [List.map_cons, List.cons.injEq] at he
    obtain ⟨rfl, he⟩ := he
    obtain ⟨a1, ls, t, e1, q1, sm1, -, -, g1, l1⟩ := f.call (hp _ List.mem_cons_self) x
    obtain ⟨a2, ls', t', e2, q2, sm2, -, -, g2, l2⟩ := f'.call (hp' _ List.mem_cons_self) x
    have hx0 := hx _ List.mem_cons_self
    obtain ⟨k1, L', k2, k3⟩ := onNames_alike h (fun n => f.nodup n) (fun n => f'.nodup n) f.mem (hl ▸ f'.mem) hk hx0.1 hx0.2
      q1 q2
    cases i with
    | zero =>
      have : a1 = a := by
        have e : (y.call ord x).2 = some a := by simpa [HeapRM.run] using e
        rw [e1] at e; cases e; rfl
      subst this
      refine ⟨a2, ?_, sm1.trans (k1.trans sm2.symm)⟩
      simpa [HeapRM.run] using e2
    | succ i =>
      exact Fits.run_alike xs xs' g1 g2 (l1.trans (hl.trans l2.symm)) k2 k3 (fun z hz => hp z (List.mem_cons_of_mem _ hz))
        (fun z hz => hp' z (List.mem_cons_of_mem _ hz)) (fun z hz => hx z (List.mem_cons_of_mem _ hz)) he i a e

end HeapRM

end Fastac
