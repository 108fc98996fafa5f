import Verif.Lemmas.RoleHeap

/-!
# Calls on role managers with pointers and on role managers with names
-/

namespace Fastac

namespace RConf

open RHeap

variable {c : RConf} {h : RHeap} {rm : RM} {L : Str → Str → Prop}

/-! ## A role that was made for a question is taken out again -/

theorem removeRole_patterns (rm : RM) (n : Str) : (rm.removeRole n).patterns = sdel rm.patterns n := by
  unfold RM.removeRole
  split <;> rfl

theorem mem_ord_fld (hp : ∀ l, (c.ord l).Perm l) {al : GoMap Str Nat} {T : RField → Str → Str → Prop} {D : Str → List Str}
    (p : Pic h al T D) (f : RField) {n : Str} {a : Nat} (ha : al.get n = some a) {k : Str} {x : Nat} :
    (k, x) ∈ c.ord ((h.role a).fld f) ↔ T f n k ∧ al.get k = some x := by
  rw [(hp _).mem_iff, ← p.get f n a ha]
  exact ⟨(p.wf f n a ha).get_of_mem, GoMap.mem_of_get⟩

theorem removeMatches_runs (hp : ∀ l, (c.ord l).Perm l) {al : GoMap Str Nat} {T : RField → Str → Str → Prop}
    {D : Str → List Str} (p : Pic h al T D) {n : Str} {a : Nat} (ha : al.get n = some a)
    (hs : ∀ m k, T .matched m k ↔ T .matchedBy k m) (hn : ¬ T .matched n n) :
    ∃ h', (c.removeMatches n a).exec h = (h', some ()) ∧ Kept h h' ∧
      Pic h' al (fun g m k => T g m k ∧ ((g = .matched ∨ g = .matchedBy) → m ≠ n ∧ k ≠ n)) D := by
  obtain ⟨h1, x1, k1, p1⟩ := each_runs (al := al) (al' := h.all) (D := D)
    (body := fun e : Str × Nat => removeMatch n a e.1 e.2) minusM (fun e => (n, e.1)) (c.ord ((h.role a).fld .matched))
    (fun e he h1 T1 p1 _ => removeMatch_runs p1 ha ((mem_ord_fld hp p .matched ha).1 he).2) h T p rfl
  obtain ⟨h2, x2, k2, p2⟩ := each_runs (al := al) (al' := h1.all) (D := D)
    (body := fun e : Str × Nat => removeMatch e.1 e.2 n a) minusM (fun e => (e.1, n)) (c.ord ((h1.role a).fld .matchedBy))
    (fun e he h1 T1 p' _ => removeMatch_runs p' ((mem_ord_fld hp p1 .matchedBy ha).1 he).2 ha) h1 _ p1 rfl
  refine ⟨h2, ?_, k1.trans k2, p2.congr (fun g m k => ?_) fun _ _ => rfl⟩
  · unfold removeMatches
    refine Eq.trans ?_ x2
    show Thread.exec ((Thread.each _ _).bind _) h = _
    exact exec_bind_some x1
  · have m1 : ∀ k', (∃ e ∈ c.ord ((h.role a).fld .matched), e.1 = k') ↔ T .matched n k' := by
      intro k'
      constructor
      · rintro ⟨⟨_, x⟩, he, rfl⟩; exact ((mem_ord_fld hp p .matched ha).1 he).1
      · intro e
        obtain ⟨x, hx⟩ := Option.isSome_iff_exists.1 (p.closed _ _ _ e).2
        exact ⟨(k', x), (mem_ord_fld hp p .matched ha).2 ⟨e, hx⟩, rfl⟩
    have hT1 : ∀ g m k, ((c.ord ((h.role a).fld .matched)).map fun e => (n, e.1)).foldl minusM T g m k ↔
        T g m k ∧ ∀ k', T .matched n k' → ¬ isM (n, k') g m k := by
      intro g m k
      rw [foldl_minusM]
      refine and_congr_right fun _ => ?_
      simp only [List.mem_map, forall_exists_index, and_imp, forall_apply_eq_imp_iff₂]
      constructor
      · intro e k' hk'
        obtain ⟨e', he', rfl⟩ := (m1 k').2 hk'
        exact e e' he'
      · intro e e' he'
        exact e _ ((m1 _).1 ⟨e', he', rfl⟩)
    have m2 : ∀ k', (∃ e ∈ c.ord ((h1.role a).fld .matchedBy), e.1 = k') ↔ T .matchedBy n k' := by
      intro k'
      constructor
      · rintro ⟨⟨_, x⟩, he, rfl⟩
        exact ((hT1 _ _ _).1 ((mem_ord_fld hp p1 .matchedBy ha).1 he).1).1
      · intro e
        obtain ⟨x, hx⟩ := Option.isSome_iff_exists.1 (p.closed _ _ _ e).2
        refine ⟨(k', x), (mem_ord_fld hp p1 .matchedBy ha).2 ⟨(hT1 _ _ _).2 ⟨e, fun k'' hk'' => ?_⟩, hx⟩, rfl⟩
        rintro (⟨x, -, -⟩ | ⟨-, rfl, -⟩)
        · cases x
        · exact hn hk''
    rw [foldl_minusM, hT1]
    simp only [List.mem_map, forall_exists_index, and_imp, forall_apply_eq_imp_iff₂]
    constructor
    · rintro ⟨e, hg⟩
      refine ⟨⟨e, fun k' _ => ?_⟩, fun e' _ => ?_⟩
      · rintro (⟨rfl, rfl, rfl⟩ | ⟨rfl, rfl, rfl⟩)
        · exact (hg (.inl rfl)).1 rfl
        · exact (hg (.inr rfl)).2 rfl
      · rintro (⟨rfl, rfl, rfl⟩ | ⟨rfl, rfl, rfl⟩)
        · exact (hg (.inl rfl)).2 rfl
        · exact (hg (.inr rfl)).1 rfl
    · rintro ⟨⟨e, y1⟩, y2⟩
      have y2' : ∀ k', T .matchedBy n k' → ¬ isM (k', n) g m k := by
        intro k' hk'
        obtain ⟨e', he', rfl⟩ := (m2 k').2 hk'
        exact y2 e' he'
      refine ⟨e, fun hg => ?_⟩
      rcases hg with rfl | rfl
      · refine ⟨?_, ?_⟩
        · rintro rfl; exact y1 k e (.inl ⟨rfl, rfl, rfl⟩)
        · rintro rfl; exact y2' m ((hs m k).1 e) (.inl ⟨rfl, rfl, rfl⟩)
      · refine ⟨?_, ?_⟩
        · rintro rfl; exact y2' k e (.inr ⟨rfl, rfl, rfl⟩)
        · rintro rfl; exact y1 m ((hs k m).2 e) (.inr ⟨rfl, rfl, rfl⟩)

theorem removeRole_runs (hp : ∀ l, (c.ord l).Perm l) (i : rm.Inv L) {n : Str} (hn : n ∉ rm.names)
    (nd : ∀ f m, ((rm.obj m).fld f).Nodup) (s : Sim h (rm.getRole n).1) :
    ∃ h', (c.removeRole n).exec h = (h', some ()) ∧ Sim h' rm := by
  have i1 := i.getRole n
  have hin : n ∈ (rm.getRole n).1.names := RM.mem_getRole_names.2 (.inr rfl)
  obtain ⟨a, ha⟩ := s.get_some hin
  have hL : ∀ k, ¬ L n k ∧ ¬ L k n := fun k => ⟨fun e => hn (i.known e).1, fun e => hn (i.known e).2⟩
  have hnn : n ∉ ((rm.getRole n).1.obj n).matched := fun e => covers_ne (i1.mnames n n e).2.2 rfl
  obtain ⟨h1, e1, k1, p1⟩ := removeMatches_runs (h := { h with all := h.all.del n }) hp
    (⟨s.pic.valid, s.pic.inj, s.pic.wf, s.pic.get, s.pic.closed, s.pic.red, s.pic.nm⟩) ha (fun m k => i1.msym m k) hnn
  have p2 := p1.drop (n := n) fun f k => by
    refine ⟨?_, ?_⟩
    · rintro ⟨e, x⟩
      cases f with
      | roles => exact (hL k).1 ((i1.roles n k).1 e)
      | users => exact (hL k).2 ((i1.users k n).1 e)
      | matched => exact (x (.inl rfl)).1 rfl
      | matchedBy => exact (x (.inr rfl)).1 rfl
    · rintro ⟨e, x⟩
      cases f with
      | roles => exact (hL k).2 ((i1.roles k n).1 e)
      | users => exact (hL k).1 ((i1.users n k).1 e)
      | matched => exact (x (.inl rfl)).2 rfl
      | matchedBy => exact (x (.inr rfl)).2 rfl
  have hk : h1.all = h.all.del n := k1.1
  have hno : ∀ f m k, k ∈ (rm.obj m).fld f → m ≠ n ∧ k ≠ n := by
    intro f m k e
    cases f with
    | roles =>
      have := i.known ((i.roles m k).1 e)
      exact ⟨fun x => hn (x ▸ this.1), fun x => hn (x ▸ this.2)⟩
    | users =>
      have := i.known ((i.users k m).1 e)
      exact ⟨fun x => hn (x ▸ this.2), fun x => hn (x ▸ this.1)⟩
    | matched =>
      have := i.mnames m k e
      exact ⟨fun x => hn (x ▸ this.2.1), fun x => hn (x ▸ this.1)⟩
    | matchedBy =>
      have := i.mnames k m ((i.msym k m).2 e)
      exact ⟨fun x => hn (x ▸ this.1), fun x => hn (x ▸ this.2.1)⟩
  have ho := i.getRole_obj hn
  refine ⟨{ h1 with patterns := sdel h1.patterns n }, ?_, ?_, ?_, fun m => ?_, ?_, nd⟩
  · unfold removeRole
    simp only [Thread.exec, Thread.read, Thread.bind, id, ha, removeLoaded, Thread.write]
    rw [exec_bind_some e1]
    rfl
  · show Pic _ h1.all _ _
    rw [hk]
    have p3 : Pic h1 (h.all.del n) (fun f m k => k ∈ (rm.obj m).fld f) (fun m => (rm.obj m).redundant) := by
      refine p2.congr (fun f m k => ?_) fun m _ => (RM.getRole_red i n m).symm
      constructor
      · intro e
        obtain ⟨h1, h2⟩ := hno f m k e
        refine ⟨?_, fun _ => ⟨h1, h2⟩⟩
        rw [ho]
        cases f with
        | roles => exact e
        | users => exact e
        | matched =>
          simp only [Role.fld, if_neg h1]
          split
          · exact mem_sins.2 (.inl e)
          · exact e
        | matchedBy =>
          simp only [Role.fld, if_neg h1]
          split
          · exact mem_sins.2 (.inl e)
          · exact e
      · rintro ⟨e, x⟩
        rw [ho] at e
        cases f with
        | roles => exact e
        | users => exact e
        | matched =>
          obtain ⟨h1, h2⟩ := x (.inl rfl)
          simp only [Role.fld, if_neg h1] at e ⊢
          split at e
          · exact (mem_sins.1 e).resolve_right h2
          · exact e
        | matchedBy =>
          obtain ⟨h1, h2⟩ := x (.inr rfl)
          simp only [Role.fld, if_neg h1] at e ⊢
          split at e
          · exact (mem_sins.1 e).resolve_right h2
          · exact e
    exact ⟨p3.valid, p3.inj, p3.wf, p3.get, p3.closed, p3.red, p3.nm⟩
  · show h1.all.WF
    rw [hk]; exact s.wf.del n
  · show h1.all.has m = true ↔ _
    rw [hk]
    have := s.names m
    rw [RM.mem_getRole_names] at this
    unfold GoMap.has at this ⊢
    rw [GoMap.get_del]
    split
    · rename_i e; subst e; simp [hn]
    · rename_i e
      rw [this]
      simp [Ne.symm e]
  · show sdel h1.patterns n = rm.patterns
    rw [k1.2]
    show sdel h.patterns n = _
    rw [s.pats, ← removeRole_patterns, i.remove_getRole hn]

/-! ## Reading -/

theorem collect_read {β γ : Type} (g : β → RHeap → List γ) (h : RHeap) : ∀ l : List β,
    (Thread.collect (fun e => Thread.read (g e)) l).exec h = (h, some (l.flatMap fun e => g e h))
  | [] => rfl
  | x :: xs => by
    have ih := collect_read g h xs
    show (((Thread.collect (fun e => Thread.read (g e)) xs).bind fun zs => .ret (g x h ++ zs))).exec h = _
    rw [exec_bind_some ih]
    rfl

theorem names_perm (hp : ∀ l, (c.ord l).Perm l) (s : Sim h rm) (f : RField) {n : Str} {a : Nat} (ha : h.all.get n = some a) :
    ((c.ord ((h.role a).fld f)).map Prod.fst).Perm ((rm.obj n).fld f) := by
  refine ((hp _).map _).trans ?_
  refine (List.perm_ext_iff_of_nodup (s.pic.wf f n a ha) (s.nd f n)).2 fun k => ?_
  simp only [List.mem_map, Prod.exists, exists_and_right, exists_eq_right]
  constructor
  · rintro ⟨x, hx⟩
    exact ((s.pic.get f n a ha k x).1 ((s.pic.wf f n a ha).get_of_mem hx)).1
  · intro e
    obtain ⟨x, hx⟩ := Option.isSome_iff_exists.1 (s.pic.closed f n k e).2
    exact ⟨x, GoMap.mem_of_get ((s.pic.get f n a ha k x).2 ⟨e, hx⟩)⟩

theorem entries_ok (hp : ∀ l, (c.ord l).Perm l) (s : Sim h rm) (f : RField) {n : Str} {a : Nat} (ha : h.all.get n = some a) :
    ∀ e ∈ c.ord ((h.role a).fld f), h.all.get e.1 = some e.2 := by
  rintro ⟨k, x⟩ he
  exact ((mem_ord_fld hp s.pic f ha).1 he).2

theorem flatMap_perm (hp : ∀ l, (c.ord l).Perm l) (s : Sim h rm) (f : RField) {es : List (Str × Nat)} {ns : List Str}
    (he : ∀ e ∈ es, h.all.get e.1 = some e.2) (hs : (es.map Prod.fst).Perm ns) :
    ((es.flatMap fun e => c.ord ((h.role e.2).fld f)).map Prod.fst).Perm (ns.flatMap fun k => (rm.obj k).fld f) := by
  rw [List.map_flatMap]
  have : ∀ es : List (Str × Nat), (∀ e ∈ es, h.all.get e.1 = some e.2) →
      (es.flatMap fun e => (c.ord ((h.role e.2).fld f)).map Prod.fst).Perm
        ((es.map Prod.fst).flatMap fun k => (rm.obj k).fld f) := by
    intro es
    induction es with
    | nil => exact fun _ => .nil
    | cons e es ih =>
      intro he
      simp only [List.flatMap_cons, List.map_cons]
      exact (names_perm hp s f (he e List.mem_cons_self)).append (ih fun e' h' => he e' (List.mem_cons_of_mem _ h'))
  exact (this es he).trans (hs.flatMap_right _)

theorem rangeRoles_runs (hp : ∀ l, (c.ord l).Perm l) (s : Sim h rm) {n : Str} {a : Nat} (ha : h.all.get n = some a) :
    ∃ es, (c.rangeRoles a).exec h = (h, some es) ∧ (es.map Prod.fst).Perm (rm.rangeRoles n) ∧
      ∀ e ∈ es, h.all.get e.1 = some e.2 := by
  refine ⟨c.ord ((h.role a).fld .roles) ++ (c.ord ((h.role a).fld .roles)).flatMap (fun e => c.ord ((h.role e.2).fld .matched)) ++
    (c.ord ((h.role a).fld .matchedBy)).flatMap (fun e => c.ord ((h.role e.2).fld .roles)), ?_, ?_, ?_⟩
  · unfold rangeRoles
    simp only [Thread.exec, Thread.read, Thread.bind, id]
    refine Eq.trans (exec_bind_some (collect_read (fun (e : Str × Nat) s => c.ord (s.role e.2).matched) h
      (c.ord (h.role a).roles))) ?_
    exact exec_bind_some (collect_read (fun (e : Str × Nat) s => c.ord (s.role e.2).roles) h (c.ord (h.role a).matchedBy))
  · rw [List.map_append, List.map_append]
    have e1 := names_perm hp s .roles ha
    have e2 := names_perm hp s .matchedBy ha
    exact (e1.append (flatMap_perm hp s .matched (entries_ok hp s .roles ha) e1)).append
      (flatMap_perm hp s .roles (entries_ok hp s .matchedBy ha) e2)
  · intro e he
    simp only [List.mem_append, List.mem_flatMap] at he
    rcases he with (he | ⟨e', h', he⟩) | ⟨e', h', he⟩
    · exact entries_ok hp s .roles ha e he
    · exact entries_ok hp s .matched (entries_ok hp s .roles ha e' h') e he
    · exact entries_ok hp s .roles (entries_ok hp s .matchedBy ha e' h') e he

theorem rangeUsers_runs (hp : ∀ l, (c.ord l).Perm l) (s : Sim h rm) {n : Str} {a : Nat} (ha : h.all.get n = some a) :
    ∃ es, (c.rangeUsers a).exec h = (h, some es) ∧ (es.map Prod.fst).Perm (rm.rangeUsers n) := by
  refine ⟨c.ord ((h.role a).fld .users) ++ (c.ord ((h.role a).fld .users)).flatMap (fun e => c.ord ((h.role e.2).fld .matched)) ++
    (c.ord ((h.role a).fld .matchedBy)).flatMap (fun e => c.ord ((h.role e.2).fld .users)), ?_, ?_⟩
  · unfold rangeUsers
    simp only [Thread.exec, Thread.read, Thread.bind, id]
    refine Eq.trans (exec_bind_some (collect_read (fun (e : Str × Nat) s => c.ord (s.role e.2).matched) h
      (c.ord (h.role a).users))) ?_
    exact exec_bind_some (collect_read (fun (e : Str × Nat) s => c.ord (s.role e.2).users) h (c.ord (h.role a).matchedBy))
  · rw [List.map_append, List.map_append]
    have e1 := names_perm hp s .users ha
    have e2 := names_perm hp s .matchedBy ha
    exact (e1.append (flatMap_perm hp s .matched (entries_ok hp s .users ha) e1)).append
      (flatMap_perm hp s .users (entries_ok hp s .matchedBy ha) e2)

/-- What is put into `nextRoles`. -/
theorem foldl_sets {P : Str → Nat → Prop} : ∀ (xs : List (Str × Nat)) {m : GoMap Str Nat}, m.WF → (∀ e ∈ xs, P e.1 e.2) →
    (∀ k x, m.get k = some x → P k x) →
    (xs.foldl (fun m e => m.set e.1 e.2) m).WF ∧ (∀ k x, (xs.foldl (fun m e => m.set e.1 e.2) m).get k = some x → P k x) ∧
      ∀ k, (xs.foldl (fun m e => m.set e.1 e.2) m).has k = true ↔ m.has k = true ∨ k ∈ xs.map Prod.fst
  | [], m, w, _, hm => ⟨w, hm, fun k => by simp⟩
  | (e1, e2) :: xs, m, w, he, hm => by
    obtain ⟨h1, h2, h3⟩ := foldl_sets (P := P) xs (w.set e1 e2) (fun e h => he e (List.mem_cons_of_mem _ h)) (fun k x hk => by
      rw [GoMap.get_set] at hk
      split at hk
      · rename_i c; subst c; cases hk; exact he _ List.mem_cons_self
      · exact hm k x hk)
    refine ⟨h1, h2, fun k => (h3 k).trans ?_⟩
    simp only [GoMap.has, GoMap.get_set, List.map_cons, List.mem_cons]
    split
    · rename_i c; simp [c]
    · rename_i c; simp [Ne.symm c]

theorem visit_runs (hp : ∀ l, (c.ord l).Perm l) (hm : c.matcher = rm.matcher) (s : Sim h rm) (target : Str) :
    ∀ (es : List (Str × Nat)) (next : GoMap Str Nat), (∀ e ∈ es, h.all.get e.1 = some e.2) → next.WF →
      (∀ k x, next.get k = some x → h.all.get k = some x) →
      ((es.any fun e => target == e.1 || rm.matches e.1 target) = true → (c.visit target es next).exec h = (h, some none)) ∧
      ((es.any fun e => target == e.1 || rm.matches e.1 target) = false →
        ∃ next', (c.visit target es next).exec h = (h, some (some next')) ∧ next'.WF ∧
          (∀ k x, next'.get k = some x → h.all.get k = some x) ∧
          ∀ k, next'.has k = true ↔ next.has k = true ∨ k ∈ (es.map Prod.fst).flatMap rm.rangeRoles)
  | [], next, _, w, hn => ⟨fun e => by simp at e, fun _ => ⟨next, rfl, w, hn, fun k => by simp⟩⟩
  | (n, a) :: es, next, he, w, hn => by
    have hmm : c.matches n target = rm.matches n target := by
      unfold RConf.matches RM.matches; rw [hm]; cases rm.matcher <;> rfl
    unfold visit
    by_cases hc : target = n ∨ c.matches n target = true
    · rw [if_pos hc]
      refine ⟨fun _ => rfl, fun e => ?_⟩
      rw [List.any_cons, Bool.or_eq_false_iff, Bool.or_eq_false_iff] at e
      rcases hc with hc | hc
      · simp [hc] at e
      · rw [← hmm, hc] at e; cases e.1.2
    · rw [if_neg hc]
      obtain ⟨xs, x1, x2, x3⟩ := rangeRoles_runs hp s (he _ List.mem_cons_self)
      rw [exec_bind_some x1]
      obtain ⟨f1, f2, f3⟩ := foldl_sets (P := fun k x => h.all.get k = some x) xs w x3 hn
      obtain ⟨y1, y2⟩ := visit_runs hp hm s target es _ (fun e h' => he e (List.mem_cons_of_mem _ h')) f1 f2
      have hb : (target == n || rm.matches n target) = false := by
        rw [← hmm]
        simp only [not_or, Bool.not_eq_true] at hc
        simp [hc.1, hc.2]
      rw [List.any_cons]
      simp only [hb, Bool.false_or]
      refine ⟨y1, fun e => ?_⟩
      obtain ⟨next', z1, z2, z3, z4⟩ := y2 e
      refine ⟨next', z1, z2, z3, fun k => (z4 k).trans ?_⟩
      rw [f3 k, x2.mem_iff, List.map_cons, List.flatMap_cons, List.mem_append, or_assoc]

theorem helper_runs (hp : ∀ l, (c.ord l).Perm l) (hm : c.matcher = rm.matcher) (s : Sim h rm) (target : Str) :
    ∀ (level : Nat) (roles : GoMap Str Nat) (ns : List Str), roles.WF → (∀ k x, roles.get k = some x → h.all.get k = some x) →
      (∀ k, roles.has k = true ↔ k ∈ ns) → (c.helper target level roles).exec h = (h, some (rm.hasLinkHelper target level ns))
  | 0, _, _, _, _, _ => rfl
  | level + 1, roles, ns, w, hr, hk => by
    have hmem : ∀ k, (∃ x, (k, x) ∈ roles) ↔ k ∈ ns := by
      intro k
      rw [← hk, GoMap.has, Option.isSome_iff_exists]
      exact ⟨fun ⟨x, hx⟩ => ⟨x, w.get_of_mem hx⟩, fun ⟨x, hx⟩ => ⟨x, GoMap.mem_of_get hx⟩⟩
    unfold helper RM.hasLinkHelper
    by_cases he : roles.isEmpty = true
    · have : ns.isEmpty = true := by
        rw [List.isEmpty_iff] at he ⊢
        apply List.eq_nil_iff_forall_not_mem.2
        intro k hk'
        obtain ⟨x, hx⟩ := (hmem k).2 hk'
        rw [he] at hx; cases hx
      rw [if_pos he, if_pos this]; rfl
    · have : ¬ ns.isEmpty = true := by
        intro e
        apply he
        rw [List.isEmpty_iff] at e ⊢
        apply List.eq_nil_iff_forall_not_mem.2
        rintro ⟨k, x⟩ hk'
        have := (hmem k).1 ⟨x, hk'⟩
        rw [e] at this; cases this
      rw [if_neg he, if_neg this]
      have hv : ∀ e ∈ c.ord roles, h.all.get e.1 = some e.2 := fun e h' => hr _ _ (w.get_of_mem ((hp _).mem_iff.1 h'))
      obtain ⟨y1, y2⟩ := visit_runs hp hm s target (c.ord roles) [] hv GoMap.WF.nil (fun k x e => by cases e)
      have hany : ((c.ord roles).any fun e => target == e.1 || rm.matches e.1 target) =
          ns.any fun n => target == n || rm.matches n target := by
        rw [Bool.eq_iff_iff, List.any_eq_true, List.any_eq_true]
        constructor
        · rintro ⟨⟨k, x⟩, h1, h2⟩
          exact ⟨k, (hmem k).1 ⟨x, (hp _).mem_iff.1 h1⟩, h2⟩
        · rintro ⟨k, h1, h2⟩
          obtain ⟨x, hx⟩ := (hmem k).2 h1
          exact ⟨(k, x), (hp _).mem_iff.2 hx, h2⟩
      cases ha : (ns.any fun n => target == n || rm.matches n target) with
      | true =>
        rw [exec_bind_some (y1 (hany.trans ha))]
        rfl
      | false =>
        obtain ⟨next, z1, z2, z3, z4⟩ := y2 (hany.trans ha)
        rw [exec_bind_some z1]
        refine (helper_runs hp hm s target level next _ z2 z3 fun k => ?_).trans rfl
        rw [z4, mem_foldl_sins]
        simp only [List.not_mem_nil, false_or, List.mem_flatMap]
        constructor
        · rintro (x | ⟨n, hn, hx⟩)
          · cases x
          · obtain ⟨⟨n', x⟩, h1, rfl⟩ := List.mem_map.1 hn
            exact ⟨n', (hmem n').1 ⟨x, (hp _).mem_iff.1 h1⟩, hx⟩
        · rintro ⟨n, hn, hx⟩
          obtain ⟨x, h1⟩ := (hmem n).2 hn
          exact .inr ⟨n, List.mem_map.2 ⟨(n, x), (hp _).mem_iff.2 h1, rfl⟩, hx⟩

end RConf

end Fastac
