import Verif.Lemmas.RoleManager

/-!
# Links, queries and histories of the role manager
-/

namespace Fastac

theorem RM.Inv.relink {rm : RM} {L L' : Str → Str → Prop} (h : rm.Inv L) (obj' : Str → Role)
    (hm : ∀ k, (obj' k).matched = (rm.obj k).matched ∧ (obj' k).matchedBy = (rm.obj k).matchedBy)
    (hfresh : ∀ k, k ∉ rm.names → obj' k = {})
    (hroles : ∀ u r, r ∈ (obj' u).roles ↔ L' u r) (husers : ∀ u r, u ∈ (obj' r).users ↔ L' u r)
    (hnd : ∀ u, (obj' u).roles.Nodup) : ({ rm with obj := obj' } : RM).Inv L' := by
  constructor
  · exact h.nodup
  · exact hfresh
  · exact hroles
  · exact husers
  · exact hnd
  · exact h.pats
  · intro p n
    show n ∈ (obj' p).matched ↔ p ∈ (obj' n).matchedBy
    rw [(hm p).1, (hm n).2]; exact h.msym p n
  · intro p n hn
    have hn' : n ∈ (obj' p).matched := hn
    rw [(hm p).1] at hn'; exact h.mnames p n hn'
  · intro p n h1 h2 h3 h4
    show n ∈ (obj' p).matched
    rw [(hm p).1]; exact h.mcomplete p n h1 h2 h3 h4

theorem upd2_roles (o : Str → Role) (u r k : Str) (F G : List Str → List Str) :
    (updRole (updRole o u (fun x => { x with roles := F x.roles })) r
      (fun x => { x with users := G x.users }) k).roles =
      if k = u then F (o k).roles else (o k).roles := by
  unfold updRole
  by_cases h1 : k = r
  · rw [if_pos h1]
    by_cases h2 : k = u
    · rw [if_pos h2, if_pos h2]
    · rw [if_neg h2, if_neg h2]
  · rw [if_neg h1]
    by_cases h2 : k = u
    · rw [if_pos h2, if_pos h2]
    · rw [if_neg h2, if_neg h2]

theorem upd2_users (o : Str → Role) (u r k : Str) (F G : List Str → List Str) :
    (updRole (updRole o u (fun x => { x with roles := F x.roles })) r
      (fun x => { x with users := G x.users }) k).users =
      if k = r then G (o k).users else (o k).users := by
  unfold updRole
  by_cases h1 : k = r
  · rw [if_pos h1, if_pos h1]
    by_cases h2 : k = u
    · rw [if_pos h2]
    · rw [if_neg h2]
  · rw [if_neg h1, if_neg h1]
    by_cases h2 : k = u
    · rw [if_pos h2]
    · rw [if_neg h2]

/-- The links after adding one. -/
def addL (L : Str → Str → Prop) (u r : Str) : Str → Str → Prop := fun x y => L x y ∨ (x = u ∧ y = r)
/-- The links after deleting one. -/
def delL (L : Str → Str → Prop) (u r : Str) : Str → Str → Prop := fun x y => L x y ∧ ¬(x = u ∧ y = r)

/-- What a call of `AddLink`/`DeleteLink` does not change. -/
structure RM.Same (rm rm' : RM) (u r : Str) : Prop where
  names : ∀ k, k ∈ rm'.names ↔ k ∈ rm.names ∨ k = u ∨ k = r
  matcher : rm'.matcher = rm.matcher
  level : rm'.level = rm.level

theorem RM.getRole_red {rm : RM} {L : Str → Str → Prop} (h : rm.Inv L) (n k : Str) :
    ((rm.getRole n).1.obj k).redundant = (rm.obj k).redundant := by
  by_cases hn : n ∈ rm.names
  · rw [RM.getRole_of_mem hn]
  · rw [h.getRole_obj hn]

theorem RM.getRole2_inv {rm : RM} {L : Str → Str → Prop} (h : rm.Inv L) (u r : Str) :
    ((rm.getRole u).1.getRole r).1.Inv L ∧ rm.Same ((rm.getRole u).1.getRole r).1 u r ∧
      ∀ k, (((rm.getRole u).1.getRole r).1.obj k).redundant = (rm.obj k).redundant := by
  refine ⟨(h.getRole u).getRole r, ⟨?_, ?_, ?_⟩, ?_⟩
  · intro k; rw [RM.mem_getRole_names, RM.mem_getRole_names, or_assoc]
  · rw [RM.getRole_matcher, RM.getRole_matcher]
  · rw [RM.getRole_level, RM.getRole_level]
  · intro k; rw [RM.getRole_red (h.getRole u), RM.getRole_red h]

theorem RM.Inv.addLink {rm : RM} {L : Str → Str → Prop} (h : rm.Inv L) (u r : Str)
    (ds : List Str) :
    (rm.addLink u r ds).1.Inv (addL L u r) ∧ rm.Same (rm.addLink u r ds).1 u r ∧
      ((rm.addLink u r ds).2 = true ↔ ¬ L u r) ∧
      (∀ x y, y ∈ ((rm.addLink u r ds).1.obj x).redundant ↔
        y ∈ (rm.obj x).redundant ∨ (ds.head? = some redundantRole ∧ x = u ∧ y = r)) := by
  obtain ⟨h2, s2, d2⟩ := RM.getRole2_inv h u r
  unfold RM.addLink
  simp only
  generalize ((rm.getRole u).1.getRole r).1 = m at h2 s2 d2
  have hu : u ∈ m.names := (s2.names u).2 (Or.inr (Or.inl rfl))
  have hr : r ∈ m.names := (s2.names r).2 (Or.inr (Or.inr rfl))
  -- the object after the redundant flag
  generalize hobj : (if ds.head? = some redundantRole then
      updRole m.obj u (fun x => { x with redundant := sins x.redundant r }) else m.obj) = o
  have ho : ∀ k, (o k).roles = (m.obj k).roles ∧ (o k).users = (m.obj k).users ∧
      (o k).matched = (m.obj k).matched ∧ (o k).matchedBy = (m.obj k).matchedBy := by
    intro k; subst hobj
    split
    · unfold updRole; split <;> simp
    · simp
  have hored : ∀ x y, y ∈ (o x).redundant ↔
        y ∈ (rm.obj x).redundant ∨ (ds.head? = some redundantRole ∧ x = u ∧ y = r) := by
    intro x y; subst hobj
    split
    · rename_i hd
      unfold updRole
      by_cases hx : x = u
      · simp [hx, d2, hd]
      · simp [hx, d2]
    · rename_i hd; simp [hd, d2]
  have hof : ∀ k, k ∉ m.names → o k = {} := by
    intro k hk; subst hobj
    have hku : k ≠ u := fun e => hk (e ▸ hu)
    split
    · unfold updRole; rw [if_neg hku]; exact h2.fresh k hk
    · exact h2.fresh k hk
  by_cases hin : r ∈ (o u).roles
  · rw [if_pos hin]
    have hL : L u r := by rw [(ho u).1] at hin; exact (h2.roles u r).1 hin
    refine ⟨?_, ⟨s2.names, s2.matcher, s2.level⟩, by simp [hL], hored⟩
    have hLL : addL L u r = L := by
      funext x y; unfold addL; apply propext
      constructor
      · rintro (a | ⟨rfl, rfl⟩)
        · exact a
        · exact hL
      · exact Or.inl
    rw [hLL]
    apply h2.relink o (fun k => ⟨(ho k).2.2.1, (ho k).2.2.2⟩) hof
    · intro x y; rw [(ho x).1]; exact h2.roles x y
    · intro x y; rw [(ho y).2.1]; exact h2.users x y
    · intro x; rw [(ho x).1]; exact h2.rolesNodup x
  · rw [if_neg hin]
    have hL : ¬ L u r := fun hl => hin (by rw [(ho u).1]; exact (h2.roles u r).2 hl)
    refine ⟨?_, ⟨s2.names, s2.matcher, s2.level⟩, by simp [hL], ?_⟩
    · apply h2.relink
      · intro k
        simp only [updRole]
        split <;> split <;> simp [(ho _).2.2.1, (ho _).2.2.2]
      · intro k hk
        have hku : k ≠ u := fun e => hk (e ▸ hu)
        have hkr : k ≠ r := fun e => hk (e ▸ hr)
        simp only [updRole, if_neg hku, if_neg hkr]
        exact hof k hk
      · intro x y
        have hx := h2.roles x y
        rw [← (ho x).1] at hx
        rw [upd2_roles o u r x (fun l => sins l r) (fun l => sins l u)]
        unfold addL
        by_cases h1 : x = u
        · rw [if_pos h1, mem_sins, hx]; simp [h1]
        · rw [if_neg h1, hx]; simp [h1]
      · intro x y
        have hx := h2.users x y
        rw [← (ho y).2.1] at hx
        rw [upd2_users o u r y (fun l => sins l r) (fun l => sins l u)]
        unfold addL
        by_cases h1 : y = r
        · rw [if_pos h1, mem_sins, hx]; simp [h1]
        · rw [if_neg h1, hx]; simp [h1]
      · intro x
        have hx := h2.rolesNodup x
        rw [← (ho x).1] at hx
        simp only [updRole]
        split <;> split <;> first | exact hx | exact nodup_sins hx
    · intro x y
      rw [← hored]
      simp only [updRole]
      split <;> split <;> simp

theorem RM.Inv.deleteLink {rm : RM} {L : Str → Str → Prop} (h : rm.Inv L) (u r : Str)
    (ds : List Str) :
    (rm.deleteLink u r ds).1.Inv (delL L u r) ∧ rm.Same (rm.deleteLink u r ds).1 u r ∧
      ((rm.deleteLink u r ds).2 = true ↔ L u r) ∧
      (∀ x y, y ∈ ((rm.deleteLink u r ds).1.obj x).redundant ↔
        y ∈ (rm.obj x).redundant ∧ ¬(ds.head? = some redundantRole ∧ x = u ∧ y = r)) := by
  obtain ⟨h2, s2, d2⟩ := RM.getRole2_inv h u r
  unfold RM.deleteLink
  simp only
  generalize ((rm.getRole u).1.getRole r).1 = m at h2 s2 d2
  have hu : u ∈ m.names := (s2.names u).2 (Or.inr (Or.inl rfl))
  have hr : r ∈ m.names := (s2.names r).2 (Or.inr (Or.inr rfl))
  generalize hobj : (if ds.head? = some redundantRole then
      updRole m.obj u (fun x => { x with redundant := sdel x.redundant r }) else m.obj) = o
  have ho : ∀ k, (o k).roles = (m.obj k).roles ∧ (o k).users = (m.obj k).users ∧
      (o k).matched = (m.obj k).matched ∧ (o k).matchedBy = (m.obj k).matchedBy := by
    intro k; subst hobj
    split
    · unfold updRole; split <;> simp
    · simp
  have hored : ∀ x y, y ∈ (o x).redundant ↔
        y ∈ (rm.obj x).redundant ∧ ¬(ds.head? = some redundantRole ∧ x = u ∧ y = r) := by
    intro x y; subst hobj
    split
    · rename_i hd
      unfold updRole
      by_cases hx : x = u
      · simp [hx, d2, hd]
      · simp [hx, d2]
    · rename_i hd; simp [hd, d2]
  have hof : ∀ k, k ∉ m.names → o k = {} := by
    intro k hk; subst hobj
    have hku : k ≠ u := fun e => hk (e ▸ hu)
    split
    · unfold updRole; rw [if_neg hku]; exact h2.fresh k hk
    · exact h2.fresh k hk
  by_cases hin : r ∈ (o u).roles
  · rw [if_pos hin]
    have hL : L u r := by rw [(ho u).1] at hin; exact (h2.roles u r).1 hin
    refine ⟨?_, ⟨s2.names, s2.matcher, s2.level⟩, by simp [hL], ?_⟩
    · apply h2.relink
      · intro k
        simp only [updRole]
        split <;> split <;> simp [(ho _).2.2.1, (ho _).2.2.2]
      · intro k hk
        have hku : k ≠ u := fun e => hk (e ▸ hu)
        have hkr : k ≠ r := fun e => hk (e ▸ hr)
        simp only [updRole, if_neg hku, if_neg hkr]
        exact hof k hk
      · intro x y
        have hx := h2.roles x y
        rw [← (ho x).1] at hx
        rw [upd2_roles o u r x (fun l => sdel l r) (fun l => sdel l u)]
        unfold delL
        by_cases h1 : x = u
        · rw [if_pos h1, mem_sdel, hx]; simp [h1]
        · rw [if_neg h1, hx]; simp [h1]
      · intro x y
        have hx := h2.users x y
        rw [← (ho y).2.1] at hx
        rw [upd2_users o u r y (fun l => sdel l r) (fun l => sdel l u)]
        unfold delL
        by_cases h1 : y = r
        · rw [if_pos h1, mem_sdel, hx]; simp [h1]
        · rw [if_neg h1, hx]; simp [h1]
      · intro x
        have hx := h2.rolesNodup x
        rw [← (ho x).1] at hx
        simp only [updRole]
        split <;> split <;> first | exact hx | exact nodup_sdel hx
    · intro x y
      rw [← hored]
      simp only [updRole]
      split <;> split <;> simp
  · rw [if_neg hin]
    have hL : ¬ L u r := fun hl => hin (by rw [(ho u).1]; exact (h2.roles u r).2 hl)
    refine ⟨?_, ⟨s2.names, s2.matcher, s2.level⟩, by simp [hL], hored⟩
    have hLL : delL L u r = L := by
      funext x y; unfold delL; apply propext
      constructor
      · exact fun a => a.1
      · intro a; refine ⟨a, ?_⟩; rintro ⟨rfl, rfl⟩; exact hL a
    rw [hLL]
    apply h2.relink o (fun k => ⟨(ho k).2.2.1, (ho k).2.2.2⟩) hof
    · intro x y; rw [(ho x).1]; exact h2.roles x y
    · intro x y; rw [(ho y).2.1]; exact h2.users x y
    · intro x; rw [(ho x).1]; exact h2.rolesNodup x

/-! ## Queries leave the state alone -/

theorem RM.Inv.hasLink_state {rm : RM} {L : Str → Str → Prop} (h : rm.Inv L) (u r : Str) :
    (rm.hasLink u r).1 = rm := by
  unfold RM.hasLink
  split
  · rfl
  · simp only
    have h1 := h.getRole u
    have e2 : (if ((rm.getRole u).1.getRole r).2 = true then
        ((rm.getRole u).1.getRole r).1.removeRole r else ((rm.getRole u).1.getRole r).1) =
        (rm.getRole u).1 := by
      rw [RM.getRole_created]
      by_cases hr : r ∈ (rm.getRole u).1.names
      · rw [RM.getRole_of_mem hr]; simp [hr]
      · simp only [hr, not_false_eq_true, decide_true, if_true]
        exact h1.remove_getRole hr
    rw [e2, RM.getRole_created]
    by_cases hu : u ∈ rm.names
    · rw [RM.getRole_of_mem hu]; simp [hu]
    · simp only [hu, not_false_eq_true, decide_true, if_true]
      exact h.remove_getRole hu

theorem RM.Inv.getRoles_state {rm : RM} {L : Str → Str → Prop} (h : rm.Inv L) (n : Str) :
    (rm.getRoles n).1 = rm := by
  unfold RM.getRoles
  simp only
  rw [RM.getRole_created]
  by_cases hu : n ∈ rm.names
  · rw [RM.getRole_of_mem hu]; simp [hu]
  · simp only [hu, not_false_eq_true, decide_true, if_true]
    exact h.remove_getRole hu

theorem RM.Inv.getUsers_state {rm : RM} {L : Str → Str → Prop} (h : rm.Inv L) (n : Str) :
    (rm.getUsers n).1 = rm := by
  unfold RM.getUsers
  simp only
  rw [RM.getRole_created]
  by_cases hu : n ∈ rm.names
  · rw [RM.getRole_of_mem hu]; simp [hu]
  · simp only [hu, not_false_eq_true, decide_true, if_true]
    exact h.remove_getRole hu

/-! ## Reachability -/

theorem RM.hasLinkHelper_iff (rm : RM) (t : Str) : ∀ (lvl : Nat) (fr : List Str),
    rm.hasLinkHelper t lvl fr = true ↔
      ∃ k, k < lvl ∧ ∃ x ∈ fr, ∃ c, Reach (fun a b => b ∈ rm.rangeRoles a) k x c ∧
        (t = c ∨ rm.matches c t = true) := by
  intro lvl
  induction lvl with
  | zero => intro fr; simp [RM.hasLinkHelper]
  | succ lvl ih =>
    intro fr
    unfold RM.hasLinkHelper
    split
    · rename_i he
      have : fr = [] := by simpa using he
      subst this
      simp
    · split
      · rename_i hany
        simp only [true_iff]
        obtain ⟨x, hx, hh⟩ := List.any_eq_true.1 hany
        refine ⟨0, by omega, x, hx, x, .refl x, ?_⟩
        simpa using hh
      · rename_i hany
        rw [ih]
        constructor
        · rintro ⟨k, hk, y, hy, c, hr, hc⟩
          rw [mem_foldl_sins] at hy
          simp only [List.not_mem_nil, false_or, List.mem_flatMap] at hy
          obtain ⟨x, hx, hxy⟩ := hy
          exact ⟨k + 1, by omega, x, hx, c, .step hxy hr, hc⟩
        · rintro ⟨k, hk, x, hx, c, hr, hc⟩
          cases hr with
          | refl =>
            exfalso; apply hany
            rw [List.any_eq_true]
            refine ⟨x, hx, ?_⟩
            simpa using hc
          | step hxy hr =>
            rename_i n b
            refine ⟨n, by omega, b, ?_, c, hr, hc⟩
            rw [mem_foldl_sins]
            right
            exact List.mem_flatMap.2 ⟨x, hx, hxy⟩

theorem RM.Inv.mem_rangeRoles {rm : RM} {L : Str → Str → Prop} (h : rm.Inv L) (x y : Str) :
    y ∈ rm.rangeRoles x ↔ L x y ∨ (∃ p, L x p ∧ y ∈ (rm.obj p).matched) ∨
      (∃ p, L p y ∧ x ∈ (rm.obj p).matched) := by
  simp only [RM.rangeRoles, List.mem_append, List.mem_flatMap, h.roles, or_assoc]
  constructor
  · rintro (a | a | ⟨p, hp, hy⟩)
    · exact Or.inl a
    · exact Or.inr (Or.inl a)
    · exact Or.inr (Or.inr ⟨p, hy, (h.msym p x).2 hp⟩)
  · rintro (a | a | ⟨p, hy, hp⟩)
    · exact Or.inl a
    · exact Or.inr (Or.inl a)
    · exact Or.inr (Or.inr ⟨p, (h.msym p x).1 hp, hy⟩)

theorem RM.Inv.mem_rangeUsers {rm : RM} {L : Str → Str → Prop} (h : rm.Inv L) (x y : Str) :
    x ∈ rm.rangeUsers y ↔ L x y ∨ (∃ p, L x p ∧ y ∈ (rm.obj p).matched) ∨
      (∃ p, L p y ∧ x ∈ (rm.obj p).matched) := by
  simp only [RM.rangeUsers, List.mem_append, List.mem_flatMap, h.users, or_assoc]
  constructor
  · rintro (a | ⟨p, hp, hy⟩ | ⟨p, hp, hy⟩)
    · exact Or.inl a
    · exact Or.inr (Or.inr ⟨p, hp, hy⟩)
    · exact Or.inr (Or.inl ⟨p, hy, (h.msym p y).2 hp⟩)
  · rintro (a | ⟨p, hp, hy⟩ | ⟨p, hp, hy⟩)
    · exact Or.inl a
    · exact Or.inr (Or.inr ⟨p, (h.msym p y).1 hy, hp⟩)
    · exact Or.inr (Or.inl ⟨p, hp, hy⟩)

theorem Reach.mono {α : Type} {R R' : α → α → Prop} (h : ∀ a b, R a b → R' a b) {n : Nat} {a b : α}
    (hr : Reach R n a b) : Reach R' n a b := by
  induction hr with
  | refl => exact .refl _
  | step hx _ ih => exact .step (h _ _ hx) ih

/-- `HasLink` in terms of the state after `getRole` of both names. -/
theorem RM.hasLink_result (rm : RM) (u r : Str) : (rm.hasLink u r).2 = true ↔
    u = r ∨ rm.matches u r = true ∨
      ∃ k, k < rm.level ∧ ∃ c,
        Reach (fun a b => b ∈ ((rm.getRole u).1.getRole r).1.rangeRoles a) k u c ∧
          (r = c ∨ rm.matches c r = true) := by
  unfold RM.hasLink
  split
  · rename_i h
    simp only [Bool.or_eq_true, beq_iff_eq] at h
    simp only [true_iff]
    rcases h with h | h
    · exact Or.inl h
    · exact Or.inr (Or.inl h)
  · rename_i h
    simp only [Bool.or_eq_true, beq_iff_eq, not_or] at h
    simp only
    rw [RM.hasLinkHelper_iff]
    have hm : ∀ c, ((rm.getRole u).1.getRole r).1.matches c r = rm.matches c r := by
      intro c; unfold RM.matches; rw [RM.getRole_matcher, RM.getRole_matcher]
    rw [RM.getRole_level, RM.getRole_level]
    constructor
    · rintro ⟨k, hk, x, hx, c, hr, hc⟩
      simp only [List.mem_singleton] at hx
      subst hx
      rw [hm] at hc
      exact Or.inr (Or.inr ⟨k, hk, c, hr, hc⟩)
    · rintro (a | a | ⟨k, hk, c, hr, hc⟩)
      · exact absurd a h.1
      · exact absurd a h.2
      · exact ⟨k, hk, u, by simp, c, hr, by rw [hm]; exact hc⟩

theorem RM.Inv.no_matched {rm : RM} {L : Str → Str → Prop} (h : rm.Inv L)
    (hm : rm.matcher = none) (p n : Str) : n ∉ (rm.obj p).matched := by
  intro hx
  obtain ⟨_, _, m, e, _⟩ := h.mnames p n hx
  rw [hm] at e; cases e

theorem RM.Inv.matched_iff {rm : RM} {L : Str → Str → Prop} (h : rm.Inv L) {m : PMatcher}
    (hm : rm.matcher = some m) (hf : m.FlatOn (fun n => n ∈ rm.names)) (p n : Str) :
    n ∈ (rm.obj p).matched ↔ n ∈ rm.names ∧ p ∈ rm.names ∧ m.covers p n := by
  constructor
  · intro hx
    obtain ⟨a, b, m', e, c⟩ := h.mnames p n hx
    rw [hm] at e; cases e
    exact ⟨a, b, c⟩
  · rintro ⟨a, b, c⟩
    apply h.mcomplete p n b a ⟨m, hm, c⟩
    rintro ⟨m', e, hp⟩
    rw [hm] at e; cases e
    have := hf n p a b hp c.1 c.2.1
    rw [c.2.2] at this; cases this

theorem RM.Inv.step_plain {rm : RM} {L : Str → Str → Prop} (h : rm.Inv L)
    (hm : rm.matcher = none) (x y : Str) : y ∈ rm.rangeRoles x ↔ L x y := by
  rw [h.mem_rangeRoles]
  constructor
  · rintro (a | ⟨p, _, b⟩ | ⟨p, _, b⟩)
    · exact a
    · exact absurd b (h.no_matched hm _ _)
    · exact absurd b (h.no_matched hm _ _)
  · exact Or.inl

theorem RM.Inv.step_pattern {rm : RM} {L : Str → Str → Prop} (h : rm.Inv L) {m : PMatcher}
    (hm : rm.matcher = some m) (hf : m.FlatOn (fun n => n ∈ rm.names)) (x y : Str) :
    y ∈ rm.rangeRoles x ↔ m.edge L (fun n => n ∈ rm.names) x y := by
  rw [h.mem_rangeRoles]
  unfold PMatcher.edge
  constructor
  · rintro (a | ⟨p, a, b⟩ | ⟨p, a, b⟩)
    · exact Or.inl a
    · rw [h.matched_iff hm hf] at b
      exact Or.inr (Or.inl ⟨p, a, b.1, b.2.2⟩)
    · rw [h.matched_iff hm hf] at b
      exact Or.inr (Or.inr ⟨p, b.1, a, b.2.2⟩)
  · rintro (a | ⟨p, a, b, c⟩ | ⟨p, a, b, c⟩)
    · exact Or.inl a
    · exact Or.inr (Or.inl ⟨p, a, (h.matched_iff hm hf p y).2 ⟨b, (h.known a).2, c⟩⟩)
    · exact Or.inr (Or.inr ⟨p, b, (h.matched_iff hm hf p x).2 ⟨a, (h.known b).1, c⟩⟩)

/-! ## Histories -/

/-- The links and names after a history. -/
structure RM.After (level : Nat) (m : Option PMatcher) (ops : List LinkOp) (rm : RM) : Prop where
  inv : rm.Inv (fun u r => linked ops u r = true)
  names : ∀ n, n ∈ rm.names ↔ known ops n = true
  red : ∀ x, (rm.obj x).redundant = []
  matcher : rm.matcher = m
  level : rm.level = level

theorem linkAfter_append (u r : Str) : ∀ (ops ops' : List LinkOp) (b : Bool),
    linkAfter u r b (ops ++ ops') = linkAfter u r (linkAfter u r b ops) ops' := by
  intro ops ops'
  induction ops with
  | nil => intro b; rfl
  | cons o ops ih => intro b; cases o <;> simp only [List.cons_append, linkAfter, ih]

theorem knownAfter_append (n : Str) : ∀ (ops ops' : List LinkOp) (b : Bool),
    knownAfter n b (ops ++ ops') = knownAfter n (knownAfter n b ops) ops' := by
  intro ops ops'
  induction ops with
  | nil => intro b; rfl
  | cons o ops ih => intro b; cases o <;> simp only [List.cons_append, knownAfter, ih]

theorem RM.run_append (rm : RM) (ops ops' : List LinkOp) :
    rm.run (ops ++ ops') = (rm.run ops).run ops' := by
  simp [RM.run, List.foldl_append]

theorem RM.after_step {level : Nat} {m : Option PMatcher} {ops : List LinkOp} {rm : RM}
    (h : RM.After level m ops rm) (op : LinkOp) : RM.After level m (ops ++ [op]) (rm.step op) := by
  cases op with
  | add a b =>
    obtain ⟨h1, h2, _, h4⟩ := h.inv.addLink a b []
    refine ⟨?_, ?_, ?_, h2.matcher.trans h.matcher, h2.level.trans h.level⟩
    · have e : addL (fun u r => linked ops u r = true) a b =
          fun u r => linked (ops ++ [.add a b]) u r = true := by
        funext u r
        simp only [addL, linked, linkAfter_append, linkAfter, Bool.or_eq_true, Bool.and_eq_true,
          beq_iff_eq]
        apply propext
        constructor
        · rintro (h | ⟨rfl, rfl⟩)
          · exact Or.inl h
          · exact Or.inr ⟨rfl, rfl⟩
        · rintro (h | ⟨rfl, rfl⟩)
          · exact Or.inl h
          · exact Or.inr ⟨rfl, rfl⟩
      rw [← e]; exact h1
    · intro n
      show n ∈ (rm.addLink a b []).1.names ↔ _
      rw [h2.names, h.names]
      simp only [known, knownAfter_append, knownAfter, Bool.or_eq_true, beq_iff_eq, or_assoc]
      constructor
      · rintro (h | rfl | rfl) <;> simp_all
      · rintro (h | rfl | rfl) <;> simp_all
    · intro x
      apply List.eq_nil_iff_forall_not_mem.2
      intro y hy
      have := (h4 x y).1 hy
      rw [h.red] at this
      simp at this
  | del a b =>
    obtain ⟨h1, h2, _, h4⟩ := h.inv.deleteLink a b []
    refine ⟨?_, ?_, ?_, h2.matcher.trans h.matcher, h2.level.trans h.level⟩
    · have e : delL (fun u r => linked ops u r = true) a b =
          fun u r => linked (ops ++ [.del a b]) u r = true := by
        funext u r
        simp only [delL, linked, linkAfter_append, linkAfter, Bool.and_eq_true, Bool.not_eq_true',
          Bool.and_eq_false_iff, beq_eq_false_iff_ne]
        apply propext
        constructor
        · rintro ⟨h, hn⟩
          refine ⟨h, ?_⟩
          by_cases ha : a = u
          · right; intro hb; exact hn ⟨ha.symm, hb.symm⟩
          · exact Or.inl ha
        · rintro ⟨h, hn⟩
          refine ⟨h, ?_⟩
          rintro ⟨rfl, rfl⟩
          simp at hn
      rw [← e]; exact h1
    · intro n
      show n ∈ (rm.deleteLink a b []).1.names ↔ _
      rw [h2.names, h.names]
      simp only [known, knownAfter_append, knownAfter, Bool.or_eq_true, beq_iff_eq, or_assoc]
      constructor
      · rintro (h | rfl | rfl) <;> simp_all
      · rintro (h | rfl | rfl) <;> simp_all
    · intro x
      apply List.eq_nil_iff_forall_not_mem.2
      intro y hy
      have := (h4 x y).1 hy
      rw [h.red] at this
      simp at this
  | clear =>
    refine ⟨?_, ?_, ?_, h.matcher, h.level⟩
    · have : (fun u r => linked (ops ++ [.clear]) u r = true) = fun _ _ => False := by
        funext u r; simp [linked, linkAfter_append, linkAfter]
      rw [this]; exact RM.Inv.clear
    · intro n
      simp [RM.step, RM.clear, known, knownAfter_append, knownAfter]
    · intro x; rfl
  | hasLink a b =>
    have e : rm.step (.hasLink a b) = rm := h.inv.hasLink_state a b
    rw [e]
    refine ⟨?_, ?_, h.red, h.matcher, h.level⟩
    · have : (fun u r => linked (ops ++ [.hasLink a b]) u r = true) =
          fun u r => linked ops u r = true := by
        funext u r; simp [linked, linkAfter_append, linkAfter]
      rw [this]; exact h.inv
    · intro n; rw [h.names]; simp [known, knownAfter_append, knownAfter]
  | getRoles a =>
    have e : rm.step (.getRoles a) = rm := h.inv.getRoles_state a
    rw [e]
    refine ⟨?_, ?_, h.red, h.matcher, h.level⟩
    · have : (fun u r => linked (ops ++ [.getRoles a]) u r = true) =
          fun u r => linked ops u r = true := by
        funext u r; simp [linked, linkAfter_append, linkAfter]
      rw [this]; exact h.inv
    · intro n; rw [h.names]; simp [known, knownAfter_append, knownAfter]
  | getUsers a =>
    have e : rm.step (.getUsers a) = rm := h.inv.getUsers_state a
    rw [e]
    refine ⟨?_, ?_, h.red, h.matcher, h.level⟩
    · have : (fun u r => linked (ops ++ [.getUsers a]) u r = true) =
          fun u r => linked ops u r = true := by
        funext u r; simp [linked, linkAfter_append, linkAfter]
      rw [this]; exact h.inv
    · intro n; rw [h.names]; simp [known, knownAfter_append, knownAfter]

theorem RM.after_run (level : Nat) (m : Option PMatcher) (ops : List LinkOp) :
    RM.After level m ops ((RM.new level m).run ops) := by
  have key : ∀ (ops' ops : List LinkOp) (rm : RM), RM.After level m ops rm →
      RM.After level m (ops ++ ops') (rm.run ops') := by
    intro ops'
    induction ops' with
    | nil => intro ops rm h; simpa [RM.run] using h
    | cons o ops' ih =>
      intro ops rm h
      have := ih (ops ++ [o]) (rm.step o) (RM.after_step h o)
      simpa [RM.run] using this
  have h0 : RM.After level m [] (RM.new level m) := by
    refine ⟨?_, ?_, fun _ => rfl, rfl, rfl⟩
    · have : (fun u r => linked [] u r = true) = fun _ _ => False := by
        funext u r; simp [linked, linkAfter]
      rw [this]; exact RM.new_inv level m
    · intro n; simp [RM.new, known, knownAfter]
  simpa using key ops [] _ h0

theorem RM.Inv.mem_links {rm : RM} {L : Str → Str → Prop} (h : rm.Inv L)
    (hred : ∀ x, (rm.obj x).redundant = []) (u r : Str) : (u, r) ∈ rm.links ↔ L u r := by
  simp only [RM.links, List.mem_flatMap, List.mem_map, List.mem_filter, Prod.mk.injEq]
  constructor
  · rintro ⟨x, _, y, ⟨hy, _⟩, rfl, rfl⟩
    exact (h.roles _ _).1 hy
  · intro hl
    exact ⟨u, (h.known hl).1, r, ⟨(h.roles u r).2 hl, by simp [hred]⟩, rfl, rfl⟩

theorem RM.Inv.links_nodup {rm : RM} {L : Str → Str → Prop} (h : rm.Inv L) : rm.links.Nodup := by
  unfold RM.links
  have : ∀ ns : List Str, ns.Nodup → (ns.flatMap (fun u =>
    ((rm.obj u).roles.filter (fun r => r ∉ (rm.obj u).redundant)).map (fun r => (u, r)))).Nodup := by
    intro ns
    induction ns with
    | nil => intro _; simp
    | cons n ns ih =>
      intro hn
      rw [List.nodup_cons] at hn
      simp only [List.flatMap_cons]
      rw [List.nodup_append]
      refine ⟨?_, ih hn.2, ?_⟩
      · apply List.Pairwise.map _ _ ((h.rolesNodup n).sublist List.filter_sublist)
        intro a b hab e
        cases e; exact hab rfl
      · intro a ha b hb e
        subst e
        obtain ⟨r, _, rfl⟩ := List.mem_map.1 ha
        obtain ⟨n', hn', hb'⟩ := List.mem_flatMap.1 hb
        obtain ⟨r', _, e⟩ := List.mem_map.1 hb'
        cases e
        exact hn.1 hn'
  exact this _ h.nodup

end Fastac
