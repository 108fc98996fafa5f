import Verif.Lemmas.RoleState

/-! # Role managers with links marked redundant -/

namespace Fastac

/-- A role manager with the links `L`, of which `R` are marked, and the names `K`. -/
structure RM.HasR (rm : RM) (level : Nat) (m : Option PMatcher) (L R : Str → Str → Prop) (K : Str → Prop) :
    Prop where
  inv : rm.Inv L
  names : ∀ n, n ∈ rm.names ↔ K n
  red : ∀ x y, y ∈ (rm.obj x).redundant ↔ R x y
  matcher : rm.matcher = m
  level : rm.level = level

namespace RM.HasR

variable {rm : RM} {level : Nat} {m : Option PMatcher} {L R : Str → Str → Prop} {K : Str → Prop}

theorem new (level : Nat) (m : Option PMatcher) :
    (RM.new level m).HasR level m (fun _ _ => False) (fun _ _ => False) (fun _ => False) :=
  ⟨RM.new_inv level m, fun n => by simp [RM.new], fun x y => by simp [RM.new], rfl, rfl⟩

theorem congr {L' R' : Str → Str → Prop} {K' : Str → Prop} (h : rm.HasR level m L R K)
    (hL : ∀ u r, L u r ↔ L' u r) (hR : ∀ u r, R u r ↔ R' u r) (hK : ∀ n, K n ↔ K' n) :
    rm.HasR level m L' R' K' := by
  have e1 : L = L' := by funext u r; exact propext (hL u r)
  have e2 : K = K' := by funext n; exact propext (hK n)
  have e3 : R = R' := by funext u r; exact propext (hR u r)
  rw [← e1, ← e2, ← e3]; exact h

theorem addLink (h : rm.HasR level m L R K) (u r : Str) (ds : List Str) :
    (rm.addLink u r ds).1.HasR level m (addL L u r)
      (fun x y => R x y ∨ (ds.head? = some redundantRole ∧ x = u ∧ y = r)) (fun n => K n ∨ n = u ∨ n = r) ∧
    ((rm.addLink u r ds).2 = true ↔ ¬ L u r) := by
  obtain ⟨h1, h2, h3, h4⟩ := h.inv.addLink u r ds
  refine ⟨⟨h1, fun n => ?_, fun x y => ?_, h2.matcher.trans h.matcher, h2.level.trans h.level⟩, h3⟩
  · rw [h2.names, h.names]
  · rw [h4, h.red]

theorem deleteLink (h : rm.HasR level m L R K) (u r : Str) (ds : List Str) :
    (rm.deleteLink u r ds).1.HasR level m (delL L u r)
      (fun x y => R x y ∧ ¬(ds.head? = some redundantRole ∧ x = u ∧ y = r)) (fun n => K n ∨ n = u ∨ n = r) ∧
    ((rm.deleteLink u r ds).2 = true ↔ L u r) := by
  obtain ⟨h1, h2, h3, h4⟩ := h.inv.deleteLink u r ds
  refine ⟨⟨h1, fun n => ?_, fun x y => ?_, h2.matcher.trans h.matcher, h2.level.trans h.level⟩, h3⟩
  · rw [h2.names, h.names]
  · rw [h4, h.red]

theorem links (h : rm.HasR level m L R K) (u r : Str) : (u, r) ∈ rm.links ↔ L u r ∧ ¬ R u r := by
  simp only [RM.links, List.mem_flatMap, List.mem_map, List.mem_filter, Prod.mk.injEq]
  constructor
  · rintro ⟨x, _, y, ⟨hy, hr⟩, rfl, rfl⟩
    exact ⟨(h.inv.roles _ _).1 hy, by simpa [h.red] using hr⟩
  · rintro ⟨hl, hr⟩
    exact ⟨u, (h.inv.known hl).1, r, ⟨(h.inv.roles u r).2 hl, by simpa [h.red] using hr⟩, rfl, rfl⟩

/-- Copying links. -/
theorem copy : ∀ (ls : List (Str × Str × List Str)), (∀ l ∈ ls, l.2.2 = []) → ∀ (rm : RM)
    (L R : Str → Str → Prop) (K : Str → Prop), rm.HasR level m L R K →
    (ls.foldl (fun rm l => (rm.addLink l.1 l.2.1 (l.2.2 ++ [redundantRole])).1) rm).HasR level m
      (fun u r => L u r ∨ (u, r, []) ∈ ls) (fun u r => R u r ∨ (u, r, []) ∈ ls)
      (fun n => K n ∨ endsOf (fun u r => (u, r, []) ∈ ls) n)
  | [], _, rm, L, R, K, h => h.congr (by simp) (by simp) (by simp [endsOf])
  | (a, b, π) :: ls, hl, rm, L, R, K, h => by
    have e : π = [] := hl (a, b, π) (by simp)
    subst e
    refine (copy ls (fun l hm => hl l (by simp [hm])) _ _ _ _ (h.addLink a b ([] ++ [redundantRole])).1).congr
      (fun u r => ?_) (fun u r => ?_) (fun n => ?_)
    · simp [addL, or_assoc]
    · simp [or_assoc]
    · simp only [endsOf, List.mem_cons, Prod.mk.injEq, and_true]
      constructor
      · rintro ((h | rfl | rfl) | ⟨x, h | h⟩)
        · exact Or.inl h
        · exact Or.inr ⟨b, Or.inl (Or.inl ⟨rfl, rfl⟩)⟩
        · exact Or.inr ⟨a, Or.inr (Or.inl ⟨rfl, rfl⟩)⟩
        · exact Or.inr ⟨x, Or.inl (Or.inr h)⟩
        · exact Or.inr ⟨x, Or.inr (Or.inr h)⟩
      · rintro (h | ⟨x, (⟨rfl, rfl⟩ | h) | (⟨rfl, rfl⟩ | h)⟩)
        · exact Or.inl (Or.inl h)
        · exact Or.inl (Or.inr (Or.inl rfl))
        · exact Or.inr ⟨x, Or.inl h⟩
        · exact Or.inl (Or.inr (Or.inr rfl))
        · exact Or.inr ⟨x, Or.inr h⟩

theorem setMatcher (h : rm.HasR level m L R K) (m' : Option PMatcher)
    (order : List (Str × Str) → List (Str × Str)) (ho : ∀ l, (order l).Perm l) :
    (rm.setMatcher m' order).HasR level m' (fun u r => L u r ∧ ¬ R u r) (fun _ _ => False)
      (endsOf (fun u r => L u r ∧ ¬ R u r)) := by
  have h0 : ({ rm.clear with matcher := m' } : RM).Has level m' (fun _ _ => False) (fun _ => False) :=
    ⟨by constructor <;> simp [RM.clear], by simp [RM.clear], fun _ => rfl, rfl, h.level⟩
  have h1 : (rm.setMatcher m' order).Has level m' (fun u r => L u r ∧ ¬ R u r)
      (endsOf (fun u r => L u r ∧ ¬ R u r)) := by
    refine (RM.Has.addLinks (order rm.links) _ _ _ h0).congr (fun u r => ?_) (fun n => ?_)
    · rw [(ho rm.links).mem_iff, h.links]; simp
    · simp only [false_or, Prod.exists, (ho rm.links).mem_iff, h.links, endsOf]
      constructor
      · rintro ⟨a, b, hab, rfl | rfl⟩
        · exact ⟨b, Or.inl hab⟩
        · exact ⟨a, Or.inr hab⟩
      · rintro ⟨x, hx | hx⟩
        · exact ⟨n, x, hx, Or.inl rfl⟩
        · exact ⟨x, n, hx, Or.inr rfl⟩
  exact ⟨h1.inv, h1.names, fun x y => by rw [h1.red]; simp, h1.matcher, h1.level⟩

/-- What a role manager answers: the marks have no influence.  (As `RM.Has.hasLink`.) -/
theorem hasLink (h : rm.HasR level m L R K) (a b : Str)
    (hflat : ∀ pm, m = some pm → pm.FlatOn (fun n => K n ∨ n = a ∨ n = b)) :
    (rm.hasLink a b).2 = true ↔ roleAnswer level L K a b m := by
  obtain ⟨h2, s2, _⟩ := RM.getRole2_inv h.inv a b
  rw [RM.hasLink_result, h.level]
  cases m with
  | none =>
    have hm : ∀ c, rm.matches c b = false := by
      intro c; unfold RM.matches; rw [h.matcher]
    have hstep := h2.step_plain (s2.matcher.trans h.matcher)
    simp only [hm, Bool.false_eq_true, or_false, false_or, roleAnswer]
    constructor
    · rintro (h | ⟨k, hk, c, hr, rfl⟩)
      · exact Or.inl h
      · exact Or.inr ⟨k, hk, hr.mono (fun x y hxy => (hstep x y).1 hxy)⟩
    · rintro (h | ⟨k, hk, hr⟩)
      · exact Or.inl h
      · exact Or.inr ⟨k, hk, b, hr.mono (fun x y hxy => (hstep x y).2 hxy), rfl⟩
  | some pm =>
    have hm : ∀ c, rm.matches c b = pm.match c b := by
      intro c; unfold RM.matches; rw [h.matcher]
    have hK : (fun n => n ∈ ((rm.getRole a).1.getRole b).1.names) = fun n => K n ∨ n = a ∨ n = b := by
      funext n; rw [s2.names, h.names]
    have hstep := h2.step_pattern (s2.matcher.trans h.matcher) (hK ▸ hflat pm rfl)
    simp only [hm, roleAnswer]
    rw [hK] at hstep
    constructor
    · rintro (h | h | ⟨k, hk, c, hr, hc⟩)
      · exact Or.inl h
      · exact Or.inr (Or.inl h)
      · exact Or.inr (Or.inr ⟨k, hk, c, hr.mono (fun x y hxy => (hstep x y).1 hxy), hc⟩)
    · rintro (h | h | ⟨k, hk, c, hr, hc⟩)
      · exact Or.inl h
      · exact Or.inr (Or.inl h)
      · exact Or.inr (Or.inr ⟨k, hk, c, hr.mono (fun x y hxy => (hstep x y).2 hxy), hc⟩)

theorem honours (h : rm.HasR level m L R K) (hl : 2 ≤ level) {u r : Str} (hur : L u r) :
    (rm.hasLink u r).2 = true := by
  rw [RM.hasLink_result]
  refine Or.inr (Or.inr ⟨1, by rw [h.level]; omega, r, .step ?_ (.refl r), Or.inl rfl⟩)
  obtain ⟨g, _, _⟩ := RM.getRole2_inv h.inv u r
  exact (g.mem_rangeRoles u r).2 (Or.inl hur)

end RM.HasR

end Fastac
