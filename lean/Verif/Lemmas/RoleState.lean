import Verif.Lemmas.RoleRuns

/-! # Role managers with given links and names, and what they answer -/

namespace Fastac

/-- The role manager has exactly the links `L`, none of them redundant, and the names `K`. -/
structure RM.Has (rm : RM) (level : Nat) (m : Option PMatcher) (L : Str → Str → Prop) (K : Str → Prop) :
    Prop where
  inv : rm.Inv L
  names : ∀ n, n ∈ rm.names ↔ K n
  red : ∀ x, (rm.obj x).redundant = []
  matcher : rm.matcher = m
  level : rm.level = level

theorem RM.After.has {level : Nat} {m : Option PMatcher} {ops : List LinkOp} {rm : RM}
    (h : RM.After level m ops rm) :
    rm.Has level m (fun u r => linked ops u r = true) (fun n => known ops n = true) :=
  ⟨h.inv, h.names, h.red, h.matcher, h.level⟩

theorem RM.Has.new (level : Nat) (m : Option PMatcher) :
    (RM.new level m).Has level m (fun _ _ => False) (fun _ => False) :=
  ⟨RM.new_inv level m, fun n => by simp [RM.new], fun _ => rfl, rfl, rfl⟩

theorem RM.Has.congr {rm : RM} {level : Nat} {m : Option PMatcher} {L L' : Str → Str → Prop} {K K' : Str → Prop}
    (h : rm.Has level m L K) (hL : ∀ u r, L u r ↔ L' u r) (hK : ∀ n, K n ↔ K' n) : rm.Has level m L' K' := by
  have e1 : L = L' := by funext u r; exact propext (hL u r)
  have e2 : K = K' := by funext n; exact propext (hK n)
  rw [← e1, ← e2]; exact h

theorem RM.Has.addLink {rm : RM} {level : Nat} {m : Option PMatcher} {L : Str → Str → Prop} {K : Str → Prop}
    (h : rm.Has level m L K) (u r : Str) :
    (rm.addLink u r []).1.Has level m (addL L u r) (fun n => K n ∨ n = u ∨ n = r) := by
  obtain ⟨h1, h2, _, h4⟩ := h.inv.addLink u r []
  refine ⟨h1, fun n => ?_, fun x => ?_, h2.matcher.trans h.matcher, h2.level.trans h.level⟩
  · rw [h2.names, h.names]
  · apply List.eq_nil_iff_forall_not_mem.2
    intro y hy
    have := (h4 x y).1 hy
    rw [h.red] at this; simp at this

theorem RM.Has.addLinks {level : Nat} {m : Option PMatcher} : ∀ (ls : List (Str × Str)) (rm : RM)
    (L : Str → Str → Prop) (K : Str → Prop), rm.Has level m L K →
    (ls.foldl (fun s l => (s.addLink l.1 l.2 []).1) rm).Has level m (fun u r => L u r ∨ (u, r) ∈ ls)
      (fun n => K n ∨ ∃ l ∈ ls, n = l.1 ∨ n = l.2)
  | [], rm, L, K, h => h.congr (by simp) (by simp)
  | l :: ls, rm, L, K, h => by
    refine (RM.Has.addLinks ls _ _ _ (h.addLink l.1 l.2)).congr (fun u r => ?_) (fun n => ?_)
    · obtain ⟨l1, l2⟩ := l
      simp [addL, or_assoc]
    · simp [or_assoc]

theorem RM.Has.links {rm : RM} {level : Nat} {m : Option PMatcher} {L : Str → Str → Prop} {K : Str → Prop}
    (h : rm.Has level m L K) (u r : Str) : (u, r) ∈ rm.links ↔ L u r := h.inv.mem_links h.red u r

theorem RM.Has.setMatcher {rm : RM} {level : Nat} {m0 : Option PMatcher} {L : Str → Str → Prop} {K : Str → Prop}
    (h : rm.Has level m0 L K) (m : Option PMatcher)
    (order : List (Str × Str) → List (Str × Str)) (ho : ∀ l, (order l).Perm l) :
    (rm.setMatcher m order).Has level m L (endsOf L) := by
  have h0 : ({ rm.clear with matcher := m } : RM).Has level m (fun _ _ => False) (fun _ => False) :=
    ⟨by constructor <;> simp [RM.clear], by simp [RM.clear], fun _ => rfl, rfl, h.level⟩
  refine (RM.Has.addLinks (order rm.links) _ _ _ h0).congr (fun u r => ?_) (fun n => ?_)
  · rw [(ho rm.links).mem_iff, h.links]; simp
  · simp only [false_or, Prod.exists, (ho rm.links).mem_iff, h.links, endsOf]
    constructor
    · rintro ⟨a, b, hab, rfl | rfl⟩
      · exact ⟨b, Or.inl hab⟩
      · exact ⟨a, Or.inr hab⟩
    · rintro ⟨x, hx | hx⟩
      · exact ⟨n, x, hx, Or.inl rfl⟩
      · exact ⟨x, n, hx, Or.inr rfl⟩

/-- What a role manager answers. -/
theorem RM.Has.hasLink {rm : RM} {level : Nat} {m : Option PMatcher} {L : Str → Str → Prop} {K : Str → Prop}
    (h : rm.Has level m L K) (a b : Str) (hflat : ∀ pm, m = some pm → pm.FlatOn (fun n => K n ∨ n = a ∨ n = b)) :
    (rm.hasLink a b).2 = true ↔ roleAnswer level L K a b m := by
  obtain ⟨h2, s2, _⟩ := RM.getRole2_inv h.inv a b
  rw [RM.hasLink_result, h.level]
  cases m with
  | none =>
    have hm : ∀ c, rm.matches c b = false := by
      intro c; unfold RM.matches; rw [h.matcher]
    have hstep := h2.step_plain (s2.matcher.trans h.matcher)
    simp only [hm, Bool.false_eq_true, or_false, false_or, roleAnswer]
    constructor
    · rintro (h | ⟨k, hk, c, hr, rfl⟩)
      · exact Or.inl h
      · exact Or.inr ⟨k, hk, hr.mono (fun x y hxy => (hstep x y).1 hxy)⟩
    · rintro (h | ⟨k, hk, hr⟩)
      · exact Or.inl h
      · exact Or.inr ⟨k, hk, b, hr.mono (fun x y hxy => (hstep x y).2 hxy), rfl⟩
  | some pm =>
    have hm : ∀ c, rm.matches c b = pm.match c b := by
      intro c; unfold RM.matches; rw [h.matcher]
    have hK : (fun n => n ∈ ((rm.getRole a).1.getRole b).1.names) = fun n => K n ∨ n = a ∨ n = b := by
      funext n; rw [s2.names, h.names]
    have hstep := h2.step_pattern (s2.matcher.trans h.matcher) (hK ▸ hflat pm rfl)
    simp only [hm, roleAnswer]
    rw [hK] at hstep
    constructor
    · rintro (h | h | ⟨k, hk, c, hr, hc⟩)
      · exact Or.inl h
      · exact Or.inr (Or.inl h)
      · exact Or.inr (Or.inr ⟨k, hk, c, hr.mono (fun x y hxy => (hstep x y).1 hxy), hc⟩)
    · rintro (h | h | ⟨k, hk, c, hr, hc⟩)
      · exact Or.inl h
      · exact Or.inr (Or.inl h)
      · exact Or.inr (Or.inr ⟨k, hk, c, hr.mono (fun x y hxy => (hstep x y).2 hxy), hc⟩)

/-- A stored link is honoured, whatever the matcher. -/
theorem RM.Has.honours {rm : RM} {level : Nat} {m : Option PMatcher} {L : Str → Str → Prop} {K : Str → Prop}
    (h : rm.Has level m L K) (hl : 2 ≤ level) {u r : Str} (hur : L u r) : (rm.hasLink u r).2 = true := by
  rw [RM.hasLink_result]
  refine Or.inr (Or.inr ⟨1, by rw [h.level]; omega, r, .step ?_ (.refl r), Or.inl rfl⟩)
  obtain ⟨g, _, _⟩ := RM.getRole2_inv h.inv u r
  exact (g.mem_rangeRoles u r).2 (Or.inl hur)

end Fastac
