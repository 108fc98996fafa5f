import Verif.Spec.RoleOrder
import Verif.Lemmas.RoleState

/-!
# The order in which names were first used: what pattern roles cover
-/

namespace Fastac

theorem mem_useName {O : List Str} {n k : Str} : k ∈ useName O n ↔ k ∈ O ∨ k = n := by
  unfold useName
  split
  · rename_i h
    constructor
    · exact Or.inl
    · rintro (h' | rfl) <;> assumption
  · simp

theorem RM.getRole_order (rm : RM) (n : Str) : (rm.getRole n).1.names = useName rm.names n := by
  unfold useName
  split
  · rename_i h; rw [RM.getRole_of_mem h]
  · rename_i h; rw [RM.getRole_names h]

theorem pair_append {O : List Str} {n : Str} (x y : Str) :
    [x, y].Sublist (O ++ [n]) ↔ [x, y].Sublist O ∨ (x ∈ O ∧ y = n) := by
  induction O with
  | nil =>
    simp only [List.nil_append, List.not_mem_nil, false_and, or_false]
    constructor
    · intro h; have := h.length_le; simp at this
    · intro h; cases h
  | cons z O ih =>
    simp only [List.cons_append, List.sublist_cons_iff, ih]
    simp only [List.cons.injEq, List.mem_cons]
    constructor
    · rintro ((h | ⟨h, rfl⟩) | ⟨r, ⟨rfl, rfl⟩, h⟩)
      · exact .inl (.inl h)
      · exact .inr ⟨.inr h, rfl⟩
      · rw [List.singleton_sublist] at h
        rcases List.mem_append.mp h with h | h
        · exact .inl (.inr ⟨_, ⟨rfl, rfl⟩, List.singleton_sublist.mpr h⟩)
        · rw [List.mem_singleton] at h; exact .inr ⟨.inl rfl, h⟩
    · rintro ((h | ⟨r, ⟨rfl, rfl⟩, h⟩) | ⟨h | h, rfl⟩)
      · exact .inl (.inl h)
      · exact .inr ⟨_, ⟨rfl, rfl⟩, List.singleton_sublist.mpr (List.mem_append.mpr (.inl (List.singleton_sublist.mp h)))⟩
      · exact .inr ⟨_, ⟨h, rfl⟩, List.singleton_sublist.mpr (by simp)⟩
      · exact .inl (.inr ⟨h, rfl⟩)

/-- A pattern is covered by the patterns it matches that came later. -/
def RM.Ord (rm : RM) : Prop :=
  ∀ p n, isPat rm.matcher n → (n ∈ (rm.obj p).matched ↔ covers rm.matcher p n ∧ [n, p].Sublist rm.names)

theorem RM.Ord.getRole {rm : RM} {L : Str → Str → Prop} (h : rm.Inv L) (o : rm.Ord) (n : Str) :
    (rm.getRole n).1.Ord := by
  by_cases hn : n ∈ rm.names
  · rw [RM.getRole_of_mem hn]; exact o
  · intro p x hx
    rw [RM.getRole_matcher] at hx ⊢
    rw [h.getRole_obj hn, RM.getRole_names hn, pair_append]
    simp only
    split
    · rename_i e; subst e
      rw [mem_foldl_sins, RM.mem_newKs]
      have : ¬ [x, p].Sublist rm.names := fun h => hn (h.subset (by simp))
      simp only [List.not_mem_nil, false_or, this, and_true]
      exact And.comm
    · rename_i e
      have : x ∈ (if p ∈ rm.newPs n then sins (rm.obj p).matched n else (rm.obj p).matched) ↔
          x ∈ (rm.obj p).matched := by
        split
        · rename_i hp
          rw [mem_sins]
          constructor
          · rintro (h' | rfl)
            · exact h'
            · exact absurd hx (h.mem_newPs.mp hp).2.2
          · exact Or.inl
        · rfl
      rw [this, o p x hx]
      simp only [e, and_false, or_false]

theorem RM.Ord.of_same {rm rm' : RM} (o : rm.Ord) (hm : rm'.matcher = rm.matcher) (hn : rm'.names = rm.names)
    (hx : ∀ k, (rm'.obj k).matched = (rm.obj k).matched) : rm'.Ord := by
  intro p n h
  rw [hm] at h ⊢
  rw [hx, hn]
  exact o p n h

theorem updRole_matched (o : Str → Role) (u : Str) (f : Role → Role) (hf : ∀ r, (f r).matched = r.matched) (k : Str) :
    (updRole o u f k).matched = (o k).matched := by
  unfold updRole
  split
  · exact hf _
  · rfl

/-- A role manager with the names `O` in the order of first use. -/
structure RM.HasIn (rm : RM) (level : Nat) (m : Option PMatcher) (L : Str → Str → Prop) (O : List Str) : Prop where
  has : rm.Has level m L (· ∈ O)
  names : rm.names = O
  ord : rm.Ord

theorem RM.addLink_same (rm : RM) (u r : Str) (ds : List Str) (hd : ds.head? ≠ some redundantRole) :
    (rm.addLink u r ds).1.matcher = rm.matcher ∧
    (rm.addLink u r ds).1.names = useName (useName rm.names u) r ∧
    ∀ k, ((rm.addLink u r ds).1.obj k).matched = (((rm.getRole u).1.getRole r).1.obj k).matched := by
  unfold RM.addLink
  simp only [if_neg hd]
  have e1 : ((rm.getRole u).1.getRole r).1.matcher = rm.matcher := by rw [RM.getRole_matcher, RM.getRole_matcher]
  have e2 : ((rm.getRole u).1.getRole r).1.names = useName (useName rm.names u) r := by
    rw [RM.getRole_order, RM.getRole_order]
  split
  · exact ⟨e1, e2, fun _ => rfl⟩
  · refine ⟨e1, e2, fun k => ?_⟩
    refine (updRole_matched _ _ _ ?_ _).trans (updRole_matched _ _ _ ?_ _) <;> intro _ <;> rfl

theorem RM.deleteLink_same (rm : RM) (u r : Str) (ds : List Str) (hd : ds.head? ≠ some redundantRole) :
    (rm.deleteLink u r ds).1.matcher = rm.matcher ∧
    (rm.deleteLink u r ds).1.names = useName (useName rm.names u) r ∧
    ∀ k, ((rm.deleteLink u r ds).1.obj k).matched = (((rm.getRole u).1.getRole r).1.obj k).matched := by
  unfold RM.deleteLink
  simp only [if_neg hd]
  have e1 : ((rm.getRole u).1.getRole r).1.matcher = rm.matcher := by rw [RM.getRole_matcher, RM.getRole_matcher]
  have e2 : ((rm.getRole u).1.getRole r).1.names = useName (useName rm.names u) r := by
    rw [RM.getRole_order, RM.getRole_order]
  split
  · refine ⟨e1, e2, fun k => ?_⟩
    refine (updRole_matched _ _ _ ?_ _).trans (updRole_matched _ _ _ ?_ _) <;> intro _ <;> rfl
  · exact ⟨e1, e2, fun _ => rfl⟩

theorem RM.Has.deleteLink {rm : RM} {level : Nat} {m : Option PMatcher} {L : Str → Str → Prop} {K : Str → Prop}
    (h : rm.Has level m L K) (u r : Str) :
    (rm.deleteLink u r []).1.Has level m (delL L u r) (fun n => K n ∨ n = u ∨ n = r) := by
  obtain ⟨h1, h2, _, h4⟩ := h.inv.deleteLink u r []
  refine ⟨h1, fun n => ?_, fun x => ?_, h2.matcher.trans h.matcher, h2.level.trans h.level⟩
  · rw [h2.names, h.names]
  · apply List.eq_nil_iff_forall_not_mem.2
    intro y hy
    have := (h4 x y).1 hy
    rw [h.red] at this; simp at this

theorem RM.Has.clear {rm : RM} {level : Nat} {m : Option PMatcher} {L : Str → Str → Prop} {K : Str → Prop}
    (h : rm.Has level m L K) : rm.clear.Has level m (fun _ _ => False) (fun _ => False) :=
  ⟨RM.Inv.clear, fun n => by simp [RM.clear], fun _ => rfl, h.matcher, h.level⟩

namespace RM.HasIn

variable {rm : RM} {level : Nat} {m : Option PMatcher} {L : Str → Str → Prop} {O : List Str}

theorem new (level : Nat) (m : Option PMatcher) : (RM.new level m).HasIn level m (fun _ _ => False) [] :=
  ⟨(RM.Has.new level m).congr (fun _ _ => Iff.rfl) (by simp), rfl, by
    intro p n _
    simp [RM.new]⟩

theorem addLink (h : rm.HasIn level m L O) (u r : Str) :
    (rm.addLink u r []).1.HasIn level m (addL L u r) (useName (useName O u) r) := by
  obtain ⟨e1, e2, e3⟩ := rm.addLink_same u r [] (by simp)
  refine ⟨(h.has.addLink u r).congr (fun _ _ => Iff.rfl) (fun n => ?_), by rw [e2, h.names], ?_⟩
  · rw [mem_useName, mem_useName, or_assoc]
  · refine RM.Ord.of_same (RM.Ord.getRole (h.has.inv.getRole u) (RM.Ord.getRole h.has.inv h.ord u) r) ?_ ?_ e3
    · rw [e1, RM.getRole_matcher, RM.getRole_matcher]
    · rw [e2, RM.getRole_order, RM.getRole_order]

theorem deleteLink (h : rm.HasIn level m L O) (u r : Str) :
    (rm.deleteLink u r []).1.HasIn level m (delL L u r) (useName (useName O u) r) := by
  obtain ⟨e1, e2, e3⟩ := rm.deleteLink_same u r [] (by simp)
  refine ⟨(h.has.deleteLink u r).congr (fun _ _ => Iff.rfl) (fun n => ?_), by rw [e2, h.names], ?_⟩
  · rw [mem_useName, mem_useName, or_assoc]
  · refine RM.Ord.of_same (RM.Ord.getRole (h.has.inv.getRole u) (RM.Ord.getRole h.has.inv h.ord u) r) ?_ ?_ e3
    · rw [e1, RM.getRole_matcher, RM.getRole_matcher]
    · rw [e2, RM.getRole_order, RM.getRole_order]

theorem clear (h : rm.HasIn level m L O) : rm.clear.HasIn level m (fun _ _ => False) [] :=
  ⟨h.has.clear.congr (fun _ _ => Iff.rfl) (by simp), rfl, by intro p n _; simp [RM.clear]⟩

theorem addLinks {level : Nat} {m : Option PMatcher} : ∀ (ls : List (Str × Str)) (rm : RM)
    (L : Str → Str → Prop) (O : List Str), rm.HasIn level m L O →
    (ls.foldl (fun s l => (s.addLink l.1 l.2 []).1) rm).HasIn level m (fun u r => L u r ∨ (u, r) ∈ ls)
      (ls.foldl (fun O l => useName (useName O l.1) l.2) O)
  | [], rm, L, O, h => ⟨h.has.congr (by simp) (fun _ => Iff.rfl), h.names, h.ord⟩
  | l :: ls, rm, L, O, h => by
    have := addLinks ls _ _ _ (h.addLink l.1 l.2)
    refine ⟨this.has.congr (fun u r => ?_) (fun _ => Iff.rfl), this.names, this.ord⟩
    obtain ⟨l1, l2⟩ := l
    simp [addL, or_assoc]

theorem setMatcher (h : rm.HasIn level m L O) (m' : Option PMatcher) (ls : List (Str × Str))
    (hls : ∀ u r, (u, r) ∈ ls ↔ L u r) :
    (rm.setMatcher m' (fun _ => ls)).HasIn level m' L (namesIn ls) := by
  have h0 : ({ rm.clear with matcher := m' } : RM).HasIn level m' (fun _ _ => False) [] :=
    ⟨⟨by constructor <;> simp [RM.clear], by simp [RM.clear], fun _ => rfl, rfl, h.has.level⟩, rfl,
      by intro p n _; simp [RM.clear]⟩
  have := addLinks ls _ _ _ h0
  exact ⟨this.has.congr (fun u r => by rw [hls]; simp) (fun _ => Iff.rfl), this.names, this.ord⟩

theorem step (h : rm.HasIn level m L O) (op : LinkOp) : (rm.step op).HasIn level m (op.links L) (op.uses O) := by
  cases op with
  | add u r => exact h.addLink u r
  | del u r => exact h.deleteLink u r
  | clear => exact h.clear
  | hasLink u r => simp only [RM.step, h.has.inv.hasLink_state u r]; exact h
  | getRoles n => simp only [RM.step, h.has.inv.getRoles_state n]; exact h
  | getUsers n => simp only [RM.step, h.has.inv.getUsers_state n]; exact h

end RM.HasIn

theorem RM.HasIn.run (level : Nat) (m : Option PMatcher) (ops : List LinkOp) :
    ((RM.new level m).run ops).HasIn level m (fun u r => linked ops u r = true) (namesUsed ops) := by
  have key : ∀ (ops : List LinkOp) (rm : RM) (L : Str → Str → Prop) (O : List Str), rm.HasIn level m L O →
      (rm.run ops).names = ops.foldl LinkOp.uses O ∧ (rm.run ops).Ord := by
    intro ops
    induction ops with
    | nil => intro rm L O h; exact ⟨h.names, h.ord⟩
    | cons o os ih =>
      intro rm L O h
      exact ih _ _ _ (h.step o)
  obtain ⟨h1, h2⟩ := key ops _ _ _ (RM.HasIn.new level m)
  refine ⟨(RM.after_run level m ops).has.congr (fun _ _ => Iff.rfl) (fun n => ?_), h1, h2⟩
  rw [← (RM.after_run level m ops).names, h1]
  rfl

theorem RM.matched_in {rm : RM} {L : Str → Str → Prop} (h : rm.Inv L) (o : rm.Ord) {m : PMatcher}
    (hm : rm.matcher = some m) (p n : Str) : n ∈ (rm.obj p).matched ↔ m.coversIn rm.names p n := by
  unfold PMatcher.coversIn
  by_cases hp : m.isPattern n = true
  · rw [o p n ⟨m, hm, hp⟩]
    constructor
    · rintro ⟨⟨m', e, hc⟩, hs⟩
      rw [hm] at e; cases e
      exact ⟨hs.subset (by simp), hs.subset (by simp), hc, fun _ => hs⟩
    · rintro ⟨-, -, hc, hs⟩
      exact ⟨⟨m, hm, hc⟩, hs hp⟩
  · constructor
    · intro hx
      obtain ⟨a, b, m', e, c⟩ := h.mnames p n hx
      rw [hm] at e; cases e
      exact ⟨a, b, c, fun h => absurd h hp⟩
    · rintro ⟨a, b, c, -⟩
      apply h.mcomplete p n b a ⟨m, hm, c⟩
      rintro ⟨m', e, h'⟩
      rw [hm] at e; cases e
      exact hp h'

theorem RM.step_in {rm : RM} {L : Str → Str → Prop} (h : rm.Inv L) (o : rm.Ord) {m : PMatcher}
    (hm : rm.matcher = some m) (x y : Str) : y ∈ rm.rangeRoles x ↔ m.edgeIn L rm.names x y := by
  rw [h.mem_rangeRoles]
  unfold PMatcher.edgeIn
  simp only [RM.matched_in h o hm]

/-- What a role manager answers, whatever the patterns. -/
theorem RM.HasIn.hasLink {rm : RM} {level : Nat} {m : Option PMatcher} {L : Str → Str → Prop} {O : List Str}
    (h : rm.HasIn level m L O) (a b : Str) : (rm.hasLink a b).2 = true ↔ roleAnswerIn level L O a b m := by
  cases m with
  | none => exact h.has.hasLink a b (by intro _ e; cases e)
  | some pm =>
    obtain ⟨h2, s2, _⟩ := RM.getRole2_inv h.has.inv a b
    rw [RM.hasLink_result, h.has.level]
    have hm : ∀ c, rm.matches c b = pm.match c b := by
      intro c; unfold RM.matches; rw [h.has.matcher]
    have hstep := RM.step_in h2
      (RM.Ord.getRole (h.has.inv.getRole a) (RM.Ord.getRole h.has.inv h.ord a) b) (s2.matcher.trans h.has.matcher)
    rw [RM.getRole_order, RM.getRole_order, h.names] at hstep
    simp only [hm, roleAnswerIn]
    constructor
    · rintro (h | h | ⟨k, hk, c, hr, hc⟩)
      · exact Or.inl h
      · exact Or.inr (Or.inl h)
      · exact Or.inr (Or.inr ⟨k, hk, c, hr.mono (fun x y hxy => (hstep x y).1 hxy), hc⟩)
    · rintro (h | h | ⟨k, hk, c, hr, hc⟩)
      · exact Or.inl h
      · exact Or.inr (Or.inl h)
      · exact Or.inr (Or.inr ⟨k, hk, c, hr.mono (fun x y hxy => (hstep x y).2 hxy), hc⟩)

end Fastac
