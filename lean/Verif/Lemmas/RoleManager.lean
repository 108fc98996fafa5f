import Verif.Spec.Links

/-!
# Invariant of the role manager
-/

namespace Fastac

/-! ## String sets -/

@[simp] theorem mem_sins {s : List Str} {x y : Str} : y ∈ sins s x ↔ y ∈ s ∨ y = x := by
  unfold sins
  split
  · constructor
    · exact Or.inl
    · rintro (h | rfl) <;> assumption
  · simp

@[simp] theorem mem_sdel {s : List Str} {x y : Str} : y ∈ sdel s x ↔ y ∈ s ∧ y ≠ x := by
  simp [sdel]

theorem sdel_eq_self {s : List Str} {x : Str} (h : x ∉ s) : sdel s x = s := by
  unfold sdel
  rw [List.filter_eq_self]
  intro a ha
  simp only [ne_eq, decide_eq_true_eq]
  intro e; subst e; exact h ha

theorem sdel_append (s t : List Str) (x : Str) : sdel (s ++ t) x = sdel s x ++ sdel t x := by
  simp [sdel]

theorem sdel_sins {s : List Str} {x : Str} (h : x ∉ s) : sdel (sins s x) x = s := by
  unfold sins
  rw [if_neg h, sdel_append, sdel_eq_self h]
  simp [sdel]

theorem sins_sins (s : List Str) (x : Str) : sins (sins s x) x = sins s x := by
  have : x ∈ sins s x := by simp
  conv => lhs; unfold sins
  exact if_pos this

theorem nodup_sins {s : List Str} {x : Str} (h : s.Nodup) : (sins s x).Nodup := by
  unfold sins
  split
  · exact h
  · rename_i hx
    rw [List.nodup_append]
    refine ⟨h, by simp, ?_⟩
    intro a ha b hb
    simp only [List.mem_singleton] at hb
    subst hb; intro e; subst e; exact hx ha

theorem nodup_sdel {s : List Str} {x : Str} (h : s.Nodup) : (sdel s x).Nodup :=
  List.Nodup.sublist List.filter_sublist h

theorem mem_foldl_sins (ks : List Str) : ∀ (s : List Str) (x : Str),
    x ∈ ks.foldl sins s ↔ x ∈ s ∨ x ∈ ks := by
  induction ks with
  | nil => simp
  | cons k ks ih =>
    intro s x
    simp only [List.foldl_cons, ih, mem_sins, List.mem_cons]
    constructor
    · rintro ((h | h) | h) <;> simp [h]
    · rintro (h | h | h) <;> simp [h]

theorem foldl_sdel_sub (ks : List Str) : ∀ (s : List Str), (∀ x ∈ s, x ∈ ks) →
    ks.foldl sdel s = [] := by
  induction ks with
  | nil =>
    intro s h
    cases s with
    | nil => rfl
    | cons a _ => exact absurd (h a (by simp)) (by simp)
  | cons k ks ih =>
    intro s h
    simp only [List.foldl_cons]
    apply ih
    intro x hx
    rw [mem_sdel] at hx
    rcases List.mem_cons.1 (h x hx.1) with e | e
    · exact absurd e hx.2
    · exact e

/-! ## Closed forms of the match folds -/

theorem foldl_addMatch_left (p : Str) (ks : List Str) (hp : p ∉ ks) : ∀ obj : Str → Role,
    ks.foldl (fun o k => addMatch o p k) obj = fun k =>
      if k = p then { obj p with matched := ks.foldl sins (obj p).matched }
      else if k ∈ ks then { obj k with matchedBy := sins (obj k).matchedBy p } else obj k := by
  induction ks with
  | nil =>
    intro obj; funext k
    by_cases h : k = p
    · subst h; simp
    · simp [h]
  | cons q ks ih =>
    intro obj
    simp only [List.mem_cons, not_or] at hp
    simp only [List.foldl_cons]
    rw [ih hp.2]
    funext k
    have hpq : ¬ q = p := fun e => hp.1 e.symm
    by_cases h : k = p
    · subst h
      simp [addMatch, updRole, hp.1]
    · by_cases hq : k = q
      · subst hq
        by_cases hk : k ∈ ks
        · simp [h, hk, addMatch, updRole, sins_sins]
        · simp [h, hk, addMatch, updRole]
      · simp [h, hq, addMatch, updRole]

theorem foldl_addMatch_right (n : Str) (ps : List Str) (hn : n ∉ ps) : ∀ obj : Str → Role,
    ps.foldl (fun o p => addMatch o p n) obj = fun k =>
      if k = n then { obj n with matchedBy := ps.foldl sins (obj n).matchedBy }
      else if k ∈ ps then { obj k with matched := sins (obj k).matched n } else obj k := by
  induction ps with
  | nil =>
    intro obj; funext k
    by_cases h : k = n
    · subst h; simp
    · simp [h]
  | cons q ps ih =>
    intro obj
    simp only [List.mem_cons, not_or] at hn
    simp only [List.foldl_cons]
    rw [ih hn.2]
    funext k
    have hpq : ¬ q = n := fun e => hn.1 e.symm
    by_cases h : k = n
    · subst h
      simp [addMatch, updRole, hn.1]
    · by_cases hq : k = q
      · subst hq
        by_cases hk : k ∈ ps
        · simp [h, hk, addMatch, updRole, sins_sins]
        · simp [h, hk, addMatch, updRole]
      · simp [h, hq, addMatch, updRole]

theorem foldl_removeMatch_left (p : Str) (ks : List Str) (hp : p ∉ ks) : ∀ obj : Str → Role,
    ks.foldl (fun o k => removeMatch o p k) obj = fun k =>
      if k = p then { obj p with matched := ks.foldl sdel (obj p).matched }
      else if k ∈ ks then { obj k with matchedBy := sdel (obj k).matchedBy p } else obj k := by
  induction ks with
  | nil =>
    intro obj; funext k
    by_cases h : k = p
    · subst h; simp
    · simp [h]
  | cons q ks ih =>
    intro obj
    simp only [List.mem_cons, not_or] at hp
    simp only [List.foldl_cons]
    rw [ih hp.2]
    funext k
    have hpq : ¬ q = p := fun e => hp.1 e.symm
    by_cases h : k = p
    · subst h
      simp [removeMatch, updRole, hp.1]
    · by_cases hq : k = q
      · subst hq
        by_cases hk : k ∈ ks
        · simp [h, hk, removeMatch, updRole]
          simp [sdel]
        · simp [h, hk, removeMatch, updRole]
      · simp [h, hq, removeMatch, updRole]

theorem foldl_removeMatch_right (n : Str) (ps : List Str) (hn : n ∉ ps) : ∀ obj : Str → Role,
    ps.foldl (fun o p => removeMatch o p n) obj = fun k =>
      if k = n then { obj n with matchedBy := ps.foldl sdel (obj n).matchedBy }
      else if k ∈ ps then { obj k with matched := sdel (obj k).matched n } else obj k := by
  induction ps with
  | nil =>
    intro obj; funext k
    by_cases h : k = n
    · subst h; simp
    · simp [h]
  | cons q ps ih =>
    intro obj
    simp only [List.mem_cons, not_or] at hn
    simp only [List.foldl_cons]
    rw [ih hn.2]
    funext k
    have hpq : ¬ q = n := fun e => hn.1 e.symm
    by_cases h : k = n
    · subst h
      simp [removeMatch, updRole, hn.1]
    · by_cases hq : k = q
      · subst hq
        by_cases hk : k ∈ ps
        · simp [h, hk, removeMatch, updRole]
          simp [sdel]
        · simp [h, hk, removeMatch, updRole]
      · simp [h, hq, removeMatch, updRole]

/-! ## Invariant -/

/-- `p` is a pattern under the (optional) matcher. -/
def isPat (m : Option PMatcher) (p : Str) : Prop := ∃ m', m = some m' ∧ m'.isPattern p = true

/-- `p` covers `n` under the (optional) matcher. -/
def covers (m : Option PMatcher) (p n : Str) : Prop := ∃ m', m = some m' ∧ m'.covers p n

structure RM.Inv (rm : RM) (L : Str → Str → Prop) : Prop where
  nodup : rm.names.Nodup
  fresh : ∀ k, k ∉ rm.names → rm.obj k = {}
  roles : ∀ u r, r ∈ (rm.obj u).roles ↔ L u r
  users : ∀ u r, u ∈ (rm.obj r).users ↔ L u r
  rolesNodup : ∀ u, (rm.obj u).roles.Nodup
  pats : ∀ p, p ∈ rm.patterns ↔ p ∈ rm.names ∧ isPat rm.matcher p
  msym : ∀ p n, n ∈ (rm.obj p).matched ↔ p ∈ (rm.obj n).matchedBy
  mnames : ∀ p n, n ∈ (rm.obj p).matched → n ∈ rm.names ∧ p ∈ rm.names ∧ covers rm.matcher p n
  mcomplete : ∀ p n, p ∈ rm.names → n ∈ rm.names → covers rm.matcher p n → ¬ isPat rm.matcher n →
    n ∈ (rm.obj p).matched

theorem RM.Inv.known {rm : RM} {L : Str → Str → Prop} (h : rm.Inv L) {u r : Str} (hl : L u r) :
    u ∈ rm.names ∧ r ∈ rm.names := by
  constructor
  · apply Classical.byContradiction; intro hn
    have := (h.roles u r).2 hl
    rw [h.fresh u hn] at this
    simp at this
  · apply Classical.byContradiction; intro hn
    have := (h.users u r).2 hl
    rw [h.fresh r hn] at this
    simp at this

theorem RM.new_inv (level : Nat) (m : Option PMatcher) : (RM.new level m).Inv (fun _ _ => False) := by
  constructor <;> simp [RM.new]

theorem RM.Inv.clear {rm : RM} : rm.clear.Inv (fun _ _ => False) := by
  constructor <;> simp [RM.clear]

/-- The names matched by / matching a new name. -/
def RM.newKs (rm : RM) (n : Str) : List Str :=
  match rm.matcher with
  | none => []
  | some m => if m.isPattern n then rm.names.filter (fun k => n ≠ k && m.match k n) else []
def RM.newPs (rm : RM) (n : Str) : List Str :=
  match rm.matcher with
  | none => []
  | some m => if m.isPattern n then [] else rm.patterns.filter (fun p => p ≠ n && m.match n p)

theorem RM.mem_newKs {rm : RM} {n k : Str} :
    k ∈ rm.newKs n ↔ k ∈ rm.names ∧ covers rm.matcher n k := by
  unfold RM.newKs covers PMatcher.covers
  cases hm : rm.matcher with
  | none => simp
  | some m =>
    simp only [Option.some.injEq, exists_eq_left']
    split
    · rename_i hp
      simp only [List.mem_filter, ne_eq, Bool.and_eq_true, decide_eq_true_eq, hp, true_and]
      constructor
      · rintro ⟨a, b, c⟩; exact ⟨a, fun e => b e.symm, c⟩
      · rintro ⟨a, b, c⟩; exact ⟨a, fun e => b e.symm, c⟩
    · rename_i hp
      simp [hp]

theorem RM.Inv.mem_newPs {rm : RM} {L : Str → Str → Prop} (h : rm.Inv L) {n p : Str} :
    p ∈ rm.newPs n ↔ p ∈ rm.names ∧ covers rm.matcher p n ∧ ¬ isPat rm.matcher n := by
  have hp := h.pats p
  unfold RM.newPs covers PMatcher.covers
  unfold isPat at hp ⊢
  cases hm : rm.matcher with
  | none => simp
  | some m =>
    rw [hm] at hp
    simp only [Option.some.injEq, exists_eq_left'] at hp ⊢
    split
    · rename_i hn; simp [hn]
    · rename_i hn
      simp only [List.mem_filter, ne_eq, Bool.and_eq_true, decide_eq_true_eq, hn, hp]
      constructor
      · rintro ⟨⟨a, b⟩, c, d⟩; exact ⟨a, ⟨b, fun e => c e.symm, d⟩, by simp⟩
      · rintro ⟨a, ⟨b, c, d⟩, _⟩; exact ⟨⟨a, b⟩, fun e => c e.symm, d⟩

/-- The role objects after creating `n`. -/
theorem RM.Inv.getRole_obj {rm : RM} {L : Str → Str → Prop} (h : rm.Inv L) {n : Str}
    (hn : n ∉ rm.names) (k : Str) :
    (rm.getRole n).1.obj k = { rm.obj k with
      matched := if k = n then (rm.newKs n).foldl sins [] else
        if k ∈ rm.newPs n then sins (rm.obj k).matched n else (rm.obj k).matched
      matchedBy := if k = n then (rm.newPs n).foldl sins [] else
        if k ∈ rm.newKs n then sins (rm.obj k).matchedBy n else (rm.obj k).matchedBy } := by
  have hf := h.fresh n hn
  have hupd : updRole rm.obj n (fun _ => {}) = rm.obj := by
    funext j; unfold updRole
    split
    · rename_i e; subst e; exact hf.symm
    · rfl
  unfold RM.getRole RM.newKs RM.newPs
  rw [if_neg hn, hupd]
  cases hm : rm.matcher with
  | none =>
    simp only
    by_cases hk : k = n
    · subst hk; simp [hf]
    · simp [hk]
  | some m =>
    simp only
    have hfilt : (rm.names ++ [n]).filter (fun k => n ≠ k && m.match k n) =
        rm.names.filter (fun k => n ≠ k && m.match k n) := by
      rw [List.filter_append]; simp
    by_cases hp : m.isPattern n = true
    · rw [if_pos hp]
      simp only [if_pos hp]
      rw [hfilt, foldl_addMatch_left n _ (by simp)]
      simp only
      by_cases hk : k = n
      · subst hk; simp [hf]
      · simp only [if_neg hk, List.not_mem_nil, if_false]
        by_cases hx : k ∈ rm.names.filter (fun k => n ≠ k && m.match k n)
        · rw [if_pos hx, if_pos hx]
        · rw [if_neg hx, if_neg hx]
    · rw [if_neg hp]
      simp only [if_neg hp]
      rw [foldl_addMatch_right n _ (by simp)]
      simp only
      by_cases hk : k = n
      · subst hk; simp [hf]
      · simp only [if_neg hk, List.not_mem_nil, if_false]
        by_cases hx : k ∈ rm.patterns.filter (fun p => p ≠ n && m.match n p)
        · rw [if_pos hx, if_pos hx]
        · rw [if_neg hx, if_neg hx]

theorem RM.getRole_of_mem {rm : RM} {n : Str} (hn : n ∈ rm.names) : rm.getRole n = (rm, false) := by
  simp [RM.getRole, hn]

theorem RM.getRole_created {rm : RM} {n : Str} : (rm.getRole n).2 = decide (n ∉ rm.names) := by
  unfold RM.getRole
  split
  · rename_i h; simp [h]
  · rename_i h
    split
    · simp [h]
    · split <;> simp [h]

theorem RM.getRole_names {rm : RM} {n : Str} (hn : n ∉ rm.names) :
    (rm.getRole n).1.names = rm.names ++ [n] := by
  unfold RM.getRole
  rw [if_neg hn]
  split
  · rfl
  · split <;> rfl

theorem RM.getRole_matcher {rm : RM} {n : Str} : (rm.getRole n).1.matcher = rm.matcher := by
  unfold RM.getRole
  split
  · rfl
  · split
    · rename_i h; simp
    · split <;> simp_all

theorem RM.getRole_level {rm : RM} {n : Str} : (rm.getRole n).1.level = rm.level := by
  unfold RM.getRole
  split
  · rfl
  · split
    · rfl
    · split <;> rfl

theorem RM.getRole_patterns {rm : RM} {n : Str} (hn : n ∉ rm.names) :
    (isPat rm.matcher n ∧ (rm.getRole n).1.patterns = sins rm.patterns n) ∨
      (¬ isPat rm.matcher n ∧ (rm.getRole n).1.patterns = rm.patterns) := by
  unfold RM.getRole isPat
  rw [if_neg hn]
  split
  · rename_i h; right; simp [h]
  · rename_i m h
    split
    · rename_i hp; left; exact ⟨⟨m, h, hp⟩, rfl⟩
    · rename_i hp; right
      refine ⟨?_, rfl⟩
      rintro ⟨m', h1, h2⟩
      rw [h] at h1; cases h1; exact hp h2

theorem RM.mem_getRole_names {rm : RM} {n k : Str} :
    k ∈ (rm.getRole n).1.names ↔ k ∈ rm.names ∨ k = n := by
  by_cases hn : n ∈ rm.names
  · rw [RM.getRole_of_mem hn]
    constructor
    · exact Or.inl
    · rintro (h | rfl) <;> assumption
  · rw [RM.getRole_names hn]; simp

theorem covers_ne {m : Option PMatcher} {p n : Str} (h : covers m p n) : n ≠ p := by
  obtain ⟨_, _, h⟩ := h; exact h.2.1

theorem covers_isPat {m : Option PMatcher} {p n : Str} (h : covers m p n) : isPat m p := by
  obtain ⟨m', e, h⟩ := h; exact ⟨m', e, h.1⟩

theorem RM.Inv.getRole {rm : RM} {L : Str → Str → Prop} (h : rm.Inv L) (n : Str) :
    (rm.getRole n).1.Inv L := by
  by_cases hn : n ∈ rm.names
  · rw [RM.getRole_of_mem hn]; exact h
  · have hobj := h.getRole_obj hn
    have hf := h.fresh n hn
    have hks : n ∉ rm.newKs n := by
      rw [RM.mem_newKs]; intro ⟨a, _⟩; exact hn a
    have hps : n ∉ rm.newPs n := by
      rw [h.mem_newPs]; intro ⟨a, _⟩; exact hn a
    have hno : ∀ k, n ∉ (rm.obj k).matched := fun k hk => hn (h.mnames k n hk).1
    have hno' : ∀ k, n ∉ (rm.obj k).matchedBy := fun k hk =>
      hn (h.mnames n k ((h.msym n k).2 hk)).2.1
    -- the new matched relation
    have hmat : ∀ p k, k ∈ ((rm.getRole n).1.obj p).matched ↔
        k ∈ (rm.obj p).matched ∨ (p = n ∧ k ∈ rm.newKs n) ∨ (k = n ∧ p ∈ rm.newPs n) := by
      intro p k
      rw [hobj p]
      simp only
      by_cases hp : p = n
      · subst hp
        simp [mem_foldl_sins, hf, hps]
      · simp only [hp, if_false, false_and, false_or]
        split
        · rename_i hx; simp [mem_sins, hx]
        · rename_i hx; simp [hx]
    have hmby : ∀ k p, p ∈ ((rm.getRole n).1.obj k).matchedBy ↔
        p ∈ (rm.obj k).matchedBy ∨ (p = n ∧ k ∈ rm.newKs n) ∨ (k = n ∧ p ∈ rm.newPs n) := by
      intro k p
      rw [hobj k]
      simp only
      by_cases hk : k = n
      · subst hk
        simp [mem_foldl_sins, hf, hks]
      · simp only [hk, if_false, false_and, or_false]
        split
        · rename_i hx; simp [mem_sins, hx]
        · rename_i hx; simp [hx]
    constructor
    · rw [RM.getRole_names hn, List.nodup_append]
      refine ⟨h.nodup, by simp, ?_⟩
      intro a ha b hb e
      simp only [List.mem_singleton] at hb
      subst hb; subst e; exact hn ha
    · intro k hk
      rw [RM.mem_getRole_names] at hk
      have hk1 : k ∉ rm.names := fun x => hk (Or.inl x)
      have hk2 : k ≠ n := fun x => hk (Or.inr x)
      rw [hobj k]
      have h1 : k ∉ rm.newPs n := by rw [h.mem_newPs]; intro ⟨a, _⟩; exact hk1 a
      have h2 : k ∉ rm.newKs n := by rw [RM.mem_newKs]; intro ⟨a, _⟩; exact hk1 a
      simp [hk2, h1, h2, h.fresh k hk1]
    · intro u r; rw [hobj u]; exact h.roles u r
    · intro u r; rw [hobj r]; exact h.users u r
    · intro u; rw [hobj u]; exact h.rolesNodup u
    · intro p
      rw [RM.mem_getRole_names, RM.getRole_matcher]
      rcases RM.getRole_patterns hn with ⟨hp, e⟩ | ⟨hp, e⟩
      · rw [e, mem_sins, h.pats p]
        constructor
        · rintro (⟨a, b⟩ | rfl)
          · exact ⟨Or.inl a, b⟩
          · exact ⟨Or.inr rfl, hp⟩
        · rintro ⟨a | rfl, b⟩
          · exact Or.inl ⟨a, b⟩
          · exact Or.inr rfl
      · rw [e, h.pats p]
        constructor
        · rintro ⟨a, b⟩; exact ⟨Or.inl a, b⟩
        · rintro ⟨a | rfl, b⟩
          · exact ⟨a, b⟩
          · exact absurd b hp
    · intro p k; rw [hmat p k, hmby k p, h.msym]
    · intro p k hk
      rw [RM.getRole_matcher, RM.mem_getRole_names, RM.mem_getRole_names]
      rw [hmat p k] at hk
      rcases hk with hk | ⟨rfl, hk⟩ | ⟨rfl, hk⟩
      · obtain ⟨a, b, c⟩ := h.mnames p k hk
        exact ⟨Or.inl a, Or.inl b, c⟩
      · rw [RM.mem_newKs] at hk
        exact ⟨Or.inl hk.1, Or.inr rfl, hk.2⟩
      · rw [h.mem_newPs] at hk
        exact ⟨Or.inr rfl, Or.inl hk.1, hk.2.1⟩
    · intro p k hp hk hc hnp
      rw [RM.getRole_matcher] at hc hnp
      rw [RM.mem_getRole_names] at hp hk
      rw [hmat p k]
      have hne := covers_ne hc
      rcases hp with hp | rfl
      · rcases hk with hk | rfl
        · exact Or.inl (h.mcomplete p k hp hk hc hnp)
        · exact Or.inr (Or.inr ⟨rfl, h.mem_newPs.2 ⟨hp, hc, hnp⟩⟩)
      · rcases hk with hk | rfl
        · exact Or.inr (Or.inl ⟨rfl, RM.mem_newKs.2 ⟨hk, hc⟩⟩)
        · exact absurd rfl hne

theorem RM.removeRole_obj {rm : RM} {n k : Str} (hmem : n ∈ rm.names)
    (hn1 : n ∉ (rm.obj n).matched) (hn2 : n ∉ (rm.obj n).matchedBy) (hk : k ≠ n) :
    (rm.removeRole n).obj k = { rm.obj k with
      matched := if k ∈ (rm.obj n).matchedBy then sdel (rm.obj k).matched n else (rm.obj k).matched
      matchedBy := if k ∈ (rm.obj n).matched then sdel (rm.obj k).matchedBy n
        else (rm.obj k).matchedBy } := by
  unfold RM.removeRole
  rw [if_pos hmem]
  simp only
  rw [foldl_removeMatch_left n _ hn1]
  simp only [if_true]
  rw [foldl_removeMatch_right n _ hn2]
  simp only [updRole, if_neg hk]
  by_cases h1 : k ∈ (rm.obj n).matchedBy <;> by_cases h2 : k ∈ (rm.obj n).matched <;>
    simp [h1, h2]

/-- Creating a role and removing it again changes nothing. -/
theorem RM.Inv.remove_getRole {rm : RM} {L : Str → Str → Prop} (h : rm.Inv L) {n : Str}
    (hn : n ∉ rm.names) : (rm.getRole n).1.removeRole n = rm := by
  have hobj := h.getRole_obj hn
  have hf := h.fresh n hn
  have hks : n ∉ rm.newKs n := by
    rw [RM.mem_newKs]; intro ⟨a, _⟩; exact hn a
  have hps : n ∉ rm.newPs n := by
    rw [h.mem_newPs]; intro ⟨a, _⟩; exact hn a
  have hno : ∀ k, n ∉ (rm.obj k).matched := fun k hk => hn (h.mnames k n hk).1
  have hno' : ∀ k, n ∉ (rm.obj k).matchedBy := fun k hk =>
    hn (h.mnames n k ((h.msym n k).2 hk)).2.1
  have hm1 : ((rm.getRole n).1.obj n).matched = (rm.newKs n).foldl sins [] := by
    rw [hobj n]; simp
  have hm2 : ((rm.getRole n).1.obj n).matchedBy = (rm.newPs n).foldl sins [] := by
    rw [hobj n]; simp
  have hn1 : n ∉ ((rm.getRole n).1.obj n).matched := by
    rw [hm1, mem_foldl_sins]; simp [hks]
  have hn2 : n ∉ ((rm.getRole n).1.obj n).matchedBy := by
    rw [hm2, mem_foldl_sins]; simp [hps]
  have hpat : sdel (rm.getRole n).1.patterns n = rm.patterns := by
    have hnp : n ∉ rm.patterns := fun hp => hn ((h.pats n).1 hp).1
    rcases RM.getRole_patterns hn with ⟨_, e⟩ | ⟨_, e⟩
    · rw [e, sdel_sins hnp]
    · rw [e, sdel_eq_self hnp]
  have hnames : sdel (rm.getRole n).1.names n = rm.names := by
    rw [RM.getRole_names hn, sdel_append, sdel_eq_self hn]; simp [sdel]
  have hmem : n ∈ (rm.getRole n).1.names := by rw [RM.mem_getRole_names]; exact Or.inr rfl
  have hfun : ((rm.getRole n).1.removeRole n).obj = rm.obj := by
    funext k
    by_cases hk : k = n
    · subst hk
      rw [hf]
      unfold RM.removeRole
      rw [if_pos hmem]
      simp [updRole]
    · rw [RM.removeRole_obj hmem hn1 hn2 hk]
      have e1 : k ∈ ((rm.getRole n).1.obj n).matchedBy ↔ k ∈ rm.newPs n := by
        rw [hm2, mem_foldl_sins]; simp
      have e2 : k ∈ ((rm.getRole n).1.obj n).matched ↔ k ∈ rm.newKs n := by
        rw [hm1, mem_foldl_sins]; simp
      simp only [e1, e2]
      rw [hobj k]
      by_cases hx1 : k ∈ rm.newPs n <;> by_cases hx2 : k ∈ rm.newKs n <;>
        simp [hx1, hx2, hk, sdel_sins (hno k), sdel_sins (hno' k)]
  have e1 : ((rm.getRole n).1.removeRole n).names = rm.names := by
    rw [← hnames]; unfold RM.removeRole; rw [if_pos hmem]
  have e2 : ((rm.getRole n).1.removeRole n).patterns = rm.patterns := by
    rw [← hpat]; unfold RM.removeRole; rw [if_pos hmem]
  have e3 : ((rm.getRole n).1.removeRole n).level = rm.level := by
    refine Eq.trans ?_ (RM.getRole_level (rm := rm) (n := n)); unfold RM.removeRole; rw [if_pos hmem]
  have e4 : ((rm.getRole n).1.removeRole n).matcher = rm.matcher := by
    refine Eq.trans ?_ (RM.getRole_matcher (rm := rm) (n := n)); unfold RM.removeRole; rw [if_pos hmem]
  cases rm
  simp only at hfun e1 e2 e3 e4
  generalize RM.removeRole _ _ = x at *
  cases x
  simp_all

end Fastac
