import Verif.Model.Defs

/-!
# Lemmas about policy and request definitions
-/

namespace Fastac

/-- Attribute names as they may occur in a definition: at least one, pairwise distinct, without
commas and spaces. -/
structure GoodNames (names : List Str) : Prop where
  ne : names ≠ []
  nodup : names.Nodup
  noComma : ∀ n ∈ names, ',' ∉ n
  noSpace : ∀ n ∈ names, ' ' ∉ n

instance (names : List Str) : Decidable (GoodNames names) :=
  decidable_of_iff (names ≠ [] ∧ names.Nodup ∧ (∀ n ∈ names, ',' ∉ n) ∧ (∀ n ∈ names, ' ' ∉ n))
    ⟨fun ⟨a, b, c, d⟩ => ⟨a, b, c, d⟩, fun h => ⟨h.ne, h.nodup, h.noComma, h.noSpace⟩⟩

/-- The attribute `name` of the definition `key` as it is written in a stage: `key_name`. -/
def qual (key name : Str) : Str := key ++ ['_'] ++ name

theorem qual_inj {key a b : Str} : qual key a = qual key b ↔ a = b := by
  simp [qual]

theorem buildArgIndex_get (key : Str) (names : List Str) (i : Nat) (m : GoMap Str Nat)
    (hn : names.Nodup) (a : Str) :
    (buildArgIndex key names i m).get (qual key a) =
      if a ∈ names then some (i + names.idxOf a) else m.get (qual key a) := by
  induction names generalizing i m with
  | nil => simp [buildArgIndex]
  | cons n ns ih =>
    rw [List.nodup_cons] at hn
    rw [buildArgIndex, ih _ _ hn.2]
    by_cases h : a = n
    · subst h
      simp only [hn.1, if_false, List.mem_cons, true_or, if_true, List.idxOf_cons_self]
      exact GoMap.get_set_self m (qual key a) i
    · have h' : n ≠ a := fun e => h e.symm
      by_cases hm : a ∈ ns
      · simp only [hm, if_true, List.mem_cons, or_true]
        have hb : (n == a) = false := by simpa using h'
        rw [List.idxOf_cons, hb, cond_false]
        congr 1; omega
      · simp only [hm, h, if_false, List.mem_cons, or_self]
        have := GoMap.get_set_ne m (k := qual key n) (k' := qual key a) i
          (by rw [ne_eq, qual_inj]; exact h)
        simpa [qual] using this

theorem removeSpaces_of_no_space {s : Str} (h : ' ' ∉ s) : removeSpaces s = s := by
  unfold removeSpaces
  rw [List.filter_eq_self]
  intro c hc
  simp only [decide_eq_true_eq, ne_eq]
  intro e; subst e; exact h hc

theorem mem_join {sep : Str} {c : Char} : ∀ {l : List Str}, c ∈ join sep l →
    c ∈ sep ∨ ∃ f ∈ l, c ∈ f
  | [], h => by simp [join] at h
  | [x], h => Or.inr ⟨x, by simp, by simpa [join] using h⟩
  | x :: y :: r, h => by
    simp only [join, List.mem_append] at h
    rcases h with (h | h) | h
    · exact Or.inr ⟨x, by simp, h⟩
    · exact Or.inl h
    · rcases mem_join h with h | ⟨f, hf, hc⟩
      · exact Or.inl h
      · exact Or.inr ⟨f, by simp at hf ⊢; right; exact hf, hc⟩

/-- A definition declared with the given attribute names, as in a model file. -/
def declare (key : Str) (names : List Str) : PolicyDef := newPolicyDef key (join [','] names)

@[simp] theorem declare_key (key : Str) (names : List Str) : (declare key names).key = key := rfl

theorem declare_args (key : Str) {names : List Str} (g : GoodNames names) :
    (declare key names).args = names := by
  simp only [declare, newPolicyDef]
  rw [removeSpaces_of_no_space, splitC_join _ _ g.ne g.noComma]
  intro h
  rcases mem_join h with h | ⟨f, hf, hc⟩
  · simp at h
  · exact g.noSpace f hf hc

theorem declare_get (key : Str) {names : List Str} (g : GoodNames names) (a : Str) :
    (declare key names).argIndex.get (qual key a) =
      if a ∈ names then some (names.idxOf a) else none := by
  have h : (declare key names).argIndex = buildArgIndex key (declare key names).args 0 [] := rfl
  rw [h, declare_args key g, buildArgIndex_get _ _ _ _ g.nodup]
  simp

/-- Reading an attribute of a rule of full length, without the policy key. -/
theorem getParameter_full {α : Type} (key : Str) {names : List Str} (g : GoodNames names)
    (rule : List α) (hl : rule.length = names.length) (a : Str) :
    (declare key names).getParameter rule (qual key a) =
      if a ∈ names then rule[names.idxOf a]? else none := by
  unfold PolicyDef.getParameter
  rw [declare_get key g, declare_args key g]
  by_cases h : a ∈ names <;> simp [h, hl]

/-- Reading an attribute of a rule of full length that is prefixed by the policy key. -/
theorem getParameter_keyed {α : Type} (key : Str) {names : List Str} (g : GoodNames names)
    (k : α) (rule : List α) (hl : rule.length = names.length) (a : Str) :
    (declare key names).getParameter (k :: rule) (qual key a) =
      if a ∈ names then rule[names.idxOf a]? else none := by
  unfold PolicyDef.getParameter
  rw [declare_get key g, declare_args key g]
  by_cases h : a ∈ names <;> simp [h, hl]

theorem declare_has (key : Str) {names : List Str} (g : GoodNames names) (a : Str) :
    (declare key names).has (qual key a) = decide (a ∈ names) := by
  unfold PolicyDef.has GoMap.has
  rw [declare_get key g]
  by_cases h : a ∈ names <;> simp [h]

end Fastac
