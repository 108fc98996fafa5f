import Verif.Lemmas.Condition

/-!
# The stages of a condition
-/

namespace Fastac

/-- The tokens of an atom. -/
def Atom.toks (rk pk : Str) : Atom → Toks
  | .eq a b => [a.tok rk pk, .cmp, b.tok rk pk]
  | .call f args => ⟨.function, f⟩ :: .lp :: (sepToks (args.map (Ref.tok rk pk)) ++ [.rp])

theorem Atom.operand_eq (rk pk : Str) (a : Atom) : a.operand rk pk = .atom (a.toks rk pk) := by
  cases a <;> rfl

/-- A call has arguments. -/
def Atom.Full : Atom → Prop
  | .eq _ _ => True
  | .call _ args => args ≠ []

theorem Atom.expr_eq (rk pk : Str) {a : Atom} (h : a.Full) : tokensToExpr (a.toks rk pk) = a.text rk pk := by
  cases a with
  | eq a b => exact tokensToExpr_eq _ _ _ _
  | call f args => exact tokensToExpr_call _ _ _ _ (by simpa [Atom.Full] using h)

/-! ## Truth -/

mutual
theorem Cond.truth_iff (rk pk : Str) (ν : Toks → Bool) (P : Atom → Prop) : ∀ c : Cond,
    (∀ a ∈ c.atoms, (ν (a.toks rk pk) = true ↔ P a)) →
    ((c.operand rk pk).truth ν = true ↔ c.holds P)
  | .atom a, h => by
    rw [Cond.operand, Atom.operand_eq, Operand.truth, Cond.holds]
    exact h a (by simp [Cond.atoms])
  | .paren f, h => by
    rw [Cond.operand, Operand.truth, Cond.holds]
    exact Cond.anyTruth_iff rk pk ν P f h
theorem Cond.allTruth_iff (rk pk : Str) (ν : Toks → Bool) (P : Atom → Prop) : ∀ cs : List Cond,
    (∀ a ∈ Cond.allAtoms cs, (ν (a.toks rk pk) = true ↔ P a)) →
    (Operand.conjTruth ν (Cond.operands rk pk cs) = true ↔ Cond.allHold P cs)
  | [], _ => by simp [Cond.operands, Operand.conjTruth, Cond.allHold]
  | c :: cs, h => by
    rw [Cond.operands, Operand.conjTruth, Cond.allHold, Bool.and_eq_true,
      Cond.truth_iff rk pk ν P c (fun a ha => h a (by simp [Cond.allAtoms, ha])),
      Cond.allTruth_iff rk pk ν P cs (fun a ha => h a (by simp [Cond.allAtoms, ha]))]
theorem Cond.anyTruth_iff (rk pk : Str) (ν : Toks → Bool) (P : Atom → Prop) : ∀ f : List (List Cond),
    (∀ a ∈ Cond.anyAtoms f, (ν (a.toks rk pk) = true ↔ P a)) →
    (Operand.disjTruth ν (Cond.formula rk pk f) = true ↔ Cond.anyHolds P f)
  | [], _ => by simp [Cond.formula, Operand.disjTruth, Cond.anyHolds]
  | c :: cs, h => by
    rw [Cond.formula, Operand.disjTruth, Cond.anyHolds, Bool.or_eq_true,
      Cond.allTruth_iff rk pk ν P c (fun a ha => h a (by simp [Cond.anyAtoms, ha])),
      Cond.anyTruth_iff rk pk ν P cs (fun a ha => h a (by simp [Cond.anyAtoms, ha]))]
end

/-! ## All stages -/

theorem Stage.allIn_append {P : Stage → Prop} : ∀ {a b : List Stage}, Stage.AllIn P a → Stage.AllIn P b →
    Stage.AllIn P (a ++ b)
  | [], _, _, h => h
  | x :: xs, b, h, h' => by
    rw [List.cons_append, Stage.AllIn]
    rw [Stage.AllIn] at h
    exact ⟨h.1, Stage.allIn_append h.2 h'⟩

mutual
theorem Cond.all_trU {P : Stage → Prop} (rk pk : Str) : ∀ (c : Cond) (k : List Stage),
    (∀ a ∈ c.atoms, ∀ cs, P (.mk (tokensToExpr (a.toks rk pk)) cs)) → Stage.AllIn P k →
    Stage.AllIn P (Operand.trU (c.operand rk pk) k)
  | .atom a, k, h, hk => by
    rw [Cond.operand, Atom.operand_eq, Operand.trU]
    simp only [Stage.AllIn, Stage.All]
    exact ⟨⟨h a (by simp [Cond.atoms]) k, hk⟩, trivial⟩
  | .paren f, k, h, hk => by
    rw [Cond.operand, Operand.trU]
    exact Cond.all_trD rk pk f k h hk
theorem Cond.all_trC {P : Stage → Prop} (rk pk : Str) : ∀ (cs : List Cond) (k : List Stage),
    (∀ a ∈ Cond.allAtoms cs, ∀ ks, P (.mk (tokensToExpr (a.toks rk pk)) ks)) → Stage.AllIn P k →
    Stage.AllIn P (Operand.trC (Cond.operands rk pk cs) k)
  | [], k, _, hk => by rw [Cond.operands, Operand.trC]; exact hk
  | c :: cs, k, h, hk => by
    rw [Cond.operands, Operand.trC]
    exact Cond.all_trU rk pk c _ (fun a ha => h a (by simp [Cond.allAtoms, ha]))
      (Cond.all_trC rk pk cs k (fun a ha => h a (by simp [Cond.allAtoms, ha])) hk)
theorem Cond.all_trD {P : Stage → Prop} (rk pk : Str) : ∀ (f : List (List Cond)) (k : List Stage),
    (∀ a ∈ Cond.anyAtoms f, ∀ ks, P (.mk (tokensToExpr (a.toks rk pk)) ks)) → Stage.AllIn P k →
    Stage.AllIn P (Operand.trD (Cond.formula rk pk f) k)
  | [], k, _, _ => by rw [Cond.formula, Operand.trD]; trivial
  | c :: cs, k, h, hk => by
    rw [Cond.formula, Operand.trD]
    exact Stage.allIn_append (Cond.all_trC rk pk c k (fun a ha => h a (by simp [Cond.anyAtoms, ha])) hk)
      (Cond.all_trD rk pk cs k (fun a ha => h a (by simp [Cond.anyAtoms, ha])) hk)
end

/-! ## Leaves -/

mutual
theorem Operand.trU_ne : ∀ (u : Operand) (k : List Stage), u.wf = true → Operand.trU u k ≠ []
  | .atom ts, k, _ => by simp [Operand.trU]
  | .paren f, k, h => by
    rw [Operand.wf, Bool.and_eq_true, Bool.not_eq_true', List.isEmpty_eq_false_iff] at h
    rw [Operand.trU]
    exact Operand.trD_ne f k h.1 h.2
theorem Operand.trC_ne : ∀ (c : List Operand) (k : List Stage), c ≠ [] → Operand.conjWf c = true →
    Operand.trC c k ≠ []
  | [], _, h, _ => absurd rfl h
  | u :: us, k, _, h => by
    rw [Operand.conjWf, Bool.and_eq_true] at h
    rw [Operand.trC]
    exact Operand.trU_ne u _ h.1
theorem Operand.trD_ne : ∀ (f : List (List Operand)) (k : List Stage), f ≠ [] → Operand.disjWf f = true →
    Operand.trD f k ≠ []
  | [], _, h, _ => absurd rfl h
  | c :: cs, k, _, h => by
    rw [Operand.disjWf, Bool.and_eq_true, Bool.and_eq_true, Bool.not_eq_true', List.isEmpty_eq_false_iff] at h
    rw [Operand.trD]
    intro e
    exact Operand.trC_ne c k h.1.1 h.1.2 (List.append_eq_nil_iff.1 e).1
end

mutual
/-- With a continuation, no leaf comes from the condition itself. -/
theorem Cond.leaf_trU {Q : Str → Prop} (rk pk : Str) : ∀ (c : Cond) (k : List Stage), (c.operand rk pk).wf = true →
    (k = [] → ∀ a ∈ c.lasts, Q (tokensToExpr (a.toks rk pk))) →
    Stage.AllIn (fun st => st.isLeaf = true → Q st.expr) k →
    Stage.AllIn (fun st => st.isLeaf = true → Q st.expr) (Operand.trU (c.operand rk pk) k)
  | .atom a, k, _, h, hk => by
    rw [Cond.operand, Atom.operand_eq, Operand.trU]
    simp only [Stage.AllIn, Stage.All, Stage.expr]
    refine ⟨⟨fun hl => h ?_ a (by simp [Cond.lasts]), hk⟩, trivial⟩
    simpa [Stage.isLeaf, Stage.children] using hl
  | .paren f, k, hw, h, hk => by
    rw [Cond.operand, Operand.wf, Bool.and_eq_true] at hw
    rw [Cond.operand, Operand.trU]
    exact Cond.leaf_trD rk pk f k hw.2 h hk
theorem Cond.leaf_trC {Q : Str → Prop} (rk pk : Str) : ∀ (cs : List Cond) (k : List Stage),
    Operand.conjWf (Cond.operands rk pk cs) = true →
    (k = [] → ∀ a ∈ Cond.allLasts cs, Q (tokensToExpr (a.toks rk pk))) →
    Stage.AllIn (fun st => st.isLeaf = true → Q st.expr) k →
    Stage.AllIn (fun st => st.isLeaf = true → Q st.expr) (Operand.trC (Cond.operands rk pk cs) k)
  | [], k, _, _, hk => by rw [Cond.operands, Operand.trC]; exact hk
  | c :: cs, k, hw, h, hk => by
    rw [Cond.operands, Operand.conjWf, Bool.and_eq_true] at hw
    rw [Cond.operands, Operand.trC]
    cases cs with
    | nil =>
      rw [Cond.operands, Operand.trC]
      exact Cond.leaf_trU rk pk c k hw.1 (by simpa [Cond.allLasts] using h) hk
    | cons c' cs =>
      apply Cond.leaf_trU rk pk c _ hw.1
      · intro e
        exact absurd e (Operand.trC_ne _ k (by simp [Cond.operands]) hw.2)
      · exact Cond.leaf_trC rk pk (c' :: cs) k hw.2 (by simpa [Cond.allLasts] using h) hk
theorem Cond.leaf_trD {Q : Str → Prop} (rk pk : Str) : ∀ (f : List (List Cond)) (k : List Stage),
    Operand.disjWf (Cond.formula rk pk f) = true →
    (k = [] → ∀ a ∈ Cond.anyLasts f, Q (tokensToExpr (a.toks rk pk))) →
    Stage.AllIn (fun st => st.isLeaf = true → Q st.expr) k →
    Stage.AllIn (fun st => st.isLeaf = true → Q st.expr) (Operand.trD (Cond.formula rk pk f) k)
  | [], k, _, _, _ => by rw [Cond.formula, Operand.trD]; trivial
  | c :: cs, k, hw, h, hk => by
    rw [Cond.formula, Operand.disjWf, Bool.and_eq_true, Bool.and_eq_true] at hw
    rw [Cond.formula, Operand.trD]
    exact Stage.allIn_append
      (Cond.leaf_trC rk pk c k hw.1.2 (fun e a ha => h e a (by simp [Cond.anyLasts, ha])) hk)
      (Cond.leaf_trD rk pk cs k hw.2 (fun e a ha => h e a (by simp [Cond.anyLasts, ha])) hk)
end

mutual
theorem Cond.lasts_sub : ∀ (c : Cond), ∀ a ∈ c.lasts, a ∈ c.atoms
  | .atom a, b, h => by simpa [Cond.lasts, Cond.atoms] using h
  | .paren f, b, h => by
    rw [Cond.lasts] at h
    rw [Cond.atoms]
    exact Cond.anyLasts_sub f b h
theorem Cond.allLasts_sub : ∀ (cs : List Cond), ∀ a ∈ Cond.allLasts cs, a ∈ Cond.allAtoms cs
  | [], a, h => by simp [Cond.allLasts] at h
  | c :: cs, a, h => by
    rw [Cond.allLasts] at h
    rw [Cond.allAtoms, List.mem_append]
    split at h
    · exact Or.inl (Cond.lasts_sub c a h)
    · exact Or.inr (Cond.allLasts_sub cs a h)
theorem Cond.anyLasts_sub : ∀ (f : List (List Cond)), ∀ a ∈ Cond.anyLasts f, a ∈ Cond.anyAtoms f
  | [], a, h => by simp [Cond.anyLasts] at h
  | c :: cs, a, h => by
    rw [Cond.anyLasts, List.mem_append] at h
    rw [Cond.anyAtoms, List.mem_append]
    rcases h with h | h
    · exact Or.inl (Cond.allLasts_sub c a h)
    · exact Or.inr (Cond.anyLasts_sub cs a h)
end

/-! ## Texts -/

theorem Stage.textsIn_append : ∀ a b : List Stage, Stage.textsIn (a ++ b) = Stage.textsIn a ++ Stage.textsIn b
  | [], b => by simp [Stage.textsIn]
  | x :: xs, b => by
    rw [List.cons_append, Stage.textsIn, Stage.textsIn_append xs b, Stage.textsIn, List.append_assoc]

mutual
theorem Cond.texts_trU (rk pk : Str) (e : Str) : ∀ (c : Cond) (k : List Stage), (c.operand rk pk).wf = true →
    (e ∈ Stage.textsIn (Operand.trU (c.operand rk pk) k) ↔
      (∃ a ∈ c.atoms, e = tokensToExpr (a.toks rk pk)) ∨ e ∈ Stage.textsIn k)
  | .atom a, k, _ => by
    rw [Cond.operand, Atom.operand_eq, Operand.trU]
    simp [Stage.textsIn, Stage.texts, Cond.atoms]
  | .paren f, k, hw => by
    rw [Cond.operand, Operand.wf, Bool.and_eq_true, Bool.not_eq_true', List.isEmpty_eq_false_iff] at hw
    rw [Cond.operand, Operand.trU, Cond.atoms]
    exact Cond.texts_trD rk pk e f k hw.1 hw.2
theorem Cond.texts_trC (rk pk : Str) (e : Str) : ∀ (cs : List Cond) (k : List Stage),
    Operand.conjWf (Cond.operands rk pk cs) = true →
    (e ∈ Stage.textsIn (Operand.trC (Cond.operands rk pk cs) k) ↔
      (∃ a ∈ Cond.allAtoms cs, e = tokensToExpr (a.toks rk pk)) ∨ e ∈ Stage.textsIn k)
  | [], k, _ => by rw [Cond.operands, Operand.trC]; simp [Cond.allAtoms]
  | c :: cs, k, hw => by
    rw [Cond.operands, Operand.conjWf, Bool.and_eq_true] at hw
    rw [Cond.operands, Operand.trC, Cond.texts_trU rk pk e c _ hw.1, Cond.texts_trC rk pk e cs k hw.2,
      Cond.allAtoms]
    simp only [List.mem_append, or_and_right, exists_or, or_assoc]
theorem Cond.texts_trD (rk pk : Str) (e : Str) : ∀ (f : List (List Cond)) (k : List Stage),
    Cond.formula rk pk f ≠ [] → Operand.disjWf (Cond.formula rk pk f) = true →
    (e ∈ Stage.textsIn (Operand.trD (Cond.formula rk pk f) k) ↔
      (∃ a ∈ Cond.anyAtoms f, e = tokensToExpr (a.toks rk pk)) ∨ e ∈ Stage.textsIn k)
  | [], k, h, _ => absurd rfl h
  | [c], k, _, hw => by
    rw [Cond.formula, Operand.disjWf, Bool.and_eq_true, Bool.and_eq_true] at hw
    rw [Cond.formula, Operand.trD, Cond.formula, Operand.trD, List.append_nil,
      Cond.texts_trC rk pk e c k hw.1.2, Cond.anyAtoms, Cond.anyAtoms, List.append_nil]
  | c :: d :: cs, k, _, hw => by
    rw [Cond.formula, Operand.disjWf, Bool.and_eq_true, Bool.and_eq_true] at hw
    rw [Cond.formula, Operand.trD, Stage.textsIn_append, List.mem_append,
      Cond.texts_trC rk pk e c k hw.1.2,
      Cond.texts_trD rk pk e (d :: cs) k (by simp [Cond.formula]) hw.2,
      show Cond.anyAtoms (c :: d :: cs) = Cond.allAtoms c ++ Cond.anyAtoms (d :: cs) by rw [Cond.anyAtoms]]
    simp only [List.mem_append, or_and_right, exists_or]
    constructor
    · rintro ((h | h) | (h | h))
      · exact Or.inl (Or.inl h)
      · exact Or.inr h
      · exact Or.inl (Or.inr h)
      · exact Or.inr h
    · rintro ((h | h) | h)
      · exact Or.inl (Or.inl h)
      · exact Or.inr (Or.inl h)
      · exact Or.inl (Or.inr h)
end

end Fastac
