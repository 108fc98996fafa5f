import Verif.Model.Defs

/-!
# Identifiers and attribute references in an expression
-/

namespace Fastac

/-- The identifiers of a text: its maximal runs of word characters; `cur` is the run being read. -/
def wordsFrom (cur : Str) : Str → List Str
  | [] => if cur = [] then [] else [cur]
  | c :: t =>
    if isWordC c then wordsFrom (cur ++ [c]) t
    else if cur = [] then wordsFrom [] t else cur :: wordsFrom [] t

def words (s : Str) : List Str := wordsFrom [] s

/-- An identifier that refers to an attribute: a letter from `start`, digits, `_`, and a name. -/
def IsRef (start : Char → Bool) (w : Str) : Prop :=
  ∃ c ds n, start c = true ∧ (∀ d ∈ ds, isDigitC d = true) ∧ n ≠ [] ∧ w = c :: (ds ++ '_' :: n)

/-- The test for `IsRef`. -/
def isRefB (start : Char → Bool) : Str → Bool
  | [] => false
  | c :: t =>
    start c && match t.dropWhile isDigitC with
      | [] => false
      | x :: n => x == '_' && !n.isEmpty

theorem isRefB_iff (start : Char → Bool) (w : Str) : isRefB start w = true ↔ IsRef start w := by
  constructor
  · intro h
    cases w with
    | nil => simp [isRefB] at h
    | cons c t =>
      simp only [isRefB, Bool.and_eq_true] at h
      obtain ⟨h1, h2⟩ := h
      cases hd : t.dropWhile isDigitC with
      | nil => rw [hd] at h2; simp at h2
      | cons x n =>
        rw [hd] at h2
        simp only [Bool.and_eq_true, beq_iff_eq, Bool.not_eq_true', List.isEmpty_eq_false_iff] at h2
        refine ⟨c, t.takeWhile isDigitC, n, h1, ?_, h2.2, ?_⟩
        · intro d hd
          exact (List.all_eq_true.1 List.all_takeWhile) d hd
        · congr 1
          rw [← h2.1, ← hd, List.takeWhile_append_dropWhile]
  · rintro ⟨c, ds, n, h1, h2, h3, rfl⟩
    simp only [isRefB, h1, Bool.true_and]
    have : (ds ++ '_' :: n).dropWhile isDigitC = '_' :: n := by
      rw [List.dropWhile_append_of_pos h2]
      rfl
    rw [this]
    cases n with
    | nil => exact absurd rfl h3
    | cons a b => rfl

instance (start : Char → Bool) (w : Str) : Decidable (IsRef start w) :=
  decidable_of_iff _ (isRefB_iff start w)

/-- A reference to an attribute of a policy (`p`, `p2`, `g`, …). -/
abbrev IsPolicyRef (w : Str) : Prop := IsRef (fun c => c == 'p' || c == 'g') w
/-- A reference to an attribute of the request. -/
abbrev IsRequestRef (w : Str) : Prop := IsRef (fun c => c == 'r') w

end Fastac
