import Verif.Lemmas.Rewrite

/-!
# C64: `p.x` in a matcher means attribute `x` of definition `p`, everything else is left alone
-/

namespace Fastac

/-- **C64**, one half: a reference `key.name` with a key `p`, `r`, `g`, `p2`, … that stands for itself (it is
preceded by nothing, or by a character that is no letter, digit, underscore or dot) becomes `key_name`, and
the texts before and after it are rewritten independently of it. -/
theorem c64_reference (u : Str) (hu : u = [] ∨ ∃ u' b, u = u' ++ [b] ∧ isWordC b = false ∧ b ≠ '.')
    (c : Char) (hc : c = 'p' ∨ c = 'r' ∨ c = 'g') (ds : Str) (hd : ∀ d ∈ ds, isDigitC d = true)
    (name : Str) (hn : name ≠ []) (hw : ∀ d ∈ name, isWordC d = true) (t : Str)
    (ht : ∀ d, t.head? = some d → isWordC d = false) :
    replaceArgs (u ++ (c :: ds ++ '.' :: name) ++ t) =
      replaceArgs u ++ (c :: ds ++ '_' :: name) ++ replaceArgs t := by
  have hkey : isKeyC c = true := by rcases hc with rfl | rfl | rfl <;> decide
  have hat : ArgAt ((c :: ds ++ '.' :: name) ++ t) c ds '.' name t :=
    ⟨by simp, hkey, hd, by decide, hn, hw, ht⟩
  rw [List.append_assoc, replaceArgs_append _ u.length u (Nat.le_refl _) ?_, replaceArgs_at hat]
  · simp
  · rcases hu with rfl | ⟨u', b, rfl, h1, h2⟩
    · exact Or.inl rfl
    · exact Or.inr ⟨u', b, rfl, by simp [isEdgeC, h1, h2]⟩

/-- **C64**, the other half that holds: for every text the length is kept, and a character is only changed
if it is a dot after a key (a letter `p`, `r` or `g` and digits) and before a letter, digit or underscore;
it becomes an underscore.  Missing: such a dot may stand in a string, or the letter may end a longer name
(`c64_fails`). -/
theorem c64_rest_partial (s : Str) (i : Nat) (h : (replaceArgs s)[i]? ≠ s[i]?) :
    s[i]? = some '.' ∧ (replaceArgs s)[i]? = some '_' ∧
    (∃ u c ds, s.take i = u ++ c :: ds ∧ (c = 'p' ∨ c = 'r' ∨ c = 'g') ∧ ∀ d ∈ ds, isDigitC d = true) ∧
    ∃ v, s[i + 1]? = some v ∧ isWordC v = true := by
  rcases replaceArgs_get s.length s (Nat.le_refl _) i with h' | ⟨h1, h2, ⟨u, c, ds, h3, h4, h5⟩, h6⟩
  · exact absurd h' h
  · refine ⟨h1, h2, ⟨u, c, ds, h3, ?_, h5⟩, h6⟩
    simpa [isKeyC, or_assoc] using h4

/-- **C64**: a text without such dots is not changed. -/
theorem c64_unchanged (s : Str) (h : ∀ u c ds v t, s = u ++ (c :: ds ++ '.' :: v :: t) →
    (c = 'p' ∨ c = 'r' ∨ c = 'g') → (∀ d ∈ ds, isDigitC d = true) → isWordC v = false) :
    replaceArgs s = s := by
  apply List.ext_getElem?
  intro i
  by_cases he : (replaceArgs s)[i]? = s[i]?
  · exact he
  · exfalso
    obtain ⟨h1, -, ⟨u, c, ds, h3, h4, h5⟩, v, h6, h7⟩ := c64_rest_partial s i he
    have e : s = u ++ (c :: ds ++ '.' :: v :: s.drop (i + 2)) := by
      obtain ⟨hi, e1⟩ := List.getElem?_eq_some_iff.1 h1
      obtain ⟨hi', e2⟩ := List.getElem?_eq_some_iff.1 h6
      calc s = s.take i ++ s.drop i := (List.take_append_drop i s).symm
        _ = s.take i ++ ('.' :: v :: s.drop (i + 2)) := by
          rw [List.drop_eq_getElem_cons hi, List.drop_eq_getElem_cons hi', e1, e2]
        _ = _ := by rw [h3]; simp
    rw [h u c ds v _ e h4 h5] at h7
    cases h7

namespace RewriteExample

/-- Both halves at work on the matcher of `examples/rbac_with_domains_model.conf`. -/
example : replaceArgs (s% "g(r.sub, p2.sub, r.dom) && r.obj.Owner == \"x.y\"") =
    s% "g(r_sub, p2_sub, r_dom) && r_obj.Owner == \"x.y\"" := by decide

example : replaceArgs (s% "g(" ++ (s% "r" ++ s% ".sub") ++ s% ", x)") =
    replaceArgs (s% "g(") ++ (s% "r" ++ s% "_sub") ++ replaceArgs (s% ", x)") :=
  c64_reference (s% "g(") (Or.inr ⟨s% "g", '(', rfl, by decide, by decide⟩) 'r' (by decide) [] (by simp)
    (s% "sub") (by decide) (by decide) (s% ", x)") (by intro d hd; cases hd; decide)

/-- **C64 fails**: the string in `r.obj == "for.txt"` is changed, so that the matcher no longer accepts
`for.txt` but `for_txt`; and `group.id`, which is no attribute of a definition, becomes `group_id`. -/
theorem c64_fails :
    replaceArgs (s% "r.obj == \"for.txt\"") = s% "r_obj == \"for_txt\"" ∧
    replaceArgs (s% "group.id == r.id") = s% "group_id == r_id" := by decide

end RewriteExample

end Fastac
