import Verif.Lemmas.PathMatch

/-!
# C47–C49, C61: path patterns
-/

namespace Fastac

/-- **C48** for the helper with any separator, prefix and suffix: it returns, with nested calls at most
two more than the path has characters, and what it returns does not depend on how much deeper it could
go. -/
theorem c48_terminates (sep : Char) (pre suf : Option Char) (path pattern : Str) :
    ∃ b, ∀ n, path.length + 2 ≤ n → pathMatchF sep pre suf n path pattern = some b := by
  obtain ⟨b, hb⟩ := pathMatchF_returns sep pre suf path.length path pattern (Nat.le_refl _)
  exact ⟨b, fun n hn => pathMatchF_mono_le sep pre suf hn hb⟩

/-- What `PathMatch` returns. -/
def PathMatch (path pattern : Str) : Bool := (PathMatchF (path.length + 2) path pattern).getD false

/-- What `PathMatch2` returns. -/
def PathMatch2 (path pattern : Str) : Bool := (PathMatch2F (path.length + 2) path pattern).getD false

theorem PathMatch_iff (path pattern : Str) (b : Bool) :
    PathMatch path pattern = b ↔ ∃ n, PathMatchF n path pattern = some b := by
  obtain ⟨c, hc⟩ := c48_terminates '/' (some ':') none path pattern
  have h := hc _ (Nat.le_refl _)
  constructor
  · intro hb
    refine ⟨path.length + 2, ?_⟩
    have : PathMatch path pattern = c := by simp [PathMatch, PathMatchF, h]
    rw [← hb, this]
    exact h
  · rintro ⟨n, hn⟩
    have h1 := pathMatchF_mono_le '/' (some ':') none (Nat.le_max_left n (path.length + 2)) hn
    rw [hc _ (Nat.le_max_right _ _)] at h1
    cases h1
    simp [PathMatch, PathMatchF, h]

theorem PathMatch2_iff (path pattern : Str) (b : Bool) :
    PathMatch2 path pattern = b ↔ ∃ n, PathMatch2F n path pattern = some b := by
  obtain ⟨c, hc⟩ := c48_terminates '/' (some '{') (some '}') path pattern
  have h := hc _ (Nat.le_refl _)
  constructor
  · intro hb
    refine ⟨path.length + 2, ?_⟩
    have : PathMatch2 path pattern = c := by simp [PathMatch2, PathMatch2F, h]
    rw [← hb, this]
    exact h
  · rintro ⟨n, hn⟩
    have h1 := pathMatchF_mono_le '/' (some '{') (some '}') (Nat.le_max_left n (path.length + 2)) hn
    rw [hc _ (Nat.le_max_right _ _)] at h1
    cases h1
    simp [PathMatch2, PathMatch2F, h]

/-- **C47**, soundness, for every path and pattern: what matches can be matched segment by segment. -/
theorem c47_sound (path pattern : Str) :
    (PathMatch path pattern = true → SegMatch Colon (splitC '/' path) (splitC '/' pattern)) ∧
    (PathMatch2 path pattern = true → SegMatch Braces (splitC '/' path) (splitC '/' pattern)) := by
  constructor
  · intro h
    obtain ⟨n, hn⟩ := (PathMatch_iff _ _ _).mp h
    exact (pathMatchF_sound (by decide) _ _ n _ _ hn).mono (fun q => (isDynamic_colon q).mp)
  · intro h
    obtain ⟨n, hn⟩ := (PathMatch2_iff _ _ _).mp h
    exact (pathMatchF_sound (by decide) _ _ n _ _ hn).mono (fun q => (isDynamic_braces q).mp)

/-- **C47**, both directions, unless the path has a segment `*` and the pattern a segment `*` before its
last.  Missing: that case, see `c47_fails`. -/
theorem c47_path_match_partial (path pattern : Str)
    (hc : ['*'] ∈ (splitC '/' pattern).dropLast → ['*'] ∉ splitC '/' path) :
    (PathMatch path pattern = true ↔ SegMatch Colon (splitC '/' path) (splitC '/' pattern)) ∧
    (PathMatch2 path pattern = true ↔ SegMatch Braces (splitC '/' path) (splitC '/' pattern)) := by
  refine ⟨⟨(c47_sound path pattern).1, fun h => ?_⟩, ⟨(c47_sound path pattern).2, fun h => ?_⟩⟩
  · rw [← Bool.not_eq_false]
    intro hf
    obtain ⟨n, hn⟩ := (PathMatch_iff _ _ _).mp hf
    exact pathMatchF_complete (by decide) _ _ (by decide) n path pattern hc
      (h.mono (fun q => (isDynamic_colon q).mpr)) hn
  · rw [← Bool.not_eq_false]
    intro hf
    obtain ⟨n, hn⟩ := (PathMatch2_iff _ _ _).mp hf
    exact pathMatchF_complete (by decide) _ _ (by decide) n path pattern hc
      (h.mono (fun q => (isDynamic_braces q).mpr)) hn

/-- **C47 fails**: `*/a/b` can be matched against `*/b` but the code says no. -/
theorem c47_fails : SegMatch Colon (splitC '/' (s% "*/a/b")) (splitC '/' (s% "*/b")) ∧
    PathMatch (s% "*/a/b") (s% "*/b") = false := by
  refine ⟨?_, by decide⟩
  exact .star (front := [s% "*", s% "a"]) (by simp) (SegMatch.refl _ _)

/-- **C47**, exactly: what `PathMatch` and `PathMatch2` match, for all paths and patterns. -/
theorem c47_exact (path pattern : Str) :
    (PathMatch path pattern = true ↔ StarMatch Colon (splitC '/' path) (splitC '/' pattern)) ∧
    (PathMatch2 path pattern = true ↔ StarMatch Braces (splitC '/' path) (splitC '/' pattern)) := by
  refine ⟨⟨fun h => ?_, fun h => ?_⟩, ⟨fun h => ?_, fun h => ?_⟩⟩
  · obtain ⟨n, hn⟩ := (PathMatch_iff _ _ _).mp h
    exact (pathMatchF_star_sound (by decide) _ _ (by decide) n _ _ hn).mono (fun q => (isDynamic_colon q).mp)
  · rw [← Bool.not_eq_false]
    intro hf
    obtain ⟨n, hn⟩ := (PathMatch_iff _ _ _).mp hf
    exact pathMatchF_star_complete (by decide) _ _ (by decide) n path pattern
      (h.mono (fun q => (isDynamic_colon q).mpr)) hn
  · obtain ⟨n, hn⟩ := (PathMatch2_iff _ _ _).mp h
    exact (pathMatchF_star_sound (by decide) _ _ (by decide) n _ _ hn).mono (fun q => (isDynamic_braces q).mp)
  · rw [← Bool.not_eq_false]
    intro hf
    obtain ⟨n, hn⟩ := (PathMatch2_iff _ _ _).mp hf
    exact pathMatchF_star_complete (by decide) _ _ (by decide) n path pattern
      (h.mono (fun q => (isDynamic_braces q).mpr)) hn

theorem SegMatch.lits {dyn : Str → Prop} {ps qs : List Str} (hm : SegMatch dyn ps qs)
    (h : ∀ q ∈ qs, q ≠ ['*'] ∧ ¬ dyn q) : ps = qs := by
  induction hm with
  | nil => rfl
  | lit s _ ih => rw [ih (fun q hq => h q (List.mem_cons_of_mem _ hq))]
  | any hd _ _ => exact absurd hd (h _ (by simp)).2
  | star _ _ _ => exact absurd rfl (h _ (by simp)).1

theorem not_pattern {pre suf : Option Char} {s : Str} (h : isPathPatternHelper '/' pre suf s = false) :
    ∀ q ∈ splitC '/' s, q ≠ ['*'] ∧ ¬ isDynamicSegment pre suf q = true := by
  intro q hq
  simp only [isPathPatternHelper, List.any_eq_false] at h
  have := h q hq
  by_cases e : q = []
  · subst e
    exact ⟨by simp, by simp [isDynamicSegment]⟩
  · simp only [e, if_false, Bool.or_eq_true, decide_eq_true_eq, not_or] at this
    refine ⟨this.1, ?_⟩
    simp only [isDynamicSegment, e, if_false]
    exact this.2

theorem pathMatch_refl (s : Str) : PathMatch s s = true ∧ PathMatch2 s s = true := by
  constructor
  · rw [PathMatch_iff]; exact ⟨1, by simp [PathMatchF, pathMatchF]⟩
  · rw [PathMatch2_iff]; exact ⟨1, by simp [PathMatch2F, pathMatchF]⟩

/-- **C49**: a string that is no path pattern matches exactly itself. -/
theorem c49_plain (path s : Str) :
    (IsPathPattern s = false → (PathMatch path s = true ↔ path = s)) ∧
    (IsPathPattern2 s = false → (PathMatch2 path s = true ↔ path = s)) := by
  constructor
  · intro h
    refine ⟨fun hm => ?_, fun e => e ▸ (pathMatch_refl s).1⟩
    obtain ⟨n, hn⟩ := (PathMatch_iff _ _ _).mp hm
    exact splitC_inj '/' ((pathMatchF_sound (by decide) _ _ n _ _ hn).lits (not_pattern h))
  · intro h
    refine ⟨fun hm => ?_, fun e => e ▸ (pathMatch_refl s).2⟩
    obtain ⟨n, hn⟩ := (PathMatch2_iff _ _ _).mp hm
    exact splitC_inj '/' ((pathMatchF_sound (by decide) _ _ n _ _ hn).lits (not_pattern h))

/-- What a pattern is: some segment is `*` or dynamic. -/
theorem isPathPattern_iff (s : Str) :
    (IsPathPattern s = true ↔ ∃ q ∈ splitC '/' s, q = ['*'] ∨ Colon q) ∧
    (IsPathPattern2 s = true ↔ ∃ q ∈ splitC '/' s, q = ['*'] ∨ Braces q) := by
  have aux : ∀ pre suf, isPathPatternHelper '/' pre suf s = true ↔
      ∃ q ∈ splitC '/' s, q = ['*'] ∨ isDynamicSegment pre suf q = true := by
    intro pre suf
    simp only [isPathPatternHelper, List.any_eq_true]
    constructor
    · rintro ⟨q, hq, h⟩
      refine ⟨q, hq, ?_⟩
      by_cases e : q = []
      · simp [e] at h
      · simp only [e, if_false, Bool.or_eq_true, decide_eq_true_eq] at h
        rcases h with h | h
        · exact Or.inl h
        · right; simp only [isDynamicSegment, e, if_false]; exact h
    · rintro ⟨q, hq, h⟩
      refine ⟨q, hq, ?_⟩
      by_cases e : q = []
      · subst e
        rcases h with h | h
        · cases h
        · simp [isDynamicSegment] at h
      · simp only [e, if_false, Bool.or_eq_true, decide_eq_true_eq]
        rcases h with h | h
        · exact Or.inl h
        · right; simpa only [isDynamicSegment, e, if_false] using h
  constructor
  · rw [IsPathPattern, aux]
    simp only [isDynamic_colon]
  · rw [IsPathPattern2, aux]
    simp only [isDynamic_braces]

/-! ## C61: how many calls -/

theorem pathMatchCalls_succ (sep : Char) (pre suf : Option Char) (n : Nat) (path pattern : Str) :
    pathMatchCalls sep pre suf (n + 1) path pattern =
    if path = pattern || pattern = ['*'] then 1
    else
      if (nextSegment sep path).1 = (nextSegment sep pattern).1 || isDynamicSegment pre suf (nextSegment sep pattern).1 then
        if (nextSegment sep path).2.2 != (nextSegment sep pattern).2.2 then 1
        else 1 + pathMatchCalls sep pre suf n (nextSegment sep path).2.1 (nextSegment sep pattern).2.1
      else if (nextSegment sep pattern).1 = ['*'] then
        if !(nextSegment sep pattern).2.2 && (nextSegment sep path).2.2 then 1
        else
          match pathMatchF sep pre suf n (nextSegment sep path).2.1 (nextSegment sep pattern).2.1 with
          | none => 1 + pathMatchCalls sep pre suf n (nextSegment sep path).2.1 (nextSegment sep pattern).2.1
          | some true => 1 + pathMatchCalls sep pre suf n (nextSegment sep path).2.1 (nextSegment sep pattern).2.1
          | some false => 1 + pathMatchCalls sep pre suf n (nextSegment sep path).2.1 (nextSegment sep pattern).2.1 +
              pathMatchCalls sep pre suf n (nextSegment sep path).2.1 ('*' :: sep :: (nextSegment sep pattern).2.1)
      else 1 := rfl

/-- **C61**, the bound that holds: at most exponentially many calls in the number of segments of the
path, whatever the pattern. -/
theorem c61_calls_partial (sep : Char) (pre suf : Option Char) : ∀ (n : Nat) (path pattern : Str),
    pathMatchCalls sep pre suf n path pattern ≤ 2 ^ ((splitC sep path).length + 1) - 1 := by
  intro n
  induction n with
  | zero => intro _ _; exact Nat.zero_le _
  | succ n ih =>
    intro path pattern
    have sp := nextSegment_split sep path
    have hpos : ∀ k, 1 ≤ 2 ^ k := fun k => Nat.one_le_two_pow
    have hone : 1 ≤ 2 ^ ((splitC sep path).length + 1) - 1 := by
      have := hpos (splitC sep path).length
      rw [Nat.pow_succ]
      omega
    rw [pathMatchCalls_succ]
    split
    · exact hone
    · rename_i h1
      have h1' : ¬ pattern = ['*'] := fun h => h1 (by simp [h])
      split
      · split
        · exact hone
        · rename_i h3
          have h3' : (nextSegment sep path).2.2 = (nextSegment sep pattern).2.2 := by simpa using h3
          cases hl : (nextSegment sep path).2.2 with
          | true =>
            rw [nextSegment_last _ _ hl, nextSegment_last _ _ (h3'.symm.trans hl)]
            rw [hl] at sp
            have : pathMatchCalls sep pre suf n [] [] ≤ 1 := by
              cases n with
              | zero => exact Nat.zero_le _
              | succ n => rw [pathMatchCalls_succ]; simp
            rw [sp]
            simp only [if_true, List.length_cons, List.length_nil]
            omega
          | false =>
            rw [hl] at sp
            simp only [Bool.false_eq_true, if_false] at sp
            have := ih (nextSegment sep path).2.1 (nextSegment sep pattern).2.1
            rw [sp]
            simp only [List.length_cons]
            have h2 := hpos ((splitC sep (nextSegment sep path).2.1).length + 1)
            rw [Nat.pow_succ]
            omega
      · split
        · rename_i h3
          have h4 := star_not_last h1' h3
          rw [h4]
          cases hl : (nextSegment sep path).2.2 with
          | true => simpa using hone
          | false =>
            rw [hl] at sp
            simp only [Bool.false_eq_true, if_false] at sp
            simp only [Bool.not_false, Bool.and_false, Bool.false_eq_true, if_false]
            have a := ih (nextSegment sep path).2.1 (nextSegment sep pattern).2.1
            have b := ih (nextSegment sep path).2.1 ('*' :: sep :: (nextSegment sep pattern).2.1)
            rw [sp]
            simp only [List.length_cons]
            have h2 := hpos ((splitC sep (nextSegment sep path).2.1).length + 1)
            rw [Nat.pow_succ]
            split <;> omega
        · exact hone

/-- `a/a/…/a`, with `n + 1` segments. -/
def longPath : Nat → Str
  | 0 => ['a']
  | n + 1 => 'a' :: '/' :: longPath n

/-- `*/*/…/x`, with `n` stars. -/
def stars : Nat → Str
  | 0 => ['x']
  | n + 1 => '*' :: '/' :: stars n

theorem longPath_ne_stars (p s : Nat) : ¬ longPath p = stars s := by
  cases p <;> cases s <;> simp [longPath, stars]

theorem stars_ne_star (s : Nat) : ¬ stars s = ['*'] := by
  cases s <;> simp [stars]

theorem longPath_next (p : Nat) : nextSegment '/' (longPath (p + 1)) = (['a'], longPath p, false) := by
  simp [longPath, nextSegment]

theorem longPath_next0 : nextSegment '/' (longPath 0) = (['a'], [], true) := rfl

theorem stars_next (s : Nat) : nextSegment '/' (stars (s + 1)) = (['*'], stars s, false) := by
  simp [stars, nextSegment]

theorem stars_next0 : nextSegment '/' (stars 0) = (['x'], [], true) := rfl

theorem longPath_stars_false : ∀ n p s, PathMatchF n (longPath p) (stars s) ≠ some true := by
  intro n
  induction n with
  | zero => intro _ _ h; cases h
  | succ n ih =>
    intro p s h
    simp only [PathMatchF] at ih
    rw [PathMatchF, pathMatchF_succ, if_neg (by simp [longPath_ne_stars, stars_ne_star])] at h
    have hd : isDynamicSegment (some ':') none ['*'] = false := by decide
    have hd' : isDynamicSegment (some ':') none ['x'] = false := by decide
    cases s with
    | zero =>
      cases p <;> simp [longPath_next, longPath_next0, stars_next0, hd'] at h
    | succ s =>
      cases p with
      | zero => simp [stars_next, longPath_next0, hd] at h
      | succ p =>
        simp only [longPath_next, stars_next, hd] at h
        cases hr : pathMatchF '/' (some ':') none n (longPath p) (stars s) with
        | none => simp [hr] at h
        | some b =>
          cases b with
          | true => exact ih p s hr
          | false =>
            simp only [hr] at h
            have e : '*' :: '/' :: stars s = stars (s + 1) := rfl
            rw [e] at h
            exact ih p (s + 1) (by simpa using h)

/-- **C61 fails**: matching `a/a/…/a` (2m+1 segments) against `*/…/*/x` (m stars) takes at least `2^m`
calls, although both texts have at most `4m+1` characters. -/
theorem c61_fails (m : Nat) : (longPath (2 * m)).length ≤ 4 * m + 1 ∧ (stars m).length ≤ 2 * m + 1 ∧
    PathMatch (longPath (2 * m)) (stars m) = false ∧
    ∀ n, 2 * m + 1 ≤ n → 2 ^ m ≤ pathMatchCalls '/' (some ':') none n (longPath (2 * m)) (stars m) := by
  have hlen : ∀ k, (longPath k).length = 2 * k + 1 := by
    intro k
    induction k with
    | zero => rfl
    | succ k ih => simp only [longPath, List.length_cons, ih]; omega
  have hlen' : ∀ k, (stars k).length = 2 * k + 1 := by
    intro k
    induction k with
    | zero => rfl
    | succ k ih => simp only [stars, List.length_cons, ih]; omega
  refine ⟨by rw [hlen]; omega, by rw [hlen']; omega, ?_, ?_⟩
  · rw [← Bool.not_eq_true]
    intro h
    obtain ⟨n, hn⟩ := (PathMatch_iff _ _ _).mp h
    exact longPath_stars_false _ _ _ hn
  · have key : ∀ (k p s n : Nat), k ≤ s → k ≤ p → p + 1 ≤ n →
        2 ^ k ≤ pathMatchCalls '/' (some ':') none n (longPath p) (stars s) := by
      intro k
      induction k with
      | zero =>
        intro p s n _ _ hn
        obtain ⟨n, rfl⟩ : ∃ k, n = k + 1 := ⟨n - 1, by omega⟩
        rw [pathMatchCalls_succ]
        simp only [Nat.pow_zero]
        split
        · omega
        · split
          · split <;> omega
          · split
            · split
              · omega
              · split <;> omega
            · omega
      | succ k ih =>
        intro p s n hs hp hn
        obtain ⟨n, rfl⟩ : ∃ k, n = k + 1 := ⟨n - 1, by omega⟩
        obtain ⟨s, rfl⟩ : ∃ k, s = k + 1 := ⟨s - 1, by omega⟩
        obtain ⟨p, rfl⟩ : ∃ k, p = k + 1 := ⟨p - 1, by omega⟩
        have a := ih p s n (by omega) (by omega) (by omega)
        have b := ih p (s + 1) n (by omega) (by omega) (by omega)
        have hd : isDynamicSegment (some ':') none ['*'] = false := by decide
        have hne : ¬ (['a'] : Str) = ['*'] := by decide
        obtain ⟨m, -, hm⟩ : ∃ m, m = n ∧ ∃ c, pathMatchF '/' (some ':') none n (longPath p) (stars s) = some c := by
          refine ⟨n, rfl, ?_⟩
          -- the call returns within `p + 1` nested calls
          have ret : ∀ p s n, p + 1 ≤ n → ∃ c, pathMatchF '/' (some ':') none n (longPath p) (stars s) = some c := by
            intro p
            have hd' : isDynamicSegment (some ':') none ['x'] = false := by decide
            induction p with
            | zero =>
              intro s n hn
              obtain ⟨n, rfl⟩ : ∃ k, n = k + 1 := ⟨n - 1, by omega⟩
              rw [pathMatchF_succ, if_neg (by simp [longPath_ne_stars, stars_ne_star])]
              cases s <;> simp [stars_next, longPath_next0, stars_next0, hd, hd']
            | succ p ih =>
              intro s n hn
              obtain ⟨n, rfl⟩ : ∃ k, n = k + 1 := ⟨n - 1, by omega⟩
              rw [pathMatchF_succ, if_neg (by simp [longPath_ne_stars, stars_ne_star])]
              cases s with
              | zero => simp [longPath_next, stars_next0, hd']
              | succ s =>
                simp only [longPath_next, stars_next, hd, hne, decide_false, Bool.or_self, Bool.false_eq_true,
                  if_false, if_true, Bool.not_false, Bool.and_false]
                obtain ⟨c, hc⟩ := ih s n (by omega)
                rw [hc]
                cases c with
                | true => exact ⟨_, rfl⟩
                | false => exact ih (s + 1) n (by omega)
          exact ret p s n (by omega)
        obtain ⟨c, hc⟩ := hm
        have hcf : c = false := by
          cases c with
          | false => rfl
          | true => exact absurd hc (longPath_stars_false n p s)
        subst hcf
        rw [pathMatchCalls_succ, if_neg (by simp [longPath_ne_stars, stars_ne_star])]
        simp only [longPath_next, stars_next, hd, hne, decide_false, Bool.or_self, Bool.false_eq_true,
          if_false, if_true, Bool.not_false, Bool.and_false, hc]
        have e : '*' :: '/' :: stars s = stars (s + 1) := rfl
        rw [e, Nat.pow_succ]
        omega
    exact fun n hn => key m (2 * m) m n (Nat.le_refl _) (by omega) (by omega)

/-! ## Examples -/

-- the premise of C47 with a star in the middle, and both outcomes
example : (['*'] ∈ (splitC '/' (s% "/a/*/:id/c")).dropLast → ['*'] ∉ splitC '/' (s% "/a/x/y/7/c")) ∧
    PathMatch (s% "/a/x/y/7/c") (s% "/a/*/:id/c") = true ∧ PathMatch (s% "/a/7/c") (s% "/a/*/:id/c") = false := by
  decide

example : PathMatch2 (s% "/a/7") (s% "/a/{id}") = true ∧ PathMatch2 (s% "/a/7") (s% "/a/{id") = false := by decide

-- the premise of C49
example : IsPathPattern (s% "/a:b/**") = false ∧ IsPathPattern2 (s% "/:a") = false := by decide

end Fastac
