import Verif.Spec.Words

/-!
# The scanner for attribute references
-/

namespace Fastac

theorem matchArg_rest_length {start sep : Char → Bool} {s a w rest : Str} {x : Char}
    (h : matchArg start sep s = some (a, x, w, rest)) : rest.length < s.length := by
  cases s with
  | nil => simp [matchArg] at h
  | cons c t =>
    simp only [matchArg] at h
    split at h
    · cases hd : t.dropWhile isDigitC with
      | nil => rw [hd] at h; simp at h
      | cons y t2 =>
        rw [hd] at h
        simp only at h
        split at h
        · split at h
          · simp at h
          · simp only [Option.some.injEq, Prod.mk.injEq] at h
            obtain ⟨_, _, _, rfl⟩ := h
            have h1 := (List.dropWhile_suffix (p := isWordC) (l := t2)).length_le
            have h2 := (List.dropWhile_suffix (p := isDigitC) (l := t)).length_le
            rw [hd] at h2
            simp only [List.length_cons] at h2 ⊢
            omega
        · simp at h
    · simp at h

theorem findArgsAux_fuel (start sep : Char → Bool) : ∀ (n m : Nat) (s : Str), s.length ≤ n →
    s.length ≤ m → findArgsAux start sep n s = findArgsAux start sep m s := by
  intro n
  induction n with
  | zero =>
    intro m s h1 h2
    have : s = [] := List.length_eq_zero_iff.1 (by omega)
    subst this
    cases m <;> simp [findArgsAux]
  | succ n ih =>
    intro m s h1 h2
    cases s with
    | nil => cases m <;> simp [findArgsAux]
    | cons c t =>
      cases m with
      | zero => simp at h2
      | succ m =>
        simp only [List.length_cons] at h1 h2
        simp only [findArgsAux]
        cases hm : matchArg start sep (c :: t) with
        | none => exact ih m t (by omega) (by omega)
        | some q =>
          obtain ⟨a, x, w, rest⟩ := q
          have := matchArg_rest_length hm
          simp only [List.length_cons] at this
          simp only
          rw [ih m rest (by omega) (by omega)]

/-- The scanner with enough fuel. -/
def findArgs (start : Char → Bool) (s : Str) : List Str :=
  findArgsAux start (fun c => c == '_') s.length s

theorem findArgs_nil (start : Char → Bool) : findArgs start [] = [] := rfl

theorem findArgs_cons (start : Char → Bool) (c : Char) (t : Str) :
    findArgs start (c :: t) =
      match matchArg start (fun c => c == '_') (c :: t) with
      | some (a, x, w, rest) => (a ++ x :: w) :: findArgs start rest
      | none => findArgs start t := by
  unfold findArgs
  simp only [List.length_cons, findArgsAux]
  cases hm : matchArg start (fun c => c == '_') (c :: t) with
  | none => rfl
  | some q =>
    obtain ⟨a, x, w, rest⟩ := q
    have := matchArg_rest_length hm
    simp only [List.length_cons] at this
    simp only
    rw [findArgsAux_fuel _ _ t.length rest.length rest (by omega) (by omega)]

/-- A text at which no identifier continues. -/
def NoWord (rest : Str) : Prop := ∀ c t, rest = c :: t → isWordC c = false

theorem isWordC_of_isDigitC {c : Char} (h : isDigitC c = true) : isWordC c = true := by
  simp [isWordC, h]

theorem takeWhile_word {n rest : Str} (hn : ∀ c ∈ n, isWordC c = true) (hr : NoWord rest) :
    (n ++ rest).takeWhile isWordC = n ∧ (n ++ rest).dropWhile isWordC = rest := by
  have h0 : rest.takeWhile isWordC = [] ∧ rest.dropWhile isWordC = rest := by
    cases rest with
    | nil => simp
    | cons c t => simp [hr c t rfl]
  rw [List.takeWhile_append_of_pos hn, List.dropWhile_append_of_pos hn, h0.1, h0.2]
  simp

theorem dropWhile_digit {t rest : Str} (hr : NoWord rest) :
    (t ++ rest).dropWhile isDigitC = t.dropWhile isDigitC ++ rest ∧
    (t ++ rest).takeWhile isDigitC = t.takeWhile isDigitC := by
  have h0 : rest.dropWhile isDigitC = rest ∧ rest.takeWhile isDigitC = [] := by
    cases rest with
    | nil => simp
    | cons c u =>
      have hd : isDigitC c = false := by
        cases h : isDigitC c with
        | false => rfl
        | true => exact absurd (isWordC_of_isDigitC h) (by simp [hr c u rfl])
      simp [hd]
  induction t with
  | nil => simpa using h0
  | cons c t ih =>
    simp only [List.cons_append, List.dropWhile_cons, List.takeWhile_cons]
    cases isDigitC c <;> simp [ih]

/-- At the beginning of an identifier the scanner matches iff the identifier is a reference, and
then it takes all of it. -/
theorem matchArg_word (start : Char → Bool) (w rest : Str) (hw : ∀ c ∈ w, isWordC c = true)
    (hne : w ≠ []) (hr : NoWord rest) :
    (isRefB start w = true → ∃ a x n, matchArg start (fun c => c == '_') (w ++ rest) =
        some (a, x, n, rest) ∧ a ++ x :: n = w) ∧
    (isRefB start w = false → matchArg start (fun c => c == '_') (w ++ rest) = none) := by
  cases w with
  | nil => exact absurd rfl hne
  | cons c t =>
    simp only [isRefB, matchArg, List.cons_append, (dropWhile_digit hr).1, (dropWhile_digit hr).2]
    cases hc : start c with
    | false => simp
    | true =>
      simp only [Bool.true_and, if_true]
      cases hd : t.dropWhile isDigitC with
      | nil =>
        refine ⟨by simp, fun _ => ?_⟩
        cases rest with
        | nil => rfl
        | cons y u =>
          have hy : (y == '_') = false := by
            cases h : y == '_' with
            | false => rfl
            | true =>
              have := hr y u rfl
              rw [beq_iff_eq.1 h] at this
              exact absurd this (by decide)
          simp [hy]
      | cons x n =>
        simp only [List.cons_append]
        have hn : ∀ c ∈ n, isWordC c = true := by
          intro z hz
          apply hw
          apply List.mem_cons_of_mem
          apply (List.dropWhile_suffix (p := isDigitC)).mem
          rw [hd]
          exact List.mem_cons_of_mem _ hz
        rw [(takeWhile_word hn hr).1, (takeWhile_word hn hr).2]
        cases hx : x == '_' with
        | false => simp
        | true =>
          cases n with
          | nil => simp
          | cons a b =>
            simp only [Bool.true_and, if_true, List.isEmpty_cons, Bool.not_false, reduceCtorEq,
              if_false]
            refine ⟨fun _ => ⟨_, _, _, rfl, ?_⟩, False.elim⟩
            rw [List.cons_append, ← hd, List.takeWhile_append_dropWhile]

/-- An identifier none of whose tails is a reference is passed over. -/
theorem findArgs_skip (start : Char → Bool) (w rest : Str) (hw : ∀ c ∈ w, isWordC c = true)
    (hr : NoWord rest) (h : ∀ u v, w = u ++ v → isRefB start v = false) :
    findArgs start (w ++ rest) = findArgs start rest := by
  induction w with
  | nil => rfl
  | cons c t ih =>
    have hnone := (matchArg_word start (c :: t) rest hw (by simp) hr).2 (h [] _ rfl)
    rw [List.cons_append] at hnone ⊢
    rw [findArgs_cons, hnone]
    exact ih (fun z hz => hw z (List.mem_cons_of_mem _ hz))
      (fun u v e => h (c :: u) v (by rw [e]; rfl))

theorem findArgs_take (start : Char → Bool) (w rest : Str) (hw : ∀ c ∈ w, isWordC c = true)
    (hr : NoWord rest) (h : isRefB start w = true) :
    findArgs start (w ++ rest) = w :: findArgs start rest := by
  have hne : w ≠ [] := by rintro rfl; simp [isRefB] at h
  obtain ⟨a, x, n, h1, h2⟩ := (matchArg_word start w rest hw hne hr).1 h
  cases w with
  | nil => exact absurd rfl hne
  | cons c t =>
    rw [List.cons_append] at h1 ⊢
    rw [findArgs_cons, h1]
    simp only [h2]

/-- The identifiers of a text that begins with (part of) an identifier. -/
theorem findArgs_wordsFrom (start : Char → Bool) (hst : ∀ c, start c = true → isWordC c = true) :
    ∀ (s cur : Str), (∀ c ∈ cur, isWordC c = true) →
    (∀ w ∈ wordsFrom cur s, ∀ u v, w = u ++ v → isRefB start v = true → u = []) →
    findArgs start (cur ++ s) = (wordsFrom cur s).filter (isRefB start) := by
  intro s
  have key : ∀ (w rest : Str), (∀ c ∈ w, isWordC c = true) → NoWord rest → w ≠ [] →
      (∀ u v, w = u ++ v → isRefB start v = true → u = []) →
      findArgs start (w ++ rest) =
        (if isRefB start w = true then [w] else []) ++ findArgs start rest := by
    intro w rest hw hr hne hu
    by_cases h : isRefB start w = true
    · rw [findArgs_take start w rest hw hr h, if_pos h]; rfl
    · rw [findArgs_skip start w rest hw hr, if_neg h]; · rfl
      intro u v e
      cases hv : isRefB start v with
      | false => rfl
      | true =>
        have := hu u v e hv
        subst this
        simp only [List.nil_append] at e
        subst e
        exact absurd hv h
  induction s with
  | nil =>
    intro cur hcur h
    simp only [wordsFrom] at h ⊢
    by_cases hc : cur = []
    · subst hc; simp [findArgs_nil]
    · rw [if_neg hc] at h ⊢
      rw [key cur [] hcur (by intro c t e; cases e) hc (h cur (by simp)), findArgs_nil]
      simp [List.filter_cons]
  | cons c t ih =>
    intro cur hcur h
    simp only [wordsFrom] at h ⊢
    cases hw : isWordC c with
    | true =>
      rw [hw] at h
      simp only [if_true] at h ⊢
      have := ih (cur ++ [c]) (by
        intro z hz
        rcases List.mem_append.1 hz with hz | hz
        · exact hcur z hz
        · rw [List.mem_singleton.1 hz]; exact hw) h
      rw [List.append_assoc] at this
      exact this
    | false =>
      rw [hw] at h
      simp only [Bool.false_eq_true, if_false] at h ⊢
      have hnw : NoWord (c :: t) := by
        intro c' t' e; cases e; exact hw
      have hstep : findArgs start (c :: t) = findArgs start t := by
        have : matchArg start (fun c => c == '_') (c :: t) = none := by
          have : start c = false := by
            cases hs : start c with
            | false => rfl
            | true => rw [hst c hs] at hw; exact absurd hw (by simp)
          simp [matchArg, this]
        rw [findArgs_cons, this]
      by_cases hc : cur = []
      · subst hc
        simp only [if_true] at h ⊢
        rw [List.nil_append, hstep]
        exact ih [] (by simp) h
      · rw [if_neg hc] at h ⊢
        rw [key cur (c :: t) hcur hnw hc (h cur (by simp)), hstep]
        have := ih [] (by simp) (fun w hw' => h w (List.mem_cons_of_mem _ hw'))
        rw [List.nil_append] at this
        rw [this, List.filter_cons]
        split <;> rfl

end Fastac
