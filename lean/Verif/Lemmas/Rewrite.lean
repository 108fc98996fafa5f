import Verif.Lemmas.Words

/-!
# Rewriting attribute references
-/

namespace Fastac

/-- The letters of definition keys. -/
def isKeyC (c : Char) : Bool := c == 'p' || c == 'r' || c == 'g'

/-- A dot or an underscore. -/
def isSepC (c : Char) : Bool := c == '.' || c == '_'

/-- The shape of a match: key, separator, name, and a rest that does not continue the name. -/
structure ArgAt (s : Str) (c : Char) (ds : Str) (x : Char) (w rest : Str) : Prop where
  eq : s = c :: (ds ++ x :: (w ++ rest))
  key : isKeyC c = true
  digits : ∀ d ∈ ds, isDigitC d = true
  sep : isSepC x = true
  ne : w ≠ []
  word : ∀ d ∈ w, isWordC d = true
  stop : ∀ d, rest.head? = some d → isWordC d = false

theorem sep_not_digit {x : Char} (h : isSepC x = true) : isDigitC x = false := by
  simp only [isSepC, Bool.or_eq_true, beq_iff_eq] at h
  rcases h with rfl | rfl <;> decide

theorem matchArg_some {s a w rest : Str} {x : Char} (h : matchArg isKeyC isSepC s = some (a, x, w, rest)) :
    ∃ c ds, a = c :: ds ∧ ArgAt s c ds x w rest := by
  cases s with
  | nil => simp [matchArg] at h
  | cons c t =>
    simp only [matchArg] at h
    by_cases hc : isKeyC c = true
    · rw [if_pos hc] at h
      cases hd : t.dropWhile isDigitC with
      | nil => rw [hd] at h; simp at h
      | cons y t2 =>
        rw [hd] at h
        simp only at h
        by_cases hy : isSepC y = true
        · rw [if_pos hy] at h
          by_cases hw : t2.takeWhile isWordC = []
          · rw [if_pos hw] at h; cases h
          · rw [if_neg hw] at h
            simp only [Option.some.injEq, Prod.mk.injEq] at h
            obtain ⟨rfl, rfl, rfl, rfl⟩ := h
            refine ⟨c, _, rfl, ?_, hc, ?_, hy, hw, ?_, ?_⟩
            · rw [List.takeWhile_append_dropWhile, ← hd, List.takeWhile_append_dropWhile]
            · exact fun d h => (List.all_eq_true.1 List.all_takeWhile) d h
            · exact fun d h => (List.all_eq_true.1 List.all_takeWhile) d h
            · intro d h
              have := List.head?_dropWhile_not isWordC t2
              rw [h] at this
              simpa using this
        · rw [if_neg hy] at h; cases h
    · rw [if_neg hc] at h; cases h

theorem ArgAt.match {s : Str} {c : Char} {ds : Str} {x : Char} {w rest : Str} (h : ArgAt s c ds x w rest) :
    matchArg isKeyC isSepC s = some (c :: ds, x, w, rest) := by
  obtain ⟨rfl, h1, h2, h3, h4, h5, h6⟩ := h
  have hx := sep_not_digit h3
  have e1 : (ds ++ x :: (w ++ rest)).dropWhile isDigitC = x :: (w ++ rest) := by
    rw [List.dropWhile_append_of_pos h2, List.dropWhile_cons, if_neg (by simp [hx])]
  have e2 : (ds ++ x :: (w ++ rest)).takeWhile isDigitC = ds := by
    rw [List.takeWhile_append_of_pos h2, List.takeWhile_cons, if_neg (by simp [hx]), List.append_nil]
  have e3 : (w ++ rest).takeWhile isWordC = w := by
    rw [List.takeWhile_append_of_pos h5]
    cases rest with
    | nil => simp
    | cons d r => simp [h6 d rfl]
  have e4 : (w ++ rest).dropWhile isWordC = rest := by
    rw [List.dropWhile_append_of_pos h5]
    cases rest with
    | nil => simp
    | cons d r => simp [h6 d rfl]
  simp only [matchArg, h1, if_true, e1, e2, h3, e3, e4, if_neg h4]

theorem replaceArgsAux_fuel : ∀ (n m : Nat) (s : Str), s.length ≤ n → s.length ≤ m →
    replaceArgsAux n s = replaceArgsAux m s := by
  intro n
  induction n with
  | zero =>
    intro m s h1 h2
    have : s = [] := List.length_eq_zero_iff.1 (by omega)
    subst this
    cases m <;> simp [replaceArgsAux]
  | succ n ih =>
    intro m s h1 h2
    cases s with
    | nil => cases m <;> simp [replaceArgsAux]
    | cons c t =>
      cases m with
      | zero => simp at h2
      | succ m =>
        simp only [List.length_cons] at h1 h2
        simp only [replaceArgsAux]
        cases hm : matchArg (fun c => c == 'p' || c == 'r' || c == 'g') (fun c => c == '.' || c == '_') (c :: t) with
        | none => simp only; rw [ih m t (by omega) (by omega)]
        | some q =>
          obtain ⟨a, x, w, rest⟩ := q
          have := matchArg_rest_length hm
          simp only [List.length_cons] at this
          simp only
          rw [ih m rest (by omega) (by omega)]

theorem replaceArgs_cons (c : Char) (t : Str) : replaceArgs (c :: t) =
    match matchArg isKeyC isSepC (c :: t) with
    | some (a, _, w, rest) => a ++ '_' :: w ++ replaceArgs rest
    | none => c :: replaceArgs t := by
  unfold replaceArgs
  simp only [List.length_cons, replaceArgsAux]
  show (match matchArg isKeyC isSepC (c :: t) with
    | some (a, _, w, rest) => a ++ '_' :: w ++ replaceArgsAux t.length rest
    | none => c :: replaceArgsAux t.length t) = _
  cases hm : matchArg isKeyC isSepC (c :: t) with
  | none => rfl
  | some q =>
    obtain ⟨a, x, w, rest⟩ := q
    have := matchArg_rest_length hm
    simp only [List.length_cons] at this
    simp only
    rw [replaceArgsAux_fuel t.length rest.length rest (by omega) (by omega)]

theorem replaceArgs_nil : replaceArgs [] = [] := rfl

theorem replaceArgs_at {s : Str} {c : Char} {ds : Str} {x : Char} {w rest : Str} (h : ArgAt s c ds x w rest) :
    replaceArgs s = c :: (ds ++ '_' :: (w ++ replaceArgs rest)) := by
  have hm := h.match
  have e := h.eq
  rw [e, replaceArgs_cons, ← e, hm]
  simp

/-- A character at which no reference continues. -/
def isEdgeC (b : Char) : Bool := !isWordC b && b != '.'

theorem ArgAt.no_edge {s : Str} {c : Char} {ds : Str} {x : Char} {w rest : Str} (h : ArgAt s c ds x w rest)
    {b : Char} (hb : isEdgeC b = true) : b ∉ c :: (ds ++ x :: w) := by
  simp only [isEdgeC, Bool.and_eq_true, Bool.not_eq_true', bne_iff_ne] at hb
  intro hmem
  simp only [List.mem_cons, List.mem_append] at hmem
  rcases hmem with rfl | hm | rfl | hm
  · have := h.key
    simp only [isKeyC, Bool.or_eq_true, beq_iff_eq] at this
    rcases this with (rfl | rfl) | rfl <;> revert hb <;> decide
  · have := h.digits b hm
    simp [isWordC, this] at hb
  · have := h.sep
    simp only [isSepC, Bool.or_eq_true, beq_iff_eq] at this
    rcases this with rfl | rfl <;> revert hb <;> decide
  · rw [h.word b hm] at hb; simp at hb

theorem replaceArgs_append (s : Str) : ∀ (n : Nat) (u : Str), u.length ≤ n →
    (u = [] ∨ ∃ u' b, u = u' ++ [b] ∧ isEdgeC b = true) →
    replaceArgs (u ++ s) = replaceArgs u ++ replaceArgs s := by
  intro n
  induction n with
  | zero =>
    intro u h _
    have : u = [] := List.length_eq_zero_iff.1 (by omega)
    subst this
    rfl
  | succ n ih =>
    intro u hl he
    rcases he with rfl | ⟨u', b, hu, hb⟩
    · rfl
    · cases u with
      | nil => rfl
      | cons c t =>
        rw [List.cons_append, replaceArgs_cons, replaceArgs_cons]
        have hbm : b ∈ c :: t := by rw [hu]; simp
        cases hm : matchArg isKeyC isSepC (c :: t) with
        | some q =>
          obtain ⟨a, x, w, rest⟩ := q
          obtain ⟨c0, ds, rfl, ha⟩ := matchArg_some hm
          have heq := ha.eq
          -- the rest is not empty and ends with the edge
          have hrest : ∃ r', rest = r' ++ [b] := by
            rcases List.eq_nil_or_concat rest with rfl | ⟨r', d, rfl⟩
            · exfalso
              have hmem : b ∈ c0 :: (ds ++ x :: w) := by
                have := hbm
                rw [heq, List.append_nil] at this
                exact this
              exact ha.no_edge hb hmem
            · have h1 : (c :: t).getLast? = some b := by rw [hu]; simp
              rw [heq] at h1
              have h2 : (c0 :: (ds ++ x :: (w ++ (r'.concat d)))).getLast? = some d := by
                rw [List.concat_eq_append,
                  show c0 :: (ds ++ x :: (w ++ (r' ++ [d]))) = (c0 :: (ds ++ x :: (w ++ r'))) ++ [d] by simp,
                  List.getLast?_concat]
              rw [h2] at h1
              cases h1
              exact ⟨r', by rw [List.concat_eq_append]⟩
          obtain ⟨r', hr'⟩ := hrest
          have ha' : ArgAt (c :: (t ++ s)) c0 ds x w (rest ++ s) := by
            refine ⟨?_, ha.key, ha.digits, ha.sep, ha.ne, ha.word, ?_⟩
            · rw [← List.cons_append, heq]; simp
            · intro d hd
              apply ha.stop d
              rw [hr'] at hd ⊢
              cases r' <;> simpa using hd
          rw [ha'.match]
          simp only
          have hlen : rest.length ≤ n := by
            have := congrArg List.length heq
            simp only [List.length_cons, List.length_append] at this hl
            omega
          rw [ih rest hlen (Or.inr ⟨r', b, hr', hb⟩)]
          simp
        | none =>
          have hnone : matchArg isKeyC isSepC (c :: (t ++ s)) = none := by
            cases hm' : matchArg isKeyC isSepC (c :: (t ++ s)) with
            | none => rfl
            | some q =>
              exfalso
              obtain ⟨a, x, w, rest⟩ := q
              obtain ⟨c0, ds, rfl, ha⟩ := matchArg_some hm'
              have heq := ha.eq
              rw [← List.cons_append,
                show c0 :: (ds ++ x :: (w ++ rest)) = (c0 :: (ds ++ x :: w)) ++ rest by simp] at heq
              rcases List.append_eq_append_iff.1 heq with ⟨a', h1, h2⟩ | ⟨c', h1, h2⟩
              · exact ha.no_edge hb (by rw [h1]; exact List.mem_append_left _ hbm)
              · have hne : c' ≠ [] := by
                  rintro rfl
                  rw [List.append_nil] at h1
                  exact ha.no_edge hb (by rw [← h1]; exact hbm)
                have ha' : ArgAt (c :: t) c0 ds x w c' := by
                  refine ⟨by rw [h1]; simp, ha.key, ha.digits, ha.sep, ha.ne, ha.word, ?_⟩
                  intro d hd
                  apply ha.stop d
                  rw [h2]
                  cases c' with
                  | nil => exact absurd rfl hne
                  | cons y r => simpa using hd
                rw [ha'.match] at hm
                cases hm
          rw [hnone]
          simp only [List.cons_append]
          simp only [List.length_cons] at hl
          rcases List.eq_nil_or_concat u' with rfl | ⟨u'', y, rfl⟩
          · simp only [List.nil_append, List.cons.injEq] at hu
            rw [hu.2]
            rfl
          · have : t = [] ∨ ∃ v b, t = v ++ [b] ∧ isEdgeC b = true := by
              rw [List.concat_eq_append] at hu
              cases u'' with
              | nil =>
                simp only [List.nil_append, List.cons_append, List.cons.injEq] at hu
                exact Or.inr ⟨[], b, by simpa using hu.2, hb⟩
              | cons z u'' =>
                simp only [List.cons_append, List.cons.injEq] at hu
                exact Or.inr ⟨u'' ++ [y], b, hu.2, hb⟩
            rw [ih t (by omega) this]

/-- Every character is kept, except dots of references. -/
theorem replaceArgs_get : ∀ (n : Nat) (s : Str), s.length ≤ n → ∀ i,
    (replaceArgs s)[i]? = s[i]? ∨
    (s[i]? = some '.' ∧ (replaceArgs s)[i]? = some '_' ∧
      (∃ u c ds, s.take i = u ++ c :: ds ∧ isKeyC c = true ∧ ∀ d ∈ ds, isDigitC d = true) ∧
      ∃ v, s[i + 1]? = some v ∧ isWordC v = true) := by
  intro n
  induction n with
  | zero =>
    intro s h i
    have : s = [] := List.length_eq_zero_iff.1 (by omega)
    subst this
    exact Or.inl rfl
  | succ n ih =>
    intro s hl i
    cases s with
    | nil => exact Or.inl rfl
    | cons c t =>
      simp only [List.length_cons] at hl
      cases hm : matchArg isKeyC isSepC (c :: t) with
      | none =>
        rw [replaceArgs_cons, hm]
        simp only
        cases i with
        | zero => exact Or.inl rfl
        | succ i =>
          rcases ih t (by omega) i with h | ⟨h1, h2, ⟨u, c', ds, h3, h4, h5⟩, h6⟩
          · exact Or.inl (by simpa using h)
          · exact Or.inr ⟨by simpa using h1, by simpa using h2, ⟨c :: u, c', ds, by simp [h3], h4, h5⟩,
              by simpa using h6⟩
      | some q =>
        obtain ⟨a, x, w, rest⟩ := q
        obtain ⟨c0, ds, rfl, ha⟩ := matchArg_some hm
        rw [replaceArgs_at ha]
        have heq := ha.eq
        rw [heq]
        have hrl : rest.length ≤ n := by
          have := congrArg List.length heq
          simp only [List.length_cons, List.length_append] at this
          omega
        -- positions: key and digits, separator, name, rest
        rcases Nat.lt_trichotomy i (ds.length + 1) with hi | hi | hi
        · left
          have e1 : ∀ (r : Str), (c0 :: (ds ++ r))[i]? = (c0 :: ds)[i]? := by
            intro r
            rw [← List.cons_append, List.getElem?_append_left (by simpa using hi)]
          rw [e1, e1]
        · subst hi
          have e1 : (c0 :: (ds ++ '_' :: (w ++ replaceArgs rest)))[ds.length + 1]? = some '_' := by
            simp
          have e2 : (c0 :: (ds ++ x :: (w ++ rest)))[ds.length + 1]? = some x := by
            simp
          rw [e1, e2]
          have hx := ha.sep
          simp only [isSepC, Bool.or_eq_true, beq_iff_eq] at hx
          rcases hx with rfl | rfl
          · right
            refine ⟨rfl, rfl, ⟨[], c0, ds, by simp, ha.key, ha.digits⟩, ?_⟩
            obtain ⟨v, w', hw⟩ := List.exists_cons_of_ne_nil ha.ne
            refine ⟨v, ?_, ha.word v (by rw [hw]; simp)⟩
            rw [hw]
            simp
          · exact Or.inl rfl
        · obtain ⟨j, rfl⟩ : ∃ j, i = ds.length + 2 + j := ⟨i - (ds.length + 2), by omega⟩
          have e1 : ∀ (y : Char) (r : Str), (c0 :: (ds ++ y :: r))[ds.length + 2 + j]? = r[j]? := by
            intro y r
            rw [show c0 :: (ds ++ y :: r) = (c0 :: (ds ++ [y])) ++ r by simp,
              List.getElem?_append_right (by simp)]
            congr 1
            simp
          have e2 : ∀ (y : Char) (r : Str), (c0 :: (ds ++ y :: r))[ds.length + 2 + j + 1]? = r[j + 1]? := by
            intro y r
            rw [show c0 :: (ds ++ y :: r) = (c0 :: (ds ++ [y])) ++ r by simp,
              List.getElem?_append_right (by simp; omega)]
            congr 1
            simp
            omega
          rw [e1, e1, e2]
          by_cases hj : j < w.length
          · left
            rw [List.getElem?_append_left hj, List.getElem?_append_left hj]
          · obtain ⟨k, rfl⟩ : ∃ k, j = w.length + k := ⟨j - w.length, by omega⟩
            have e3 : ∀ (r : Str), (w ++ r)[w.length + k]? = r[k]? := by
              intro r
              rw [List.getElem?_append_right (by omega)]
              congr 1
              omega
            have e4 : ∀ (r : Str), (w ++ r)[w.length + k + 1]? = r[k + 1]? := by
              intro r
              rw [List.getElem?_append_right (by omega)]
              congr 1
              omega
            rw [e3, e3, e4]
            rcases ih rest hrl k with h | ⟨h1, h2, ⟨u, c', ds', h3, h4, h5⟩, h6⟩
            · exact Or.inl h
            · refine Or.inr ⟨h1, h2, ⟨c0 :: (ds ++ x :: (w ++ u)), c', ds', ?_, h4, h5⟩, h6⟩
              rw [show c0 :: (ds ++ x :: (w ++ rest)) = (c0 :: (ds ++ x :: w)) ++ rest by simp,
                List.take_append]
              have : ds.length + 2 + (w.length + k) - (c0 :: (ds ++ x :: w)).length = k := by
                simp; omega
              rw [this, h3, List.take_of_length_le (by simp; omega)]
              simp

end Fastac
