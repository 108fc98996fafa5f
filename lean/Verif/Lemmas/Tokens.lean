import Verif.Spec.Tokens

/-!
# Reading the first token back
-/

namespace Fastac

/-- Drop one leading space. -/
def dropSp : Str → Str
  | ' ' :: s => s
  | s => s

/-- The first token of a printed list, and the text of the others. -/
def firstTok : Str → Tok × Str
  | [] => (⟨.other, []⟩, [])
  | c :: r =>
    if c = '(' then (⟨.clause, s% "("⟩, r)
    else if c = ')' then (⟨.clauseClose, s% ")"⟩, dropSp r)
    else if c = ',' then (⟨.separator, s% ","⟩, dropSp r)
    else if c = '\'' then
      (⟨.string, r.takeWhile (· != '\'')⟩, dropSp ((r.dropWhile (· != '\'')).drop 1))
    else if isWordC c then
      let w := (c :: r).takeWhile isNameC
      let rest := (c :: r).dropWhile isNameC
      if rest.head? = some '(' then
        (⟨if w.contains '.' then .accessor else .function, w⟩, rest)
      else if w.contains '.' && !isDigitC c then (⟨.accessor, w⟩, rest)
      else (⟨.other, w⟩, dropSp rest)
    else
      let o := (c :: r).takeWhile isSymC
      let rest := (c :: r).dropWhile isSymC
      if rest.head? = some ' ' then
        (⟨if o = s% "&&" ∨ o = s% "||" then .logicalOp else .other, o⟩, dropSp rest)
      else (⟨.pre, [c]⟩, r)

theorem takeWhile_append_stop {α : Type} (p : α → Bool) (a b : List α) (ha : a.all p = true)
    (hb : ∀ x, b.head? = some x → p x = false) : (a ++ b).takeWhile p = a ∧ (a ++ b).dropWhile p = b := by
  have ha' : ∀ x ∈ a, p x = true := List.all_eq_true.1 ha
  rw [List.takeWhile_append_of_pos ha', List.dropWhile_append_of_pos ha']
  cases b with
  | nil => simp
  | cons x b => simp [hb x rfl]

theorem sym_not_name {c : Char} (h : isSymC c = true) : isNameC c = false ∧ isWordC c = false ∧ c ≠ '(' ∧
    c ≠ ')' ∧ c ≠ ',' ∧ c ≠ '\'' ∧ c ≠ ' ' := by
  have : c ∈ "=!<>~+-*/%&|^?:".toList := by simpa [isSymC] using h
  have key : ∀ x ∈ "=!<>~+-*/%&|^?:".toList, isNameC x = false ∧ isWordC x = false ∧ x ≠ '(' ∧
    x ≠ ')' ∧ x ≠ ',' ∧ x ≠ '\'' ∧ x ≠ ' ' := by decide
  exact key c this

theorem word_not {c : Char} (h : isWordC c = true) : isSymC c = false ∧ c ≠ '(' ∧
    c ≠ ')' ∧ c ≠ ',' ∧ c ≠ '\'' ∧ c ≠ ' ' := by
  refine ⟨?_, ?_, ?_, ?_, ?_, ?_⟩
  · cases hs : isSymC c with
    | false => rfl
    | true => rw [(sym_not_name hs).2.1] at h; cases h
  all_goals (rintro rfl; revert h; decide)

/-- How the text of a token starts. -/
inductive Starts : TokKind → Bool → Char → Prop where
  | clause : Starts .clause false '('
  | close : Starts .clauseClose false ')'
  | sep : Starts .separator false ','
  | string : Starts .string false '\''
  | function {c} : isWordC c = true → Starts .function false c
  | accessor {c} : isWordC c = true → Starts .accessor false c
  | name {c} : isWordC c = true → Starts .other false c
  | op {c} : isSymC c = true → Starts .other true c
  | logical {c} : isSymC c = true → Starts .logicalOp true c
  | pre {c} : isSymC c = true → Starts .pre false c

theorem isName_head {s : Str} (h : isName s = true) : ∃ c r, s = c :: r ∧ isWordC c = true ∧ s.all isNameC = true := by
  cases s with
  | nil => simp [isName] at h
  | cons c r =>
    simp only [isName, Bool.and_eq_true] at h
    exact ⟨c, r, rfl, by simpa using h.1, h.2⟩

theorem Tok.starts {t : Tok} (h : t.plain = true) : ∃ c r, tokText t = c :: r ∧ Starts t.kind t.isOp c := by
  obtain ⟨k, x⟩ := t
  cases k with
  | string => exact ⟨_, _, rfl, .string⟩
  | clause => exact ⟨_, _, rfl, .clause⟩
  | clauseClose => exact ⟨_, _, rfl, .close⟩
  | accessor =>
    simp only [Tok.plain, Bool.and_eq_true] at h
    obtain ⟨c, r, rfl, hc, -⟩ := isName_head h.1.1
    exact ⟨c, r, rfl, .accessor hc⟩
  | function =>
    simp only [Tok.plain, Bool.and_eq_true] at h
    obtain ⟨c, r, rfl, hc, -⟩ := isName_head h.1
    exact ⟨c, r, rfl, .function hc⟩
  | pre =>
    simp only [Tok.plain, Bool.or_eq_true, beq_iff_eq] at h
    rcases h with (rfl | rfl) | rfl <;> exact ⟨_, _, rfl, .pre (by decide)⟩
  | separator =>
    simp only [Tok.plain, beq_iff_eq] at h
    subst h
    exact ⟨_, _, rfl, .sep⟩
  | logicalOp =>
    simp only [Tok.plain, Bool.or_eq_true, beq_iff_eq] at h
    rcases h with rfl | rfl <;> exact ⟨_, _, rfl, .logical (by decide)⟩
  | other =>
    simp only [Tok.plain, Bool.or_eq_true, Bool.and_eq_true] at h
    rcases h with h | h
    · obtain ⟨c, r, rfl, hc, -⟩ := isName_head h.1
      refine ⟨c, r, rfl, ?_⟩
      have : Tok.isOp ⟨.other, c :: r⟩ = false := by
        simp [Tok.isOp, (word_not hc).1]
      rw [this]
      exact .name hc
    · cases x with
      | nil => simp at h
      | cons c r =>
        have hc : isSymC c = true := by
          have := h.1.1.2
          rw [List.all_cons, Bool.and_eq_true] at this
          exact this.1
        refine ⟨c, r, rfl, ?_⟩
        have : Tok.isOp ⟨.other, c :: r⟩ = true := by
          simp [Tok.isOp, hc]
        rw [this]
        exact .op hc

theorem Starts.not_space {k : TokKind} {b : Bool} {c : Char} (h : Starts k b c) : c ≠ ' ' := by
  cases h with
  | clause | close | sep | string => decide
  | function h | accessor h | name h => exact (word_not h).2.2.2.2.2
  | op h | logical h | pre h => exact (sym_not_name h).2.2.2.2.2.2

/-- The first character of the text of a list. -/
theorem tokens_head {t : Tok} {ts : Toks} (h : t.plain = true) :
    ∃ c r, tokensToExpr (t :: ts) = c :: r ∧ Starts t.kind t.isOp c := by
  obtain ⟨c, r, e, hs⟩ := Tok.starts h
  exact ⟨c, r ++ tokSpace t ts.head? ++ tokensToExpr ts, by simp [tokensToExpr, e], hs⟩

theorem plain_cons {t : Tok} {ts : Toks} (h : PlainToks (t :: ts) = true) :
    t.plain = true ∧ t.mayPrecede ts.head? = true ∧ PlainToks ts = true := by
  simpa [PlainToks, and_assoc] using h

theorem dropSp_text {ts : Toks} (h : PlainToks ts = true) : dropSp (tokensToExpr ts) = tokensToExpr ts := by
  cases ts with
  | nil => rfl
  | cons t ts =>
    obtain ⟨c, r, e, hs⟩ := tokens_head (ts := ts) (plain_cons h).1
    rw [e]
    have := hs.not_space
    unfold dropSp
    split
    · rename_i h'; cases h'; exact absurd rfl this
    · rfl

theorem dropSp_space {t : Tok} {ts : Toks} (h : PlainToks ts = true) (next : Option Tok) :
    dropSp (tokSpace t next ++ tokensToExpr ts) = tokensToExpr ts := by
  have : tokSpace t next = [] ∨ tokSpace t next = [' '] := by
    unfold tokSpace
    split
    all_goals first
      | exact Or.inl rfl
      | (split
         · exact Or.inl rfl
         · split
           · exact Or.inr rfl
           · exact Or.inl rfl)
  rcases this with e | e <;> rw [e]
  · exact dropSp_text h
  · rfl

/-- After a prefix there is no operator with its space. -/
theorem no_space_after_pre : ∀ {ts : Toks}, PlainToks ts = true → (∀ u, ts.head? = some u → u.isOp = false) →
    ((tokensToExpr ts).dropWhile isSymC).head? ≠ some ' '
  | [], _, _ => by simp [tokensToExpr]
  | t :: ts, h, hn => by
    obtain ⟨h1, h2, h3⟩ := plain_cons h
    by_cases hp : t.kind = .pre
    · obtain ⟨k, x⟩ := t
      simp only at hp
      subst hp
      simp only [Tok.plain, Bool.or_eq_true, beq_iff_eq] at h1
      have hx : ∃ c, x = [c] ∧ isSymC c = true := by
        rcases h1 with (rfl | rfl) | rfl <;> exact ⟨_, rfl, by decide⟩
      obtain ⟨c, rfl, hc⟩ := hx
      have : tokensToExpr (⟨.pre, [c]⟩ :: ts) = c :: tokensToExpr ts := rfl
      rw [this, List.dropWhile_cons, if_pos hc]
      refine no_space_after_pre h3 (fun u hu => ?_)
      rw [hu] at h2
      simpa [Tok.mayPrecede] using h2
    · obtain ⟨c, r, e, hs⟩ := tokens_head (ts := ts) h1
      have ho := hn t rfl
      have hsym : isSymC c = false := by
        rw [ho] at hs
        generalize t.kind = k at hs hp
        cases hs with
        | clause | close | sep | string => decide
        | function h | accessor h | name h => exact (word_not h).1
        | pre h => exact absurd rfl hp
      rw [e, List.dropWhile_cons, if_neg (by simp [hsym])]
      simp only [List.head?_cons, ne_eq, Option.some.injEq]
      exact hs.not_space

/-- What follows a name that is not a function or accessor cannot continue it. -/
theorem after_name {t : Tok} {ts : Toks} (hk : t.kind = .other) (h : PlainToks ts = true) :
    ∀ x, (tokSpace t ts.head? ++ tokensToExpr ts).head? = some x → isNameC x = false ∧ x ≠ '(' := by
  intro x hx
  unfold tokSpace at hx
  rw [hk] at hx
  simp only at hx
  cases ts with
  | nil => simp [tokensToExpr] at hx
  | cons u us =>
    simp only [List.head?_cons] at hx
    by_cases hu : u.kind ≠ .clauseClose ∧ u.kind ≠ .separator
    · rw [if_pos hu] at hx
      simp only [List.cons_append, List.head?_cons, Option.some.injEq] at hx
      subst hx
      exact ⟨by decide, by decide⟩
    · rw [if_neg hu, List.nil_append] at hx
      obtain ⟨c, r, e, hs⟩ := tokens_head (ts := us) (plain_cons h).1
      rw [e] at hx
      simp only [List.head?_cons, Option.some.injEq] at hx
      subst hx
      generalize u.kind = k at hs hu
      generalize u.isOp = b at hs
      cases hs <;> simp at hu
      · exact ⟨by decide, by decide⟩
      · exact ⟨by decide, by decide⟩

theorem firstTok_tokens {t : Tok} {ts : Toks} (h : PlainToks (t :: ts) = true) :
    firstTok (tokensToExpr (t :: ts)) = (t, tokensToExpr ts) := by
  obtain ⟨h1, h2, h3⟩ := plain_cons h
  obtain ⟨k, x⟩ := t
  cases k with
  | string =>
    simp only [Tok.plain, Bool.not_eq_true', List.contains_eq_mem, decide_eq_false_iff_not] at h1
    have e : tokensToExpr (⟨.string, x⟩ :: ts) =
        '\'' :: (x ++ '\'' :: (tokSpace ⟨.string, x⟩ ts.head? ++ tokensToExpr ts)) := by
      simp [tokensToExpr, tokText]
    obtain ⟨e1, e2⟩ := takeWhile_append_stop (· != '\'') x
      ('\'' :: (tokSpace ⟨.string, x⟩ ts.head? ++ tokensToExpr ts))
      (by rw [List.all_eq_true]; intro c hc; simp only [bne_iff_ne]; rintro rfl; exact h1 hc)
      (by intro c hc; cases hc; decide)
    rw [e]
    simp only [firstTok, e1, e2]
    simp [dropSp_space h3]
  | clause =>
    simp only [Tok.plain, beq_iff_eq] at h1
    subst h1
    rfl
  | clauseClose =>
    simp only [Tok.plain, beq_iff_eq] at h1
    subst h1
    have e : tokensToExpr (⟨.clauseClose, s% ")"⟩ :: ts) =
        ')' :: (tokSpace ⟨.clauseClose, s% ")"⟩ ts.head? ++ tokensToExpr ts) := by
      simp [tokensToExpr, tokText]
    rw [e]
    simp [firstTok, dropSp_space h3]
  | separator =>
    simp only [Tok.plain, beq_iff_eq] at h1
    subst h1
    have e : tokensToExpr (⟨.separator, s% ","⟩ :: ts) =
        ',' :: (tokSpace ⟨.separator, s% ","⟩ ts.head? ++ tokensToExpr ts) := by
      simp [tokensToExpr, tokText]
    rw [e]
    simp [firstTok, dropSp_space h3]
  | pre =>
    simp only [Tok.plain, Bool.or_eq_true, beq_iff_eq] at h1
    have hx : ∃ c, x = [c] ∧ isSymC c = true := by
      rcases h1 with (rfl | rfl) | rfl <;> exact ⟨_, rfl, by decide⟩
    obtain ⟨c, rfl, hc⟩ := hx
    have e : tokensToExpr (⟨.pre, [c]⟩ :: ts) = c :: tokensToExpr ts := rfl
    obtain ⟨q1, q2, q3, q4, q5, q6, q7⟩ := sym_not_name hc
    have hn := no_space_after_pre h3 (fun u hu => by
      rw [hu] at h2
      simpa [Tok.mayPrecede] using h2)
    rw [e]
    simp only [firstTok, q2, q3, q4, q5, q6, if_false, Bool.false_eq_true]
    rw [List.dropWhile_cons, if_pos hc, if_neg hn]
  | function =>
    simp only [Tok.plain, Bool.and_eq_true, Bool.not_eq_true'] at h1
    obtain ⟨c, r, rfl, hc, hall⟩ := isName_head h1.1
    obtain ⟨q1, q2, q3, q4, q5, q6⟩ := word_not hc
    cases ts with
    | nil => simp [Tok.mayPrecede] at h2
    | cons u us =>
      simp only [List.head?_cons, Tok.mayPrecede, beq_iff_eq] at h2
      obtain ⟨c', r', e', hs⟩ := tokens_head (ts := us) (plain_cons h3).1
      rw [h2] at hs
      generalize u.isOp = b at hs
      cases hs
      obtain ⟨e1, e2⟩ := takeWhile_append_stop isNameC (c :: r) ('(' :: r') hall
        (by intro x hx; cases hx; decide)
      have e : tokensToExpr (⟨.function, c :: r⟩ :: u :: us) = c :: (r ++ '(' :: r') := by
        rw [← List.cons_append, ← e']; simp [tokensToExpr, tokText, tokSpace]
      rw [e, e']
      rw [List.cons_append] at e1 e2
      simp only [firstTok, q2, q3, q4, q5, hc, if_false, if_true, e1, e2, List.head?_cons]
      rw [h1.2]
      simp
  | accessor =>
    simp only [Tok.plain, Bool.and_eq_true] at h1
    obtain ⟨c, r, rfl, hc, hall⟩ := isName_head h1.1.1
    obtain ⟨q1, q2, q3, q4, q5, q6⟩ := word_not hc
    have hd : isDigitC c = false := by simpa using h1.2
    have hnext : ∀ x, (tokensToExpr ts).head? = some x → isNameC x = false := by
      intro x hx
      cases ts with
      | nil => simp [tokensToExpr] at hx
      | cons u us =>
        obtain ⟨c', r', e', hs⟩ := tokens_head (ts := us) (plain_cons h3).1
        rw [e'] at hx
        simp only [List.head?_cons, Option.some.injEq] at hx
        subst hx
        simp only [List.head?_cons, Tok.mayPrecede, Bool.or_eq_true, beq_iff_eq] at h2
        generalize u.kind = k at hs h2
        generalize u.isOp = b at hs h2
        cases hs with
        | clause | close | sep | string => decide
        | op h | logical h | pre h => exact (sym_not_name h).1
        | function h | accessor h | name h => simp at h2
    obtain ⟨e1, e2⟩ := takeWhile_append_stop isNameC (c :: r) (tokensToExpr ts) hall hnext
    have e : tokensToExpr (⟨.accessor, c :: r⟩ :: ts) = c :: (r ++ tokensToExpr ts) := by
      simp [tokensToExpr, tokText, tokSpace]
    rw [e]
    rw [List.cons_append] at e1 e2
    simp only [firstTok, q2, q3, q4, q5, hc, if_false, if_true, e1, e2]
    rw [h1.1.2]
    split
    · rfl
    · simp [hd]
  | logicalOp =>
    simp only [Tok.plain, Bool.or_eq_true, beq_iff_eq] at h1
    cases ts with
    | nil => simp [Tok.mayPrecede, Tok.isOp] at h2
    | cons u us =>
      have hsp : tokSpace ⟨.logicalOp, x⟩ (some u) = [' '] := by
        simp only [List.head?_cons, Tok.mayPrecede, Tok.isOp] at h2
        have : u.kind ≠ .clauseClose ∧ u.kind ≠ .separator := by simpa using h2
        simp only [tokSpace, if_pos this]
      have e : tokensToExpr (⟨.logicalOp, x⟩ :: u :: us) = x ++ (' ' :: tokensToExpr (u :: us)) := by
        show tokText ⟨.logicalOp, x⟩ ++ tokSpace ⟨.logicalOp, x⟩ (some u) ++ _ = _
        rw [hsp]
        simp [tokText]
      rw [e]
      rcases h1 with rfl | rfl <;> rfl
  | other =>
    simp only [Tok.plain, Bool.or_eq_true, Bool.and_eq_true] at h1
    rcases h1 with h1 | h1
    · obtain ⟨c, r, rfl, hc, hall⟩ := isName_head h1.1
      obtain ⟨q1, q2, q3, q4, q5, q6⟩ := word_not hc
      have hnext := after_name (t := ⟨.other, c :: r⟩) rfl h3
      have e : tokensToExpr (⟨.other, c :: r⟩ :: ts) =
          c :: (r ++ (tokSpace ⟨.other, c :: r⟩ ts.head? ++ tokensToExpr ts)) := by
        simp [tokensToExpr, tokText]
      obtain ⟨e1, e2⟩ := takeWhile_append_stop isNameC (c :: r)
        (tokSpace ⟨.other, c :: r⟩ ts.head? ++ tokensToExpr ts) hall (fun x hx => (hnext x hx).1)
      rw [e]
      rw [List.cons_append] at e1 e2
      simp only [firstTok, q2, q3, q4, q5, hc, if_false, if_true, e1, e2]
      rw [if_neg (fun hx => (hnext '(' hx).2 rfl), dropSp_space h3]
      have : ((c :: r).contains '.' && !isDigitC c) = false := by
        rcases h1.2 with h | h
        · simp only [Bool.not_eq_true'] at h; rw [h]; rfl
        · have : isDigitC c = true := by simpa using h
          simp [this]
      rw [this]
      simp
    · cases x with
      | nil => simp at h1
      | cons c r =>
        have hall := h1.1.1.2
        have hc : isSymC c = true := by
          rw [List.all_cons, Bool.and_eq_true] at hall
          exact hall.1
        obtain ⟨q1, q2, q3, q4, q5, q6, q7⟩ := sym_not_name hc
        have hop : Tok.isOp ⟨.other, c :: r⟩ = true := by simp [Tok.isOp, hc]
        cases ts with
        | nil => simp [Tok.mayPrecede, hop] at h2
        | cons u us =>
          have hsp : tokSpace ⟨.other, c :: r⟩ (some u) = [' '] := by
            simp only [List.head?_cons, Tok.mayPrecede, hop] at h2
            have : u.kind ≠ .clauseClose ∧ u.kind ≠ .separator := by simpa using h2
            simp only [tokSpace, if_pos this]
          have e : tokensToExpr (⟨.other, c :: r⟩ :: u :: us) =
              c :: (r ++ (' ' :: tokensToExpr (u :: us))) := by
            show tokText ⟨.other, c :: r⟩ ++ tokSpace ⟨.other, c :: r⟩ (some u) ++ _ = _
            rw [hsp]
            simp [tokText]
          obtain ⟨e1, e2⟩ := takeWhile_append_stop isSymC (c :: r) (' ' :: tokensToExpr (u :: us)) hall
            (by intro x hx; cases hx; decide)
          rw [e]
          rw [List.cons_append] at e1 e2
          simp only [firstTok, q2, q3, q4, q5, q6, if_false, Bool.false_eq_true, e1, e2, List.head?_cons,
            if_true, dropSp]
          have hne : ¬ (c :: r = s% "&&" ∨ c :: r = s% "||") := by
            have a1 := h1.1.2
            have a2 := h1.2
            simp only [bne_iff_ne] at a1 a2
            rintro (h | h)
            · exact a1 h
            · exact a2 h
          rw [if_neg hne]

end Fastac
