import Verif.Spec.Formula

/-!
# `nextOperator` on the tokens of a formula
-/

namespace Fastac

theorem nextOpLoop_false (n : Nat) : ∀ (ts : Toks) (rest : Toks) (i : Nat) (d : Int)
    (idx : Option Nat), balancedFrom d ts = true → noTopOp d ts = true →
    nextOpLoop n (ts ++ rest) i ⟨d, idx, false⟩ =
      nextOpLoop n rest (i + ts.length) ⟨0, idx, false⟩ := by
  intro ts
  induction ts with
  | nil =>
    intro rest i d idx h1 _
    simp only [balancedFrom, beq_iff_eq] at h1
    subst h1
    rfl
  | cons t ts ih =>
    intro rest i d idx h1 h2
    simp only [balancedFrom, Bool.and_eq_true, decide_eq_true_eq] at h1
    simp only [noTopOp, Bool.and_eq_true] at h2
    have hlen : i + (t :: ts).length = i + 1 + ts.length := by simp; omega
    rw [List.cons_append, hlen]
    simp only [nextOpLoop]
    cases hk : t.kind with
    | clause =>
      simp only [tokDepth, hk] at h1 h2
      exact ih rest (i+1) (d+1) idx h1.2 h2.2
    | clauseClose =>
      simp only [tokDepth, hk] at h1 h2
      simp only [Bool.false_eq_true, false_and, if_false]
      exact ih rest (i+1) (d-1) idx h1.2 h2.2
    | logicalOp =>
      simp only [tokDepth, hk] at h1 h2
      have hd : d ≠ 0 := by
        intro e; subst e; simp at h2
      simp only [if_pos hd]
      exact ih rest (i+1) d idx h1.2 h2.2
    | _ =>
      simp only [tokDepth, hk] at h1 h2
      exact ih rest (i+1) d idx h1.2 h2.2

/-- Inside an opened bracket that closes before the end. -/
theorem nextOpLoop_true (n : Nat) : ∀ (ts : Toks) (rest : Toks) (i : Nat) (d : Int)
    (idx : Option Nat), 0 < d → balancedFrom d ts = true → noTopOp d ts = true → rest ≠ [] →
    n = i + (ts ++ rest).length →
    nextOpLoop n (ts ++ rest) i ⟨d, idx, true⟩ =
      nextOpLoop n rest (i + ts.length) ⟨0, idx, false⟩ := by
  intro ts
  induction ts with
  | nil =>
    intro rest i d idx hd h1 _ _ _
    simp only [balancedFrom, beq_iff_eq] at h1
    omega
  | cons t ts ih =>
    intro rest i d idx hd h1 h2 hr hn
    simp only [balancedFrom, Bool.and_eq_true, decide_eq_true_eq] at h1
    simp only [noTopOp, Bool.and_eq_true] at h2
    have hlen : i + (t :: ts).length = i + 1 + ts.length := by simp; omega
    have hrl : 0 < rest.length := List.length_pos_iff.2 hr
    have hn' : n = i + 1 + (ts ++ rest).length := by rw [hn]; simp; omega
    have hin : i ≠ n - 1 := by rw [hn']; simp only [List.length_append]; omega
    rw [List.cons_append, hlen]
    simp only [nextOpLoop]
    cases hk : t.kind with
    | clause =>
      simp only [tokDepth, hk] at h1 h2
      exact ih rest (i+1) (d+1) idx (by omega) h1.2 h2.2 hr hn'
    | clauseClose =>
      simp only [tokDepth, hk] at h1 h2
      by_cases hz : d - 1 = 0
      · rw [if_pos ⟨trivial, hz, hin⟩]
        rw [hz] at h1 h2 ⊢
        exact nextOpLoop_false n ts rest (i+1) 0 idx h1.2 h2.2
      · rw [if_neg (by simp [hz])]
        exact ih rest (i+1) (d-1) idx (by omega) h1.2 h2.2 hr hn'
    | logicalOp =>
      simp only [tokDepth, hk] at h1 h2
      simp only [if_pos (show d ≠ 0 by omega)]
      exact ih rest (i+1) d idx hd h1.2 h2.2 hr hn'
    | _ =>
      simp only [tokDepth, hk] at h1 h2
      exact ih rest (i+1) d idx hd h1.2 h2.2 hr hn'

/-- Inside an opened bracket, up to the end of the list. -/
theorem nextOpLoop_end (n : Nat) : ∀ (ts : Toks) (i : Nat) (d : Int)
    (idx : Option Nat), 0 < d → balancedFrom d ts = true → noTopOp d ts = true →
    n = i + ts.length →
    nextOpLoop n ts i ⟨d, idx, true⟩ = (idx, !splitsEarly d ts) := by
  intro ts
  induction ts with
  | nil =>
    intro i d idx hd h1 _ _
    simp only [balancedFrom, beq_iff_eq] at h1
    omega
  | cons t ts ih =>
    intro i d idx hd h1 h2 hn
    simp only [balancedFrom, Bool.and_eq_true, decide_eq_true_eq] at h1
    simp only [noTopOp, Bool.and_eq_true] at h2
    have hn' : n = i + 1 + ts.length := by rw [hn]; simp; omega
    simp only [nextOpLoop, splitsEarly]
    cases hk : t.kind with
    | clause =>
      simp only [tokDepth, hk] at h1 h2 ⊢
      rw [ih (i+1) (d+1) idx (by omega) h1.2 h2.2 hn']
      have : (d + 1 == 0) = false := by simp; omega
      simp [this]
    | clauseClose =>
      simp only [tokDepth, hk] at h1 h2 ⊢
      by_cases hz : d - 1 = 0
      · rw [hz] at h1 h2 ⊢
        cases ts with
        | nil =>
          have : i = n - 1 := by rw [hn]; simp
          rw [if_neg (by simp [this])]
          simp [nextOpLoop, splitsEarly]
        | cons u us =>
          have : i ≠ n - 1 := by rw [hn']; simp only [List.length_cons]; omega
          rw [if_pos ⟨trivial, rfl, this⟩]
          have := nextOpLoop_false n (u :: us) [] (i+1) 0 idx h1.2 h2.2
          rw [List.append_nil] at this
          rw [this]
          simp [nextOpLoop]
      · rw [if_neg (by simp [hz])]
        rw [ih (i+1) (d-1) idx (by omega) h1.2 h2.2 hn']
        have : (d - 1 == 0) = false := by simpa using hz
        simp [this]
    | logicalOp =>
      simp only [tokDepth, hk] at h1 h2 ⊢
      simp only [if_pos (show d ≠ 0 by omega)]
      rw [ih (i+1) d idx hd h1.2 h2.2 hn']
      have : (d == 0) = false := by simp; omega
      simp [this]
    | _ =>
      simp only [tokDepth, hk] at h1 h2 ⊢
      rw [ih (i+1) d idx hd h1.2 h2.2 hn']
      have : (d == 0) = false := by simp; omega
      simp [this]

/-! ## Tokens of formulas are balanced -/

theorem balancedFrom_append : ∀ (a b : Toks) (d : Int), balancedFrom d a = true →
    balancedFrom 0 b = true → balancedFrom d (a ++ b) = true := by
  intro a
  induction a with
  | nil =>
    intro b d h1 h2
    simp only [balancedFrom, beq_iff_eq] at h1
    subst h1; exact h2
  | cons t ts ih =>
    intro b d h1 h2
    simp only [List.cons_append, balancedFrom, Bool.and_eq_true, decide_eq_true_eq] at h1 ⊢
    exact ⟨h1.1, ih b _ h1.2 h2⟩

theorem tokDepth_succ (d : Int) (t : Tok) : tokDepth (d + 1) t = tokDepth d t + 1 := by
  unfold tokDepth; split <;> omega

theorem balancedFrom_wrap : ∀ (a : Toks) (d : Int), 0 ≤ d → balancedFrom d a = true →
    balancedFrom (d + 1) (a ++ [Tok.rp]) = true ∧ noTopOp (d + 1) (a ++ [Tok.rp]) = true ∧
      splitsEarly (d + 1) (a ++ [Tok.rp]) = false := by
  intro a
  induction a with
  | nil =>
    intro d hd h1
    simp only [balancedFrom, beq_iff_eq] at h1
    subst h1
    decide
  | cons t ts ih =>
    intro d hd h1
    simp only [balancedFrom, Bool.and_eq_true, decide_eq_true_eq] at h1
    obtain ⟨i1, i2, i3⟩ := ih _ h1.1 h1.2
    rw [← tokDepth_succ] at i1 i2 i3
    have hp : 0 ≤ tokDepth (d + 1) t := by rw [tokDepth_succ]; omega
    refine ⟨?_, ?_, ?_⟩
    · simp only [List.cons_append, balancedFrom, Bool.and_eq_true, decide_eq_true_eq]
      exact ⟨hp, i1⟩
    · simp only [List.cons_append, noTopOp, i2, Bool.and_true, Bool.not_eq_true',
        Bool.and_eq_false_iff]
      right; simp; omega
    · simp only [List.cons_append, splitsEarly, i3, Bool.or_false, Bool.and_eq_false_iff]
      left; rw [tokDepth_succ]; simp; omega

mutual
theorem Operand.toks_ok : ∀ (u : Operand), u.wf = true →
    balancedFrom 0 u.toks = true ∧ noTopOp 0 u.toks = true ∧ u.toks ≠ []
  | .atom ts, h => by
    simp only [Operand.wf, isAtom, Bool.and_eq_true, Bool.not_eq_true', List.isEmpty_eq_false_iff] at h
    exact ⟨h.1.1.2, h.1.2, h.1.1.1⟩
  | .paren f, h => by
    simp only [Operand.wf, Bool.and_eq_true] at h
    have hb := Operand.disjToks_ok f h.2
    obtain ⟨h1, h2, _⟩ := balancedFrom_wrap _ 0 (by omega) hb
    simp only [Operand.toks]
    refine ⟨?_, ?_, by simp⟩
    · simp only [balancedFrom, Bool.and_eq_true, decide_eq_true_eq]
      exact ⟨by decide, h1⟩
    · simp only [noTopOp, Bool.and_eq_true]
      exact ⟨by decide, h2⟩
theorem Operand.conjToks_ok : ∀ (c : List Operand), Operand.conjWf c = true →
    balancedFrom 0 (Operand.conjToks c) = true
  | [], _ => by simp [Operand.conjToks, balancedFrom]
  | [u], h => by
    simp only [Operand.conjWf, Bool.and_true] at h
    simp only [Operand.conjToks]
    exact (Operand.toks_ok u h).1
  | u :: v :: us, h => by
    rw [Operand.conjWf, Bool.and_eq_true] at h
    simp only [Operand.conjToks]
    apply balancedFrom_append _ _ _ (Operand.toks_ok u h.1).1
    simp only [balancedFrom, Bool.and_eq_true, decide_eq_true_eq]
    exact ⟨by decide, Operand.conjToks_ok (v :: us) h.2⟩
theorem Operand.disjToks_ok : ∀ (f : List (List Operand)), Operand.disjWf f = true →
    balancedFrom 0 (Operand.disjToks f) = true
  | [], _ => by simp [Operand.disjToks, balancedFrom]
  | [c], h => by
    simp only [Operand.disjWf, Bool.and_true, Bool.and_eq_true] at h
    simp only [Operand.disjToks]
    exact Operand.conjToks_ok c h.2
  | c :: d :: cs, h => by
    rw [Operand.disjWf, Bool.and_eq_true, Bool.and_eq_true] at h
    simp only [Operand.disjToks]
    apply balancedFrom_append _ _ _ (Operand.conjToks_ok c h.1.2)
    simp only [balancedFrom, Bool.and_eq_true, decide_eq_true_eq]
    exact ⟨by decide, Operand.disjToks_ok (d :: cs) h.2⟩
end

theorem Operand.conjToks_ne (c : List Operand) (h : Operand.conjWf c = true) (hne : c ≠ []) :
    Operand.conjToks c ≠ [] := by
  match c, hne with
  | [u], _ =>
    simp only [Operand.conjWf, Bool.and_true] at h
    simp only [Operand.conjToks]
    exact (Operand.toks_ok u h).2.2
  | u :: v :: us, _ => simp [Operand.conjToks]

theorem Operand.disjToks_ne (f : Formula) (h : f.wf = true) : Operand.disjToks f ≠ [] := by
  simp only [Formula.wf, Bool.and_eq_true, Bool.not_eq_true', List.isEmpty_eq_false_iff] at h
  match f, h with
  | [c], h =>
    simp only [Operand.disjWf, Bool.and_true, Bool.and_eq_true, Bool.not_eq_true',
      List.isEmpty_eq_false_iff] at h
    simp only [Operand.disjToks]
    exact Operand.conjToks_ne c h.2.2 h.2.1
  | c :: d :: cs, _ => simp [Operand.disjToks]

/-- Passing over a conjunction when nothing looks like one bracket any more. -/
theorem nextOpLoop_conj (n : Nat) : ∀ (c : List Operand) (rest : Toks) (i : Nat)
    (idx : Option Nat), Operand.conjWf c = true →
    ∃ idx', nextOpLoop n (Operand.conjToks c ++ rest) i ⟨0, idx, false⟩ =
      nextOpLoop n rest (i + (Operand.conjToks c).length) ⟨0, idx', false⟩ := by
  intro c
  induction c with
  | nil => intro rest i idx _; exact ⟨idx, by simp [Operand.conjToks]⟩
  | cons u us ih =>
    intro rest i idx h
    rw [Operand.conjWf, Bool.and_eq_true] at h
    obtain ⟨h1, h2, _⟩ := Operand.toks_ok u h.1
    cases us with
    | nil =>
      refine ⟨idx, ?_⟩
      simp only [Operand.conjToks]
      exact nextOpLoop_false n _ rest i 0 idx h1 h2
    | cons v us =>
      simp only [Operand.conjToks, List.append_assoc, List.cons_append]
      rw [nextOpLoop_false n _ _ i 0 idx h1 h2]
      obtain ⟨idx', e⟩ := ih rest (i + u.toks.length + 1) (some (i + u.toks.length)) h.2
      refine ⟨idx', ?_⟩
      have : nextOpLoop n (Tok.and :: (Operand.conjToks (v :: us) ++ rest)) (i + u.toks.length)
          ⟨0, idx, false⟩ = nextOpLoop n (Operand.conjToks (v :: us) ++ rest)
            (i + u.toks.length + 1) ⟨0, some (i + u.toks.length), false⟩ := by
        simp [nextOpLoop, Tok.and]
      rw [this, e]
      simp only [List.length_append, List.length_cons]
      congr 1; omega

/-- From the beginning of the list, over a first operand that is not the last thing. -/
theorem nextOpLoop_first (u : Operand) (hw : u.wf = true) (rest : Toks) (hr : rest ≠ []) (t : Tok)
    (ts : Toks) (ht : u.toks = t :: ts) :
    nextOpLoop (u.toks ++ rest).length (u.toks ++ rest) 0 ⟨0, none, decide (t.kind = .clause)⟩ =
      nextOpLoop (u.toks ++ rest).length rest u.toks.length ⟨0, none, false⟩ := by
  obtain ⟨h1, h2, _⟩ := Operand.toks_ok u hw
  by_cases hc : t.kind = .clause
  · rw [ht] at h1 h2 ⊢
    simp only [balancedFrom, Bool.and_eq_true, decide_eq_true_eq, tokDepth, hc] at h1
    simp only [noTopOp, Bool.and_eq_true, tokDepth, hc] at h2
    have e := nextOpLoop_true (t :: ts ++ rest).length ts rest 1 1 none (by omega)
      (by simpa using h1.2) (by simpa using h2.2) hr (by simp; omega)
    have e0 : nextOpLoop (t :: ts ++ rest).length (t :: ts ++ rest) 0
        ⟨0, none, decide (t.kind = .clause)⟩ =
        nextOpLoop (t :: ts ++ rest).length (ts ++ rest) 1 ⟨1, none, true⟩ := by
      simp [nextOpLoop, hc]
    rw [e0, e]
    congr 1
    simp; omega
  · have := nextOpLoop_false (u.toks ++ rest).length u.toks rest 0 0 none h1 h2
    rw [decide_eq_false hc, this]
    simp

theorem nextOpLoop_first_conj (c : List Operand) (hw : Operand.conjWf c = true) (hne : c ≠ [])
    (rest : Toks) (hr : rest ≠ []) (t : Tok) (ts : Toks) (ht : Operand.conjToks c = t :: ts) :
    ∃ idx', nextOpLoop (Operand.conjToks c ++ rest).length (Operand.conjToks c ++ rest) 0
        ⟨0, none, decide (t.kind = .clause)⟩ =
      nextOpLoop (Operand.conjToks c ++ rest).length rest (Operand.conjToks c).length
        ⟨0, idx', false⟩ := by
  cases c with
  | nil => exact absurd rfl hne
  | cons u us =>
    rw [Operand.conjWf, Bool.and_eq_true] at hw
    cases us with
    | nil =>
      simp only [Operand.conjToks] at ht ⊢
      exact ⟨none, nextOpLoop_first u hw.1 rest hr t ts ht⟩
    | cons v us =>
      have hu := (Operand.toks_ok u hw.1).2.2
      obtain ⟨t', ts', htu⟩ := List.exists_cons_of_ne_nil hu
      have htt : t' = t := by
        simp only [Operand.conjToks, htu, List.cons_append, List.cons.injEq] at ht
        exact ht.1
      subst htt
      simp only [Operand.conjToks, List.append_assoc, List.cons_append]
      rw [nextOpLoop_first u hw.1 (Tok.and :: (Operand.conjToks (v :: us) ++ rest)) (by simp) t' ts'
        htu]
      have hstep : ∀ n, nextOpLoop n (Tok.and :: (Operand.conjToks (v :: us) ++ rest)) u.toks.length
          ⟨0, none, false⟩ = nextOpLoop n (Operand.conjToks (v :: us) ++ rest)
            (u.toks.length + 1) ⟨0, some u.toks.length, false⟩ := by
        intro n; simp [nextOpLoop, Tok.and]
      rw [hstep]
      obtain ⟨idx', e⟩ := nextOpLoop_conj (u.toks ++ Tok.and ::
        (Operand.conjToks (v :: us) ++ rest)).length (v :: us) rest (u.toks.length + 1)
        (some u.toks.length) hw.2
      refine ⟨idx', ?_⟩
      rw [e]
      simp only [List.length_append, List.length_cons]
      congr 1; omega

/-! ## The four cases -/

theorem nextOperator_or (c d : List Operand) (cs : List (List Operand))
    (hw : Formula.wf (c :: d :: cs) = true) :
    nextOperator (Operand.disjToks (c :: d :: cs)) =
      .ok (some (Operand.conjToks c).length, false) := by
  simp only [Formula.wf, Bool.and_eq_true] at hw
  rw [Operand.disjWf, Bool.and_eq_true, Bool.and_eq_true] at hw
  have hc : c ≠ [] := by simpa using hw.2.1.1
  obtain ⟨t, ts, ht⟩ := List.exists_cons_of_ne_nil (Operand.conjToks_ne c hw.2.1.2 hc)
  obtain ⟨idx', e⟩ := nextOpLoop_first_conj c hw.2.1.2 hc
    (Tok.or :: Operand.disjToks (d :: cs)) (by simp) t ts ht
  simp only [Operand.disjToks]
  have hcons : Operand.conjToks c ++ Tok.or :: Operand.disjToks (d :: cs) =
      t :: (ts ++ Tok.or :: Operand.disjToks (d :: cs)) := by rw [ht]; rfl
  unfold nextOperator
  split
  · rename_i h; rw [hcons] at h; cases h
  · rename_i t' rest' h
    have htt : t' = t := by rw [hcons] at h; cases h; rfl
    subst htt
    rw [e]
    simp [nextOpLoop, Tok.or]

theorem Operand.conjToks_snoc (c : List Operand) (hne : c ≠ []) (u : Operand) :
    Operand.conjToks (c ++ [u]) = Operand.conjToks c ++ Tok.and :: u.toks := by
  induction c with
  | nil => exact absurd rfl hne
  | cons v vs ih =>
    cases vs with
    | nil => simp [Operand.conjToks]
    | cons w ws =>
      have := ih (by simp)
      simp only [List.cons_append, Operand.conjToks] at this ⊢
      rw [this]
      simp

theorem Operand.conjWf_append (c d : List Operand) :
    Operand.conjWf (c ++ d) = (Operand.conjWf c && Operand.conjWf d) := by
  induction c with
  | nil => simp [Operand.conjWf]
  | cons u us ih => simp [Operand.conjWf, ih, Bool.and_assoc]

theorem nextOperator_and (c : List Operand) (u : Operand) (hne : c ≠ [])
    (hw : Operand.conjWf (c ++ [u]) = true) :
    nextOperator (Operand.conjToks (c ++ [u])) = .ok (some (Operand.conjToks c).length, false) := by
  rw [Operand.conjWf_append, Bool.and_eq_true] at hw
  rw [Operand.conjToks_snoc c hne]
  obtain ⟨t, ts, ht⟩ := List.exists_cons_of_ne_nil (Operand.conjToks_ne c hw.1 hne)
  obtain ⟨idx', e⟩ := nextOpLoop_first_conj c hw.1 hne (Tok.and :: u.toks) (by simp) t ts ht
  have hcons : Operand.conjToks c ++ Tok.and :: u.toks = t :: (ts ++ Tok.and :: u.toks) := by
    rw [ht]; rfl
  unfold nextOperator
  split
  · rename_i h; rw [hcons] at h; cases h
  · rename_i t' rest' h
    have htt : t' = t := by rw [hcons] at h; cases h; rfl
    subst htt
    rw [e]
    have hu : u.wf = true := by simpa [Operand.conjWf] using hw.2
    obtain ⟨h1, h2, _⟩ := Operand.toks_ok u hu
    have hstep : ∀ n i, nextOpLoop n (Tok.and :: u.toks) i
          ⟨0, idx', false⟩ = nextOpLoop n u.toks (i + 1) ⟨0, some i, false⟩ := by
      intro n i; simp [nextOpLoop, Tok.and]
    rw [hstep]
    have := nextOpLoop_false (Operand.conjToks c ++ Tok.and :: u.toks).length u.toks []
      ((Operand.conjToks c).length + 1) 0 (some (Operand.conjToks c).length) h1 h2
    rw [List.append_nil] at this
    rw [this]
    rfl

theorem nextOperator_paren (f : List (List Operand)) (hw : Operand.disjWf f = true) :
    nextOperator (Operand.toks (.paren f)) = .ok (none, true) := by
  have hb := Operand.disjToks_ok f hw
  obtain ⟨h1, h2, h3⟩ := balancedFrom_wrap _ 0 (by omega) hb
  have e := nextOpLoop_end (Tok.lp :: (Operand.disjToks f ++ [Tok.rp])).length _ 1 1 none (by omega)
    h1 h2 (by simp; omega)
  simp only [Operand.toks, nextOperator]
  have : nextOpLoop (Tok.lp :: (Operand.disjToks f ++ [Tok.rp])).length
      (Tok.lp :: (Operand.disjToks f ++ [Tok.rp])) 0 ⟨0, none, decide (Tok.lp.kind = .clause)⟩ =
      nextOpLoop (Tok.lp :: (Operand.disjToks f ++ [Tok.rp])).length
        (Operand.disjToks f ++ [Tok.rp]) 1 ⟨1, none, true⟩ := by
    simp [nextOpLoop, Tok.lp]
  rw [this, e]
  have h3' : splitsEarly 1 (Operand.disjToks f ++ [Tok.rp]) = false := h3
  rw [h3']; rfl

theorem nextOperator_atom (ts : Toks) (hw : isAtom ts = true) :
    nextOperator ts = .ok (none, false) := by
  simp only [isAtom, Bool.and_eq_true, Bool.not_eq_true', List.isEmpty_eq_false_iff,
    Bool.or_eq_true, decide_eq_true_eq] at hw
  obtain ⟨⟨⟨hne, h1⟩, h2⟩, h3⟩ := hw
  cases ts with
  | nil => exact absurd rfl hne
  | cons t ts =>
    simp only [nextOperator]
    by_cases hc : t.kind = .clause
    · have h3' : splitsEarly 0 (t :: ts) = true := by
        rcases h3 with h | h
        · exact h
        · simp [hc] at h
      simp only [balancedFrom, Bool.and_eq_true, decide_eq_true_eq, tokDepth, hc] at h1
      simp only [noTopOp, Bool.and_eq_true, tokDepth, hc] at h2
      simp only [splitsEarly, tokDepth, hc] at h3'
      have h3'' : splitsEarly 1 ts = true := by simpa using h3'
      have e := nextOpLoop_end (t :: ts).length ts 1 1 none (by omega)
        (by simpa using h1.2) (by simpa using h2.2) (by simp; omega)
      have : nextOpLoop (t :: ts).length (t :: ts) 0 ⟨0, none, decide (t.kind = .clause)⟩ =
          nextOpLoop (t :: ts).length ts 1 ⟨1, none, true⟩ := by
        simp [nextOpLoop, hc]
      rw [this, e, h3'']; rfl
    · have := nextOpLoop_false (t :: ts).length (t :: ts) [] 0 0 none h1 h2
      rw [List.append_nil] at this
      rw [decide_eq_false hc, this]
      rfl

end Fastac
