import Verif.Spec.ModelText
import Verif.Lemmas.File

/-! # The simple reader of ini files reads plain data back -/

namespace Fastac

theorem trimL_of_head {s : Str} (h : ∀ c, s.head? = some c → blankC c = false) : trimL s = s := by
  cases s with
  | nil => rfl
  | cons c s => simp [trimL, h c rfl]

theorem trim_of_ends {s : Str} (h : ∀ c, s.head? = some c → blankC c = false)
    (h' : ∀ c, s.getLast? = some c → blankC c = false) : trim s = s := by
  unfold trim
  rw [trimL_of_head h, trimL_of_head (by rw [List.head?_reverse]; exact h'), List.reverse_reverse]

theorem trim_cons_blank (s : Str) : trim (' ' :: s) = trim s := by
  unfold trim
  have : trimL (' ' :: s) = trimL s := by simp [trimL, blankC]
  rw [this]

theorem trim_append_blank {s : Str} (h : ∀ c, s.head? = some c → blankC c = false)
    (h' : ∀ c, s.getLast? = some c → blankC c = false) : trim (s ++ [' ']) = s := by
  cases s with
  | nil => rfl
  | cons c t =>
    unfold trim
    rw [trimL_of_head (s := c :: t ++ [' ']) (by simpa using h c rfl), List.reverse_append]
    have : trimL ([' '].reverse ++ (c :: t).reverse) = trimL (c :: t).reverse := by
      simp [trimL, blankC]
    rw [this, trimL_of_head (by rw [List.head?_reverse]; exact h'), List.reverse_reverse]

theorem keyChar_plain {c : Char} (h : keyChar c = true) :
    blankC c = false ∧ c ≠ '=' ∧ c ≠ ':' ∧ c ≠ '#' ∧ c ≠ ';' ∧ c ≠ '[' ∧ c ≠ ']' ∧ c ≠ '\n' := by
  refine ⟨?_, ?_, ?_, ?_, ?_, ?_, ?_, ?_⟩
  · cases hb : blankC c with
    | false => rfl
    | true =>
      exfalso
      unfold blankC at hb
      simp only [Bool.or_eq_true, beq_iff_eq] at hb
      rcases hb with (rfl | rfl) | rfl <;> exact absurd h (by decide)
  all_goals
    rintro rfl
    exact absurd h (by decide)

theorem valueChar_plain {c : Char} (h : valueChar c = true) :
    c ≠ '#' ∧ c ≠ ';' ∧ c ≠ '\n' ∧ (c ≠ ' ' → blankC c = false) := by
  refine ⟨?_, ?_, ?_, ?_⟩
  · rintro rfl; exact absurd h (by decide)
  · rintro rfl; exact absurd h (by decide)
  · rintro rfl; exact absurd h (by decide)
  · intro hc
    cases hb : blankC c with
    | false => rfl
    | true =>
      exfalso
      unfold blankC at hb
      simp only [Bool.or_eq_true, beq_iff_eq] at hb
      rcases hb with (rfl | rfl) | rfl
      · exact hc rfl
      · exact absurd h (by decide)
      · exact absurd h (by decide)

theorem getLast?_mem {α : Type} {l : List α} {a : α} (h : l.getLast? = some a) : a ∈ l :=
  List.mem_of_getLast? h

theorem head?_mem {α : Type} {l : List α} {a : α} (h : l.head? = some a) : a ∈ l :=
  List.mem_of_head? h

theorem takeWhile_all_append {α : Type} (p : α → Bool) {l : List α} (h : ∀ a ∈ l, p a = true) (r : List α) :
    (l ++ r).takeWhile p = l ++ r.takeWhile p := by
  induction l with
  | nil => rfl
  | cons a l ih => simp [h a (by simp), ih (fun x hx => h x (by simp [hx]))]

theorem dropWhile_all_append {α : Type} (p : α → Bool) {l : List α} (h : ∀ a ∈ l, p a = true) (r : List α) :
    (l ++ r).dropWhile p = r.dropWhile p := by
  induction l with
  | nil => rfl
  | cons a l ih => simp [h a (by simp), ih (fun x hx => h x (by simp [hx]))]

/-- A line of a plain section. -/
theorem readLines_entry {k v : Str} (hk : PlainKey k) (hv : PlainValue v) (ls : List Str)
    (cur : Str × List (Str × Str)) (done : IniData) :
    readLines ((k ++ s% " = " ++ v) :: ls) cur done = readLines ls (cur.1, cur.2 ++ [(k, v)]) done := by
  obtain ⟨hne, hk⟩ := hk
  obtain ⟨hvne, hv, hv1, -, hv2⟩ := hv
  have hkb : ∀ c ∈ k, blankC c = false := fun c hc => (keyChar_plain (hk c hc)).1
  have hvb : ∀ c, v.getLast? = some c → blankC c = false := fun c hc =>
    (valueChar_plain (hv c (getLast?_mem hc))).2.2.2 (fun e => hv2 (e ▸ hc))
  have hvh : ∀ c, v.head? = some c → blankC c = false := fun c hc =>
    (valueChar_plain (hv c (head?_mem hc))).2.2.2 (fun e => hv1 (e ▸ hc))
  have ht : trim (k ++ s% " = " ++ v) = k ++ s% " = " ++ v := by
    refine trim_of_ends (fun c hc => ?_) (fun c hc => ?_)
    · cases k with
      | nil => exact absurd rfl hne
      | cons a k => simp at hc; subst hc; exact hkb a (by simp)
    · rw [getLast?_append_ne _ _ hvne] at hc
      exact hvb c hc
  have hkv : keyValue (k ++ s% " = " ++ v) = some (k, v) := by
    have h1 : ∀ c ∈ k ++ [' '], (!(c == '=' || c == ':')) = true := by
      intro c hc
      rcases List.mem_append.1 hc with hc | hc
      · have := keyChar_plain (hk c hc)
        simp [this.2.1, this.2.2.1]
      · simp at hc; subst hc; decide
    have e : k ++ s% " = " ++ v = (k ++ [' ']) ++ ('=' :: ' ' :: v) := by simp
    unfold keyValue
    rw [e, dropWhile_all_append _ h1, takeWhile_all_append _ h1]
    simp only [List.dropWhile_cons, List.takeWhile_cons]
    have h2 : (' ' :: v).takeWhile (fun c => !(c == '#' || c == ';')) = ' ' :: v := by
      have := takeWhile_all_append (fun c => !(c == '#' || c == ';')) (l := ' ' :: v) (by
        intro c hc
        rcases List.mem_cons.1 hc with rfl | hc
        · decide
        · have := valueChar_plain (hv c hc)
          simp [this.1, this.2.1]) []
      simpa using this
    simp only [beq_self_eq_true, Bool.true_or, Bool.not_true, Bool.false_eq_true, if_false, List.append_nil]
    rw [h2, trim_cons_blank, trim_of_ends hvh hvb, trim_append_blank]
    · exact fun c hc => hkb c (head?_mem hc)
    · exact fun c hc => hkb c (getLast?_mem hc)
  cases k with
  | nil => exact absurd rfl hne
  | cons a k =>
    have ha := keyChar_plain (hk a (by simp))
    rw [readLines, ht]
    simp only [List.cons_append] at hkv ⊢
    rw [if_neg (by rintro (e | e); exact ha.2.2.2.1 e; exact ha.2.2.2.2.1 e), if_neg ha.2.2.2.2.2.1, hkv]

theorem readLines_blank (ls : List Str) (cur : Str × List (Str × Str)) (done : IniData) :
    readLines ([] :: ls) cur done = readLines ls cur done := rfl

theorem readLines_header {n : Str} (hn : PlainKey n) (ls : List Str) (cur : Str × List (Str × Str))
    (done : IniData) : readLines (('[' :: n ++ [']']) :: ls) cur done = readLines ls (n, []) (done ++ [cur]) := by
  have ht : trim ('[' :: n ++ [']']) = '[' :: n ++ [']'] := by
    refine trim_of_ends (fun c hc => ?_) (fun c hc => ?_)
    · simp at hc; subst hc; decide
    · rw [List.getLast?_append] at hc
      simp at hc; subst hc; decide
  rw [readLines, ht]
  simp only [List.cons_append]
  rw [if_neg (by decide), if_pos trivial, takeWhile_all_append]
  · simp
  · intro c hc
    have := keyChar_plain (hn.2 c hc)
    simp [this.2.2.2.2.2.2.1]

theorem splitC_entries (kvs : List (Str × Str)) (h : ∀ e ∈ kvs, PlainKey e.1 ∧ PlainValue e.2) (rest : Str) :
    splitC '\n' (kvs.flatMap (fun e => e.1 ++ s% " = " ++ e.2 ++ s% "\n") ++ rest) =
      kvs.map (fun e => e.1 ++ s% " = " ++ e.2) ++ splitC '\n' rest := by
  induction kvs with
  | nil => rfl
  | cons e kvs ih =>
    obtain ⟨hk, hv⟩ := h e (by simp)
    have : '\n' ∉ e.1 ++ s% " = " ++ e.2 := by
      simp only [List.mem_append, not_or]
      exact ⟨⟨fun hc => (keyChar_plain (hk.2 _ hc)).2.2.2.2.2.2.2 rfl, by decide⟩,
        fun hc => (valueChar_plain (hv.2.1 _ hc)).2.2.1 rfl⟩
    have e1 : ((e :: kvs).flatMap (fun e => e.1 ++ s% " = " ++ e.2 ++ s% "\n") ++ rest) =
        (e.1 ++ s% " = " ++ e.2) ++ '\n' ::
          (kvs.flatMap (fun e => e.1 ++ s% " = " ++ e.2 ++ s% "\n") ++ rest) := by
      simp
    rw [e1, splitC_cons_append _ _ _ this, ih (fun x hx => h x (by simp [hx]))]
    rfl

theorem readLines_entries (kvs : List (Str × Str)) (h : ∀ e ∈ kvs, PlainKey e.1 ∧ PlainValue e.2)
    (ls : List Str) : ∀ (cur : Str × List (Str × Str)) (done : IniData),
    readLines (kvs.map (fun e => e.1 ++ s% " = " ++ e.2) ++ ls) cur done =
      readLines ls (cur.1, cur.2 ++ kvs) done := by
  induction kvs with
  | nil => intro cur done; simp
  | cons e kvs ih =>
    intro cur done
    obtain ⟨hk, hv⟩ := h e (by simp)
    rw [List.map_cons, List.cons_append, readLines_entry hk hv, ih (fun x hx => h x (by simp [hx]))]
    simp

theorem readLines_render (secs : IniData) (h : ∀ s ∈ secs, PlainKey s.1 ∧
    ∀ e ∈ s.2, PlainKey e.1 ∧ PlainValue e.2) : ∀ (cur : Str × List (Str × Str)) (done : IniData),
    readLines (splitC '\n' (renderIni secs)) cur done = .ok (done ++ cur :: secs) := by
  induction secs with
  | nil => intro cur done; rfl
  | cons s secs ih =>
    intro cur done
    obtain ⟨hn, he⟩ := h s (by simp)
    have e1 : renderIni (s :: secs) = ('[' :: s.1 ++ [']']) ++ '\n' ::
        (s.2.flatMap (fun e => e.1 ++ s% " = " ++ e.2 ++ s% "\n") ++ ([] ++ '\n' :: renderIni secs)) := by
      simp [renderIni]
    have hnl : '\n' ∉ '[' :: s.1 ++ [']'] := by
      simp only [List.mem_append, List.mem_cons, not_or]
      exact ⟨⟨by decide, fun hc => (keyChar_plain (hn.2 _ hc)).2.2.2.2.2.2.2 rfl⟩, by decide, by simp⟩
    rw [e1, splitC_cons_append _ _ _ hnl, splitC_entries _ he, splitC_cons_append _ _ _ (by simp),
      readLines_header hn, readLines_entries _ he, readLines_blank,
      ih (fun x hx => h x (by simp [hx]))]
    simp

theorem simpleIni_reads : ReadsPlain simpleIni := by
  intro secs h
  unfold simpleIni
  rw [readLines_render secs (fun s hs => ⟨(h.2 s hs).1, (h.2 s hs).2.2.2⟩)]
  rfl

end Fastac
