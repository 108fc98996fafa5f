import Verif.Spec.Condition
import Verif.Lemmas.Managers
import Verif.Lemmas.EndToEnd
import Verif.Lemmas.Formula
import Verif.Props.PolicyKey
import Verif.Lemmas.ModelText

/-!
# Lemmas about conditions
-/

namespace Fastac

/-! ## Definitions -/

theorem newPolicyDef_names {key text : Str} {names : List Str} (h : splitC ',' (removeSpaces text) = names)
    (g : GoodNames names) : newPolicyDef key text = declare key names := by
  have := declare_args key g
  unfold declare newPolicyDef at this ⊢
  simp only at this ⊢
  rw [h, this]

theorem attr_len {names vals : List Str} (hl : vals.length = names.length) {x : Str} (hx : x ∈ names) :
    ∃ v, attr names vals x = some v := by
  unfold attr
  rw [if_pos hx]
  have : names.idxOf x < vals.length := by rw [hl]; exact List.idxOf_lt_length_iff.2 hx
  exact ⟨_, List.getElem?_eq_getElem this⟩

theorem getParameter_attr (key : Str) {names : List Str} (g : GoodNames names) (vals : List Str)
    (hl : vals.length = names.length) (x : Str) :
    (declare key names).getParameter vals (qual key x) = attr names vals x := getParameter_full key g vals hl x

theorem getParameter_short (key : Str) {names : List Str} (g : GoodNames names) (vals : List Str)
    (hl : vals.length ≤ names.length) (x : Str) :
    (declare key names).getParameter vals (qual key x) = attr names vals x := by
  unfold PolicyDef.getParameter attr
  rw [declare_get key g, declare_args key g]
  have : ¬ vals.length > names.length := by omega
  by_cases h : x ∈ names <;> simp [h, this]

theorem Cond.Given.of_len {rArgs rvals : List Str} (h : rvals.length = rArgs.length) {f : List (List Cond)} :
    Cond.Given rArgs rvals f := ⟨Nat.le_of_eq h, fun _ _ _ hx _ => attr_len h hx⟩

theorem getEft_effectOf (key : Str) {names : List Str} (g : GoodNames names) (r : Rule)
    (hl : r.length = names.length) : (declare key names).getEft (key :: r) = effectOf names r := by
  have e : key ++ s% "_eft" = qual key (s% "eft") := by simp [qual]
  have h1 := declare_has key g (s% "eft")
  have h2 := getParameter_keyed key g key r hl (s% "eft")
  unfold PolicyDef.getEft effectOf
  simp only [declare_key, e, h1, h2]
  by_cases hm : s% "eft" ∈ names
  · obtain ⟨v, hv⟩ := attr_len hl hm
    simp only [hm, decide_true, if_true, hv]
    unfold attr at hv
    rw [if_pos hm] at hv
    simp only [hv, Option.getD_some]
  · have : attr names r (s% "eft") = none := by unfold attr; rw [if_neg hm]
    simp only [hm, decide_false, this]
    simp

/-! ## Texts of atoms -/

/-- A token of an operand. -/
structure Tok.IsArg (t : Tok) : Prop where
  kind : t.kind = .other ∨ t.kind = .string

theorem Ref.isArg (rk pk : Str) (a : Ref) : (a.tok rk pk).IsArg := by
  cases a with
  | req x => exact ⟨Or.inl rfl⟩
  | pol y => exact ⟨Or.inl rfl⟩
  | lit s => exact ⟨Or.inr rfl⟩

theorem Ref.tokText (rk pk : Str) (a : Ref) : Fastac.tokText (a.tok rk pk) = a.name rk pk := by
  cases a <;> rfl

theorem Tok.IsArg.space {t : Tok} (h : t.IsArg) (u : Tok) : tokSpace t (some u) =
    tokSpace (.var []) (some u) := by
  obtain ⟨k, x⟩ := t
  rcases h.kind with h | h
  · cases h; rfl
  · cases h; rfl

theorem Tok.IsArg.space_none {t : Tok} (h : t.IsArg) : tokSpace t none = tokSpace (.var []) none := by
  obtain ⟨k, x⟩ := t
  rcases h.kind with h | h
  · cases h; rfl
  · cases h; rfl

theorem Tok.IsArg.kinds {t : Tok} (h : t.IsArg) : ∀ k, k ≠ .other → k ≠ .string → t.kind ≠ k := by
  rintro k h1 h2 rfl
  rcases h.kind with h | h
  · exact h1 h
  · exact h2 h

theorem tokensToExpr_eq (rk pk : Str) (a b : Ref) : tokensToExpr [a.tok rk pk, .cmp, b.tok rk pk] =
    a.name rk pk ++ s% " == " ++ b.name rk pk := by
  have hb := (b.isArg rk pk).kinds
  have h : tokSpace .cmp (some (b.tok rk pk)) = [' '] := by
    generalize b.tok rk pk = t at hb
    obtain ⟨k, x⟩ := t
    have h1 := hb .clauseClose (by simp) (by simp)
    have h2 := hb .separator (by simp) (by simp)
    simp only at h1 h2
    cases k <;> first | rfl | exact absurd rfl h1 | exact absurd rfl h2
  rw [tokensToExpr, tokensToExpr, tokensToExpr, tokensToExpr, List.head?_cons, List.head?_cons, List.head?_nil, h,
    (a.isArg rk pk).space, (b.isArg rk pk).space_none, Ref.tokText, Ref.tokText]
  simp [Fastac.tokText, tokSpace, Tok.cmp, Tok.var]

theorem sepToks_head : ∀ (t : Tok) (ts : List Tok), ∃ us, sepToks (t :: ts) ++ [.rp] = t :: us
  | _, [] => ⟨_, rfl⟩
  | _, _ :: _ => ⟨_, rfl⟩

theorem tokensToExpr_comma (rk pk : Str) : ∀ args : List Ref, args ≠ [] →
    tokensToExpr (sepToks (args.map (Ref.tok rk pk)) ++ [.rp]) = join (s% ", ") (args.map (Ref.name rk pk)) ++ s% ")"
  | [], h => absurd rfl h
  | [a], _ => by
    simp only [List.map_cons, List.map_nil, sepToks, List.cons_append, List.nil_append, tokensToExpr, List.head?_cons,
      Ref.tokText, (a.isArg rk pk).space, join]
    simp [Fastac.tokText, tokSpace, Tok.var, Tok.rp]
  | a :: b :: as, _ => by
    have ih := tokensToExpr_comma rk pk (b :: as) (by simp)
    obtain ⟨us, e⟩ := sepToks_head (b.tok rk pk) (as.map (Ref.tok rk pk))
    have hb := (b.isArg rk pk).kinds
    have h : tokSpace .comma (some (b.tok rk pk)) = [' '] := by
      clear e
      generalize b.tok rk pk = t at hb
      obtain ⟨k, x⟩ := t
      have h1 := hb .clauseClose (by simp) (by simp)
      have h2 := hb .separator (by simp) (by simp)
      simp only at h1 h2
      cases k <;> first | rfl | exact absurd rfl h1 | exact absurd rfl h2
    simp only [List.map_cons, sepToks, List.cons_append] at ih e ⊢
    rw [tokensToExpr, tokensToExpr, ih, e, List.head?_cons, List.head?_cons, h, (a.isArg rk pk).space, Ref.tokText]
    simp [Fastac.tokText, tokSpace, Tok.var, Tok.comma, join]

theorem tokensToExpr_call (rk pk f : Str) (args : List Ref) (h : args ≠ []) :
    tokensToExpr (⟨.function, f⟩ :: .lp :: (sepToks (args.map (Ref.tok rk pk)) ++ [.rp])) =
      f ++ s% "(" ++ join (s% ", ") (args.map (Ref.name rk pk)) ++ s% ")" := by
  rw [tokensToExpr, tokensToExpr, tokensToExpr_comma rk pk args h]
  simp [Fastac.tokText, tokSpace, Tok.lp]

/-- The text of an atom. -/
def Atom.text (rk pk : Str) : Atom → Str
  | .eq a b => a.name rk pk ++ s% " == " ++ b.name rk pk
  | .call f args => f ++ s% "(" ++ join (s% ", ") (args.map (Ref.name rk pk)) ++ s% ")"

theorem wordsFrom_word (s : Str) : ∀ (w cur : Str), (∀ c ∈ w, isWordC c = true) →
    wordsFrom cur (w ++ s) = wordsFrom (cur ++ w) s
  | [], cur, _ => by simp
  | c :: w, cur, h => by
    rw [List.cons_append, wordsFrom, if_pos (h c (by simp)),
      wordsFrom_word s w (cur ++ [c]) (fun x hx => h x (by simp [hx]))]
    simp

theorem words_cons {w : Str} (h : ∀ c ∈ w, isWordC c = true) (hne : w ≠ []) (d : Char) (hd : isWordC d = false)
    (s : Str) : words (w ++ d :: s) = w :: words s := by
  unfold words
  rw [wordsFrom_word _ w [] h, List.nil_append, wordsFrom]
  simp [hd, hne]

theorem words_skip (d : Char) (hd : isWordC d = false) (s : Str) : words (d :: s) = words s := by
  unfold words
  rw [wordsFrom]
  simp [hd]

theorem words_single {w : Str} (h : ∀ c ∈ w, isWordC c = true) (hne : w ≠ []) : words w = [w] := by
  have := wordsFrom_word [] w [] h
  unfold words
  rw [List.append_nil] at this
  rw [this, List.nil_append, wordsFrom]
  simp [hne]

theorem wordsFrom_sep (d : Char) (hd : isWordC d = false) (t : Str) : ∀ (s cur : Str),
    wordsFrom cur (s ++ d :: t) = wordsFrom cur s ++ words t
  | [], cur => by
    rw [List.nil_append, wordsFrom, wordsFrom]
    by_cases h : cur = [] <;> simp [hd, h, words]
  | c :: s, cur => by
    rw [List.cons_append, wordsFrom, wordsFrom, wordsFrom_sep d hd t s, wordsFrom_sep d hd t s]
    split
    · rfl
    · split <;> rfl

theorem words_sep (d : Char) (hd : isWordC d = false) (s t : Str) : words (s ++ d :: t) = words s ++ words t :=
  wordsFrom_sep d hd t s []

theorem wordsFrom_chars : ∀ (s cur : Str), (∀ c ∈ cur, isWordC c = true) →
    ∀ w ∈ wordsFrom cur s, ∀ c ∈ w, isWordC c = true
  | [], cur, h, w, hw => by
    rw [wordsFrom] at hw
    split at hw
    · cases hw
    · rw [List.mem_singleton] at hw
      subst hw
      exact h
  | c :: s, cur, h, w, hw => by
    rw [wordsFrom] at hw
    split at hw
    · rename_i hc
      refine wordsFrom_chars s (cur ++ [c]) ?_ w hw
      intro d hd
      rcases List.mem_append.1 hd with hd | hd
      · exact h d hd
      · rw [List.mem_singleton] at hd; subst hd; exact hc
    · split at hw
      · exact wordsFrom_chars s [] (by simp) w hw
      · rcases List.mem_cons.1 hw with rfl | hw
        · exact h
        · exact wordsFrom_chars s [] (by simp) w hw

theorem words_word (s w : Str) (hw : w ∈ words s) : ∀ c ∈ w, isWordC c = true :=
  wordsFrom_chars s [] (by simp) w hw

theorem words_quoted (s : Str) : words (quoted s) = words s := by
  have : words [] = [] := rfl
  rw [quoted, List.cons_append, words_skip _ (by decide), words_sep _ (by decide), this, List.append_nil]

theorem words_eq (x y : Str) : words (x ++ s% " == " ++ y) = words x ++ words y := by
  have e : x ++ s% " == " ++ y = x ++ ' ' :: '=' :: '=' :: ' ' :: y := by simp
  rw [e, words_sep _ (by decide), words_skip _ (by decide), words_skip _ (by decide), words_skip _ (by decide)]

theorem words_join : ∀ args : List Str, words (join (s% ", ") args ++ s% ")") = args.flatMap words
  | [] => rfl
  | [a] => by
    have : words [] = [] := rfl
    rw [join, words_sep _ (by decide), this]
    simp
  | a :: b :: as => by
    have e : join (s% ", ") (a :: b :: as) ++ s% ")" = a ++ ',' :: ' ' :: (join (s% ", ") (b :: as) ++ s% ")") := by
      simp [join]
    rw [e, words_sep _ (by decide), words_skip _ (by decide), words_join (b :: as)]
    rfl

theorem words_call {f : Str} (args : List Str) (hf : isIdent f) :
    words (f ++ s% "(" ++ join (s% ", ") args ++ s% ")") = f :: args.flatMap words := by
  have e : f ++ s% "(" ++ join (s% ", ") args ++ s% ")" = f ++ '(' :: (join (s% ", ") args ++ s% ")") := by simp
  rw [e, words_cons hf.2.1 hf.1 _ (by decide), words_join args]

/-- The operand of an attribute. -/
def Ref.term (rk pk : Str) : Ref → GovTerm
  | .req x => .var (qual rk x)
  | .pol y => .var (qual pk y)
  | .lit s => .lit s

theorem Ref.term_text (rk pk : Str) (a : Ref) : (a.term rk pk).text = a.name rk pk := by cases a <;> rfl

/-! ## Names -/

theorem Naming.pHead {base : Str → Option Fn} {rk pk : Str} {rArgs pArgs : List Str}
    (N : Naming base rk pk rArgs pArgs) (y : Str) :
    (qual pk y).head? = some 'p' ∨ (qual pk y).head? = some 'g' := by
  obtain ⟨c, ds, rfl, h, -⟩ := N.pKey
  rcases h with rfl | rfl
  · exact .inl rfl
  · exact .inr rfl

theorem Naming.rHead' {base : Str → Option Fn} {rk pk : Str} {rArgs pArgs : List Str}
    (N : Naming base rk pk rArgs pArgs) (x : Str) : (qual rk x).head? = some 'r' := by
  have := N.rHead
  cases rk with
  | nil => cases this
  | cons c cs => exact this

theorem Naming.noUnder {base : Str → Option Fn} {rk pk : Str} {rArgs pArgs : List Str}
    (N : Naming base rk pk rArgs pArgs) : '_' ∉ pk := by
  obtain ⟨c, ds, rfl, hc, h⟩ := N.pKey
  intro hm
  rcases List.mem_cons.1 hm with e | hm
  · subst e
    exact absurd hc (by decide)
  · exact absurd (h _ hm) (by decide)

theorem Naming.isRef {base : Str → Option Fn} {rk pk : Str} {rArgs pArgs : List Str}
    (N : Naming base rk pk rArgs pArgs) {y : Str} (hy : y ∈ pArgs) : IsPolicyRef (qual pk y) := by
  have hne := N.p.ne y hy
  obtain ⟨c, ds, rfl, hc, h⟩ := N.pKey
  exact ⟨c, ds, y, by rcases hc with rfl | rfl <;> decide, h, hne, by simp [qual]⟩

theorem Naming.notRef {base : Str → Option Fn} {rk pk : Str} {rArgs pArgs : List Str}
    (N : Naming base rk pk rArgs pArgs) (x : Str) : ¬ IsPolicyRef (qual rk x) := by
  rintro ⟨c, ds, n, h1, -, -, e⟩
  have := N.rHead' x
  rw [e] at this
  cases this
  exact absurd h1 (by decide)

theorem Naming.words {base : Str → Option Fn} {rk pk : Str} {rArgs pArgs : List Str}
    (N : Naming base rk pk rArgs pArgs) {a : Ref} (h : a.Known rArgs pArgs) :
    (∃ s, a = .lit s ∧ Fastac.words (a.name rk pk) = Fastac.words s) ∨
      Fastac.words (a.name rk pk) = [a.name rk pk] := by
  cases a with
  | req x => exact Or.inr (words_single (N.r.ident x h).2.1 (N.r.ident x h).1)
  | pol y => exact Or.inr (words_single (N.p.ident y h).2.1 (N.p.ident y h).1)
  | lit s => exact Or.inl ⟨s, rfl, words_quoted s⟩

theorem Naming.inner {base : Str → Option Fn} {rk pk : Str} {rArgs pArgs : List Str}
    (N : Naming base rk pk rArgs pArgs) {a : Ref} (h : a.Known rArgs pArgs) (w : Str)
    (hw : w ∈ Fastac.words (a.name rk pk)) (u v : Str) (e : w = u ++ v) (hv : IsPolicyRef v) :
    u = [] ∧ w = a.name rk pk ∧ ∀ s, a ≠ .lit s := by
  rcases N.words h with ⟨s, rfl, e'⟩ | e'
  · rw [e'] at hw
    have hne : v ≠ [] := by
      rintro rfl
      obtain ⟨_, _, _, _, _, _, e⟩ := hv
      cases e
    refine absurd ?_ (h.2 w hw u.length (by
      rw [e, List.length_append]
      have := List.length_pos_iff.2 hne
      omega))
    rw [e, List.drop_left]
    exact hv
  · rw [e', List.mem_singleton] at hw
    subst hw
    cases a with
    | req x => exact ⟨N.r.inner x h u v e hv, rfl, by simp⟩
    | pol y => exact ⟨N.p.inner y h u v e hv, rfl, by simp⟩
    | lit s =>
      exfalso
      rw [Ref.name, words_quoted] at e'
      have : ∀ w ∈ Fastac.words s, ∀ c ∈ w, isWordC c = true := fun w hw => words_word s w hw
      have := this (quoted s) (by rw [e']; simp) '\'' (by simp [quoted])
      exact absurd this (by decide)

theorem Naming.get {base : Str → Option Fn} {rk pk : Str} {rArgs pArgs : List Str}
    (N : Naming base rk pk rArgs pArgs) {rvals : List Str} (hr : rvals.length ≤ rArgs.length) {r : Rule}
    (hl : r.length = pArgs.length) (a : Ref) :
    (a.term rk pk).val (MatchParams.get ⟨declare pk pArgs, declare rk rArgs, rvals⟩ r) =
      a.val rArgs pArgs rvals r := by
  cases a with
  | req x =>
    have h := get_r (ps := ⟨declare pk pArgs, declare rk rArgs, rvals⟩) (r := r) (N.rHead' x)
    exact h.trans (getParameter_short rk N.r.good rvals hr x)
  | pol y =>
    have h := get_p (ps := ⟨declare pk pArgs, declare rk rArgs, rvals⟩) (r := r) (N.pHead y)
    exact h.trans (getParameter_attr pk N.p.good r hl y)
  | lit s => rfl

theorem Ref.val_known {rArgs pArgs rvals : List Str} {b : Atom} (hr : b.Given rArgs rvals) {r : Rule}
    (hl : r.length = pArgs.length) {a : Ref} (hb : a ∈ b.refs) (h : a.Known rArgs pArgs) :
    ∃ v, a.val rArgs pArgs rvals r = some v := by
  cases a with
  | req x => exact hr x h hb
  | pol y => exact attr_len hl h
  | lit s => exact ⟨s, rfl⟩

/-- The identifiers of an atom. -/
theorem Atom.words_text {base : Str → Option Fn} {rk pk : Str} {rArgs pArgs : List Str}
    (N : Naming base rk pk rArgs pArgs) {a : Atom} (h : a.Uses rArgs pArgs) :
    (∀ b ∈ a.refs, b.Known rArgs pArgs) ∧
    ∃ pre, words (a.text rk pk) = pre ++ a.refs.flatMap (fun b => words (b.name rk pk)) ∧
      ∀ w ∈ pre, ∀ u v, w = u ++ v → ¬ IsPolicyRef v := by
  cases a with
  | eq a b =>
    refine ⟨?_, [], by rw [Atom.text, words_eq]; simp [Atom.refs], by simp⟩
    intro c hc
    simp only [Atom.refs, List.mem_cons, List.not_mem_nil, or_false] at hc
    rcases hc with rfl | rfl
    · exact h.1
    · exact h.2
  | call f args =>
    obtain ⟨h1, h2, h3, h4⟩ := h
    refine ⟨h2, [f], ?_, ?_⟩
    · rw [Atom.text, words_call _ h3, List.flatMap_map]
      rfl
    · intro w hw
      rw [List.mem_singleton] at hw
      subst hw
      exact h4

theorem Atom.inner {base : Str → Option Fn} {rk pk : Str} {rArgs pArgs : List Str}
    (N : Naming base rk pk rArgs pArgs) {a : Atom} (h : a.Uses rArgs pArgs) :
    ∀ w ∈ words (a.text rk pk), ∀ u v, w = u ++ v → IsPolicyRef v → u = [] := by
  obtain ⟨h1, pre, h2, h3⟩ := Atom.words_text N h
  intro w hw u v e hv
  rw [h2] at hw
  rcases List.mem_append.1 hw with hw | hw
  · exact absurd hv (h3 w hw u v e)
  · obtain ⟨b, hb, hw⟩ := List.mem_flatMap.1 hw
    exact (N.inner (h1 b hb) w hw u v e hv).1

theorem Atom.policyRef {base : Str → Option Fn} {rk pk : Str} {rArgs pArgs : List Str}
    (N : Naming base rk pk rArgs pArgs) {a : Atom} (h : a.Uses rArgs pArgs) (w : Str) :
    (w ∈ words (a.text rk pk) ∧ IsPolicyRef w) ↔ ∃ y, w = qual pk y ∧ y ∈ pArgs ∧ Ref.pol y ∈ a.refs := by
  obtain ⟨h1, pre, h2, h3⟩ := Atom.words_text N h
  rw [h2]
  constructor
  · rintro ⟨hw, hr⟩
    rcases List.mem_append.1 hw with hw | hw
    · exact absurd hr (h3 w hw [] w rfl)
    · obtain ⟨b, hb, hw⟩ := List.mem_flatMap.1 hw
      obtain ⟨_, rfl, hn⟩ := N.inner (h1 b hb) w hw [] w rfl hr
      cases b with
      | req x => exact absurd hr (N.notRef x)
      | pol y => exact ⟨y, rfl, h1 _ hb, hb⟩
      | lit s => exact absurd rfl (hn s)
  · rintro ⟨y, rfl, hy, hm⟩
    refine ⟨List.mem_append_right _ (List.mem_flatMap.2 ⟨.pol y, hm, ?_⟩), N.isRef hy⟩
    rw [Ref.name, words_single (N.p.ident y hy).2.1 (N.p.ident y hy).1]
    simp

theorem Atom.pArgs {base : Str → Option Fn} {rk pk : Str} {rArgs pArgs : List Str}
    (N : Naming base rk pk rArgs pArgs) {a : Atom} (h : a.Uses rArgs pArgs) (cs : List Stage)
    (w : Str) : w ∈ (Stage.mk (a.text rk pk) cs).pArgs ↔ ∃ y, w = qual pk y ∧ y ∈ pArgs ∧ Ref.pol y ∈ a.refs := by
  rw [c16_stage_args_partial (Stage.mk (a.text rk pk) cs) (Atom.inner N h), List.mem_filter, decide_eq_true_eq]
  exact Atom.policyRef N h w

theorem mapM_congr' {α : Type} {f g : α → Option Str} : ∀ args : List α, (∀ a ∈ args, f a = g a) →
    args.mapM f = args.mapM g
  | [], _ => rfl
  | a :: as, h => by
    simp only [List.mapM_cons, h a (by simp), mapM_congr' as (fun b hb => h b (by simp [hb]))]

theorem mapM_map' {α β : Type} (f : β → Option Str) (g : α → β) : ∀ args : List α,
    (args.map g).mapM f = args.mapM (fun a => f (g a))
  | [] => rfl
  | a :: as => by simp only [List.map_cons, List.mapM_cons, mapM_map' f g as]

theorem mapM_some' {α : Type} {f : α → Option Str} : ∀ args : List α, (∀ a ∈ args, ∃ v, f a = some v) →
    ∃ vs, args.mapM f = some vs ∧ vs.length = args.length
  | [], _ => ⟨[], rfl, rfl⟩
  | a :: as, h => by
    obtain ⟨v, hv⟩ := h a (by simp)
    obtain ⟨vs, hvs, hl⟩ := mapM_some' as (fun b hb => h b (by simp [hb]))
    exact ⟨v :: vs, by simp [List.mapM_cons, hv, hvs], by simp [hl]⟩

theorem mapM_mem {α : Type} {f : α → Option Str} : ∀ {args : List α} {vs : List Str}, args.mapM f = some vs →
    ∀ v ∈ vs, ∃ a ∈ args, f a = some v
  | [], vs, h, v, hv => by cases h; cases hv
  | a :: as, vs, h, v, hv => by
    simp only [List.mapM_cons] at h
    cases e : f a with
    | none => rw [e] at h; cases h
    | some x =>
      rw [e] at h
      cases e' : as.mapM f with
      | none => rw [e'] at h; cases h
      | some xs =>
        rw [e'] at h
        cases h
        rcases List.mem_cons.1 hv with rfl | hv
        · exact ⟨a, by simp, e⟩
        · obtain ⟨b, hb, he⟩ := mapM_mem e' v hv
          exact ⟨b, by simp [hb], he⟩

/-! ## Functions -/

namespace Model

theorem links_rules {m : Model} (ht : m.Tidy) {f : Str} {rp : RolePolicy} (h : m.rpMap.get f = some rp) :
    m.policyRules f = some rp.rules ∧ ∀ u r ds, (u, r, ds) ∈ rp.mgr.links ↔ u :: r :: ds ∈ rp.rules := by
  constructor
  · unfold policyRules
    cases hp : m.pMap.get f with
    | none => simp only [h, Option.map_some]
    | some p =>
      have h1 := (ht.pols f p hp).1
      have h2 := (ht.roles f rp h).1
      rw [h1] at h2
      cases h2
  · intro u r ds
    rw [RolePolicy.mem_rules]
    constructor
    · intro h; exact ⟨u, r, ds, rfl, h⟩
    · rintro ⟨a, b, c, e, h⟩; cases e; exact h

/-- What the functions of a model answer. -/
theorem says {build : Str → Res Stage} {m : Model} (hm : Made build m) {base : Str → Option Fn}
    {rArgs pArgs rvals : List Str} {P : Rule → Prop} {f : Str} {args : List Ref}
    (hc : m.Callable base rArgs pArgs rvals P f args) :
    ∃ fn, m.functions base f = some fn ∧ ∀ r, P r → r.length = pArgs.length → ∀ vs, args.mapM (Ref.val rArgs pArgs rvals r) = some vs →
      vs.length = args.length → ∃ b, fn vs = .bool b ∧ (b = true ↔ m.Says base f vs) := by
  have hgg := hm.wellKeyed.gg f
  unfold Callable at hc
  unfold functions Says
  cases hg : m.gDefs.get f with
  | none =>
    rw [hg] at hgg hc
    simp only at hc
    obtain ⟨fn, h1, h2⟩ := hc
    cases hr : m.rpMap.get f with
    | some rp => rw [hr] at hgg; cases hgg
    | none =>
      refine ⟨fn, h1, ?_⟩
      intro r hP hr' vs hv hl
      obtain ⟨b, hb⟩ := h2 r hP hr' vs hv
      refine ⟨b, hb, ?_⟩
      constructor
      · rintro rfl; exact ⟨fn, h1, hb⟩
      · rintro ⟨fn', h1', h2'⟩
        rw [h1] at h1'
        cases h1'
        rw [hb] at h2'
        cases h2'
        rfl
  | some n =>
    rw [hg] at hgg hc
    simp only at hc
    obtain ⟨h2, hcl⟩ := hc
    cases hr : m.rpMap.get f with
    | none => rw [hr] at hgg; cases hgg
    | some rp =>
      obtain ⟨hp, hlk⟩ := links_rules hm.tidy hr
      obtain ⟨hb, hk⟩ := hm.kinds f rp hr
      rw [hg] at hk
      refine ⟨gFunction rp.mgr, rfl, ?_⟩
      intro r hP hr' vs hv hl
      match vs, hl, hv with
      | [], hl, _ => simp at hl; omega
      | [_], hl, _ => simp at hl; omega
      | u :: v :: ds, hl, hv =>
      have hsplit : (∃ u' v' ds' links, u :: v :: ds = u' :: v' :: ds' ∧ m.policyRules f = some links ∧
          (u' = v' ∨ if n = 2 then ∃ k, k ≤ 9 ∧ Reach (fun a b => [a, b] ∈ links) k u' v'
            else ∃ k, k + 1 + ds'.length ≤ 9 ∧ Reach (fun a b => a :: b :: ds' ∈ links) k u' v')) ↔
          (u = v ∨ if n = 2 then ∃ k, k ≤ 9 ∧ Reach (fun a b => [a, b] ∈ rp.rules) k u v
            else ∃ k, k + 1 + ds.length ≤ 9 ∧ Reach (fun a b => a :: b :: ds ∈ rp.rules) k u v) := by
        constructor
        · rintro ⟨u', v', ds', links, e, h, h'⟩
          cases e
          rw [hp] at h
          cases h
          exact h'
        · intro h; exact ⟨u, v, ds, _, rfl, hp, h⟩
      simp only
      rw [hsplit]
      have hgf : ∀ b, rp.mgr.hasLink u v ds = .ok (rp.mgr, b) → gFunction rp.mgr (u :: v :: ds) = .bool b := by
        intro b e; simp only [gFunction, e]
      obtain ⟨mgr, ls⟩ := rp
      cases mgr with
      | rm rm =>
        have hn : n = 2 := by simpa [Mgr.isRM] using hk
        obtain ⟨x, e, hx⟩ := hb.hasLink_rm u v ds
        refine ⟨x, hgf x e, ?_⟩
        rw [hx, if_pos hn]
        simp only [Mgr.Reach_congr (fun a b => hlk a b [])]
      | dm d =>
        have hn : n ≠ 2 := by simpa [Mgr.isRM] using hk
        have hcl : DM.Clean ds := hcl hn r hP hr' _ hv
        obtain ⟨x, e, hx⟩ := hb.hasLink_dm u v ds hcl
        refine ⟨x, hgf x e, ?_⟩
        rw [hx, if_neg hn]
        simp only [Mgr.Reach_congr (fun a b => hlk a b ds)]

theorem functions_free {build : Str → Res Stage} {m : Model} (hm : Made build m) {base : Str → Option Fn} {x : Str}
    (h : base x = none) (hx : x.head? ≠ some 'g') : m.functions base x = none := by
  unfold functions
  cases e : m.rpMap.get x with
  | none => exact h
  | some rp => exact absurd (hm.tidy.roles x rp e).1 hx

end Model

theorem Naming.fns {build : Str → Res Stage} {m : Model} (hm : Model.Made build m) {base : Str → Option Fn}
    {rk pk : Str} {rArgs pArgs : List Str} (N : Naming base rk pk rArgs pArgs) (hk : pk.head? = some 'p' ∨ m.rpMap = [])
    {a : Ref} (h : a.Known rArgs pArgs) : (a.term rk pk).Ok (m.functions base) := by
  cases a with
  | req x => exact ⟨N.r.ident x h, Model.functions_free hm (N.r.free x h) (by rw [N.rHead' x]; decide)⟩
  | pol y =>
    refine ⟨N.p.ident y h, ?_⟩
    rcases hk with hk | hk
    · refine Model.functions_free hm (N.p.free y h) ?_
      cases pk with
      | nil => cases hk
      | cons c cs =>
        cases hk
        exact fun e => absurd (Option.some.inj e) (by decide)
    · unfold Model.functions
      rw [hk]
      exact N.p.free y h
  | lit s => exact h.1

theorem Ref.names_eq (rk pk : Str) (args : List Ref) : (args.map (Ref.term rk pk)).map GovTerm.text =
    args.map (Ref.name rk pk) := by
  rw [List.map_map]
  exact List.map_congr_left (fun a _ => a.term_text rk pk)

/-- The evaluation of an atom with functions that agree with those of the model on the names in the atom. -/
theorem Atom.eval_with {build : Str → Res Stage} {m : Model} (hm : Model.Made build m) {base : Str → Option Fn}
    {gov : Gov} (hg : gov.Ok) {rk pk : Str} {rArgs pArgs rvals : List Str} (N : Naming base rk pk rArgs pArgs)
    (hr : rvals.length ≤ rArgs.length) {P : Rule → Prop} {a : Atom} (hv : a.Given rArgs rvals)
    (h : a.Fits m base rArgs pArgs rvals P)
    {fns : Str → Option Fn} (hn : ∀ b : Ref, b.Known rArgs pArgs → (b.term rk pk).Ok fns)
    (hcall : ∀ f args, a = .call f args → fns f = m.functions base f) {par : Rule → Str → Option Str}
    (hpar : ∀ r, r.length = pArgs.length →
      par r = MatchParams.get ⟨declare pk pArgs, declare rk rArgs, rvals⟩ r) {E : Evaluator}
    (hE : E = gov fns par) :
    E.compiles (a.text rk pk) = true ∧
    (∀ r : Rule, r.length = pArgs.length → P r → ∃ b, E.eval (a.text rk pk) r = .bool b ∧
      (b = true ↔ a.holds (Ref.val rArgs pArgs rvals r) (m.Says base))) := by
  subst hE
  cases a with
  | eq a b =>
    replace h : (a.Known rArgs pArgs ∧ b.Known rArgs pArgs) := h.1
    obtain ⟨g1, g2⟩ := hg.eqT fns par _ _ (hn _ h.1) (hn _ h.2)
    rw [Ref.term_text, Ref.term_text] at g1 g2
    refine ⟨g1, ?_⟩
    intro r hl hP
    obtain ⟨w, hw⟩ := Ref.val_known hv hl (by simp [Atom.refs]) h.2
    obtain ⟨v, hv⟩ := Ref.val_known hv hl (by simp [Atom.refs]) h.1
    refine ⟨v == w, ?_, ?_⟩
    · rw [Atom.text, g2 r, hpar r hl, N.get hr hl, N.get hr hl, hv, hw]
    · simp only [Atom.holds, hv, hw, beq_iff_eq, Option.some.injEq]
      constructor
      · rintro rfl; exact ⟨v, rfl, rfl⟩
      · rintro ⟨x, e1, e2⟩; rw [e1, e2]
  | call f args =>
    obtain ⟨⟨h1, h2, h3, h4⟩, h5⟩ := h
    obtain ⟨fn, hf, hs⟩ := m.says hm (h5 f args rfl)
    obtain ⟨g1, g2⟩ := hg.callT fns par f fn (args.map (Ref.term rk pk)) h3 ((hcall f args rfl).trans hf) (by simpa using h1) (by
        intro x hx
        obtain ⟨b, hb, rfl⟩ := List.mem_map.1 hx
        exact hn b (h2 b hb))
    rw [Ref.names_eq] at g1 g2
    refine ⟨g1, ?_⟩
    intro r hl hP
    obtain ⟨vs, hv, hvl⟩ := mapM_some' (f := Ref.val rArgs pArgs rvals r) args
      (fun a ha => Ref.val_known hv hl ha (h2 a ha))
    obtain ⟨b, hb, hb'⟩ := hs r hP hl vs hv hvl
    refine ⟨b, ?_, ?_⟩
    · rw [Atom.text, g2 r, mapM_map', hpar r hl]
      have : args.mapM (fun a => (a.term rk pk).val (MatchParams.get ⟨declare pk pArgs, declare rk rArgs, rvals⟩ r)) =
          some vs := by
        rw [← hv]
        apply mapM_congr'
        intro a _
        exact N.get hr hl a
      rw [this]
      exact hb
    · rw [hb']
      simp only [Atom.holds, hv, Option.some.injEq]
      constructor
      · intro h; exact ⟨vs, rfl, h⟩
      · rintro ⟨x, rfl, h⟩; exact h

/-- The evaluation of an atom. -/
theorem Atom.eval {build : Str → Res Stage} {m : Model} (hm : Model.Made build m) {base : Str → Option Fn}
    {gov : Gov} (hg : gov.Ok) {rk pk : Str} {rArgs pArgs rvals : List Str} (N : Naming base rk pk rArgs pArgs)
    (hk : pk.head? = some 'p' ∨ m.rpMap = [])
    (hr : rvals.length ≤ rArgs.length) {P : Rule → Prop} {a : Atom} (hv : a.Given rArgs rvals)
    (h : a.Fits m base rArgs pArgs rvals P)
    {E : Evaluator}
    (hE : E = gov (m.functions base) (MatchParams.get ⟨declare pk pArgs, declare rk rArgs, rvals⟩)) :
    E.compiles (a.text rk pk) = true ∧
    (∀ r : Rule, r.length = pArgs.length → P r → ∃ b, E.eval (a.text rk pk) r = .bool b ∧
      (b = true ↔ a.holds (Ref.val rArgs pArgs rvals r) (m.Says base))) :=
  Atom.eval_with hm hg N hr hv h (fun _ hb => N.fns hm hk hb) (fun _ _ _ => rfl) (fun _ _ => rfl) hE

theorem Atom.holds_congr {val val' : Ref → Option Str} {fn : Str → List Str → Prop} (a : Atom)
    (h : ∀ b ∈ a.refs, val b = val' b) : a.holds val fn ↔ a.holds val' fn := by
  cases a with
  | eq a b =>
    simp only [Atom.holds, h a (by simp [Atom.refs]), h b (by simp [Atom.refs])]
  | call f args => simp only [Atom.holds, mapM_congr' args h]

/-- An atom means the same of rules that agree on its own attributes. -/
theorem Atom.holds_own {rArgs pArgs rvals : List Str} {fn : Str → List Str → Prop} (a : Atom) {r r' : Rule}
    (h : ∀ y, Ref.pol y ∈ a.refs → attr pArgs r y = attr pArgs r' y) :
    a.holds (Ref.val rArgs pArgs rvals r) fn ↔ a.holds (Ref.val rArgs pArgs rvals r') fn := by
  apply Atom.holds_congr
  intro c hc
  cases c with
  | req x => rfl
  | pol y => exact h y hc
  | lit s => rfl

/-- The attributes by which the stage of an atom is indexed. -/
theorem Atom.own {base : Str → Option Fn} {rk pk : Str} {rArgs pArgs : List Str} (N : Naming base rk pk rArgs pArgs)
    {a : Atom} (h : a.Uses rArgs pArgs) (cs : List Stage) :
    (∀ r, GoodRule (declare pk pArgs) r → ∀ w ∈ (Stage.mk (a.text rk pk) cs).pArgs,
      ∃ v, (declare pk pArgs).getParameter r w = some v) ∧
    ∀ r r', GoodRule (declare pk pArgs) r → GoodRule (declare pk pArgs) r' →
      (∀ w ∈ (Stage.mk (a.text rk pk) cs).pArgs,
        (declare pk pArgs).getParameter r w = (declare pk pArgs).getParameter r' w) →
      ∀ y, Ref.pol y ∈ a.refs → attr pArgs r y = attr pArgs r' y := by
  have hargs := declare_args pk N.p.good
  constructor
  · intro r hgr w hw
    obtain ⟨y, rfl, hy, -⟩ := (Atom.pArgs N h cs w).1 hw
    rw [getParameter_attr pk N.p.good r (by rw [hgr.len, hargs])]
    exact attr_len (by rw [hgr.len, hargs]) hy
  · intro r r' hgr hgr' hs y hc
    have hl : r.length = pArgs.length := by rw [hgr.len, hargs]
    have hl' : r'.length = pArgs.length := by rw [hgr'.len, hargs]
    have hy := (Atom.words_text N h).1 _ hc
    have := hs (qual pk y) ((Atom.pArgs N h cs _).2 ⟨y, rfl, hy, hc⟩)
    rw [getParameter_attr pk N.p.good r hl, getParameter_attr pk N.p.good r' hl'] at this
    exact this

end Fastac
