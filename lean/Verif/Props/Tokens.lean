import Verif.Lemmas.Tokens
import Verif.Spec.Formula

/-!
# C63: the text of a stage determines the tokens it was made from
-/

namespace Fastac

/-- **C63**, the part that holds: two plain token lists with the same text are the same.  So whatever the
text of a stage evaluates to, no two different atoms of matchers are confused by printing them.  Missing:
strings with quotes, and accessors followed by a word (`c63_fails`). -/
theorem c63_text_partial : ∀ (ts ts' : Toks), PlainToks ts = true → PlainToks ts' = true →
    tokensToExpr ts = tokensToExpr ts' → ts = ts'
  | [], [], _, _, _ => rfl
  | [], t' :: ts', _, h', e => by
    obtain ⟨c, r, e', _⟩ := tokens_head (ts := ts') (plain_cons h').1
    rw [e'] at e
    cases e
  | t :: ts, [], h, _, e => by
    obtain ⟨c, r, e', _⟩ := tokens_head (ts := ts) (plain_cons h).1
    rw [e'] at e
    cases e
  | t :: ts, t' :: ts', h, h', e => by
    have e1 := firstTok_tokens h
    have e2 := firstTok_tokens h'
    rw [e, e2] at e1
    simp only [Prod.mk.injEq] at e1
    rw [← e1.1, c63_text_partial ts ts' (plain_cons h).2.2 (plain_cons h').2.2 e1.2.symm]

namespace TokensExample

def name (x : Str) : Tok := ⟨.other, x⟩
def str (x : Str) : Tok := ⟨.string, x⟩
def op (x : Str) : Tok := ⟨.other, x⟩

/-- `g(r_sub, p_sub) && !f(-1.5) || (r_obj.Owner == 'al ice')` -/
def long : Toks := [⟨.function, s% "g"⟩, Tok.lp, name (s% "r_sub"), ⟨.separator, s% ","⟩, name (s% "p_sub"),
  Tok.rp, Tok.and, ⟨.pre, s% "!"⟩, ⟨.function, s% "f"⟩, Tok.lp, ⟨.pre, s% "-"⟩, name (s% "1.5"), Tok.rp, Tok.or,
  Tok.lp, ⟨.accessor, s% "r_obj.Owner"⟩, op (s% "=="), str (s% "al ice"), Tok.rp]

/-- The hypotheses are met by long expressions; a string and a name are told apart. -/
example : PlainToks long = true ∧
    tokensToExpr long = s% "g(r_sub, p_sub) && !f(-1.5) || (r_obj.Owner== 'al ice')" ∧
    PlainToks [str (s% "root")] = true ∧ PlainToks [name (s% "root")] = true ∧
    tokensToExpr [str (s% "root")] ≠ tokensToExpr [name (s% "root")] := by decide

/-- **C63 fails**: the string `a' == 'b` and the comparison of the strings `a` and `b` have the same text,
and so have the accessor `r_obj.Owner` followed by the operator `in` and the accessor `r_obj.Owne` followed by
`rin`: both are printed as `r_obj.Ownerin …`.  Hence no evaluation of texts gives both of them their meaning. -/
theorem c63_fails :
    ([str (s% "a' == 'b")] ≠ [str (s% "a"), op (s% "=="), str (s% "b")] ∧
      tokensToExpr [str (s% "a' == 'b")] = tokensToExpr [str (s% "a"), op (s% "=="), str (s% "b")]) ∧
    (([⟨.accessor, s% "r_obj.Owner"⟩, name (s% "in"), Tok.lp] : Toks) ≠
        [⟨.accessor, s% "r_obj.Owne"⟩, name (s% "rin"), Tok.lp] ∧
      tokensToExpr [⟨.accessor, s% "r_obj.Owner"⟩, name (s% "in"), Tok.lp] = s% "r_obj.Ownerin (" ∧
      tokensToExpr [⟨.accessor, s% "r_obj.Owne"⟩, name (s% "rin"), Tok.lp] = s% "r_obj.Ownerin (") := by decide

end TokensExample

end Fastac
