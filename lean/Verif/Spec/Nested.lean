import Verif.Model.Nested
import Verif.Spec.Matching

/-!
# What a client computes if its calls do not influence each other
-/

namespace Fastac

/-- Every call answers as if it were the only one. -/
def Client.meaning {σ : Type} : Client σ → σ → σ × Bool
  | .ret go, s => (s, go)
  | .look k, s => (k s).meaning s
  | .set f next, s => next.meaning (f s)
  | .enforce c pDef expr k, s => (k (Fastac.enforce c.matcher pDef c.asker.alone c.ord expr)).meaning s
  | .range c cb k, s =>
    (k (c.matcher.rangeMatches c.asker.alone c.ord (fun s r => (cb r).meaning s) s).2).meaning
      (c.matcher.rangeMatches c.asker.alone c.ord (fun s r => (cb r).meaning s) s).1

/-- The stage does not call `eval`. -/
def Asker.Free (a : Asker) (st : Stage) : Prop := ∀ r f g, a.eval st.expr r f = a.eval st.expr r g

/-- Only the first condition of the matcher may call `eval`. -/
def Asking.EvalFirst (c : Asking) : Prop :=
  match c.matcher.exprRoot.children with
  | [] => True
  | st :: rest => st.All c.asker.Free ∧ Stage.AllIn c.asker.Free rest

/-- The code makes no calls. -/
def Client.NoCalls {σ : Type} : Client σ → Prop
  | .ret _ => True
  | .look k => ∀ s, (k s).NoCalls
  | .set _ next => next.NoCalls
  | .enforce .. => False
  | .range .. => False

/-- Wherever a callback makes calls, only the first condition of the matcher that is searched may call `eval`. -/
def Client.Careful {σ : Type} : Client σ → Prop
  | .ret _ => True
  | .look k => ∀ s, (k s).Careful
  | .set _ next => next.Careful
  | .enforce _ _ _ k => ∀ b, (k b).Careful
  | .range c cb k => (c.EvalFirst ∨ ∀ r, (cb r).NoCalls) ∧ (∀ r, (cb r).Careful) ∧ ∀ st, (k st).Careful

end Fastac
