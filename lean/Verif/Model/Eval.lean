import Verif.Model.Context
import Verif.Model.MatcherDef

/-!
# The function `eval` (`model/matcher/matcher.go:218-256`)

`RangeMatches` puts a function `eval` into the function map: it takes a text, replaces `r.sub` by `r_sub`,
compiles it with the same function map (which contains `eval` itself) and evaluates it with the parameters of
the running call, that is the request and the rule that is being tried.
-/

namespace Fastac

/-- A map with one entry set (`FunctionMap.SetFunction`, model/fm/function.go:53-55). -/
def withFn (fns : Str → Option Fn) (name : Str) (fn : Fn) : Str → Option Fn :=
  fun x => if x = name then some fn else fns x

/-- `generateEvalFunction` (matcher.go:243-256) with `eval` (matcher.go:235-241), while the rule is `r`.
The number is how many calls of `eval` inside each other the stack of the goroutine has room for; beyond that
the program dies, for which we write `panic`.  Any other number of arguments than one is an error
(`ValidateVariadicArgs`).  That the argument is a string is not modelled: all values are strings here. -/
def evalFn (gov : Gov) (fns : Str → Option Fn) (par : Rule → Str → Option Str) (r : Rule) : Nat → Fn
  | 0 => fun _ => .panic
  | n + 1 => fun
    | [text] =>
      let E := gov (withFn fns (s% "eval") (evalFn gov fns par r n)) par
      if E.compiles (replaceArgs text) then E.eval (replaceArgs text) r else .err
    | _ => .err

/-- The library as `RangeMatches` uses it (matcher.go:220-225): with the function `eval` set, whatever was
registered under this name before. -/
def Gov.withEval (gov : Gov) (depth : Nat) : Gov := fun fns par =>
  { compiles := fun e => (gov (withFn fns (s% "eval") (evalFn gov fns par [] depth)) par).compiles e
    eval := fun e r => (gov (withFn fns (s% "eval") (evalFn gov fns par r depth)) par).eval e r }

end Fastac
