import Verif.Model.PathMatch
import Verif.Model.RoleManager

/-!
# The matchers for names that come with the library (util/builtin_operators.go:37-71, 232-236)
-/

namespace Fastac

/-- `PathMatcher` (builtin_operators.go:234). -/
def pathMatcher : PMatcher := ⟨IsPathPattern, fun s p => (PathMatchF (s.length + 2) s p).getD false⟩

/-- `PathMatcher2` (builtin_operators.go:235). -/
def pathMatcher2 : PMatcher := ⟨IsPathPattern2, fun s p => (PathMatch2F (s.length + 2) s p).getD false⟩

/-- `PrefixMatcher` (builtin_operators.go:53-71).  A `matchFn` that panics is not modelled here. -/
def prefixMatcher (pre : Str) (matchFn : Str → Str → Bool) : PMatcher :=
  ⟨fun s => pre.isPrefixOf s, fun s p => if pre.isPrefixOf p then matchFn s (p.drop pre.length) else false⟩

/-- `RegexMatcher` (builtin_operators.go:232, 236), for regular expressions that compile. -/
def regexMatcher (regex : Str → Str → Bool) : PMatcher := prefixMatcher (s% "p'") regex

end Fastac
