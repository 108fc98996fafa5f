import Verif.Model.CacheThreads

/-!
# What is said about match questions asked at the same time
-/

namespace Fastac

/-- Questions that have the same key in the cache have the same answer; so it is if no name contains `$` (`cacheKey_inj`). -/
def Unmixed (f : Str → Str → Bool) (qs : List (Str × Str)) : Prop :=
  ∀ q ∈ qs, ∀ q' ∈ qs, cacheKey q.1 q.2 = cacheKey q'.1 q'.2 → f q.1 q.2 = f q'.1 q'.2

/-- No two calls hold the read lock. -/
def MatchWorld.Single (w : MatchWorld) : Prop :=
  ∀ (i j : Nat) (c d : MatchCall), w.calls[i]? = some c → w.calls[j]? = some d → c.reading = true → d.reading = true → i = j

end Fastac
