import Verif.Lemmas.Requests
import Verif.Props.Changes

/-!
# No request changes the policy
-/

namespace Fastac

namespace FnModel

/-- **C88**.  `Enforce`, for all states of the model, reachable or not, all parameters, all libraries, matchers and
functions, and whether the call returns an answer or an error: every policy has the rules it had, in the order in which
it had them; every callback of `RangeRules` sees what it saw; definitions and named matchers are the same; and the
function map is the same except for `eval`.

If the call panics, the state is the one before the `HasLink` that panicked: `FnModel.call` does not record what that
one call had written by then (the code stores a new role before it asks the matcher, role_manager.go:107-112), so for
panics this says that nothing *up to* that call changed the policy. -/
theorem c88_policy (build : FnBuild) (s : FnModel) (gi : GovI) (depth : Nat) (ord : Order) (params : List Param) :
    let s' := (s.enforceE build gi depth ord params).1
    (∀ key, s'.model.policyRules key = s.model.policyRules key) ∧
    (∀ {σ : Type} (fn : σ → Rule → σ × Bool) (init : σ), s'.model.rangeRules fn init = s.model.rangeRules fn init) ∧
    s'.model.rDefs = s.model.rDefs ∧ s'.model.pDefs = s.model.pDefs ∧ s'.model.gDefs = s.model.gDefs ∧
    s'.model.eDefs = s.model.eDefs ∧ s'.model.mDefs = s.model.mDefs ∧
    (∀ key mt, s.model.getMatcher key = some mt → s'.model.getMatcher key = some mt) ∧
    ∀ f, f ≠ s% "eval" → s'.fns.get f = s.fns.get f := by
  obtain ⟨h, hf⟩ := enforceE_holds build s gi depth ord params
  refine ⟨h.policyRules, fun fn init => ?_, h.rDefs, h.pDefs, h.gDefs, h.eDefs, h.mDefs, fun key mt => h.getMatcher,
    fun f hne => ?_⟩
  · simp only [Model.rangeRules, h.ruleRuns]
  · rcases hf with hf | hf <;> rw [hf]
    exact GoMap.get_set_ne _ _ hne

/-- The model after one request after the other, each with its own library, order of iteration and parameters. -/
def serve (build : FnBuild) (s : FnModel) (reqs : List (GovI × Nat × Order × List Param)) : FnModel :=
  reqs.foldl (fun s q => (s.enforceE build q.1 q.2.1 q.2.2.1 q.2.2.2).1) s

/-- **C88** for any number of requests. -/
theorem c88_requests (build : FnBuild) : ∀ (reqs : List (GovI × Nat × Order × List Param)) (s : FnModel),
    (∀ key, (s.serve build reqs).model.policyRules key = s.model.policyRules key) ∧
    (∀ {σ : Type} (fn : σ → Rule → σ × Bool) (init : σ),
      (s.serve build reqs).model.rangeRules fn init = s.model.rangeRules fn init) ∧
    (∀ key mt, s.model.getMatcher key = some mt → (s.serve build reqs).model.getMatcher key = some mt) ∧
    ∀ f, f ≠ s% "eval" → (s.serve build reqs).fns.get f = s.fns.get f
  | [], s => ⟨fun _ => rfl, fun _ _ => rfl, fun _ _ h => h, fun _ _ => rfl⟩
  | (gi, depth, ord, params) :: reqs, s => by
    obtain ⟨a1, a2, -, -, -, -, -, a3, a4⟩ := c88_policy build s gi depth ord params
    obtain ⟨b1, b2, b3, b4⟩ := c88_requests build reqs (s.enforceE build gi depth ord params).1
    exact ⟨fun key => (b1 key).trans (a1 key), fun fn init => (b2 fn init).trans (a2 fn init),
      fun key mt h => b3 key mt (a3 key mt h), fun f hf => (b4 f hf).trans (a4 f hf)⟩

end FnModel

/-! ## Examples -/

namespace Changes

open DomainRules.Run

/-- Requests that change the manager, after which another panics: the policy is what it was. -/
example :
    let s := program (s% "subjects")
    let s' := s.serve fbuild [(lib, 1, Order.fwd, [s% "mallory", s% ":x", s% "data1", s% "read"].map .val),
      (lib, 1, Order.fwd, [s% "alice", s% "domain1", s% "data1", s% "read"].map .val)]
    (request s' [s% "alice", s% "domain1", s% "data1", s% "read"]).2 = .panic ∧
    (request s [s% "alice", s% "domain1", s% "data1", s% "read"]).2 = .ok true ∧
    s'.model.rules = s.model.rules ∧ s.model.rules.length = 4 := by decide +kernel

end Changes

end Fastac
