# Formal model of abichinger/fastac in Lean 4

The Go code in `/repo` is read as text and modelled by hand, function by function, as executable Lean
definitions. `properties.jsonl` lists what a user relies on; each property is a theorem about the model
for all inputs, states and histories, or, where the code does not have the property, a witness of the
failure (`…_fails`) together with the strongest restriction proved (`…_partial`).

## Layout

* `lean/Verif/Base.lean` – strings, outcomes (`Res`), Go maps (`GoMap`), `strings.Join/Split`.
* `lean/Verif/Model/*.lean` – the model of the Go code; every definition cites file and lines.
* `lean/Verif/Spec/*.lean` – small specifications, independent of the model's own helpers (sets of
  links, recency lists, segment matching, formulas, …).
* `lean/Verif/Lemmas/*.lean` – invariants, simulations and helper lemmas.
* `lean/Verif/Props/*.lean` – the property theorems, by area. Beside each there are `example`s of
  concrete cases that meet the hypotheses, and the witnesses of failures.
  `Props/Cases.lean` has further concrete cases, written as tests against edited models.
* `MANIFEST.json` – property → theorem names, status. `seeded/LOG.jsonl` – the mutation log.

## Modelling conventions

* A Go `string` is `List Char` (`Str`). Invalid UTF-8 is not modelled; where the code indexes bytes
  (`nextSegment`, `key[0]`) the modelled indices are characters, which agrees for the separators used.
* A rule is a list of strings. Request values are strings, except in Model/Values.lean (C114), where they
  are of any type. There numbers are taken as the `float64` values into which govaluate turns them; nil and
  `[]interface{}` are not among the values of a request (a function with such a value as its only argument gets no
  argument, or the elements).
* A Go map or `sync.Map` is an association list with distinct keys. Where the iteration order can be
  observed, iteration takes an oracle (`Order`: any permutation, chosen separately for every map that is
  iterated) and the theorems quantify over all valid oracles.
* Errors are values, a Go panic is an explicit outcome (`Res.panic`). When a listener panics half way, the
  partial change of the matcher is not modelled (the policy has changed already, that is).
* Slices are lists, except in `buildExprTree`, where the aliasing of the `and` stack is observable: there
  backing arrays with lengths and capacities are modelled, and the growth policy of `append` is a parameter.
  Rules that are handed over are slices in Model/Slices.lean; C97 says for which programs lists are enough.
* Pointers: the LRU cache is modelled both as a list and as a heap of nodes with `prev`/`next`; roles are
  records in a map keyed by name (in the code every `*Role` is reachable only through that map and through
  links between roles of one manager).
* Unbounded recursion of the code carries a fuel parameter that is proved sufficient (`c48_terminates`,
  `DM.fuelFor`).
* `govaluate` (external) is a parameter: for a stage text, a function table and the parameters it yields a
  boolean, another value, an error or a panic (`Gov`, `Evaluator`). Only the end-to-end theorems
  (C58–C60 and their successors) assume anything of it: `Gov.Ok` says that `a == b` compares two
  parameters or quoted plain strings and that `f(a, b, …)` calls the function with them. C75 and C77 also assume `Gov.Scoped`:
  what an expression means depends only on the functions it names and on the parameters.
* Which expressions `MatcherDef.Build` accepts depends on the functions known at that moment. Most properties fix
  the outcome (`build`); C77 discharges this for any `FnBuild` that is `Coherent`: the set of known functions
  decides whether a text compiles, not what it compiles to.
* In `FnModel.enforce` the functions of role definitions are treated as pure.  `FnModel.enforceE`
  (Model/Changes.lean) makes every call of `HasLink` in order, on the managers as the calls before left them;
  the two are proved equal as long as no question is about a pattern domain (C87).  Histories that contain
  requests assume this (`FnOp.AsksNoPattern`).
* Histories (`Made`, `Kept`, `Bound`, `Given`) contain requests with their own matcher (`inline`), which register
  listeners in the model.
* The event emitter (external) calls the listeners synchronously in the order of registration.
* Adapters are state machines: any sequence of `AddRule` calls on load, any outcome of each write.
* The file system is a state (old content, no file, prefix written so far); crash points are the prefixes of
  the step list of a save.
* Concurrency (C54, C56, C101-C103, C106, C109, C113, C115) is interleaving of atomic steps; Go's data races have no semantics in the model. For
  role managers a step is one access to a `sync.Map`, with `Range` as one step (`Model/RoleThreads.lean`).
* In `Model/RoleManager.lean` a role is its name, where the code has pointers to role objects. C104 and C105 are about the
  role manager with pointers (`Model/RoleObjects.lean`), which is shown to do the same.

## Trusted base

* Lean's kernel (4.33.0) and the axioms each property theorem depends on. `#print axioms` on every theorem
  named in `MANIFEST.json` reports subsets of `propext`, `Classical.choice`, `Quot.sound` and nothing else
  (of 352 theorems, 9 need none, 67 only `propext`, 77 `propext` and `Quot.sound`, 199 all three). No `sorry`, `admit`,
  own axiom, `native_decide`, `bv_decide`, `implemented_by`, `unsafe` or `extern` occurs.
* The reading of the Go code and of the Go semantics used (maps, slices, defer, interfaces).
* The assumptions about external libraries stated as hypotheses of the theorems that need them.

## What is modelled

| file | modelled | not modelled |
|------|----------|--------------|
| enforcer.go | everything used by the properties: `NewEnforcer`, `SetAdapter`, `Load/SavePolicy`, `Flush`, rule calls, `splitParams`, `Enforce*`, `Filter*`, `RangeMatches*`, `enforce`, `SetModel`, options; `enforce` with an effector of the caller (`Model/OwnEffector.lean`); several enforcers on one model (`Model/Enforcers.lean`) | getters |
| context.go | all (`Model/Context.lean`; `Filter` and `RangeMatches` with options in `Model/Filter.lean`) | – |
| model/model.go | `NewModel`, `SetDef`, `RemoveDef`, `BuildMatcher(FromDef)`, rule calls, `GetPolicy`, `GetMatcher`, `GetRequestDef`, `RangeMatches`, `RangeRules`, `ClearPolicy`, `String`, `LoadModelFromText`, `BuildMatchers`, `SetRoleManager`, `SetFunction`, `RemoveFunction`, and with pointers `SetPolicy`, `SetMatcher` (`Model/Objects.lean`); all getters and setters, up to what the objects do (`Model/Getters.lean`) | the ini reader (go-ini; a parameter with the assumption `ReadsPlain`), own implementations of `IPolicy` and `IMatcher` |
| model/handlers.go | all | – |
| model/defs/defs.go, util.go | all but `RequestDef.GetParameters` | – |
| model/defs/matcher_def.go | all: token printing, operator search, stage tree with aliasing, argument extraction, reference rewriting | govaluate's lexer and parser |
| model/effector, model/eft | all | – |
| model/matcher | all: index nodes, add, remove, range, `eval`; range with a callback that changes the policy in `Model/Callbacks.lean`, with one that makes requests in `Model/Nested.lean` | – |
| model/policy | all | negative columns of `GetDistinct` |
| model/fm | all (`Model/Functions.lean`): the map of every model, the global map, the built-ins, the sharing of `eval` | – |
| rbac/role.go, role_manager.go | all, with pointers in `Model/RoleObjects.lean`; calls at the same time in `Model/RoleThreads.lean` (without `Clear` and `SetMatcher`) | `Role.String`, domain listing of role managers (always empty) |
| rbac/domain_manager.go | all; calls at the same time in `Model/DomainThreads.lean`, those of several definitions in `Model/ManyRoles.lean` (without a domain matcher, `Clear`, `SetMatcher`) | – |
| rbac/role_policy.go, role_manager_api.go | all; what `HasLink` changes while a request is decided in `Model/Changes.lean` | `rm == nil` in `GenerateGFunction` |
| storage/controller.go | all | – |
| storage/adapter/fileadapter.go | all, with `encoding/csv`'s reader and writer for single lines and `bufio.Scanner` | I/O errors of the operating system other than a missing file |
| storage/adapter/noop_adapter.go | – | trivial |
| util/builtin_operators.go | path matching, the wrappers with argument validation | the standard library below `RegexMatch`, `IPMatch`, `GlobMatch` (parameter `StdLib`) |
| util/cache.go | all; calls at the same time in `Model/CacheThreads.lean` | – |
| util/util.go | `Hash`, `Join2D` | `FileExists` |
| log, testutil, str, api | – | no behaviour relevant here |

## The properties

For each: what is modelled, how it is proved, what is missing. The statements are in `properties.jsonl`.

### C01 Decision under some(where(p.eft==allow)) — proved

* Model: `Effector.lean`, `Enforce.lean`: effect merging and the loop of `enforce` over the reported matches.
* Proof: induction over the reported rules.
* Theorems: `Fastac.c01_some_allow`, `Fastac.c01_early_stop`.
* Relative to what Filter reports for the same iteration order.

### C02 Decision under !some(where(p.eft==deny)) — proved

* Model: `Effector.lean`, `Enforce.lean`: effect merging and the loop of `enforce` over the reported matches.
* Proof: induction over the reported rules.
* Theorems: `Fastac.c02_no_deny`.

### C03 Decision under some(allow) && !some(deny) — partial

* Model: `Effector.lean`, `Enforce.lean`: effect merging and the loop of `enforce` over the reported matches.
* Proof: induction over the reported rules; witness for other eft values.
* Theorems: `Fastac.c03_allow_no_deny_partial`, `Fastac.c03_fails`.
* False of the code when a matching rule has an eft value other than allow/deny: witness c03_fails. Proved otherwise.

### C04 Unsupported effect expressions never grant access and are reported — partial

* Model: `Effector.lean`, `Enforce.lean`: effect merging and the loop of `enforce` over the reported matches.
* Proof: case analysis on the expression, for all match lists.
* Theorems: `Fastac.c04_unsupported_never_grants_partial`, `Fastac.c04_never_reported`.
* Never grants: proved. Reported: false of the code, proved negation for all inputs.

### C05 The decision does not depend on the order in which rules are visited — partial

* Model: `Effector.lean`, `Enforce.lean`: effect merging and the loop of `enforce` over the reported matches.
* Proof: C01–C03 are conditions on the set of effects; witness otherwise.
* Theorems: `Fastac.c05_order_independent_partial`, `Fastac.c05_fails`.
* False for some(allow)&&!some(deny) with an eft value that is neither: witness. Proved in all other cases.

### C06 Interpretation of the eft column — partial

* Model: `Defs.lean`: policy definitions, `GetEft`, `GetParameter`.
* Proof: case analysis on lengths and positions; the misreading is proved for all rules.
* Theorems: `Fastac.c06_eft_column_partial`, `Fastac.c06_fails_omitted`, `Fastac.c06_fails`.
* Full-length rules proved; omitted eft column is misread: proved for all rules.

### C07 Filter/RangeMatches are complete — partial

* Model: `Matcher.lean`, `Policy.lean`: stage tree, index nodes, add/remove/range with an iteration-order oracle, the policy with listening matchers.
* Proof: index invariant (node at a path exists iff a stored rule has those projections) by induction over the stage tree and over histories.
* Theorems: `Fastac.c07_complete_partial`, `Fastac.c10_fails_index`.
* For all histories, requests and orders, for matchers with at most two alternatives per stage whose inner stages read only the attributes extracted from them (c10_fails_index shows what happens otherwise) and comma-free rules.

### C08 Filter/RangeMatches are sound — partial

* Model: `Matcher.lean`, `Policy.lean`: stage tree, index nodes, add/remove/range with an iteration-order oracle, the policy with listening matchers.
* Proof: index invariant; witness for the phantom rule.
* Theorems: `Fastac.c08_sound_partial`, `Fastac.c08_fails`.
* Reported rules are stored and satisfy the matcher, except for the all-empty phantom rule (witness c08_fails).

### C09 Removing a rule revokes what it granted — partial

* Model: `Matcher.lean`, `Policy.lean`: stage tree, index nodes, add/remove/range with an iteration-order oracle, the policy with listening matchers.
* Proof: from C08 and the set refinement of C17; witness.
* Theorems: `Fastac.c09_revoked_partial`, `Fastac.c09_fails`.
* False of the code: a removed rule can still grant (witness). Proved when no leaf expression is true of the all-empty rule.

### C10 The matcher index is only an optimisation — partial

* Model: `Matcher.lean`, `Policy.lean`: stage tree, index nodes, add/remove/range with an iteration-order oracle, the policy with listening matchers.
* Proof: C07 and C08 composed with the effector; witnesses.
* Theorems: `Fastac.c10_index_transparent_partial`, `Fastac.c10_fails_index`.
* Equality with a scan for all histories under stated conditions; counterexamples outside them.

### C100 Models that share nothing are independent — proved

* Model: Model/Objects.lean with pointers against Model/Model.lean with values..
* Proof: Refinement: every object has one owner and one key (Apart); each call keeps this, changes only the value of the model it is made on, and does there what the function of Model/Model.lean does (Lemmas/Apart.lean, ApartSteps.lean, ApartRun.lean); then induction over the program..
* Theorems: `Fastac.Realm.c100_separate`, `Fastac.Realm.SeparateExample.c100_shared`.
* The model with pointers (Model/Objects.lean) refines Model/Model.lean: the state of every model of a program that hands no objects over equals what its own calls make of Model.new, with the same events and the same decisions. c100_shared shows that the restriction is needed: with SetPolicy a call on one model changes the decisions of another, without an event there. The function map, which SetFunction changes, is in Model/Functions.lean and not part of this state.

### C101 Role questions asked at the same time are answered as if asked alone — partial

* Model: `RoleThreads.lean`: calls as programs over a heap of role objects with addresses, one step per map access.
* Proof: invariant on the heap kept by every step whatever the others do, ownership of temporary roles by calls, induction over histories; fairness by structural induction on the program; witnesses.
* Theorems: `Fastac.c101_questions_partial`, `Fastac.c101_answered_partial`, `Fastac.RoleThreadsExample.c101_fails`.
* Proved without a matcher, for any number of calls and every interleaving at the granularity of single sync.Map accesses, after any history in which updates ran alone; including that every fairly scheduled call returns. False with a matcher: a question about a new pattern makes another one panic, and a question about a new name makes another one answer wrongly (c101_fails). A Range is one step (nothing is written to the ranged maps here).

### C102 Links added and deleted at the same time have the effect of some order — partial

* Model: `RoleThreads.lean`: calls as programs over a heap of role objects with addresses, one step per map access.
* Proof: each update has one step that changes the links (linearization point); invariant with the order of these steps; induction over histories; witnesses.
* Theorems: `Fastac.c102_updates_partial`, `Fastac.c102_returns_partial`, `Fastac.RoleWritersExample.c102_fails`.
* Proved without a matcher, for every interleaving, where concurrent AddLink and DeleteLink use names that are already in use (questions next to them may be about any names): HasLink and GetRoles afterwards are right for the calls in some order that keeps the parts of the history in order, and no call panics or hangs. False in general: a link of a new user is lost, a question undoes an AddLink, GetUsers disagrees with GetRoles, two AddLink of one link both report true, and HasLink next to updates answers true though it is true at no moment (c102_fails).

### C103 Requests that ask for roles at the same time are decided as they are alone — partial

* Model: `Model/RoleRequests.lean`: `enforceA`, the traversal of Model/Matcher with the calls of `g` as steps of `HasLink` on the heap of Model/RoleThreads.
* Proof: `Lemmas/RoleRequests.lean`: with a function for `g` the traversal is that of Model/Enforce (`enforceA_value`, by induction on stages); next to others each call of `g` is safe by C101's invariant, and nothing is left behind.
* Theorems: `Fastac.c103_decisions_partial`, `Fastac.c103_decided_partial`, `Fastac.RoleRequestsExample.c103_fails`, `Fastac.RoleRequestsExample.c103_updates_fail`.
* Proved without a matcher of the role manager for every number of requests and questions and every interleaving, after every history of such groups. False with a matcher (c103_fails) and next to AddLink/DeleteLink (c103_updates_fail: a decision that was right at no moment). One role manager without domains; the function eval, whose sharing is C56, is not used.

### C104 A role manager made of linked role objects answers as its links and names say — proved

* Model: `Model/RoleObjects.lean` and `Model/RoleThreads.lean`: role objects with addresses, maps from names to addresses, each call with its own order of iteration; `Spec/RoleObjects.lean`: what is remembered and which answers are right.
* Proof: `Lemmas/RoleHeap.lean`, `RoleCalls.lean`, `RoleObjects.lean`: a simulation of Model/RoleManager, where names stand for pointers: every role object in the map holds exactly the pointers to the role objects in the map that the names say; `Lemmas/RoleMemory.lean`: induction on the calls.
* Theorems: `Fastac.c104_answers`.
* All calls of RoleManager except the empty GetDomains/GetAllDomains and SetDomainMatcher, on a heap of role objects with pointers; no bound on calls, names or depth. SetMatcher adds the unmarked links again in any order. The cache in front of the matcher is C54/C55; calls at the same time are C101-C103.

### C105 The order in which maps are iterated does not show in a role manager — partial

* Model: as C104.
* Proof: `Lemmas/RoleAlike.lean`: two managers whose maps have the same entries stay so under every call; for SetMatcher because without overlapping patterns the entries do not depend on the order.
* Theorems: `Fastac.c105_order_partial`, `Fastac.RoleObjectsExample.c105_fails`.
* Proved for every sequence of calls in which a matcher given to SetMatcher has no pattern that matches another one among the names of links (a matcher that is there from the start may have such patterns). Otherwise false: SetMatcher adds the links again in the order of the map, and whether a pattern role covers another pattern depends on which came first (c105_fails).

### C106 Questions and requests about names in use can run at the same time, with a matcher too — partial

* Model: as C103 and C104: threads that take one step per access to a shared map, role objects with pointers.
* Proof: `Lemmas/KnownRoles.lean`: a call about names that have a role object only reads, so the heap is an invariant and every call behaves as alone; what it answers alone is C104.
* Theorems: `Fastac.c106_known_partial`, `Fastac.c106_returns_partial`.
* Missing: the cache in front of the matcher, without which the claim is proved; with a matcher and more than 100 different questions it is false because of the cache, see c115_fails. Names in use are those of links that were added or deleted since the last Clear or SetMatcher (after SetMatcher: those of links). Names that are not in use are covered by C101 and C103 without a matcher; with one it is false.

### C107 The callback of RangeMatches may change the policy that is being searched — partial

* Model: `RangeMatches` with a callback that changes the policy (`Model/Callbacks.lean`): the loops look their entries up in the index as it is at that moment; which keys a loop comes to is left open except that all keys that were there at its beginning get their turn.
* Proof: `Lemmas/Callbacks.lean`: inner nodes of the index are never removed, so the position of a loop stays valid, and the node there always indexes the stored rules with its keys; `Lemmas/Sweep.lean`: induction on the stages with a result that composes (calls made one after another; reports sound; rules that stay are reported); `Lemmas/Quiet.lean`: the same traversal as `rangeMatches` when nothing changes.
* Theorems: `Fastac.c107_calls_partial`, `Fastac.c107_sound_partial`, `Fastac.c107_complete_partial`, `Fastac.c107_remove_partial`, `Fastac.c107_quiet`, `Fastac.c107_fails`.
* Proved for callbacks that add and remove rules of the right length and without commas, for matchers that do not fail. c107_fails: false for a callback that clears the policy (rules are reported that are no longer stored), and with || when a later alternative is true of the rule with empty fields (the callback gets that rule once it has removed all others). c107_quiet: with a callback that changes nothing the call is the one of C07-C15.

### C108 Callbacks of RangeMatches may make requests — partial

* Model: `Model/Nested.lean`: client code as a tree of calls with callbacks; the function stored under `eval` and the parameters of all calls are shared state; a stage takes the function that is there when it is compiled.
* Proof: `Lemmas/Nested.lean`: every call keeps the parameters of the calls around it; induction on stages and on the code: the first condition is compiled right after the function was stored, later ones do not ask for it or nobody has replaced it.
* Theorems: `Fastac.c108_nested_partial`, `Fastac.c108_enforce`, `Fastac.c108_library`, `Fastac.c108_fails`.
* Proved where the matcher of a call whose callback makes calls uses eval in its first condition only (or not at all); matchers of calls whose callbacks make no calls may use it anywhere. c108_fails: with eval in a later condition the outer call lists the rules for the request of the inner call. Not modelled: eval inside eval, unrecovered panics of inner calls, changes of the policy during the calls (C107).

### C109 Domains of a domain manager can be used at the same time without disturbing each other — partial

* Model: `Model/DomainThreads.lean`: managers are objects with addresses, a call takes one step per access to an `rmMap` on the way down its path and then the steps of `Model/RoleThreads.lean` on the role manager it has found.
* Proof: the managers are a tree (`Lemmas/DomainThreads.lean`), so paths lead to different role managers; the calls with one path are simulated by a system of calls of its role manager alone (`Coupled`, `Lemmas/DomainRounds.lean`), which gives its history by induction (`Lemmas/DomainTracks.lean`); C101 and C102 do the rest. `c109_fails` by computation.
* Theorems: `Fastac.c109_apart`, `Fastac.c109_unused`, `Fastac.c109_questions_partial`, `Fastac.c109_updates_partial`, `Fastac.c109_returns_partial`, `Fastac.DomainThreadsExample.c109_fails`.
* False for AddLink with a path that is new: two calls that meet there make two managers for one domain, and a link is lost although both calls returned true (c109_fails). Proved where AddLink and DeleteLink that do not run alone have a path in use (c109_apart, with or without a role matcher). Domain matchers are not part of this model.

### C11 Splitting a matcher into stages preserves its meaning — partial

* Model: `MatcherDef.lean`, `Defs.lean`: tokens, operators, stage tree, references.
* Proof: induction over formulas; the array-based builder refines a list-based one when no append overwrites a live cell; witness.
* Theorems: `Fastac.c11_stages_partial`, `Fastac.c11_fails`.
* Proved for every expression in which no conjunction has an operand containing && to the right of one containing ||; false otherwise because the alternatives share a backing array (witness, under every growth policy).

### C110 The getters of a model report what was last put under a key — partial

* Model: `Model/Getters.lean`: the maps of a model with objects known by the call that made them, all setters, getters and handlers.
* Proof: `LastWord` (`Spec/Getters.lean`) is a statement about the history only; every call is shown to change a map as its word says, and the last word is unique (`Lemmas/Getters.lean`). `c110_fails` by computation.
* Theorems: `Fastac.c110_getters`, `Fastac.c110_policy`, `Fastac.c110_known_partial`, `Fastac.c110_together_partial`, `Fastac.c110_other_keys`, `Fastac.GettersExample.c110_fails`, `Fastac.GettersExample.c110_apart_fails`.
* False for keys that do not exist: GetRoleManager and GetRequestDef panic, and GetPolicy returns a non-nil interface value with a nil pointer inside (c110_fails). The rest is proved. Definitions and objects go together unless objects are handed over (c110_apart_fails).

### C111 An effector of one's own is asked about exactly the matching rules, and its answer decides — partial

* Model: `Model/OwnEffector.lean`: `enforce` with an effector that answers knowing all the calls it has had.
* Proof: induction over the events of the traversal (`own_consume`), the rest follows from `c111_protocol`; `c111_default` relates it to the model of C01-C06; `c111_stored_partial` composes it with the index theorems of C07-C14.
* Theorems: `Fastac.c111_protocol`, `Fastac.c111_decision_partial`, `Fastac.c111_order_partial`, `Fastac.c111_errors_partial`, `Fastac.c111_never_reported`, `Fastac.c111_default`, `Fastac.c111_stored_partial`, `Fastac.c111_once_partial`, `Fastac.OwnEffectorExample.c111_fails`, `Fastac.OwnEffectorExample.c111_order_fails`, `Fastac.OwnEffectorRulesExample.c111_once_fails`.
* False as to errors: Enforce never returns an error of the effector (c111_never_reported), and ignores that of the last call, so that access is granted when MergeEffects returns Allow together with an error (c111_fails). The protocol of calls is proved in full; the decision for effectors that do not change their mind, also in terms of the stored rules (c111_stored_partial); a rule that satisfies two alternatives counts twice (c111_once_fails).

### C112 Several enforcers on one model keep their stores in step with it — partial

* Model: `Model/Enforcers.lean`: a model, numbered enforcers with adapter and controller, and the list of registered controllers.
* Proof: every call is related to the model of a single enforcer (C34-C41, C89) by induction over listeners, loops and load programs; the mirror follows from `c89_mirror_partial`.
* Theorems: `Fastac.c112_alone_partial`, `Fastac.c112_registered`, `Fastac.c112_failing`, `Fastac.c112_mirror_partial`, `Fastac.EnforcersExample.c112_fails`, `Fastac.EnforcersExample.c112_order_matters`.
* False when a store fails: with autosave its controller panics inside the event, and the controllers registered after it are never told of the change (c112_failing, c112_fails); which ones depends on the order of registration (c112_order_matters). Proved for calls that do not panic.

### C113 Requests that ask several role definitions at the same time are decided right, while links elsewhere change — partial

* Model: `Model/ManyRoles.lean`: a list of role definitions with a role manager or a domain manager each, requests that ask any of them, calls next to them; `Spec/ManyRoles.lean`: who may meet, links by definition and domain.
* Proof: calls on parts of a state (`Lemmas/Crowds.lean`): every role manager is a cell; jobs keep all cells they do not own within what questions may do to them, the owner of a cell runs there as if alone; induction over schedules and histories.
* Theorems: `Fastac.c113_decisions_partial`, `Fastac.c113_decided_partial`, `Fastac.c113_after_partial`, `Fastac.ManyRolesExample.c113_fails`, `Fastac.ManyRolesExample.c113_new_domain_fails`.
* False for managers with matchers (c113_fails), for updates in the domain that a request asks about (c103_updates_fail) and for updates in a domain not used before (c113_new_domain_fails).

### C114 Request values may be of any type; only strings match fields of rules, roles and patterns — partial

* Model: `Model/Values.lean`: values, functions, parameters and the library with values of any type; the rest of the enforcer, the model and the index are those of the other properties; `Spec/Values.lean`: attributes of any type, what conditions come to.
* Proof: the index does not look at request values, so `Lemmas/Outcomes.lean` (C96 for whatever evaluates the conditions) applies; `Lemmas/Values.lean` shows what the library sees, and that calls commute with forgetting types.
* Theorems: `Fastac.VModel.c114_justified`, `Fastac.VModel.c114_listed`, `Fastac.VModel.c114_exact`, `Fastac.VModel.c114_strict`, `Fastac.VModel.c114_program`, `Fastac.VModel.c114_functions`, `Fastac.VModel.c114_abac`, `Fastac.c114_fails`.
* All but "not panic" is proved; a value that is no string given to a role function panics (c114_fails). What is left behind by removed rules is an exception as in C96. c114_abac: exact decision for the matcher of abac_rule_model.conf.

### C115 Match questions asked at the same time are answered right through the cache — partial

* Model: `Model/CacheThreads.lean`: any number of calls of `match`; a step is the lookup, one pointer assignment of `moveToHead`, reading the value, or a whole `Put`, which waits for the readers.
* Proof: no assignment changes keys or values or writes nil (`Keeps`), whatever the list looks like, so values and pointers are an invariant of all interleavings (`MatchWorld.Inv`); with one reader the list is a doubly linked one after the pending assignments (`Tidy`, on top of C53); turns are counted by `callRank`; `c115_fails` by computation in the kernel.
* Theorems: `Fastac.c115_answers_partial`, `Fastac.c115_gets_partial`, `Fastac.c115_room_partial`, `Fastac.c115_single_partial`, `Fastac.c115_returns_partial`, `Fastac.CacheThreadsExample.c115_fails`.
* False of the code: Get moves nodes of the list under the read lock. c115_fails: a cache of 100 places, never more than two calls under way, all answered right; the next new question panics in Put. Proved: every answer that is returned is right (questions with the same key must have the same answer, see C55), Get itself never panics, all calls return or panic after ten turns; nobody panics if the keys fit into the cache, or if no two calls move a node at the same time. The reads of one pointer assignment happen together with its write; what a panicking Put has changed is left out.

### C12 A matcher may have any number of alternatives — partial

* Model: `Matcher.lean`, `Policy.lean`: stage tree, index nodes, add/remove/range with an iteration-order oracle, the policy with listening matchers.
* Proof: the index never reads a missing child when stages are binary; for three alternatives the panic is proved for every matcher.
* Theorems: `Fastac.c12_no_panic_partial`, `Fastac.c12_build_partial`, `Fastac.c12_fails`, `Fastac.c12_fails_enforce`.
* Two alternatives per stage: no panic for arbitrary rules and histories. Three or more: panics, proved for every such matcher.

### C13 Evaluation errors are reported — partial

* Model: `Matcher.lean`, `Policy.lean`: stage tree, index nodes, add/remove/range with an iteration-order oracle, the policy with listening matchers.
* Proof: induction over the visit; witness.
* Theorems: `Fastac.c13_error_reported_partial`, `Fastac.c13_fails`.
* Matchers without && report errors; errors after && are swallowed (witness, including a grant). C95 says what the answers are worth when conditions fail, with && too.

### C14 Each matching rule is reported once — partial

* Model: `Matcher.lean`, `Policy.lean`: stage tree, index nodes, add/remove/range with an iteration-order oracle, the policy with listening matchers.
* Proof: counting the leaves that accept a rule.
* Theorems: `Fastac.c14_multiplicity_partial`, `Fastac.c14_fails`.
* Exact multiplicity proved; duplicates exist when two alternatives hold.

### C15 Building a matcher before or after loading rules makes no difference — partial

* Model: `Matcher.lean`, `Policy.lean`: stage tree, index nodes, add/remove/range with an iteration-order oracle, the policy with listening matchers.
* Proof: the index of a history and the index built from the final rules agree as sets.
* Theorems: `Fastac.c15_build_time_partial`, `Fastac.c15_fails`.
* False of the code (c15_fails): a matcher that saw a rule added and removed keeps an empty leaf and can grant what a matcher built afterwards denies. The theorem covers stages whose expressions never fail and are not satisfied by the blank rule (NeverFails, BlankSafe), binary and local ones.

### C16 A stage is indexed by exactly the policy attributes it reads — partial

* Model: `Defs.lean`: the argument regular expressions as scanners.
* Proof: scanner lemmas; witness.
* Theorems: `Fastac.c16_stage_args_partial`, `Fastac.c16_request_args_partial`, `Fastac.c16_fails`.
* Exact when no identifier contains a reference strictly inside it.

### C17 A policy is a set of rules — partial

* Model: `Policy.lean`.
* Proof: refinement to a set, induction over histories.
* Theorems: `Fastac.c17_policy_set_partial`, `Fastac.c18_fails`.
* Set refinement for all histories of comma-free rules; false with commas.

### C18 Distinct rules are kept apart — partial

* Model: `Policy.lean`, `Hash`.
* Proof: injectivity of joining for comma-free fields; witnesses.
* Theorems: `Fastac.c18_kept_apart_partial`, `Fastac.c18_fails`, `Fastac.c18_fails_index`.
* False of the code for values with commas: the hash joins the values with commas (witnesses, for the policy and for the matcher on it). The theorem covers all histories of rules without commas.

### C19 GetDistinct returns the distinct projections — partial

* Model: `Policy.lean`: `GetDistinct`.
* Proof: fold invariant; witnesses.
* Theorems: `Fastac.c19_get_distinct_partial`, `Fastac.c19_fails`, `Fastac.c19_short_rule_panics`.
* False of the code for values with commas (witness), and GetDistinct panics exactly as c19_short_rule_panics says when a rule lacks a column. The theorem covers all other rule sets.

### C20 Clearing a policy clears what is matched — partial

* Model: `Model.lean`, `RolePolicy.lean`: maps of policies, role policies, matchers; definitions; events.
* Proof: clear empties the policy and the event clears the matchers; witness for `g`.
* Theorems: `Fastac.c20_clear_partial`, `Fastac.Model.c20_roles_partial`, `Fastac.ModelExample.c20_fails`.
* p policies, all histories; false for g policies (witness: a g matcher keeps reporting cleared rules).

### C21 HasLink is bounded reachability over the current links — proved

* Model: `RoleManager.lean`: roles, links, pattern matches, bounded search.
* Proof: refinement to the set of links of the history, search = bounded reachability by induction on the level.
* Theorems: `Fastac.c21_has_link`.
* For all histories, names and level bounds.

### C22 AddLink and DeleteLink maintain a set of links — proved

* Model: `RoleManager.lean`: roles, links, pattern matches, bounded search.
* Proof: refinement to the set of links, for any matcher.
* Theorems: `Fastac.c22_links_are_a_set`.
* Role manager, with or without pattern matcher, calls without domain arguments.

### C23 Role queries leave the role manager unchanged — partial

* Model: `RoleManager.lean`: roles, links, pattern matches, bounded search; `DomainManager.lean`: the recursive tree of managers with pattern domains.
* Proof: queries create and remove the same role: the state is equal afterwards.
* Theorems: `Fastac.c23_queries_pure`, `Fastac.c23_domains_partial`, `Fastac.c31_fails`.
* Role managers in full: the state after a query equals the state before. Domain managers: any history with any matchers, for queries about domains that are no patterns; a query about a pattern domain makes later calls panic (c31_fails). The match cache is not part of this state (C55).

### C24 GetRoles and GetUsers are converse — partial

* Model: `RoleManager.lean`: roles, links, pattern matches, bounded search.
* Proof: state invariant: users and roles are converse.
* Theorems: `Fastac.c24_direct_links`, `Fastac.c24_converse_partial`, `Fastac.c24_fails`.
* Without patterns in full; with patterns for names in use. False for unused names (witness).

### C25 Pattern roles — partial

* Model: `RoleManager.lean`: roles, links, pattern matches, bounded search.
* Proof: invariant: matches are exactly the matching known names.
* Theorems: `Fastac.c25_exact`, `Fastac.c25_pattern_roles_partial`, `Fastac.c25_order_independent_partial`, `Fastac.c25_fails`.
* `c25_exact` characterises every answer for every matcher and history, with the order of first use of the names; independence of that order holds when no pattern among the names in use matches another one, and is false otherwise (witness).

### C26 Setting a pattern matcher keeps all links — partial

* Model: `RoleManager.lean`: roles, links, pattern matches, bounded search; `DomainManager.lean`: the recursive tree of managers with pattern domains.
* Proof: state description independent of the history (`RM.Has`, `DM.Has`).
* Theorems: `Fastac.c26_exact`, `Fastac.c26_links_kept_partial`, `Fastac.c26_domains_set_matcher_partial`, `Fastac.c26_domains_set_domain_matcher_partial`, `Fastac.DM.c26_pattern_domains_partial`, `Fastac.c26_fails`.
* Role managers in full; domain managers when no domain in use is a pattern of the domain matcher; with pattern domains (one level) SetMatcher keeps exactly what Range lists; false for the copies of pattern links (witness).

### C27 Domains are isolated — partial

* Model: `DomainManager.lean`: the recursive tree of managers with pattern domains.
* Proof: simulation by one role manager per path.
* Theorems: `Fastac.c27_isolated_partial`, `Fastac.c27_other_domain_partial`, `Fastac.c27_reserved_partial`, `Fastac.c27_fails`.
* All paths of ordinary names, any depth, any role matcher, any domain matcher none of whose patterns is used as a domain; the reserved names RoleManager/redundant_role alias the default domain (witness). c27_reserved_partial: for paths of any names every answer is the one for the paths cut off at the first reserved name.

### C28 HasLink within a domain is bounded reachability within that domain — partial

* Model: `DomainManager.lean`: the recursive tree of managers with pattern domains.
* Proof: simulation by one role manager per path, then C21; with reserved names the same simulation up to the marks of redundant links.
* Theorems: `Fastac.c28_has_link_partial`, `Fastac.c28_reserved_partial`, `Fastac.c28_fails`.
* All paths of ordinary names that are no patterns of the domain matcher. With the reserved names RoleManager and redundant_role the claim is false (c28_fails): a path is cut off at the first of them, and for the paths that are left the claim holds again (c28_reserved_partial, all paths).

### C29 Links in a domain pattern apply to every matching domain — partial

* Model: `DomainManager.lean`: the recursive tree of managers with pattern domains.
* Proof: invariant: every domain's manager holds its own links and those of the matching patterns.
* Theorems: `Fastac.c29_pattern_links_partial`, `Fastac.c29_exact_partial`, `Fastac.DM.c29_any_calls_partial`, `Fastac.c29_fails`.
* Paths of at most one element, patterns that do not match each other; exact characterisation of HasLink included; c29_any_calls_partial after any calls, deletions and matcher changes included. False for overlapping patterns (witness).

### C30 Deleting a pattern-domain link leaves explicitly added links alone — partial

* Model: `DomainManager.lean`: the recursive tree of managers with pattern domains.
* Proof: frame lemma; witnesses.
* Theorems: `Fastac.c30_other_domains_partial`, `Fastac.c30_fails`, `Fastac.c30_fails_range`.
* False of the code (two witnesses); domains not matching the pattern are untouched.

### C31 No sequence of role-manager calls panics — partial

* Model: `DomainManager.lean`: the recursive tree of managers with pattern domains.
* Proof: invariant: pattern entries have managers; for any depth.
* Theorems: `Fastac.c31_no_panic_partial`, `Fastac.c31_fails`.
* No panic in any history, any depth, any matchers, if queries never name a pattern domain; false otherwise (witness).

### C32 Rules go to the policy named by their first field — partial

* Model: `Model.lean`, `RolePolicy.lean`: maps of policies, role policies, matchers; definitions; events.
* Proof: case analysis.
* Theorems: `Fastac.c32_dispatch_partial`, `Fastac.c32_fails`.
* All model states; only that policy/role manager (and the matchers listening to it) changes; unknown key: error, no change. Empty rules and empty first fields panic (witness).

### C33 RangeRules enumerates exactly the stored rules — partial

* Model: `Model.lean`, `RolePolicy.lean`: maps of policies, role policies, matchers; definitions; events.
* Proof: invariant of all models that calls can produce (`Made`).
* Theorems: `Fastac.c33_range_partial`, `Fastac.c33_stop_partial`, `Fastac.ModelExample.c33_fails`.
* Every model calls can produce: exactly the stored rules, each once, for callbacks returning true; a callback that returns false ends the run over its p policy. The full early stop is false of the code (witness).

### C34 One event per effective change — partial

* Model: `Model.lean`, `RolePolicy.lean`: maps of policies, role policies, matchers; definitions; events.
* Proof: invariant `Made`, induction over histories.
* Theorems: `Fastac.c34_call_partial`, `Fastac.c34_replay_partial`, `Fastac.ModelExample.c34_fails`, `Fastac.ModelExample.c34_fails_panic`.
* All histories of AddRule/RemoveRule with fitting rules; false for ClearPolicy and for matchers that panic (witnesses).

### C35 Flush delivers every queued change once and in order — proved

* Model: `Storage.lean`: controller, queue, enforcer wrappers, adapters as state machines.
* Proof: induction over the queue.
* Theorems: `Fastac.c35_flush`.
* Every adapter behaviour, controller state and queue.

### C36 Batches are maximal runs — proved

* Model: `Storage.lean`: controller, queue, enforcer wrappers, adapters as state machines.
* Proof: induction over the queue.
* Theorems: `Fastac.c36_batches`.
* Every adapter behaviour, controller state and queue, also for failing flushes.

### C37 The store mirrors the model — partial

* Model: `Storage.lean`: controller, queue, enforcer wrappers, adapters as state machines.
* Proof: invariant: store plus queue = model.
* Theorems: `Fastac.c37_mirror_partial`, `Fastac.c37_autosave_partial`, `Fastac.c37_file_partial`, `Fastac.StorageExample.c37_fails`.
* All histories without adapter failures (with failures: C91), rules that fit the model, also instantiated to the file adapter; the autosave half is false when changes were queued before autosave was switched on (witness).

### C38 A failing Flush loses no operation — partial

* Model: `Storage.lean`: controller, queue, enforcer wrappers, adapters as state machines.
* Proof: case analysis on the point of failure; witness.
* Theorems: `Fastac.c38_failing_flush_partial`, `Fastac.StorageExample.c38_fails`.
* False of the code (witness); the theorem says exactly what is lost and what stays queued.

### C39 Loading does not echo into the store — proved

* Model: `Storage.lean`: controller, queue, enforcer wrappers, adapters as state machines.
* Proof: induction over the adapter's calls.
* Theorems: `Fastac.c39_load`, `Fastac.c39_load_list`.
* Every adapter (arbitrary sequence of AddRule calls, any outcome) and every enforcer state.

### C40 AddRules/RemoveRules equal one call per rule — proved

* Model: `Storage.lean`: controller, queue, enforcer wrappers, adapters as state machines.
* Proof: induction over the rules.
* Theorems: `Fastac.c40_many`.
* Every enforcer state, adapter and rule list; AddRules and RemoveRules.

### C41 Switching adapters keeps pending changes and settings — partial

* Model: `Storage.lean`: controller, queue, enforcer wrappers, adapters as state machines.
* Proof: witness.
* Theorems: `Fastac.c41_set_adapter_partial`, `Fastac.StorageExample.c41_fails`.
* False of the code (witness): queue lost, storage switched on. The autosave setting is kept.

### C42 An enforcer created from file names can save — partial

* Model: `Storage.lean`: controller, queue, enforcer wrappers, adapters as state machines.
* Proof: for all models and files.
* Theorems: `Fastac.c42_new_partial`, `Fastac.c42_fails`.
* False of the code for every model and file: the adapter is nil (shadowed variable). The rules are loaded.

### C43 Save then load is the identity — partial

* Model: `FileAdapter.lean`: csv lines, scanner, file steps.
* Proof: csv round trip of a line, then of a file; composed with the model and the enforcer.
* Theorems: `Fastac.c43_roundtrip_partial`, `Fastac.c43_enforcer_partial`, `Fastac.FileExample.c43_fails`.
* Every model, previous file, write order and chunking, for rules whose fields have no comma, quote, line break, leading blank (Storable); false otherwise (witnesses).

### C44 SavePolicy survives a crash — partial

* Model: `FileAdapter.lean`: csv lines, scanner, file steps.
* Proof: enumeration of the prefixes of the steps.
* Theorems: `Fastac.c44_crash_states_partial`, `Fastac.FileExample.c44_fails`.
* False of the code (remove, create, write). The theorem lists exactly the states a crash can leave: old file, no file, prefix of the new text.

### C45 The file adapter maintains a set of rules — partial

* Model: `FileAdapter.lean`: csv lines, scanner, file steps.
* Proof: from the round trip.
* Theorems: `Fastac.c45_change_partial`, `Fastac.FileExample.c45_fails`, `Fastac.FileExample.c45_fails_missing`.
* Every file holding storable rules, every call, write order and chunking. False for quoted fields and missing files (witnesses).

### C46 Blank and comment lines are ignored — partial

* Model: `FileAdapter.lean`: csv lines, scanner, file steps.
* Proof: induction over the lines.
* Theorems: `Fastac.c46_blank_partial`, `Fastac.FileExample.c46_fails`.
* Any other lines whatsoever, also malformed ones. False for lines of 64 KiB or more (witness).

### C47 PathMatch semantics — partial

* Model: `PathMatch.lean`.
* Proof: declarative segment matching; induction on the fuel.
* Theorems: `Fastac.c47_sound`, `Fastac.c47_path_match_partial`, `Fastac.c47_exact`, `Fastac.c47_fails`.
* Sound for all inputs; complete unless the path has a literal segment * and the pattern a * before its last segment (witness */a/b vs */b). c47_exact says what is matched in all cases.

### C48 PathMatch terminates — proved

* Model: `PathMatch.lean`.
* Proof: measure.
* Theorems: `Fastac.c48_terminates`.
* Every separator, prefix, suffix, path, pattern; nesting at most len(path)+2.

### C49 Strings that are not path patterns match only themselves — proved

* Model: `PathMatch.lean`.
* Proof: induction.
* Theorems: `Fastac.c49_plain`, `Fastac.isPathPattern_iff`.
* Every path and non-pattern, both variants.

### C50 The LRU cache never exceeds its capacity — proved

* Model: `Cache.lean`: LRU cache as list and as pointer structure.
* Proof: invariant.
* Theorems: `Fastac.c50_capacity`.
* Every capacity >= 1, every sequence; also shows no call panics.

### C51 Get returns the most recently Put value — partial

* Model: `Cache.lean`: LRU cache as list and as pointer structure.
* Proof: invariant; witness.
* Theorems: `Fastac.c51_value_partial`, `Fastac.c51_latest_partial`, `Fastac.CacheExample.c51_fails`.
* False: Put of a cached key keeps the old value (witness). The value is that of the Put that brought the key in; the latest one for histories that put only missing keys, as the code's users do.

### C52 The LRU cache evicts the least recently used key — proved

* Model: `Cache.lean`: LRU cache as list and as pointer structure.
* Proof: refinement to the recency list of the history.
* Theorems: `Fastac.c52_lru`, `Fastac.c52_stays`.
* The cached keys are exactly the cap most recently used ones.

### C53 The linked list and the map of the cache agree — proved

* Model: `Cache.lean`: LRU cache as list and as pointer structure.
* Proof: heap invariant: list segment forwards and backwards.
* Theorems: `Fastac.c53_list`.
* Pointer-level heap model.

### C54 Concurrent Gets on the synchronised cache are safe — partial

* Model: `Cache.lean`: LRU cache as list and as pointer structure.
* Proof: interleaving of pointer writes; witness.
* Theorems: `Fastac.c54_alone_partial`, `Fastac.CacheExample.c54_fails`.
* False: Get writes under the read lock; interleaving witness. Non-interleaved Gets are fine.

### C55 Caching pattern matches is transparent — partial

* Model: `Cache.lean`: LRU cache as list and as pointer structure.
* Proof: key injectivity for the names concerned; witness.
* Theorems: `Fastac.c55_transparent_partial`, `Fastac.c55_names_partial`, `Fastac.CacheExample.c55_fails`.
* All histories incl. matcher changes, for questions without key collision (e.g. names without $); false with $$ (witness).

### C56 Concurrent Enforce calls do not influence each other — partial

* Model: `Concurrent.lean`: any number of calls as programs over the shared function map.
* Proof: simulation of each call by the sequential call; witness.
* Theorems: `Fastac.c56_concurrent_partial`, `Fastac.c56_separate_partial`, `Fastac.c56_finishes`, `Fastac.ConcurrentExample.c56_fails`.
* False for matchers using eval: the function map is shared, witness where alice is decided on bob's request. Proved for any number of calls and every interleaving for matchers without eval, and with eval for calls that do not overlap; every fairly scheduled call returns. Go data races are not modelled, and role functions are treated as pure: questions to role managers that meet are C101 (with pattern roles they disturb each other).

### C57 Context options — partial

* Model: `Context.lean`.
* Proof: case analysis over option lists; witness.
* Theorems: `Fastac.c57_options_partial`, `Fastac.c57_parameters`, `Fastac.c57_same_answer`, `Fastac.c57_total`, `Fastac.c57_unknown_request`, `Fastac.ContextExample.c57_fails`.
* Overriding and last-wins proved for every model and option list, with an exact condition for success. False: an unknown request definition panics (GetRequestDef's type assertion) instead of being reported.

### C58 ACL end to end — partial

* Model: all of the model: definitions from text, index, role managers, effector, enforcer.
* Proof: composition of C10, C11, C17 with `Gov.Ok`.
* Theorems: `Fastac.c58_acl_partial`, `Fastac.EndToEnd.c58_fails`.
* Whole system (configuration text, index, effector, enforcer) for every history, request and map order, when the action is non-empty and p rules have three comma-free fields; false for an empty action (witness: phantom blank rule).

### C59 RBAC end to end — partial

* Model: all of the model: definitions from text, index, role managers, effector, enforcer.
* Proof: composition with C21.
* Theorems: `Fastac.c59_rbac_partial`, `Fastac.c59_ask`, `Fastac.EndToEnd.c59_fails`.
* As C58 with role links; at most nine links. False for an empty action (witness).

### C60 RBAC with domains end to end — partial

* Model: all of the model: definitions from text, index, role managers, effector, enforcer.
* Proof: composition with C28.
* Theorems: `Fastac.c60_domains_partial`, `Fastac.c59_ask`, `Fastac.EndToEnd.c60_fails`.
* As C59 with a domain; the domain is not one of the two reserved names. False for an empty action (witness).

### C61 The work of PathMatch is polynomial — partial

* Model: `PathMatch.lean` with a call counter.
* Proof: recurrence; lower bound for a family of texts.
* Theorems: `Fastac.c61_calls_partial`, `Fastac.c61_fails`.
* False: 2^m calls for texts of length O(m), for every m. The theorem gives the exponential upper bound that holds.

### C62 Any matcher end to end — partial

* Model: all of the model: definitions from text, index, role managers, effector, enforcer.
* Proof: composition of C10 and C11 for any formula and effect.
* Theorems: `Fastac.c62_decision_partial`, `Fastac.EndToEnd.c58_fails`.
* Otherwise false: c58_fails is the ACL matcher with an empty action. For formulas whose stages have at most two alternatives, are local, blank-safe and never fail; see C08/C10/C11 for what happens otherwise, and C95/C96 for what still holds when conditions fail or hold for blank fields.

### C63 Stages with the same text are the same expression — partial

* Model: `MatcherDef.lean`, `Defs.lean`: tokens, operators, stage tree, references.
* Proof: printing is injective: token-wise first-set argument.
* Theorems: `Fastac.c63_text_partial`, `Fastac.TokensExample.c63_fails`.
* All token lists whose strings contain no quote or backslash and where no accessor is directly followed by a word (PlainToks); false otherwise (witnesses).

### C64 Only references to arguments are rewritten — partial

* Model: `MatcherDef.lean`, `Defs.lean`: tokens, operators, stage tree, references.
* Proof: scanner lemmas; witnesses.
* Theorems: `Fastac.c64_reference`, `Fastac.c64_rest_partial`, `Fastac.c64_unchanged`, `Fastac.RewriteExample.c64_fails`.
* References are rewritten, only dots between a short name and a word character change. False: dots in string literals and after names like group are rewritten too (witnesses).

### C65 AddWait postpones writing by exactly n changes — proved

* Model: `Storage.lean`: controller, queue, enforcer wrappers, adapters as state machines.
* Proof: induction over the changes.
* Theorems: `Fastac.c65_wait`.
* Every adapter and sequence; starts from a successful Flush.

### C66 Every matcher follows its policy — partial

* Model: `Model.lean`: definitions, policies with their listeners, matchers.
* Proof: invariant over all histories: every listener indexes the rules of its policy; witness.
* Theorems: `Fastac.Model.c66_in_step_partial`, `Fastac.Model.InStepExample.c66_fails`.
* Every history with any number of policies and matchers, p and g with domains. False after the policy itself is defined again (witness: old rules still reported); not covered: matchers on g without domains, clearing g (C20).

### C67 The lists of domains are right — partial

* Model: `DomainList.lean`: `GetDomains`, `GetAllDomains` over the tree of domain managers.
* Proof: from the simulation of the tree by one manager per path; witness for paths with a slash.
* Theorems: `Fastac.c67_all_domains_partial`, `Fastac.c67_domains_partial`, `Fastac.DomainListExample.c67_fails`.
* Every history, map order and name, domains that match no pattern. The lists name a domain by its path joined with a slash: for paths whose parts contain a slash the claim is false (witness: the answer depends on the map order). Not covered: pattern domains.

### C68 The text of a model is a configuration of the same model — proved

* Model: `ModelText.lean`: `String` of models and definitions, sorting of keys, `LoadModelFromText`, `BuildMatchers`; the ini reader is a parameter.
* Proof: invariant on the form of definitions over all histories; explicit form of the loaded model; sorted lists are unique.
* Theorems: `Fastac.Model.c68_text`.
* Every model calls can produce. The ini reader (go-ini, external) is a parameter, assumed to read plain data back (ReadsPlain); a simple reader is shown to do so (simpleIni_reads).

### C69 A decision depends only on the chosen definitions and the rules of the matcher's policy — partial

* Model: `Model.lean`, `Context.lean`, `Enforce.lean`.
* Proof: invariant of C66 composed with the index theorem and the context of C57.
* Theorems: `Fastac.Model.c69_decision_partial`, `Fastac.Model.InStepExample.c66_fails`, `Fastac.EndToEnd.c58_fails`.
* Every history without redefinition of the matcher or its policy after building (false otherwise, c66_fails). Matchers on p policies whose stages compare rule fields locally, do not hold for blank fields and never fail (see C08–C10 for why these are needed; C95 and C96 say what holds without them).

### C70 A matcher decides on the policy it names — partial

* Model: `Matcher.lean`: `GetPolicyKey` on the stages; `Defs.lean`: the regular expressions as scanners.
* Proof: from C16; witness.
* Theorems: `Fastac.c70_policy_partial`, `Fastac.c70_fails`.
* For matchers none of whose identifiers contains a policy reference inside. Otherwise false: r.group_id == p2.sub ranges over p, because the regular expression finds p_id in r_group_id.

### C71 Loading a configuration defines exactly what it says, or reports an error — proved

* Model: `ModelText.lean`: `loadModelFromConfig`, `SetDef`, `BuildMatchers`.
* Proof: induction over sections and entries; then over the matchers.
* Theorems: `Fastac.Model.c71_load`.
* The ini reader (go-ini) is not modelled: the configuration is the list of sections it delivers.

### C72 A request is decided by the rules of which the matcher is true, read as it is written — partial

* Model: `Model.lean`, `Context.lean`, `Enforce.lean`, `MatcherDef.lean`, `RoleManager.lean`, `DomainManager.lean`; the condition language is in `Spec/Condition.lean`.
* Proof: composition of C11 (stages), C16 (arguments), C70 (policy), C69 (decision), C66 (index), and the links of every role manager over every history.
* Theorems: `Fastac.Model.c72_condition_partial`, `Fastac.Model.ConditionExample.c72_fails`.
* Matchers of C11 (no shared pending operands), about one policy; strings in it are plain text without references to policies; the functions answer on the rules the policy was given. If the policy is empty the matcher must not hold of the rule with empty fields, if rules were removed one by one none of its last comparisons may (otherwise false: an empty request is allowed without rules). Domains are no reserved names. Every rule of an effect with deny has the effect allow or deny.

### C73 Decisions depend only on definitions and rules; a restored backup decides alike — partial

* Model: `Model.lean`, `ModelText.lean`, `Storage.lean`, `FileAdapter.lean`, `Context.lean`, `DomainManager.lean`.
* Proof: functions of alike models are equal, for all arguments also with reserved domain names; C69 on both; C68 and C43 for the restored model, with an invariant that stored rules suit their definitions.
* Theorems: `Fastac.Model.c73_alike_partial`, `Fastac.Model.c73_restore_partial`, `Fastac.Model.RestoreExample.c73_fails`.
* Under the conditions of C69 for decisions (false otherwise: a matcher whose leaf is true of the blank rule still allows alice after her rule is removed) and of C43/C68 for the text and the file (storable rules, plain texts).

### C74 Conditions have to behave only on the rules the policy was given — partial

* Model: `Matcher.lean`, `Model.lean`, `Context.lean`.
* Proof: shape invariant of the index (only a node that never held a rule lacks children), preserved by adding, removing and clearing; traversal of a tame index visits exactly the satisfied stored rules.
* Theorems: `Fastac.Model.c74_decision_partial`, `Fastac.Model.c74_fails`.
* With the rule of empty fields where the code tries it: if the policy is empty the whole matcher must be evaluable on it and false; if rules were removed one by one the last conditions must be. False otherwise (c74_fails: with an empty policy Enforce panics instead of denying).

### C75 eval decides on the condition stored in a rule — partial

* Model: `Eval.lean` (with `MatcherDef.lean`, `Context.lean`, `Matcher.lean`).
* Proof: eval as a function added to the library, by recursion on the stack; on good conditions it answers as the library does with the request alone (the library reads only names written in a text); then as C72.
* Theorems: `Fastac.Model.c75_eval_partial`, `Fastac.Model.c75_fails_policy`, `Fastac.Model.c75_fails_error`, `Fastac.Model.c75_fails_loop`.
* For conditions about the request only that compile, answer true or false and do not call eval; with the rule of empty fields as in C72. False otherwise: two rules with the same condition that mentions p.obj are decided on the first one's object; one condition that cannot be evaluated makes other requests fail; a condition eval(p.rule) overflows the stack.

### C76 A matcher calls the function registered last — partial

* Model: `Model/Functions.lean`: function map of every model, global map, built-ins; `FnWorld` runs programs over several models. `Spec/Functions.lean`: last call about a name..
* Proof: Induction over the program for the map; the decision follows since every name of the matcher resolves alike (`Model.enforceParams_congr`)..
* Theorems: `Fastac.c76_entry`, `Fastac.c76_decision_partial`, `Fastac.c76_eval`, `Fastac.FnExample.c76_fails_role`, `Fastac.FnExample.c76_fails_remove`.
* The map: for all programs. The decisions: if the user does not set or remove functions named like a role definition. A role definition silently replaces a function of the user; RemoveDef of a role definition that does not exist removes a built-in function.

### C77 What a matcher says is what is decided, in any program — partial

* Model: `FnModel` = model with its function map; `FnGiven` are the programs (`Spec/Program.lean`)..
* Proof: Every `FnGiven` program is a `Given` history of the model without functions for the reading `u` the builder is coherent with; then C75 and C76..
* Theorems: `Fastac.FnModel.c77_program_partial`, `Fastac.EndToEnd.c58_fails`.
* Holds if functions are not set or removed under names of role definitions (see C76), for the formulas of C75 and under its conditions on blank fields; govaluate and the builder are parameters with stated assumptions.

### C78 Built-in functions and path rules — partial

* Model: `Model/Functions.lean` (built-ins), `FnModel` programs; `StarMatch` says what a path pattern matches..
* Proof: The functions by C47/C48; the decisions from C77 with the atoms of the matcher; the failure by evaluation..
* Theorems: `Fastac.c78_functions`, `Fastac.PathRules.c78_shipped_partial`, `Fastac.PathRules.c78_reordered_partial`, `Fastac.PathRules.c78_fails`.
* The functions: proved. The decisions: if no rule is removed one by one, or with the comparison of the subjects written last (non-empty subject). False of the matcher as shipped: after RemoveRule the subject keeps access to the path, for every action, because the empty regular expression matches everything (witness).

### C79 Decisions follow the role managers in place — partial

* Model: `FnModel.setRoleManager`, `FnModel.onManager` on top of C77.
* Proof: the model is compared with one where role definitions are ordinary functions; the index invariant does not mention managers.
* Theorems: `Fastac.FnModel.c79_now_partial`, `Fastac.FnModel.c79_replaced`, `Fastac.FnModel.c79_changed`, `Fastac.EndToEnd.c58_fails`.
* Same exclusions as C77 (removed rules when the last condition is true of the blank rule; the empty policy; rules that do not suit the definition).

### C80 Pattern roles in programs — partial

* Model: `FnModel.RolesAre` follows a manager through a program; `pathMatcher`.
* Proof: `RolesAre.behind` (invariant over calls) with the exact order-aware answer of C25; decisions from C79.
* Theorems: `Fastac.FnModel.c80_roles`, `Fastac.PatternRules.c80_shipped_partial`, `Fastac.PatternRules.c80_reordered_partial`, `Fastac.PatternRules.c80_fails`.
* The roles in full. Decisions: as shipped while no rule is removed one by one; removal is covered for the matcher with g(r.sub, p.sub) at the end, and false as shipped (witness).

### C81 The matchers for names — proved

* Model: `pathMatcher`, `pathMatcher2`, `prefixMatcher`.
* Proof: from the exact path matching of C47; list prefixes.
* Theorems: `Fastac.c81_matchers`.
* Match functions that panic (regular expressions that do not compile) are not modelled.

### C82 Pattern domains: what every call leaves behind and answers — proved

* Model: Model/DomainManager.lean; the order of the iterations is a parameter of SetMatcher and SetDomainMatcher.
* Proof: refinement: an abstract state per domain (Spec/PatternDomains.lean) is simulated by the manager (Lemmas/OverlapDomains.lean, invariant Shows), for AddLink, DeleteLink, SetMatcher, SetDomainMatcher, Clear and questions.
* Theorems: `Fastac.DM.c82_exact`, `Fastac.c82_default_leak`.
* For all call sequences within the stated provisos; the order in which SetDomainMatcher puts links back is arbitrary. c82_default_leak: a concrete case of pattern links reaching calls without a domain.

### C83 Enforce decides on the stored rules and on nothing else but a known trace of removed rules — partial

* Model: `FnModel` (Model/Program.lean) with the history predicate `FnSeen` and the specification `LeftOver` (Spec/Seen.lean)..
* Proof: The index of a matcher is described by the set of all rules it has ever been given (Lemmas/Seen.lean): every stage on the path of a seen rule still exists. The walk over it is computed in Lemmas/Exact.lean: a path yields the stored rules under its last key, or the blank rule if none is left..
* Theorems: `Fastac.FnModel.c83_exact_partial`, `Fastac.FnModel.c83_verdict_partial`.
* Missing: matchers outside the condition language (C96 has them); conditions that fail or panic on a rule seen (C95, C96); "some allow and no deny" when a matching rule has an effect other than allow or deny (the answer then depends on map order); rules with commas or of wrong length.

### C84 The shipped models basic, basic_with_root and pathmatch decide exactly by the stored rules — proved

* Model: The three conf files as formulas of the condition language (`basic`, `withRoot`, `asShipped`); `FnSeen`..
* Proof: Instances of C83; `LeftOver` and the truth of the conditions are unfolded to membership in the list of rules..
* Theorems: `Fastac.RootRules.c84_basic`, `Fastac.RootRules.c84_root`, `Fastac.PathRules.c84_path`.
* The statement names the trace of removed rules, which is a defect of the code (C78).

### C85 Matchers that compare attribute by attribute decide exactly: rbac, resource roles, patterns, glob, custom functions, deny rules — proved

* Model: Matchers as lists of `Column` (Spec/Columns.lean), translated to the condition language; `FnSeen` for the rules and `RolesAre` for the roles; the nine conf files as instances..
* Proof: `c85_columns` from C83, by unfolding the truth of a conjunction and `LeftOver`; the instances via `c85_three` with C78 for the built-in functions and C80 for the roles..
* Theorems: `Fastac.c85_columns`, `Fastac.Shipped.c85_rbac`, `Fastac.Shipped.c85_resource_roles`, `Fastac.Shipped.c85_patterns`, `Fastac.Shipped.c85_glob`, `Fastac.Shipped.c85_custom`, `Fastac.Shipped.c85_not_deny`, `Fastac.Shipped.c85_allow_and_deny`, `Fastac.Shipped.c85_without`.
* The statement names the trace of removed rules, which is a defect of the code (C78). Functions must answer on an empty field too (regexp and glob do; ipMatch panics, so ipmatch_model.conf is not covered). With the effect of rbac_with_deny_model.conf stored rules must have the effect allow, deny or none.

### C86 Roles in domains: exact decisions in any program — proved

* Model: `DomainsAre` (which calls have reached the manager behind a key), `DomState`/`Steps` (C82), `FnSeen`, columns (C85)..
* Proof: `DM.Shows` is carried through every call of a program; the decision follows from C83 for the column matcher. `c86_plain` discharges `Steps` for programs without matchers: the links are simply those added and not removed. Examples: the tests of model_test.go for the domain pattern and all pattern models, with removed rules..
* Theorems: `Fastac.FnModel.c86_roles`, `Fastac.FnModel.c86_plain`, `Fastac.DomainRules.c86_domains`, `Fastac.DomainRules.c86_objects`, `Fastac.DomainRules.c86_domains_plain`.
* One level of domains whose names are not the two reserved ones; a role matcher's patterns must not match each other; no request or stored rule in the history has a value that is a pattern for domains. The trace of removed rules is a defect of the code (C78).

### C87 A request changes nothing, unless it asks about a pattern domain; then later requests may panic — proved

* Model: Model/Changes.lean: `Enforce` with every function call made in order, on the state the calls before left; an evaluation is a tree of calls and answers. Spec/Changes.lean: which calls a text can make, and which questions are quiet..
* Proof: `enforceE_quiet`: by induction over the traversal, the state stays the same as long as every question is quiet, so that the answer is that of the model in which role functions are functions of the managers (to which C83-C86 apply). Quiet questions come from the histories of C80 and C86. `c87_poison` for any domain manager; `c87_fails` three requests on the program of model_test.go:618-632..
* Theorems: `Fastac.FnModel.c87_question`, `Fastac.FnModel.c87_unchanged`, `Fastac.FnModel.c87_matcher`, `Fastac.DomainRules.c87_same`, `Fastac.DomainRules.c87_domains`, `Fastac.DM.c87_poison`, `Fastac.Changes.c87_fails`, `Fastac.Changes.c87_fails_yes`, `Fastac.Changes.c87_fails_allowed`, `Fastac.Changes.c87_fails_deeper`.
* At most one level of domains, whose names are not the two reserved ones. The expression library is a tree of function calls (Model/Changes.lean), assumed to call exactly the function written in a call and none in a comparison; conditions in rules (eval) are covered by c87_unchanged only. The last sentence of the statement is a defect of the code.

### C88 Enforce never changes the policy — proved

* Model: Model/Changes.lean: enforceE threads the whole model through the traversal, every call of a role function may replace its manager..
* Proof: Lemmas/Requests.lean: HasLink keeps the listed links of a manager (RM.links_runs, DM.query_range, Mgr.hasLink_runs); an invariant of the traversal (Ask.runE_inv to rangeChildrenE_inv) lifts it to the request. What a panicking HasLink wrote is not modelled..
* Theorems: `Fastac.FnModel.c88_policy`, `Fastac.FnModel.c88_requests`.
* User functions are pure in the model: a function registered by the user that itself calls AddRule is not covered. When HasLink panics, what it wrote before the panic is not recorded by the model (FnModel.call), so for panicking requests the claim reaches up to that call only.

### C89 Saving and loading in the middle of a history — partial

* Model: Model/Storage.lean, Model/FileAdapter.lean; histories as an inductive relation (Spec/Saving.lean)..
* Proof: Invariant: the model holds what the store will hold once the queue is handed over. Replaying a queue twice is replaying it once (held_again), so a save keeps it; a load of rules that are there keeps it (each_present)..
* Theorems: `Fastac.c89_mirror_partial`, `Fastac.c89_save`, `Fastac.c89_load_pending`, `Fastac.c89_file_partial`, `Fastac.SavingExample.c89_fails`.
* False for LoadPolicy while a removal is queued (c89_fails): the rule comes back into the model and the flush takes it out of the store; c89_load_pending says exactly when and how they differ. Storage calls that fail: see C91. Missing: rules that do not fit the model.

### C90 SetModel cuts the store off until SetAdapter is called — proved

* Model: Model/Storage.lean: the enforcer records whether its controller listens to the current model..
* Proof: An invariant (Detached) of every call of the history; the second part is C37 from the state that SetAdapter makes..
* Theorems: `Fastac.c90_detached`, `Fastac.c90_attached`.
* Rule changes made directly on the old model, to which the controller still listens, are not modelled. The first sentence of the statement is a defect of the code. The second part has the conditions of C37: no failing storage call, rules that fit.

### C91 A failing storage call only affects rules with a change in flight, and a save or a new change repairs them — proved

* Model: `Model/Storage`: the queue, `flush`, `batchFlush`, the enforcer; the adapter is a parameter (`Adapter.Frames`, `Adapter.Keeps`, `Adapter.Saves`)..
* Proof: `Lemmas/Failing`: two invariants by induction over the history. Per rule: the model has it iff the store has it once the queue is handed over (`TracksAt`). For all rules after any failures: the queue is cut only from the front, so the last queued operation about a rule is its last change (`Settles`)..
* Theorems: `Fastac.c91_apart`, `Fastac.c91_touched`, `Fastac.c91_heal`, `Fastac.FailingExample.c91_lost`.
* The adapter is a parameter with the assumption Adapter.Frames: a call that fails leaves alone the rules it is not about. The shipped file adapter does not meet it when writing fails half way (C44), so C91 says nothing about a file that cannot be written. c91_lost shows the case excluded in (a): the rule of the failed call stays out of step although the next Flush returns nil.

### C92 Emptying a policy reaches the store — partial

* Model: `Model/Storage` with `clearPolicy`, `setDef`, `removeDef` of `Model/Model`; `Spec/Dropping` lists the calls..
* Proof: `Lemmas/Dropping`: each of the calls leaves exactly the rules of other keys and the invariant of the model; together with the history invariant of C89..
* Theorems: `Fastac.c92_drop_partial`, `Fastac.c92_restore`, `Fastac.c92_save`, `Fastac.DroppingExample.c92_fails`.
* False (c92_fails): the three calls emit no events, so the store keeps every rule of the policy, also those that were only queued. c92_drop_partial says exactly what store and model hold after the Flush and that they agree iff the policy had no rules; c92_restore: LoadPolicy brings the rules back; c92_save: SavePolicy takes them out. Histories with failing storage calls are not covered.

### C93 Requests and rules with the wrong number of values grant nothing — partial

* Model: `getParameter`, `getEft` (`Model/Defs`), contexts and `Enforce` (`Model/Context`, `Model/Functions`); `Spec/Arity` has the two assumptions on values and library..
* Proof: `Lemmas/Arity`: indices of a definition are below its number of attributes; the context has the request definition named; a traversal on each of whose routes some expression is never true reports nothing..
* Theorems: `Fastac.FnModel.c93_long_request`, `Fastac.FnModel.c93_long_rule`, `Fastac.FnModel.c93_short_partial`, `Fastac.ArityExample.c93_fails`.
* False (c93_fails): GetParameter takes the first of too many values for the key. c93_long_request: a long request is decided exactly like the one without its first value; c93_long_rule: a long rule matches like the one without its first value but has the effect of the one cut at the end, so a deny can be lost; c93_short_partial: a request that lacks an attribute mentioned on every way through the matcher is never granted when an allow is required, and never denied (only by an error) when only a deny counts. Short requests whose missing attributes the matcher does not mention are decided by c83_verdict_partial (Cond.Given). Missing: those in which the missing attribute is not on every way; c93_long_rule is about satisfying the matcher and the effect, not about the index.

### C94 Filter and RangeMatches list exactly the rules that match — partial

* Model: Model/Filter.lean: splitParams, NewContext with the options SetRequestDef and SetMatcher, RangeMatches and Filter, with the matcher that is built for a text and stays registered as a listener; Spec/Filter.lean says which rows are expected..
* Proof: Filter is the walk of the matcher with a callback that never stops, which is the list of the deferred rows of C58 and C83; for a matcher given as text the index is built from the rules at hand, so that the only left-over is the blank rule of an empty policy; the rest is an invariant over programs..
* Theorems: `Fastac.FnModel.c94_stored_partial`, `Fastac.FnModel.c94_inline_partial`, `Fastac.FnModel.c94_pairs_partial`, `Fastac.FnModel.c94_range`, `Fastac.FnModel.c94_enforce`, `Fastac.FilterExample.c94_fails`.
* Proved in any program: Filter lists the stored rules the condition is true of, each as often as it is true, without an error, for matchers of the model and for matchers given as text, over rules and over roles with one or no domain, with or without the request values that the matcher does not use; besides these at most rows with empty fields, and exactly when these appear is part of the theorem. The rules are the same afterwards, and after a matcher given as text exactly one more matcher listens to the policy, for good. RangeMatches makes the same calls until the function stops it, and Enforce is the fold of the effector over the same rows. The full statement fails: rows with empty fields that were never stored, rules listed once for each true alternative, shifted field names of links with two domains, lists cut short by errors that are not returned, and a panic without a request definition r (c94_fails).

### C95 Nothing is granted or refused without a rule that says so, even when conditions fail — proved

* Model: The traversal of the index with conditions that fail, panic or answer something else (Model/Matcher); Atom.outcome says what a condition comes to (Spec/Justified)..
* Proof: A traversal that fails goes the same way, as far as it gets, as the one in which failing conditions are false (Cut, by induction on the stages); what that one lists is known from C83. For errors and panics: the rules on which a condition is tried have been stored or are the blank one (Idx, Hist), errors below the first condition are swallowed..
* Theorems: `Fastac.FnModel.c95_justified`, `Fastac.FnModel.c95_listed`, `Fastac.FnModel.c95_exact`, `Fastac.JustifiedExample.case_any`.
* For all programs (FnSeen) and matchers of the condition language. Conditions call functions that exist, and a text given to eval is about the request and does not call eval; nothing is assumed about what functions answer. The exception for removed rules is LeftOver as in C83. case_any applies it to a program with an arbitrary function.

### C96 Matchers made of any expressions are decided by what their conditions say — proved

* Model: The conditions of a formula are the texts printed by tokensToExpr; FnModel.comesTo is what the library answers for such a text, given the attributes of request and rule (Spec/Expressions)..
* Proof: As C95, with texts instead of atoms: the key under which a stage groups rules is exactly the attributes that its text mentions (Legible.stageKey_iff), so rules that are put together agree on what the library sees (Scoped). The induction over stages of C95 is used with the weaker hypothesis that a text which does not compile is an error..
* Theorems: `Fastac.FnModel.c96_justified`, `Fastac.FnModel.c96_listed`, `Fastac.FnModel.c96_exact`, `Fastac.ExpressionsExample.case_any`, `Fastac.ExpressionsExample.case_exact`, `Fastac.ExpressionsExample.case_listed`.
* For all programs (FnSeen) and any evaluation library that is Ok and Scoped. A condition is a text without brackets or backslashes whose policy names are attributes of the policy (Legible) and which does not call eval, or an atom of C95 (which may call eval). Request values are strings in the model; since the library is arbitrary they stand for any values. The cases apply the theorems to r.sub.Age > 18 && r.obj.Owner == p.owner with arbitrary meanings of the two expressions.

### C97 Rules handed over and handed out are values, not shared slices — partial

* Model: Model/Slices.lean: a memory of arrays, slices as windows into it; policies, matcher nodes and queue hold slices, the keys are strings (policy.go:33-70, matcher.go:122-207, controller.go:90-104, model.go:205-300, 406-419)..
* Proof: Refinement: reading the slices of the state gives the model of the other files; every step of a careful program commutes with it (Lemmas/Slices.lean). The rest by induction over the program..
* Theorems: `Fastac.SState.c97_values_partial`, `Fastac.SState.c97_rows`, `Fastac.SState.c97_acl_partial`, `Fastac.SlicesExample.c97_fails`.
* False of the code: the policy, the nodes of the matchers and the storage queue keep the slice of the caller; c97_fails has a program with one buffer for two rules (alice is refused although her rule was added) and one in which the storage is told to remove another rule. c97_values_partial: programs that leave a slice alone once it has been handed over (for RemoveRule until the next flush), and that give slices without spare capacity or from arrays of their own (see C98), do what the calls say. c97_rows (rows of RangeRules are new) is unconditional. Definitions are fixed during the program, and the adapter accepts everything.

### C98 The library does not write into the memory of the caller — partial

* Model: Model/Slices.lean: DM.sLink is AddLink and DeleteLink with the slice of the caller and append with capacities, down the tree of managers (domain_manager.go:80-194)..
* Proof: Refinement of DM.addLink and DM.deleteLink by induction over the depth, with the invariant that memory differs only behind the slice (Lemmas/Spill.lean); then by induction over the program..
* Theorems: `Fastac.SState.c98_behind_partial`, `Fastac.SState.c98_full_partial`, `Fastac.SState.c98_bare_partial`, `Fastac.SState.c98_short_partial`, `Fastac.SpillExample.c98_fails`.
* False of the code: append(subdomains, REDUNDANT_ROLE) in domain_manager.go:172, 190 writes behind the rule when the slice has spare capacity; c98_fails has packed rules of which the third loses its key. Proved for all programs: nothing else is ever written (c98_behind_partial); nothing at all if slices have no spare capacity, if no matcher for domains is set, or for rules of policies and links without domain. That the managers themselves are not affected by the sharing is proved too (DM.sLink_eq, used in C97). Arrays that append makes are treated as values.

### C99 Shared policies are the same policy everywhere — partial

* Model: Model/Objects.lean: models, policies and role managers as objects with addresses; the maps of a model hold addresses, a matcher is a listener of a policy object (model.go:166-438)..
* Proof: Induction over the program: every policy object keeps its kind and its matchers (Keeps), and every matcher indexes exactly the rules of its policy object (InSync); Lemmas/Objects.lean..
* Theorems: `Fastac.Realm.c99_decision_partial`, `Fastac.Realm.c99_rules`, `Fastac.Realm.ObjectsExample.c99_fails`.
* False of the code: after SetPolicy the matchers of the model still listen to the old policy; c99_fails has a model whose policy holds exactly the rule of dave (AddRule reported it) and which denies dave and allows alice, who has no rule there, until the matcher is built anew. c99_decision_partial: a matcher decides in every model and under every key by the rules that the policy it was built for holds. c99_rules: a rule call reaches the policy under that key of that model and so all models and keys that have it, and no other policy; the event goes to the listeners of the called model only. Rules must suit the definitions of all matchers that listen to the policy; the policy is no role policy in c99_decision_partial.


## Where the code does not do what a user would expect

Found while modelling; each is a theorem (a witness, or a statement for all inputs).

* C03/C05: under `some(allow) && !some(deny)` a matching rule with another eft value makes the decision depend
  on the iteration order.
* C04: an unsupported effect expression denies silently, the error of `MergeEffects` is dropped.
* C06: in a rule that omits the trailing eft column the value of the column before it is taken for the effect.
* C08/C09/C58–C60: an index node whose last child was removed is reported as a rule of empty strings; with a
  matcher that accepts it, a removed rule goes on granting.
* C10/C16: the argument regex finds `p_id` inside `r_group_id`: the index is then built on the wrong attribute,
  grants what no rule grants and denies what a rule grants.
* C11: the alternatives of `(a || b) && (x && y)` share the backing array of the `and` stack.
* C12: three or more alternatives in a stage panic on the first rule.
* C13: an evaluation error to the right of `&&` counts as false.
* C14: two alternatives that both hold report the rule twice.
* C64: references are rewritten inside string literals and after names like `group`.
* C17/C18: rules are keyed by their fields joined with a comma.
* C20/C34: clearing a `g` policy does not reach the matchers; `ClearPolicy` emits no model event.
* C24/C25: with patterns, `GetRoles` and `GetUsers` disagree about unused names; with overlapping patterns
  `HasLink` depends on the order of additions.
* C26/C29/C30/C31: pattern domains: `SetMatcher` loses the links copied from a pattern domain, overlapping
  patterns hide links, deleting a pattern link deletes the explicit one, adding it hides the explicit one, and a
  query about a pattern domain makes later calls panic.
* C82: a domain pattern such as `*` also matches the text `RoleManager`, so that links added in such a pattern domain
  count in calls without a domain.
* C27, C28: the domain names `RoleManager` and `redundant_role` are reserved silently; a path is cut off there.
* C32: an empty rule or an empty key panics.
* C33: `RangeRules` goes on with the next policy after the callback returned false.
* C37/C38/C41: changes queued before autosave is switched on; a failing `Flush` drops operations the
  adapter did not acknowledge; `SetAdapter` drops the queue and switches storage on.
* C42: `NewEnforcer` with a file name shadows the adapter, so nothing is ever saved.
* C43–C46: quotes, commas, leading blanks and long lines do not survive the file; a crash during `SavePolicy`
  can leave no file or part of it.
* C47/C61: a path segment `*` is taken for a wildcard of the pattern; matching takes exponential time.
* C51/C54: `Put` of a cached key keeps the old value; `Get` writes under the read lock.
* C55: match-cache keys of names with `$$` collide.
* C56: the function map with `eval` is shared by concurrent `Enforce` calls.
* C57: an unknown request definition panics.
* C70: `r.group_id == p2.sub` is taken for a matcher on `p`.
* C72: a request with empty values satisfies `r.act == p.act` of the blank rule: it is allowed in an empty model.
* C73: adding and removing a rule can leave a model that looks like before but decides differently (blank rule).
* C74: a matcher whose condition panics on an empty field makes Enforce panic while the policy is empty, instead of denying.
* C75: conditions that mention attributes of the rule are decided on another rule with the same text; one condition that cannot be evaluated makes other requests fail; a stored `eval(p.rule)` overflows the stack.
* C76: a role definition silently replaces a function of the same name; `RemoveDef` for a role definition that does not exist removes the function of that name, also a built-in one.
* C80: as C78: with the matcher of rbac_with_pattern_model.conf, which ends in `regexMatch`, removing a rule does not revoke
  the access it gave (`PatternRules.c80_fails`).
* C78: with `examples/pathmatch_model.conf`, `RemoveRule` does not revoke: the subject keeps access to the path of the removed rule, for every action.
* C85: the trace that a removed rule leaves counts as allow even if the removed rule was a deny rule: with
  rbac_with_deny_model.conf, after the rule (alice, data1, write, deny) is removed, the request (alice, data1, "") is allowed
  (examples in Props/Shipped.lean).
* C83/C84: what is left of removed rules, exactly: with basic_model.conf a request without action is allowed for every subject and
  object whose rules have all been removed one by one; with pathmatch_model.conf every action that matches the
  empty expression (all of them) is.  `ClearPolicy` leaves no trace.
* C66: defining a policy again leaves the matchers bound to the old policy object and its rules.
* C67: domains are listed by their path joined with `/`; the paths `x/y` and `x`, `y` share one entry, and
  which of them `GetDomains` looks at depends on the map order.
* C63: two different token lists can have the same text.
* C87: a request whose domain is a pattern that is not in use (denied or not) makes every later request about an
  unused domain matching it panic with a nil dereference, and `AddRule` for such a domain too (`c87_poison`,
  `c87_fails`): the question notes the pattern (domain_manager.go:147-149) but stores no manager for it (145),
  and `rangeMatchingPatterns` (117-126) calls `Range` on it.
* C89: `LoadPolicy` while a removal is queued puts the rule back into the model without an event, and the next
  `Flush` takes it out of the store; they then differ (`c89_fails`, and exactly by these rules: `c89_load_pending`).
* C90: `SetModel` leaves the storage controller listening to the old model; nothing done to the new one reaches the
  store until `SetAdapter` is called.
* C91: an operation whose storage call fails is dropped, in batches together with the one behind it; the next
  `Flush` returns nil and the rule stays out of step (`c91_lost`) until it is changed again or saved.
* C92: `ClearPolicy`, `SetDef` on a policy that exists and `RemoveDef` empty the policy without events: the store keeps
  its rules, also those only queued, and `LoadPolicy` brings them back (`c92_fails`, `c92_restore`).
* C93: the first of too many values is taken for the key (defs.go:91-93, 149-151): `Enforce("x", "alice", "data1", "read")`
  is decided like `Enforce("alice", "data1", "read")`, a rule with a value in front matches without it but its effect is
  read from the wrong column; a request without action is granted when only `deny` counts (`c93_fails`).
* C94: `Filter` lists a rule with empty fields that was never stored, if the policy is empty or rules have been removed and
  the matcher is true of empty fields; with `||` it lists a rule once for every alternative that is true; the fields
  of links with two domains are shifted (`g3.role` is the user); an error in a nested stage ends the list and is not
  returned; `Filter` panics in a model without the request definition `r`.  Every matcher given as text is registered
  as one more listener of its policy and never removed, so calls with `SetMatcher` of a text make later edits slower for
  good (`FnModel.c94_inline_partial`, last clause).
* C97: `AddRule` keeps the caller's slice in the policy, in the matchers and in the storage queue, `RemoveRule` in the queue:
  a program that uses a buffer again changes rules that it has added, and which operations reach the store (`c97_fails`).
* C98: adding or removing a link for a domain that is a pattern writes `redundant_role` behind the caller's slice if it has
  spare capacity (domain_manager.go:172, 190), for instance over the key of the next rule in the same array (`c98_fails`).
* C99: after `SetPolicy` the matchers of the model still listen to the policy that was there before: rules of the new policy
  are not seen, rules of the old one still are, until the matcher is built anew (`c99_fails`).
* C101: questions to a role manager with a matcher disturb each other: `GetRoles` of a new pattern makes a `GetRoles` of
  another new name panic (role_manager.go:88), and a question about a new name makes `HasLink` answer false where alone it
  answers true.
* C102: two `AddLink` calls for a new user at the same time lose one link, a question about a new user takes out the link
  that `AddLink` has just added, and `AddLink` next to `DeleteLink` leaves a user listed by `GetUsers` that does not have
  the role.
* C103: with a matcher of the role manager a request next to a question is denied though alone it is granted, or panics;
  next to `AddLink` and `DeleteLink` a request can be denied though at every moment it was to be granted.
* C105: `RoleManager.SetMatcher` with overlapping patterns: whether a user has a role depends on the order in which the map
  of roles is iterated (role_manager.go:53-60).
* C107: when the callback of `RangeMatches` clears the policy, it goes on getting rules that are no longer stored; with `||`
  it may get the rule with empty fields after it has removed all others.
* C108: a request made by the callback of `RangeMatches` replaces the function `eval` of the outer call for the stages that
  are compiled later (matcher.go:171, 224): rules of the inner request are listed.
* C109: two calls of `AddLink` that meet in a new domain make two managers for it; the link of the one stored first is lost
  although its call returned true (`getRoleManager` loads and stores in two steps).
* C110: `GetRoleManager` and `GetRequestDef` panic for a key that does not exist; `GetPolicy` returns a nil pointer in a non-nil interface
* C111: an error of an effector is never returned; a single rule that satisfies two alternatives of the matcher counts twice for an effector that wants two rules; access is granted if the last call of `MergeEffects` fails with the effect `Allow`
* C112: a failing store of one enforcer keeps a change from the stores of other enforcers on the same model, if their controllers are registered later
* C113: with two `AddLink` in a domain nobody has used, both return true and one link is lost; with a matcher a request is denied while another call makes the role it asks about
* C114: `GenerateGFunction` asserts that its arguments are strings without a check; a request value of another type that reaches a role function panics
* C115, C106: `SyncLRUCache.Get` writes to the list under the read lock; two match questions at the same time can leave a cache in which the next new question panics, also with the capacity 100 of the managers

Not theorems, noted only: numbers of six or more digits are printed by `tokensToExpr` in a form govaluate does
not read back; `RegexMatch` and `IPMatch` panic on malformed patterns; `GetRoleManager` on an unknown key dereferences a nil role policy
(model.go:329-332); `GetPolicy` on an unknown key returns a non-nil interface holding nil, with `ok` false.

## Mutation testing

`seeded/LOG.jsonl` records one line per attempt: the definition of the model that was edited, the edit, the
claim it breaks, the theorems that failed, and the theorems that were tightened because an edit had
survived. Attempts marked equivalent do not change the behaviour.

What the log does and does not show. Of 701 attempts 688 made the build fail, but in 568 of these every error
is in a helper lemma (`Verif/Lemmas`): the build stops there, and the property theorems above it are not
tried. A helper proof that breaks does not show that the property theorem has become false, so `killed`
alone is weak evidence. Therefore the edits were run again on a copy in which the proofs of all theorems are
removed except the concrete cases beside the properties. In the first such run (209 edits) 132 made a concrete case come
out differently, 75 did not (2 could not be applied); in later runs of the batches m12-m31 (353 edits) most did.
`Props/Cases.lean` and `Props/FilterCases.lean` were written against those that did not; they consist of tests, not
proofs, and were written knowing the edits, so they are no independent measure. Still unnoticed by any concrete case are
i4, s2, r15, q7, p2, x2 and t3, which we take to be equivalent programs, and h15 and r11, whose effect we could not
observe through the calls modelled.

One entry was wrong for a while: `c87_fails_allowed` was logged as the answer to edit j16, under which it
still proves (only a helper lemma failed). `c87_fails_deeper` is the theorem that fails under j16.
