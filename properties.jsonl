{"id": "C01", "title": "Decision under some(where(p.eft==allow))", "statement": "With effect expression some(where(p.eft==allow)), Enforce returns true iff at least one rule reported as matching the request has effect allow; stopping early at the first allow never changes the answer.", "quantifier": "every list of matching rules, every order in which they are visited, every policy definition", "why_tests_cant": "the order of visiting is Go map order and the number of matches is unbounded; a test sees one order of one list", "anchors": ["enforcer.go:Enforcer.enforce", "model/effector/default_effector.go:DefaultEffector.MergeEffects", "model/defs/defs.go:PolicyDef.GetEft"]}
{"id": "C02", "title": "Decision under !some(where(p.eft==deny))", "statement": "With effect expression !some(where(p.eft==deny)), Enforce returns true iff no rule reported as matching has effect deny (and so true when nothing matches).", "quantifier": "every list of matching rules and every visiting order", "why_tests_cant": "unbounded lists in arbitrary map order", "anchors": ["enforcer.go:Enforcer.enforce", "model/effector/default_effector.go:DefaultEffector.MergeEffects"]}
{"id": "C03", "title": "Decision under some(allow) && !some(deny)", "statement": "With effect expression some(where(p.eft==allow))&&!some(where(p.eft==deny)), Enforce returns true iff some matching rule has effect allow and no matching rule has effect deny.", "quantifier": "every list of matching rules and every visiting order", "why_tests_cant": "the answer must not depend on map order; tests run in one order and never mix indeterminate effects with allow", "anchors": ["enforcer.go:Enforcer.enforce", "model/effector/default_effector.go:DefaultEffector.MergeEffects"]}
{"id": "C04", "title": "Unsupported effect expressions never grant access and are reported", "statement": "If the effect expression is none of the three supported ones, Enforce never returns true, and a caller can tell the misconfiguration from an ordinary denial because Enforce returns an error.", "quantifier": "every effect expression text other than the supported ones and every list of matches", "why_tests_cant": "quantifies over all strings", "anchors": ["enforcer.go:Enforcer.enforce", "model/effector/default_effector.go:DefaultEffector.MergeEffects"]}
{"id": "C05", "title": "The decision does not depend on the order in which rules are visited", "statement": "For a fixed set of matching rules, Enforce returns the same decision whatever order Go iterates its maps in.", "quantifier": "every two permutations of the matching rules, every supported effect expression", "why_tests_cant": "Go randomises map iteration; a test cannot enumerate orders", "anchors": ["enforcer.go:Enforcer.enforce", "model/matcher/matcher.go:Matcher.rangeMatches"]}
{"id": "C06", "title": "Interpretation of the eft column", "statement": "A rule grants allow when its policy definition has no eft column, or when the eft value is empty or allow; deny when it is deny; and has no effect for any other value. A rule that omits the trailing eft column counts as allow.", "quantifier": "every policy definition, every rule of every length and content", "why_tests_cant": "all rule lengths and values; the off-by-one shows only for rules one shorter than the definition", "anchors": ["model/defs/defs.go:PolicyDef.GetEft", "model/defs/defs.go:PolicyDef.GetParameter", "model/model.go:Model.RangeMatches"]}
{"id": "C07", "title": "Filter/RangeMatches are complete", "statement": "Every rule currently in the policy that satisfies the matcher for the request is reported to the callback (when the callback never stops and no evaluation fails).", "quantifier": "every history of adding, removing and clearing rules, every matcher, every request, every map order", "why_tests_cant": "the index is built incrementally over unbounded histories", "anchors": ["model/matcher/matcher.go:Matcher.RangeMatches", "model/matcher/matcher.go:Matcher.addRuleHelper", "model/matcher/matcher.go:Matcher.removeRuleHelper"]}
{"id": "C08", "title": "Filter/RangeMatches are sound", "statement": "Every rule reported to the callback is a rule currently in the policy and satisfies the matcher for the request.", "quantifier": "every history of adding, removing and clearing rules, every matcher, every request, every map order", "why_tests_cant": "unbounded histories; the failure needs an emptied index node, which no unit test reaches", "anchors": ["model/matcher/matcher.go:Matcher.rangeMatches", "model/matcher/matcher.go:Matcher.removeRuleHelper"]}
{"id": "C09", "title": "Removing a rule revokes what it granted", "statement": "After RemoveRule(r) returns true, no request is granted that the remaining rules do not grant.", "quantifier": "every history ending in a removal, every matcher and request", "why_tests_cant": "needs every history and every request", "anchors": ["model/matcher/matcher.go:Matcher.removeRuleHelper", "model/matcher/matcher.go:Matcher.rangeMatches", "enforcer.go:Enforcer.RemoveRule"]}
{"id": "C10", "title": "The matcher index is only an optimisation", "statement": "Enforce returns exactly what a scan evaluating the whole matcher expression on every stored rule would return.", "quantifier": "every history, matcher, request and map order", "why_tests_cant": "equivalence of two algorithms over unbounded inputs", "anchors": ["model/matcher/matcher.go", "enforcer.go:Enforcer.enforce"]}
{"id": "C11", "title": "Splitting a matcher into stages preserves its meaning", "statement": "The stage tree built from a matcher expression accepts a rule and a request iff the boolean formula (&& binding tighter than ||, brackets respected) is true of them.", "quantifier": "every expression built from atoms, &&, || and brackets, of any size and nesting, and every truth assignment of the atoms", "why_tests_cant": "unboundedly many expression shapes; the failing ones need a bracketed || followed by a bracketed &&", "anchors": ["model/defs/matcher_def.go:buildExprTree", "model/defs/matcher_def.go:nextOperator"]}
{"id": "C12", "title": "A matcher may have any number of alternatives", "statement": "Building a matcher, adding rules and enforcing never panic, whatever the number of || alternatives.", "quantifier": "every matcher expression and every rule", "why_tests_cant": "ranges over all expressions", "anchors": ["model/matcher/matcher.go:NewMatcherNode", "model/matcher/matcher.go:Matcher.addRuleHelper", "model/matcher/matcher.go:Matcher.rangeMatchesHelper"]}
{"id": "C13", "title": "Evaluation errors are reported", "statement": "If evaluating the matcher on some rule fails, Enforce returns that error rather than a decision.", "quantifier": "every matcher, rule set, request and failing evaluation", "why_tests_cant": "errors can occur at any depth of any stage tree", "anchors": ["model/matcher/matcher.go:Matcher.rangeMatchesHelper", "enforcer.go:Enforcer.enforce"]}
{"id": "C14", "title": "Each matching rule is reported once", "statement": "Filter returns each matching rule exactly once.", "quantifier": "every matcher, rule set, request", "why_tests_cant": "ranges over all matchers; fails when two alternatives hold at once", "anchors": ["model/matcher/matcher.go:Matcher.rangeMatchesHelper", "enforcer.go:Enforcer.FilterWithContext"]}
{"id": "C15", "title": "Building a matcher before or after loading rules makes no difference", "statement": "A matcher created before rules are added (and kept up to date by events) reports the same matches as a matcher created afterwards from the same rules.", "quantifier": "every history and every point in it at which the matcher is built", "why_tests_cant": "all interleavings of building and rule changes", "anchors": ["model/matcher/matcher.go:NewMatcher", "model/policy/policy.go:Policy.AddRule", "model/model.go:Model.BuildMatcherFromDef"]}
{"id": "C16", "title": "A stage is indexed by exactly the policy attributes it reads", "statement": "The policy attributes extracted from a stage are exactly the p.x / g.x references in it, so that rules agreeing on them are interchangeable for the stage.", "quantifier": "every stage expression", "why_tests_cant": "ranges over all identifiers; request attributes such as r.group_id break it", "anchors": ["model/defs/matcher_def.go:NewMatcherStage", "model/defs/defs.go:pArgReg", "model/matcher/matcher.go:Matcher.addRuleHelper"]}
{"id": "C17", "title": "A policy is a set of rules", "statement": "AddRule returns true iff the rule was absent and makes it present, RemoveRule returns true iff it was present and makes it absent, Range enumerates exactly the present rules once each, after every sequence of calls.", "quantifier": "every sequence of AddRule, RemoveRule and Clear with arbitrary rules", "why_tests_cant": "unbounded histories", "anchors": ["model/policy/policy.go:Policy", "util/util.go:Hash"]}
{"id": "C18", "title": "Distinct rules are kept apart", "statement": "Two different rules are never confused: adding one does not make the other count as present, and removing one does not remove the other.", "quantifier": "every pair of rules", "why_tests_cant": "ranges over all strings, including those containing the separator", "anchors": ["util/util.go:Hash", "model/policy/policy.go:Policy.AddRule"]}
{"id": "C19", "title": "GetDistinct returns the distinct projections", "statement": "GetDistinct(columns) returns each combination of values that occurs in those columns of some rule, exactly once, and nothing else.", "quantifier": "every rule set and column list", "why_tests_cant": "unbounded rule sets", "anchors": ["model/policy/policy_api.go:GetDistinct"]}
{"id": "C20", "title": "Clearing a policy clears what is matched", "statement": "After ClearPolicy(key) succeeds, no rule of that policy is enumerated and none is reported by a matcher, for p and for g policies.", "quantifier": "every history before the clear", "why_tests_cant": "unbounded histories", "anchors": ["model/model.go:Model.ClearPolicy", "model/policy/policy.go:Policy.Clear", "rbac/role_policy.go:RolePolicy.Clear", "model/matcher/matcher.go:NewMatcher"]}
{"id": "C21", "title": "HasLink is bounded reachability over the current links", "statement": "Without a pattern matcher, HasLink(a,b) is true iff a = b or b can be reached from a over at most maxHierarchyLevel-1 currently stored links.", "quantifier": "every history of AddLink, DeleteLink, Clear and queries, every pair of names, every level bound", "why_tests_cant": "all graphs of all sizes, including cyclic ones, and all histories", "anchors": ["rbac/role_manager.go:RoleManager.HasLink", "rbac/role_manager.go:RoleManager.hasLinkHelper"]}
{"id": "C22", "title": "AddLink and DeleteLink maintain a set of links", "statement": "AddLink returns true iff the link was absent, DeleteLink iff it was present; afterwards the link is present resp. absent and no other link changes; Range enumerates each link once.", "quantifier": "every history and every link", "why_tests_cant": "unbounded histories", "anchors": ["rbac/role_manager.go:RoleManager.AddLink", "rbac/role_manager.go:RoleManager.DeleteLink", "rbac/role_manager.go:rangeLinks"]}
{"id": "C23", "title": "Role queries leave the role manager unchanged", "statement": "HasLink, GetRoles and GetUsers do not change the result of any later call, even for names never seen before and with a pattern matcher set.", "quantifier": "every state, every query and every later call sequence", "why_tests_cant": "temporary roles are created and removed inside queries; only an invariant shows nothing leaks", "anchors": ["rbac/role_manager.go:RoleManager.HasLink", "rbac/role_manager.go:RoleManager.getRole", "rbac/role_manager.go:RoleManager.removeRole"]}
{"id": "C24", "title": "GetRoles and GetUsers are converse", "statement": "b is in GetRoles(a) iff a is in GetUsers(b), and without patterns both list exactly the direct links.", "quantifier": "every history and every pair of names", "why_tests_cant": "unbounded histories", "anchors": ["rbac/role.go:Role.rangeRoles", "rbac/role.go:Role.rangeUsers"]}
{"id": "C25", "title": "Pattern roles", "statement": "With a pattern matcher set, HasLink(a,b) is true iff a = b, a matches b, or b (or a name matching b) is reached within the level bound over links extended by pattern matching of known names; the answer does not depend on the order in which links were added.", "quantifier": "every history of AddLink/DeleteLink, every pattern matcher, every pair of names", "why_tests_cant": "all matchers, histories and orders", "anchors": ["rbac/role_manager.go:RoleManager.getRole", "rbac/role_manager.go:RoleManager.rangeMatchingRoles", "rbac/role.go:Role.rangeRoles"]}
{"id": "C26", "title": "Setting a pattern matcher keeps all links", "statement": "SetMatcher keeps every stored link: the same links are enumerated and honoured by HasLink afterwards.", "quantifier": "every history before SetMatcher, for role managers and domain managers", "why_tests_cant": "unbounded histories; fails only for links inherited from a domain pattern", "anchors": ["rbac/role_manager.go:RoleManager.SetMatcher", "rbac/role_manager.go:RoleManager.rebuild", "rbac/domain_manager.go:DomainManager.SetMatcher"]}
{"id": "C27", "title": "Domains are isolated", "statement": "Without a domain pattern matcher, AddLink/DeleteLink in one domain path never change HasLink in another domain path.", "quantifier": "every history, every pair of distinct domain paths of any depth", "why_tests_cant": "unbounded depth and histories; the reserved names RoleManager and redundant_role break it", "anchors": ["rbac/domain_manager.go:DomainManager.getDomain", "rbac/domain_manager.go:DomainManager.AddLink", "rbac/domain_manager.go:DomainManager.HasLink"]}
{"id": "C28", "title": "HasLink within a domain is bounded reachability within that domain", "statement": "Without pattern matchers, HasLink(a,b,d1..dn) is true iff a = b or b is reachable from a over at most maxHierarchyLevel-2-n links currently stored in exactly the domain path d1..dn.", "quantifier": "every history, names, and domain path of any depth", "why_tests_cant": "unbounded graphs, histories and depth", "anchors": ["rbac/domain_manager.go:DomainManager.HasLink", "rbac/domain_manager.go:DomainManager.getRoleManager"]}
{"id": "C29", "title": "Links in a domain pattern apply to every matching domain", "statement": "With a domain pattern matcher, a link added in a pattern domain counts in every domain matching the pattern, whether the domain was used before or after the link was added.", "quantifier": "every add-only history and every domain", "why_tests_cant": "all orders of creating domains and patterns", "anchors": ["rbac/domain_manager.go:DomainManager.getRoleManager", "rbac/domain_manager.go:DomainManager.AddLink"]}
{"id": "C30", "title": "Deleting a pattern-domain link leaves explicitly added links alone", "statement": "DeleteLink(a,b,pattern) never removes a link that was added explicitly to a concrete domain, and adding a pattern link never hides an explicit one from Range.", "quantifier": "every history", "why_tests_cant": "needs every interleaving of explicit and pattern links", "anchors": ["rbac/domain_manager.go:DomainManager.DeleteLink", "rbac/role_manager.go:RoleManager.AddLink"]}
{"id": "C31", "title": "No sequence of role-manager calls panics", "statement": "HasLink/GetRoles/GetUsers/AddLink/DeleteLink on a domain manager never panic, whatever was called before.", "quantifier": "every sequence of calls with arbitrary names, domains and matchers", "why_tests_cant": "the panic needs a query on a fresh pattern domain followed by use of a fresh matching domain", "anchors": ["rbac/domain_manager.go:DomainManager.rangeMatchingPatterns", "rbac/domain_manager.go:DomainManager.getRoleManager"]}
{"id": "C32", "title": "Rules go to the policy named by their first field", "statement": "AddRule/RemoveRule on the model change only the policy or role manager named by the rule's first field; when it is unknown an error is returned and nothing changes.", "quantifier": "every model state and every rule", "why_tests_cant": "all states and rules", "anchors": ["model/model.go:Model.AddRule", "model/model.go:Model.RemoveRule"]}
{"id": "C33", "title": "RangeRules enumerates exactly the stored rules", "statement": "RangeRules passes to its callback exactly the rules currently stored, each prefixed with its policy key, and stops when the callback returns false.", "quantifier": "every model state and callback", "why_tests_cant": "all states; early stop with several policies is never tested", "anchors": ["model/model.go:Model.RangeRules"]}
{"id": "C34", "title": "One event per effective change", "statement": "RULE_ADDED (RULE_REMOVED) is emitted exactly once for each AddRule (RemoveRule) that returns true, with that rule, and never otherwise; replaying the events over the initial rule set yields the current rule set.", "quantifier": "every history of model calls", "why_tests_cant": "unbounded histories", "anchors": ["model/model.go:Model.AddRule", "model/model.go:Model.RemoveRule", "model/model.go:Model.ClearPolicy"]}
{"id": "C35", "title": "Flush delivers every queued change once and in order", "statement": "A Flush that returns nil has handed the adapter exactly the queued operations, in order, each once, and leaves the queue empty; for a batch adapter the concatenation of the batches is that sequence.", "quantifier": "every queue and every adapter behaviour", "why_tests_cant": "unbounded queues", "anchors": ["storage/controller.go:StorageController.Flush", "storage/controller.go:StorageController.flush", "storage/controller.go:StorageController.batchFlush"]}
{"id": "C36", "title": "Batches are maximal runs", "statement": "Each batch passed to a batch adapter is non-empty, contains only additions or only removals, and two consecutive batches differ in kind.", "quantifier": "every queue", "why_tests_cant": "unbounded queues", "anchors": ["storage/controller.go:StorageController.batchFlush"]}
{"id": "C37", "title": "The store mirrors the model", "statement": "If store and model agree when the storage controller starts listening, then after any sequence of AddRule/RemoveRule calls (with any Flush calls, autosave switches and waits in between) followed by a successful Flush they agree again; with autosave on and no wait pending they agree after each call.", "quantifier": "every history of rule changes, flushes and autosave switches", "why_tests_cant": "unbounded histories", "anchors": ["storage/controller.go:StorageController.addOp", "enforcer.go:Enforcer.AddRule", "enforcer.go:Enforcer.AddRules"]}
{"id": "C38", "title": "A failing Flush loses no operation", "statement": "If the adapter fails during Flush, every operation it did not acknowledge stays queued and is retried by the next Flush.", "quantifier": "every queue, adapter kind and point of failure", "why_tests_cant": "every failure point of every queue", "anchors": ["storage/controller.go:StorageController.flush", "storage/controller.go:StorageController.batchFlush"]}
{"id": "C39", "title": "Loading does not echo into the store", "statement": "LoadPolicy adds the adapter's rules to the model without queueing them for storage, and leaves the storage switch as it was, also when loading fails.", "quantifier": "every stored rule list, model state, and point of failure", "why_tests_cant": "all contents and failure points", "anchors": ["enforcer.go:Enforcer.LoadPolicy", "storage/controller.go:StorageController.Disable", "storage/controller.go:StorageController.Enable"]}
{"id": "C40", "title": "AddRules/RemoveRules equal one call per rule", "statement": "AddRules (RemoveRules) leaves the model as adding (removing) the rules one by one up to the first error, and with autosave on stores all of the changes and restores autosave.", "quantifier": "every rule list, model state, autosave setting", "why_tests_cant": "all lists and failure positions", "anchors": ["enforcer.go:Enforcer.AddRules", "enforcer.go:Enforcer.RemoveRules"]}
{"id": "C41", "title": "Switching adapters keeps pending changes and settings", "statement": "SetAdapter keeps the autosave and storage settings and does not lose queued changes.", "quantifier": "every enforcer state", "why_tests_cant": "all states", "anchors": ["enforcer.go:Enforcer.SetAdapter", "storage/controller.go:NewStorageController"]}
{"id": "C42", "title": "An enforcer created from file names can save", "statement": "After NewEnforcer(model, \"file.csv\") succeeds, Flush, SavePolicy and LoadPolicy operate on that file.", "quantifier": "every model and file content", "why_tests_cant": "stated for every file content; no test saves through such an enforcer", "anchors": ["enforcer.go:NewEnforcer"]}
{"id": "C43", "title": "Save then load is the identity", "statement": "Saving a rule set to a file and loading it into an empty model yields the same rule set.", "quantifier": "every rule set, every order of writing", "why_tests_cant": "ranges over all strings, including separators, quotes, blanks and line breaks", "anchors": ["storage/adapter/fileadapter.go:FileAdapter.SavePolicy", "storage/adapter/fileadapter.go:LoadPolicyLine"]}
{"id": "C44", "title": "SavePolicy survives a crash", "statement": "If the process dies at any point during SavePolicy, the file afterwards holds either all the old rules or all the new rules.", "quantifier": "every crash point, every old and new content", "why_tests_cant": "a test cannot crash at every point", "anchors": ["storage/adapter/fileadapter.go:getWriter", "storage/adapter/fileadapter.go:FileAdapter.SavePolicy"]}
{"id": "C45", "title": "The file adapter maintains a set of rules", "statement": "AddRule/RemoveRule/AddRules/RemoveRules on the file adapter leave in the file exactly the previous rules plus/minus the given ones.", "quantifier": "every file content and rule list, every write order", "why_tests_cant": "unbounded contents", "anchors": ["storage/adapter/fileadapter.go:FileAdapter.AddRule", "storage/adapter/fileadapter.go:FileAdapter.RemoveRules"]}
{"id": "C46", "title": "Blank and comment lines are ignored", "statement": "Inserting empty lines or lines starting with # anywhere in a policy file does not change what is loaded.", "quantifier": "every file and every insertion point", "why_tests_cant": "all files", "anchors": ["storage/adapter/fileadapter.go:LoadPolicyLine"]}
{"id": "C47", "title": "PathMatch semantics", "statement": "PathMatch(path, pattern) is true iff the segments of path can be matched against those of pattern, where a literal segment matches itself, a dynamic segment (:x, or {x} for PathMatch2) matches any one segment and * matches one or more segments.", "quantifier": "every path and every pattern", "why_tests_cant": "all strings", "anchors": ["util/builtin_operators.go:PathMatchHelper", "util/builtin_operators.go:nextSegment", "util/builtin_operators.go:isDynamicSegment"]}
{"id": "C48", "title": "PathMatch terminates", "statement": "PathMatch and PathMatch2 return for every path and pattern (every recursive call is on a smaller problem).", "quantifier": "every path and pattern", "why_tests_cant": "all strings", "anchors": ["util/builtin_operators.go:PathMatchHelper"]}
{"id": "C49", "title": "Strings that are not path patterns match only themselves", "statement": "If IsPathPattern(s) is false then PathMatch(path, s) holds iff path = s (likewise for the {} variant).", "quantifier": "every path and every non-pattern", "why_tests_cant": "all strings", "anchors": ["util/builtin_operators.go:IsPathPatternHelper", "util/builtin_operators.go:PathMatchHelper"]}
{"id": "C50", "title": "The LRU cache never exceeds its capacity", "statement": "After any sequence of Get and Put on a cache of positive capacity, at most capacity keys are stored.", "quantifier": "every capacity >= 1 and every sequence of calls", "why_tests_cant": "unbounded sequences", "anchors": ["util/cache.go:LRUCache.Put"]}
{"id": "C51", "title": "Get returns the most recently Put value", "statement": "Get(k) either misses or returns the value of the latest Put(k, v).", "quantifier": "every sequence of calls", "why_tests_cant": "unbounded sequences; overwriting is never tested", "anchors": ["util/cache.go:LRUCache.Put", "util/cache.go:LRUCache.Get"]}
{"id": "C52", "title": "The LRU cache evicts the least recently used key", "statement": "A key stays cached until capacity other keys have been used since its last use; in particular the evicted key is always the least recently used one.", "quantifier": "every sequence of calls", "why_tests_cant": "unbounded sequences", "anchors": ["util/cache.go:LRUCache.Put", "util/cache.go:LRUCache.moveToHead"]}
{"id": "C53", "title": "The linked list and the map of the cache agree", "statement": "After any sequence of calls the doubly linked list, read forwards or backwards, contains exactly the nodes stored in the map, in recency order.", "quantifier": "every sequence of calls", "why_tests_cant": "pointer invariant over unbounded sequences", "anchors": ["util/cache.go:LRUCache.add", "util/cache.go:LRUCache.remove"]}
{"id": "C54", "title": "Concurrent Gets on the synchronised cache are safe", "statement": "Any interleaving of concurrent Gets on SyncLRUCache leaves the cache's list consistent.", "quantifier": "every interleaving of the pointer writes of concurrent Gets", "why_tests_cant": "schedules cannot be enumerated by tests", "anchors": ["util/cache.go:SyncLRUCache.Get", "util/cache.go:LRUCache.moveToHead"]}
{"id": "C55", "title": "Caching pattern matches is transparent", "statement": "A role manager with its match cache answers every match question as the matcher itself would.", "quantifier": "every history of match questions", "why_tests_cant": "unbounded histories; fails for names containing $$", "anchors": ["rbac/role_manager.go:RoleManager.match", "rbac/domain_manager.go:DomainManager.match", "util/cache.go"]}
{"id": "C56", "title": "Concurrent Enforce calls do not influence each other", "statement": "Two Enforce calls running concurrently on one enforcer each decide on their own request.", "quantifier": "every interleaving of the two calls", "why_tests_cant": "schedules cannot be enumerated by tests", "anchors": ["model/matcher/matcher.go:Matcher.RangeMatches", "model/matcher/matcher.go:generateEvalFunction", "model/fm/function.go:FunctionMap"]}
{"id": "C57", "title": "Context options", "statement": "Options override the defaults r, m, e independently and the last one of a kind wins; an unknown request definition is reported as an error.", "quantifier": "every model and option list", "why_tests_cant": "all option lists", "anchors": ["context.go:NewContext", "context.go:SetRequestDef", "model/model.go:Model.GetRequestDef"]}
{"id": "C58", "title": "ACL end to end", "statement": "With the ACL model of the README, after any history of rule changes, Enforce(sub,obj,act) is true iff the rule (sub,obj,act) is currently stored.", "quantifier": "every history, every request, every map order", "why_tests_cant": "unbounded histories and requests", "anchors": ["README.md", "enforcer.go:Enforcer.Enforce", "model/matcher/matcher.go"]}
{"id": "C59", "title": "RBAC end to end", "statement": "With the RBAC model (g(r.sub,p.sub) && r.obj == p.obj && r.act == p.act), after any history of p and g rule changes, Enforce(sub,obj,act) is true iff some stored rule (role,obj,act) exists with sub = role or role reachable from sub over at most nine stored g links.", "quantifier": "every history of p and g rules, every request, every map order", "why_tests_cant": "unbounded histories and graphs", "anchors": ["examples/rbac_model.conf", "enforcer.go:Enforcer.Enforce", "rbac/role_manager.go:RoleManager.HasLink"]}
{"id": "C60", "title": "RBAC with domains end to end", "statement": "With the domain RBAC model, Enforce(sub,dom,obj,act) is true iff some stored rule (role,dom,obj,act) exists with sub = role or role reachable from sub over at most seven stored g links of domain dom.", "quantifier": "every history of p and g rules, every request, every map order", "why_tests_cant": "unbounded histories and graphs", "anchors": ["examples/rbac_with_domains_model.conf", "enforcer.go:Enforcer.Enforce", "rbac/domain_manager.go:DomainManager.HasLink"]}
{"id": "C61", "title": "The work of PathMatch is polynomial", "statement": "The number of recursive calls PathMatch(path, pattern) makes is at most (segments of path + 1) * (segments of pattern + 1).", "quantifier": "every path and every pattern (paths come from requests)", "why_tests_cant": "worst cases over all inputs", "anchors": ["util/builtin_operators.go:PathMatchHelper"]}
{"id": "C62", "title": "Any matcher end to end", "statement": "For any configuration whose matcher is a formula over && and ||, after any history of rule changes, Enforce returns the policy effect's decision over the effects of exactly the currently stored rules that make the formula true for the request.", "quantifier": "every formula, every history, every request, every map order", "why_tests_cant": "unbounded formulas, histories and requests", "anchors": ["enforcer.go:Enforcer.Enforce", "model/model.go", "model/defs/matcher_def.go", "model/matcher/matcher.go"]}
{"id": "C63", "title": "Stages with the same text are the same expression", "statement": "Two token lists that tokensToExpr prints as the same text are equal, so merging stages by their text (and looking nodes up by it) never merges two different conditions.", "quantifier": "every pair of token lists", "why_tests_cant": "injectivity over all pairs of expressions", "anchors": ["model/defs/matcher_def.go:tokensToExpr", "model/defs/matcher_def.go:buildExprTree"]}
{"id": "C64", "title": "Only references to arguments are rewritten", "statement": "Before a matcher is compiled, each reference like r.sub or p2.obj becomes the variable r_sub or p2_obj and everything else in the expression stays as it is.", "quantifier": "every expression text and every position in it", "why_tests_cant": "all texts, all positions", "anchors": ["model/defs/matcher_def.go:ArgReg", "model/defs/matcher_def.go:NewMatcherDef"]}
{"id": "C65", "title": "AddWait postpones writing by exactly n changes", "statement": "With autosave on, after AddWait(n) the next n-1 rule changes are only queued; the n-th one hands all n to the adapter in order, and afterwards each change is handed over at once again.", "quantifier": "every adapter, every n, every sequence of changes", "why_tests_cant": "unbounded n and sequences, any adapter", "anchors": ["storage/controller.go:StorageController.AddWait", "storage/controller.go:StorageController.addOp"]}
{"id": "C66", "title": "Every matcher follows its policy", "statement": "Once a matcher has been built it reports, for every request, exactly the rules its own policy holds at that moment and that satisfy it, whatever rules, definitions and matchers of the model have been added, removed or changed in between; rules of other policies never show up.", "quantifier": "every sequence of SetDef, RemoveDef, BuildMatcher, AddRule, RemoveRule and ClearPolicy calls, any number of p and g policies and matchers, every request", "why_tests_cant": "unbounded histories over several policies and matchers that listen to each other's objects", "anchors": ["model/model.go:BuildMatcher", "model/handlers.go", "model/matcher/matcher.go:NewMatcher", "model/policy/policy.go"]}
{"id": "C67", "title": "The lists of domains are right", "statement": "On a role manager with domains, GetAllDomains returns every domain that holds at least one link, and no other, each once; GetDomains(name) returns exactly those of them in which the name is the user or the role of a link.", "quantifier": "every sequence of AddLink and DeleteLink calls with domain paths of any depth, every map order, every name", "why_tests_cant": "unbounded histories of nested domains and every iteration order of the Go maps", "anchors": ["rbac/domain_manager.go:GetDomains", "rbac/domain_manager.go:GetAllDomains", "rbac/domain_manager.go:getAllDomainsHelper", "rbac/domain_manager.go:Range"]}
{"id": "C68", "title": "The text of a model is a configuration of the same model", "statement": "Loading the text that Model.String prints into a new model succeeds and gives a model with exactly the same request, policy, role, effect and matcher definitions under the same keys, the same policies without rules, one matcher for every matcher definition, and the same text.", "quantifier": "every model that calls can produce whose matchers can be built and whose keys and definitions contain no characters special to ini files; every map order", "why_tests_cant": "all sets of definitions of any number, with any blanks and in any order of definition and map iteration", "anchors": ["model/model.go:String", "model/model.go:LoadModelFromText", "model/model.go:loadModelFromConfig", "model/model.go:BuildMatchers", "model/defs/defs.go", "model/handlers.go"]}
{"id": "C69", "title": "A decision depends only on the chosen definitions and the rules of the matcher's policy", "statement": "In a model with any number of request, policy, effect and matcher definitions, Enforce with the options SetRequestDef, SetMatcher and SetEffector returns the decision of the chosen effect on exactly the rules that the policy of the chosen matcher holds now and that satisfy it; other policies, matchers and definitions have no influence, and the model is not changed. Without options the definitions r, m and e are used.", "quantifier": "every history of definition, matcher and rule changes, every choice of definitions, every request, every map order", "why_tests_cant": "unbounded histories over any number of definitions", "anchors": ["enforcer.go:Enforcer.Enforce", "context.go:NewContext", "model/model.go:BuildMatcher", "model/handlers.go"]}
{"id": "C70", "title": "A matcher decides on the policy it names", "statement": "A matcher all of whose policy references are to attributes of one policy definition (p2.sub, p2.obj, ...) ranges over the rules of that policy; a matcher without policy references over the rules of p.", "quantifier": "every matcher, any number of stages and references, any policy key", "why_tests_cant": "all expressions and keys", "anchors": ["model/defs/matcher_def.go:GetPolicyKey", "model/defs/defs.go:pArgReg", "model/model.go:BuildMatcherFromDef"]}
{"id": "C71", "title": "Loading a configuration defines exactly what it says, or reports an error", "statement": "Loading a configuration into a new model succeeds if and only if every key begins with the letter of its section and every matcher can be built and is about a policy the configuration defines. Then the model holds exactly the definitions of the configuration (of repeated keys the last), whatever the order of the sections; unknown sections are ignored; every policy is empty and every matcher definition has a matcher.", "quantifier": "every configuration (sections, keys, values in any number and order), every map order", "why_tests_cant": "all configurations", "anchors": ["model/model.go:loadModelFromConfig", "model/model.go:SetDef", "model/model.go:BuildMatchers", "model/handlers.go"]}
{"id": "C72", "title": "A request is decided by the rules of which the matcher is true, read as it is written", "statement": "Take a matcher that says, in terms of the attributes of the request and of the rule: comparisons of attributes or strings and calls of functions, combined with &&, || and brackets. Enforce decides on exactly the stored rules of which this statement is true, where attributes are read by the names in the definitions, role functions mean reachability over the stored links (at most nine), other functions what is registered; and the decision is that of the effect expression on the effects of these rules.", "quantifier": "every such matcher (any depth), every key of request, matcher, effect and policy, every model and every history of changes of rules, links, definitions and matchers, every request, every map order", "why_tests_cant": "all matchers, all histories and all requests; the index over rules must agree with the plain reading", "anchors": ["enforcer.go:Enforce", "model/matcher/matcher.go:NewMatcher", "model/matcher/matcher.go:RangeMatches", "model/defs/matcher_def.go", "model/defs/defs.go", "model/model.go:BuildMatcher", "rbac/role_manager.go:HasLink", "rbac/domain_manager.go:HasLink"]}
{"id": "C73", "title": "Decisions depend only on definitions and rules; a restored backup decides alike", "statement": "Two models with the same definitions and the same rules give the same decisions, however they came about. In particular: the text printed by Model.String loaded into a new model, and the rules written by SavePolicy loaded with LoadPolicy, give a model with the same definitions, the same rules and all matchers, which decides every request as the original does.", "quantifier": "every pair of histories (definitions, rules, links, matchers, in any order), every request, every map order, every writing order and chunking, every function map, with role links in any number of domains", "why_tests_cant": "all pairs of histories and all requests", "anchors": ["enforcer.go:Enforce", "enforcer.go:SavePolicy", "enforcer.go:LoadPolicy", "model/model.go:String", "model/model.go:LoadModelFromText", "storage/adapter/fileadapter.go", "rbac/domain_manager.go:HasLink"]}
{"id": "C74", "title": "Conditions have to behave only on the rules the policy was given", "statement": "A matcher may use conditions that fail, panic or are undefined on some values (ipMatch on a malformed network, say), as long as no rule given to the policy has such values: Enforce then decides as a scan of the stored rules does. In particular rules with empty fields which nobody added play no part.", "quantifier": "every history of definitions, rules and clears after the matcher was built, every property of the given rules on which the conditions behave, every request, every map order", "why_tests_cant": "all histories, all conditions and all requests; the failing values need never occur in a test policy", "anchors": ["enforcer.go:Enforce", "model/matcher/matcher.go:RangeMatches", "model/matcher/matcher.go:addRule", "model/matcher/matcher.go:removeRule"]}
{"id": "C75", "title": "eval decides on the condition stored in a rule", "statement": "With a matcher that calls eval(p.rule), a rule applies exactly if the condition stored in its attribute is true of the request: the text is read as an expression over the attributes of the request (r.sub as in matchers) and the functions of the model. Enforce decides on exactly the rules of which the matcher, so read, is true.", "quantifier": "every history of rule changes, every matcher of comparisons, calls and eval, every set of stored conditions about the request, every request, every map order, every stack size", "why_tests_cant": "all texts as conditions, all requests and histories", "anchors": ["model/matcher/matcher.go:generateEvalFunction", "model/matcher/matcher.go:eval", "model/matcher/matcher.go:RangeMatches", "enforcer.go:Enforce", "examples/abac_rule_model.conf"]}
{"id": "C76", "title": "A matcher calls the function registered last", "statement": "The function a matcher reaches under a name is the one set by the last SetFunction, RemoveFunction, SetDef('g'), RemoveDef('g') or SetRoleManager on that model; before the first such call it is the one registered globally last before the model was created, else the built-in one. Calls on other models and later global registrations have no effect, and Enforce decides with exactly these functions.", "quantifier": "All programs over any number of models: any sequence of global registrations, model creations, function, definition and role manager calls, builds and requests; all names and functions.", "why_tests_cant": "The maps are shared by reference between models, contexts and RangeMatches; leaks show only under particular interleavings of calls on several models.", "anchors": ["model/fm/function.go", "model/fm/global.go", "model/model.go:220-246", "model/model.go:334-379", "util/builtin_operators.go"]}
{"id": "C77", "title": "What a matcher says is what is decided, in any program", "statement": "Take a model on which functions are set and removed, definitions changed, matchers built (also unsuccessfully, because a function is not there yet), rules added and removed, and requests made (also with their own matcher), in any order. If the matcher mk was built from a formula over request and rule fields, functions and eval conditions, Enforce decides by exactly the stored rules of which the formula is true, read with the functions registered now.", "quantifier": "All programs of these calls, all formulas, all requests, all expression builders whose result does not depend on which functions are known except for success or failure, all map orders.", "why_tests_cant": "The matcher is an index kept in step by listeners and compiled against the functions of an earlier moment; a stale or foreign function shows only after particular call orders.", "anchors": ["model/model.go", "model/fm/function.go", "model/matcher/matcher.go", "model/defs/matcher_def.go", "enforcer.go"]}
{"id": "C78", "title": "Built-in functions and path rules", "statement": "pathMatch, pathMatch2, regexMatch, ipMatch and globMatch called in a matcher take the value first and the pattern second, answer as documented and report an error for any other number of arguments. With the matcher of examples/pathmatch_model.conf a request is allowed if and only if a stored rule has its subject, a path pattern that matches its object and a regular expression that matches its action; removing the rule revokes the access.", "quantifier": "All arguments; all programs on a model with this configuration, all rules and requests, all map orders.", "why_tests_cant": "The shipped tests never remove a rule from this configuration; whether access is revoked depends on what the index tries in place of missing rules.", "anchors": ["util/builtin_operators.go:86-238", "model/fm/function.go:34-50", "model/matcher/matcher.go:122-197", "examples/pathmatch_model.conf"]}
{"id": "C79", "title": "Decisions follow the role managers in place", "statement": "Programs may replace role managers with SetRoleManager, change the managers that GetRoleManager hands out (name and domain matchers, links added or deleted directly), and set and remove functions of any name, also those of role definitions, in any order with all other calls. Enforce decides by exactly the stored rules of which the matcher is true with the functions and role managers in place at the time of the request. After SetRoleManager the rules of the role definition are the links of the new manager, AddRule works on it, and a matcher built for the old rules keeps what it has seen.", "quantifier": "All programs of these calls, all managers and changes of managers, all formulas and requests, all map orders.", "why_tests_cant": "Matchers are built and indexed before managers are exchanged; whether a stale manager, function or listener is consulted shows only after particular call orders, of which there are unboundedly many.", "anchors": ["model/model.go:220-241", "model/model.go:325-369", "rbac/role_policy.go", "rbac/role_manager.go", "model/matcher/matcher.go"]}
{"id": "C80", "title": "Pattern roles in programs", "statement": "Behind a role definition with two arguments, in any program, the rules are the links and the function answers by reachability along links extended by the pattern matcher in place, within the level bound; SetMatcher may be called at any time. With the matcher of examples/rbac_with_pattern_model.conf a request is allowed if and only if a stored rule names a role of the subject in g, a role of the object in g2 and a regular expression that matches the action.", "quantifier": "All programs on a model with this configuration, all pattern matchers, rules, links and requests, all map orders.", "why_tests_cant": "The answer depends on all names ever used and on their order; tests set the matcher once, before a fixed policy.", "anchors": ["model/model.go:220-241", "rbac/role_manager.go", "util/builtin_operators.go:37-71", "examples/rbac_with_pattern_model.conf", "model/model_test.go:306-338"]}
{"id": "C81", "title": "The matchers for names", "statement": "PathMatcher and PathMatcher2 match a name against a pattern segment by segment (a segment :x or {x} stands for one segment, a final * for the rest). A prefix matcher takes exactly the names that start with the prefix for patterns and asks its function about the name and what follows the prefix.", "quantifier": "All names and patterns, all prefixes and match functions.", "why_tests_cant": "Infinitely many names and patterns; an off-by-one at the prefix shows only for particular ones.", "anchors": ["util/builtin_operators.go:37-71", "util/builtin_operators.go:86-172", "util/builtin_operators.go:232-236"]}
{"id": "C82", "title": "Pattern domains: what every call leaves behind and answers", "statement": "For a domain manager with any domain matcher (its patterns may overlap): AddLink stores the link in its domain and, if that is a pattern, marked as a copy in every other domain in use that matches it; DeleteLink removes it from its domain and from all domains in use that match; a domain that comes into use and is no pattern is given the uncopied links of the pattern domains in use it matches, the domain of calls without a domain included; SetMatcher drops the copies, SetDomainMatcher adds the uncopied links anew, Clear forgets everything, questions change nothing. Range lists exactly the uncopied links, once each; HasLink, GetRoles, GetUsers answer by the links the domain has or would be given; AddLink and DeleteLink report exactly whether the link was absent or present.", "quantifier": "every sequence of calls about at most one domain each (ordinary names, no questions about pattern domains), all role and domain matchers set at any time, every order of map iteration; HasLink for role patterns that do not match each other, GetRoles and GetUsers without role matcher", "why_tests_cant": "unbounded interleavings of adding, deleting, creating domains and changing matchers, with overlapping patterns and random map order", "anchors": ["rbac/domain_manager.go:DomainManager.getRoleManager", "rbac/domain_manager.go:DomainManager.AddLink", "rbac/domain_manager.go:DomainManager.DeleteLink", "rbac/domain_manager.go:DomainManager.rangeMatchingRMs", "rbac/domain_manager.go:DomainManager.rangeMatchingPatterns", "rbac/domain_manager.go:DomainManager.SetMatcher", "rbac/domain_manager.go:DomainManager.rebuild", "rbac/domain_manager.go:DomainManager.rangeLinks"]}
{"id": "C83", "title": "Enforce decides on the stored rules and on nothing else but a known trace of removed rules", "statement": "In any program, after rules have been added, removed and cleared in any order, Enforce decides by the effects of exactly the stored rules of which the matcher condition is true, and, if and only if something is left over in the index, one more allow. Something is left over if the matcher has seen no rule since it was built (or cleared) and the condition is true of the rule with empty fields, or if there is a way through the condition and a rule seen by the matcher such that all conditions but the last hold of that rule, the last holds of the rule with empty fields, and no stored rule shares the attributes used by the earlier conditions. In particular: with \"some allow\" and \"some allow and no deny\" a request without a matching rule that allows it is allowed only by such a left-over; with \"no deny\" removed rules leave no trace; a matching rule that denies is always obeyed.", "quantifier": "every program of definitions, added, removed and cleared rules, functions, role managers and requests that keeps the policy definition; every matcher in the condition language (== and calls of defined functions, && || and parentheses, string literals, eval), every request, every order of map iteration", "why_tests_cant": "the index keeps stages of removed rules; whether they show depends on the whole history of the program and on the structure of the condition", "anchors": ["model/matcher/matcher.go:Matcher.removeRule", "model/matcher/matcher.go:Matcher.addRule", "model/matcher/matcher.go:MatcherNode", "enforcer.go:Enforcer.Enforce", "model/effector/effector.go"]}
{"id": "C84", "title": "The shipped models basic, basic_with_root and pathmatch decide exactly by the stored rules", "statement": "With examples/basic_model.conf a request (sub, obj, act) is allowed if and only if the rule (sub, obj, act) is stored, or act is empty and a trace of a removed rule is left: a rule for sub and obj has been given to the matcher and none is stored (or the matcher has seen no rule and the whole request is empty). With examples/basic_with_root_model.conf the subject root is allowed too. With examples/pathmatch_model.conf a request is allowed if and only if a stored rule for the subject has a path pattern matching the object and a regular expression matching the action, or the action matches the empty regular expression and a rule for the subject with a matching path has been seen and none with that path is stored.", "quantifier": "every program that builds the matcher of that model and keeps its definitions, with any other definitions, functions, role managers, requests; rules without commas and of the defined length (for pathmatch: with regular expressions that compile); every request, every regexp implementation, every order of map iteration", "why_tests_cant": "all histories of additions and removals and all requests", "anchors": ["examples/basic_model.conf", "examples/basic_with_root_model.conf", "examples/pathmatch_model.conf", "enforcer.go:Enforcer.Enforce", "model/matcher/matcher.go:Matcher.RangeMatches"]}
{"id": "C85", "title": "Matchers that compare attribute by attribute decide exactly: rbac, resource roles, patterns, glob, custom functions, deny rules", "statement": "With a matcher that is a conjunction of conditions, each comparing an attribute of the request with the attribute of the same name of the rule by == or by a function, a request is decided by the effects of the stored rules that agree with it in every attribute, and by one trace of removed rules: if an empty field agrees in the last attribute, and the matcher has been given a rule that agrees in all the others while no stored rule has the same values there, the request counts as allowed once more. In particular for examples/rbac_model.conf, rbac_with_resource_roles_model.conf, rbac_with_pattern_model.conf, glob_model.conf, keymatch_custom_model.conf, basic_without_users_model.conf and basic_without_resources_model.conf a request is allowed if and only if such a rule is stored (with the roles as they are at the time of the request) or the trace is left; with rbac_with_not_deny_model.conf if and only if no deny rule for a role of the subject is stored; with rbac_with_deny_model.conf if and only if an allow rule is stored or the trace is left, and no deny rule is stored.", "quantifier": "every program that builds the matcher and keeps its definitions, with any other definitions, functions and role managers, any changes of roles, any requests in between; rules without commas and of the defined length, whose fields the functions accept; every request, regexp and glob implementation, order of map iteration", "why_tests_cant": "all histories of additions and removals of rules and roles, all requests, all functions", "anchors": ["examples/rbac_model.conf", "examples/rbac_with_resource_roles_model.conf", "examples/rbac_with_pattern_model.conf", "examples/glob_model.conf", "examples/keymatch_custom_model.conf", "examples/rbac_with_deny_model.conf", "examples/rbac_with_not_deny_model.conf", "examples/basic_without_users_model.conf", "examples/basic_without_resources_model.conf", "enforcer.go:Enforcer.Enforce", "model/matcher/matcher.go:Matcher.RangeMatches"]}
{"id": "C86", "title": "Roles in domains: exact decisions in any program", "statement": "Behind a role definition with domains, in any program: the rules are the links added to domains and not removed, and g(a, b, d) answers whether b is reached from a over the links of domain d, its own and those of the pattern domains that d matches, within the level bound. With the models rbac_with_domains, rbac_with_domain_pattern and rbac_with_all_pattern Enforce then allows exactly the requests for which there is a rule for the domain and action whose subject (or object) is reached in that domain, and those a trace of removed rules allows. A question about a domain that is no pattern changes nothing.", "quantifier": "for every program of calls on the model and the manager (definitions, rules, role managers and matchers changed at any time, other matchers, requests in between), every request and every map order", "why_tests_cant": "Covers all programs, all sets of links and rules, all pattern matchers, and all orders in which links, rules and matchers are set.", "anchors": ["rbac/domain_manager.go:56-330", "rbac/role_policy.go:20-140", "model/handlers.go:36-57", "enforcer.go:251-344", "examples/rbac_with_domains_model.conf", "examples/rbac_with_domain_pattern_model.conf", "examples/rbac_with_all_pattern_model.conf"]}
{"id": "C87", "title": "A request changes nothing, unless it asks about a pattern domain; then later requests may panic", "statement": "Enforce answers and leaves every rule and every function as they were, even though the functions of role definitions call HasLink on shared managers that may change: this holds if every role function that the matcher can call is asked about a manager without domains, or about at most one domain that is no pattern of the domain matcher in use. With the models rbac_with_domains, rbac_with_domain_pattern and rbac_with_all_pattern it is enough that the domain of the request is no pattern. Otherwise it is false: one HasLink about a pattern domain that is not in use, which a request with such a domain makes, succeeds and changes no link, and afterwards every HasLink and AddLink about an unused domain that matches the pattern panics.", "quantifier": "every program of calls on the model and the managers before the request, every matcher (first part) or every matcher in the condition language without eval (second part), every request, every map order; every domain manager, every domain matcher, every unused pattern and matching domain (last part)", "why_tests_cant": "that a request leaves no trace is a statement about all later calls; the harm shows only in a later request about another domain", "anchors": ["rbac/domain_manager.go:DomainManager.getRoleManager", "rbac/domain_manager.go:DomainManager.HasLink", "rbac/role_manager_api.go:GenerateGFunction", "enforcer.go:Enforcer.Enforce", "model/matcher/matcher.go:Matcher.RangeMatches"]}
{"id": "C88", "title": "Enforce never changes the policy", "statement": "A call of Enforce that returns, with an answer or an error, leaves every policy with the rules it had in the order it had them, RangeRules with the same visits, all definitions and named matchers as they were, and every function except eval as it was, even when the role managers it asks are changed by the questions (C87). The same holds after any number of requests. A call that panics has changed nothing of this up to the HasLink that panicked.", "quantifier": "every state of the model, reachable or not, every matcher, function, expression library, map order and list of parameters, every sequence of requests", "why_tests_cant": "a test compares the policy after particular requests; that no request whatever writes to it is a statement about all matchers, functions and states", "anchors": ["enforcer.go:Enforcer.Enforce", "model/matcher/matcher.go:Matcher.RangeMatches", "rbac/role_manager_api.go:GenerateGFunction", "rbac/domain_manager.go:DomainManager.HasLink", "rbac/role_manager.go:RoleManager.HasLink"]}
{"id": "C89", "title": "Saving and loading in the middle of a history", "statement": "If store and model agree and nothing is queued, then after any history of rule changes, flushes, settings, SavePolicy and LoadPolicy calls a successful Flush makes them agree again. SavePolicy makes them agree at once, whatever is queued, and the queue it leaves does no harm.", "quantifier": "every history, every adapter that keeps, saves and lists a set of rules, every rule set", "why_tests_cant": "unbounded histories; the order of saves, loads and queued changes matters", "anchors": ["enforcer.go:Enforcer.SavePolicy", "enforcer.go:Enforcer.LoadPolicy", "enforcer.go:Enforcer.Flush", "storage/controller.go:StorageController.Flush"]}
{"id": "C90", "title": "SetModel cuts the store off until SetAdapter is called", "statement": "After SetModel with another model, with nothing queued, no rule change, flush or autosave switch makes a storage call or changes the store (a defect: the storage controller goes on listening to the old model). SetAdapter after SetModel repairs this: the store follows the new model as in C37.", "quantifier": "every enforcer, model, adapter and later history", "why_tests_cant": "absence of an effect over unbounded histories", "anchors": ["enforcer.go:Enforcer.SetModel", "enforcer.go:Enforcer.SetAdapter", "storage/controller.go:NewStorageController"]}
{"id": "C91", "title": "A failing storage call only affects rules with a change in flight, and a save or a new change repairs them", "statement": "Start with store and model in agreement and nothing queued, with an adapter whose calls, also failing ones, leave alone the rules they are not about. (a) Take a rule x: if storage calls fail only during enforcer calls that are not about x, at moments when no change of x is queued, saves succeed, and LoadPolicy is called only when the model has x if the store has it, then store and model agree about x whenever no change of x is queued and after every Flush that returns nil. (b) Whatever calls have failed: if a change of x is queued and Flush returns nil, they agree about x. (c) Whatever calls have failed: a SavePolicy that returns nil makes them agree about all rules, and after any further history without failing storage calls a Flush that returns nil makes them agree again, even if operations from before the save were still queued.", "quantifier": "all adapters with a view of the stored rules as described (simple and batch), all histories of AddRule, RemoveRule, AddRules, RemoveRules, Flush, autosave switches and waits with any outcome of the storage calls, all rules", "why_tests_cant": "A test with a failing adapter checks one failure at one place of one history; which rules can go out of step, and that a later change or save repairs them, depends on the order of everything still queued.", "anchors": ["storage/controller.go:103-186", "enforcer.go (Flush, LoadPolicy, SavePolicy, AddRules, RemoveRules)"]}
{"id": "C92", "title": "Emptying a policy reaches the store", "statement": "After ClearPolicy, after defining a policy or role definition again with SetDef, and after RemoveDef, a Flush that returns nil leaves the store with exactly the rules the model has left.", "quantifier": "all adapters with a view of the stored rules (simple and batch), all histories of rule changes, flushes, loads and saves without failing storage calls, all policies and role definitions", "why_tests_cant": "A test empties one policy in one state and looks at one store; whether rules that were stored, queued or removed before come back after the next load depends on the whole history of the queue.", "anchors": ["model/model.go (ClearPolicy, SetDef, RemoveDef)", "storage/controller.go:60-100", "enforcer.go (LoadPolicy, SavePolicy)"]}
{"id": "C93", "title": "Requests and rules with the wrong number of values grant nothing", "statement": "A request with more or fewer values than its definition has attributes is not granted, and a rule with more values than its definition grants and denies nothing it would not grant or deny with the right number.", "quantifier": "all models, programs, rules and requests with any number of values, all matchers over the condition language, all map orders", "why_tests_cant": "A test tries one request or rule that is one value too long or too short; whether a wrong length can change a decision depends on every way through the matcher and on every stored rule.", "anchors": ["model/defs/defs.go:85-99", "model/defs/defs.go:143-156", "model/matcher/matcher.go:170-220", "enforcer.go:311-344"]}
{"id": "C94", "title": "Filter and RangeMatches list exactly the rules that match", "statement": "Filter returns every stored rule of the matcher's policy that the matcher is true of, each once and with the key of the policy in front, and nothing else; RangeMatches calls its function with these rules until it returns false; neither changes a rule or a decision. This holds for matchers of the model and for matchers given as text with SetMatcher, over policies and over roles.", "quantifier": "all programs of definitions, functions, added and removed rules, all matchers over the condition language, all requests, callbacks and map orders", "why_tests_cant": "A test lists one small policy; that nothing is listed twice, left out or invented depends on what the index keeps of removed rules, on how many alternatives of the matcher are true, and on the order in which maps are walked.", "anchors": ["enforcer.go:273-309", "context.go:26-100", "model/model.go:366-371", "model/matcher/matcher.go:170-233"]}
{"id": "C95", "title": "Nothing is granted or refused without a rule that says so, even when conditions fail", "statement": "Let a matcher be written with comparisons and function calls, joined by &&, || and parentheses. Its functions may answer anything: errors, values that are not truth values, panics; the request may have too few values; a text given to eval may not compile. Then Enforce answers true (with an effect expression that requires an allow) only if there is a stored rule that allows and of which the condition is true, or if the index has something left over of removed rules (see C83); an effect expression that is not supported grants nothing. With !some(where(p.eft==deny)) Enforce answers false only if there is a stored rule that denies and of which the condition is true. Enforce returns an error only if a condition that comes first on a way through the matcher is an error for a rule that has been stored or for the rule with empty fields, and it panics only if a condition panics for such a rule. Filter lists only rules of which the condition is true. If no condition fails or panics, requests are decided exactly, and answers that are not truth values count as false.", "quantifier": "all programs (sequences of operations on the model), all matchers of this form, all functions and their answers, all requests with at most as many values as attributes, all orders of iteration", "why_tests_cant": "A failing condition can occur anywhere in the index, for any rule and in any order of iteration; a test sees one position of the failure and one order.", "anchors": ["model/matcher/matcher.go:RangeMatches", "model/matcher/matcher.go:rangeMatches", "enforcer.go:Enforce", "enforcer.go:Filter", "model/effector/effector.go:MergeEffects"]}
{"id": "C96", "title": "Matchers made of any expressions are decided by what their conditions say", "statement": "Let a matcher be built with &&, || and parentheses from any expressions that the evaluation library reads: comparisons of numbers, arithmetic, in, negation, attributes of attributes like r.sub.Age, nested calls. Whatever these expressions come to for a request and a rule (true, false, another value, an error, a panic; an expression that cannot be compiled is an error), Enforce answers true (with an effect expression that requires an allow) only if there is a stored rule that allows and of which all conditions on some way through the matcher are true, or if the index has something left behind by removed rules. With !some(where(p.eft==deny)) it answers false only if a stored rule that denies matches. An error comes from a condition that is first on a way, a panic from some condition. Filter lists only matching rules. If no condition fails or panics, requests are decided exactly.", "quantifier": "all programs (sequences of operations on the model), all matchers of this form, all evaluation libraries and meanings of expressions, all requests with at most as many values as attributes, all orders of iteration", "why_tests_cant": "Tests try particular expressions on particular values; that splitting a matcher into stages and grouping rules by the fields they mention keeps the meaning of every expression is a statement about all of them.", "anchors": ["model/matcher/matcher.go:buildMatcherDef", "model/matcher/matcher.go:AddRule", "model/matcher/matcher.go:rangeMatches", "model/matcher/matcher_params.go:Get", "enforcer.go:Enforce", "enforcer.go:Filter"]}
{"id": "C97", "title": "Rules handed over and handed out are values, not shared slices", "statement": "A rule passed to AddRule or RemoveRule counts with the strings it had at the call: writing into the slice afterwards changes neither what is decided and listed nor what is written to the storage. Likewise, the slices passed to the callback of RangeRules may be written to without changing the model.", "quantifier": "for every program that makes slices, writes into them, adds, removes, clears, rebuilds matchers, lists and flushes, in any order", "why_tests_cant": "Tests pass fresh literals to AddRule; whether a later write through an alias is seen depends on which of policy, matcher nodes and storage queue kept the slice, on all later calls and on when the queue is flushed.", "anchors": ["model/policy/policy.go:AddRule", "model/matcher/matcher.go:addRuleHelper", "storage/controller.go:addOp", "model/model.go:AddRule", "model/model.go:RangeRules"]}
{"id": "C98", "title": "The library does not write into the memory of the caller", "statement": "AddRule, RemoveRule and the other calls of the model only read the slices they are given. No string in an array of the caller is changed by a call, neither in the slice nor next to it.", "quantifier": "for every program, every slice with any length and capacity in any array, every model with any role managers and matchers", "why_tests_cant": "The write happens behind the end of the slice, only if it has spare capacity and the domain is a pattern that matches a domain in use at some depth; a test that passes literals has no memory there to look at.", "anchors": ["rbac/domain_manager.go:AddLink", "rbac/domain_manager.go:DeleteLink", "rbac/role_policy.go:AddRule", "model/model.go:AddRule"]}
{"id": "C99", "title": "Shared policies are the same policy everywhere", "statement": "A policy that was taken from one model with GetPolicy and given to another with SetPolicy, or put under several keys, is one policy: a rule added or removed through any model or key, or on the policy itself, is there for all. A matcher, under whichever key of whichever model, decides by exactly the rules its policy holds now; after SetPolicy the decisions of the model follow the new policy.", "quantifier": "for every program on any number of models that mixes definitions, builds, rule calls, SetPolicy, SetMatcher, SetRoleManager and direct calls on policies and role managers, in any order", "why_tests_cant": "The objects may be shared between any keys of any models and changed through any of them at any time; a test fixes one sharing and one order. That matchers keep listening to a policy that has been replaced shows only when the new policy is changed afterwards.", "anchors": ["model/model.go:SetPolicy", "model/model.go:SetMatcher", "model/model.go:SetRoleManager", "model/model.go:BuildMatcherFromDef", "model/matcher/matcher.go:NewMatcher", "model/policy/policy.go:AddRule"]}
{"id": "C100", "title": "Models that share nothing are independent", "statement": "Two models that were made by NewModel and never given objects of one another do not influence each other: a model is what its own calls make of it, emits the events of its own calls and answers as if the other models were not there, however the calls are mixed.", "quantifier": "for every program on any number of models without SetPolicy, SetMatcher, SetRoleManager and direct calls on policies, for every model of it and every request", "why_tests_cant": "Independence is about all interleavings of calls on all models; package-level state or an object reached from two models would only show for particular mixtures of calls.", "anchors": ["model/model.go:NewModel", "model/model.go:SetDef", "model/model.go:RemoveDef", "model/model.go:BuildMatcher", "model/model.go:AddRule", "model/model.go:RemoveRule", "model/model.go:ClearPolicy", "model/handlers.go"]}
{"id": "C101", "title": "Role questions asked at the same time are answered as if asked alone", "statement": "Once the links of a role manager are set up, any number of goroutines may call HasLink, GetRoles and GetUsers at the same time. However their accesses to the maps interleave, no call panics, each returns, and each answer is the one for the links that were added and not deleted. The calls leave nothing behind that changes later answers.", "quantifier": "every history of AddLink and DeleteLink calls with concurrent questions in between, every number of questions about known and unknown names, every interleaving of their accesses, every order of map iteration", "why_tests_cant": "the questions themselves create and delete roles in shared maps; whether that is visible depends on the interleaving, of which a test sees one", "anchors": ["rbac/role_manager.go:73-140", "rbac/role_manager.go:188-242", "rbac/role.go:76-123"]}
{"id": "C102", "title": "Links added and deleted at the same time have the effect of some order", "statement": "When calls of one role manager run at the same time, among them AddLink and DeleteLink, then after all have returned the links are those of the calls made one after the other in some order: no link that was added is lost, none that was deleted is back, and later answers agree with these links.", "quantifier": "every history of calls alone and at the same time, every number of calls, every interleaving of their accesses to the maps", "why_tests_cant": "lost updates depend on the interleaving of single map accesses, which a test does not control", "anchors": ["rbac/role_manager.go:102-140", "rbac/role_manager.go:163-185", "rbac/role.go:43-74"]}
{"id": "C103", "title": "Requests that ask for roles at the same time are decided as they are alone", "statement": "When any number of Enforce calls whose matcher uses g run at the same time on one role manager, together with questions to that role manager, each of them returns the decision it would have had alone, with g(u, r) true exactly if the links lead from u to r; and afterwards the role manager is as before.", "quantifier": "every matcher, policy, effect and request, every history of links and earlier groups of requests, every number of calls, every interleaving of their accesses to the maps of the role manager", "why_tests_cant": "HasLink writes to the shared maps (it makes and removes roles for unknown names); whether a decision is disturbed depends on the interleaving of single map accesses", "anchors": ["rbac/role_manager_api.go:53-71", "rbac/role_manager.go:102-140", "rbac/role_manager.go:187-240", "model/matcher/matcher.go:170-233", "enforcer.go:311-344"]}
{"id": "C104", "title": "A role manager made of linked role objects answers as its links and names say", "statement": "After any sequence of AddLink, DeleteLink (with or without the mark for copied links), HasLink, GetRoles, GetUsers, Range, Clear and SetMatcher, each call returns without a panic, and its answer is the one that follows from the links, marks, names in the order of first use and the matcher that the earlier calls have left, whatever the order in which maps are iterated; the role objects that are made for a question leave no trace.", "quantifier": "every sequence of calls of any length, every matcher, every depth limit, every order of iteration in every single call", "why_tests_cant": "Go randomises map order and sync.Map order; stale pointers to removed role objects show only after particular sequences of calls, of which there are unboundedly many", "anchors": ["rbac/role.go:23-171", "rbac/role_manager.go:38-270"]}
{"id": "C105", "title": "The order in which maps are iterated does not show in a role manager", "statement": "Two role managers that get the same sequence of calls (including Clear, Range and SetMatcher) give the same answers, up to the order of lists, whatever the order in which each of them iterates over its maps.", "quantifier": "every sequence of calls of any length, every matcher, every pair of orders of iteration in every single call", "why_tests_cant": "the order of iteration of Go maps and sync.Map is random, so a test sees one order per run", "anchors": ["rbac/role_manager.go:53-60", "rbac/role_manager.go:73-125", "rbac/role_manager.go:254-270", "rbac/role.go:86-171"]}
{"id": "C106", "title": "Questions and requests about names in use can run at the same time, with a matcher too", "statement": "After any sequence of calls of a role manager, with or without a matcher, any number of HasLink, GetRoles and GetUsers calls about names in use and of requests whose matchers only ask g about such names can run at the same time: none panics, the role manager is left as it is, each of them returns, and every answer and decision is the one that follows from the links, names and matcher in effect.", "quantifier": "every sequence of calls before, every matcher, every order of map iteration, any number of questions and requests, every interleaving of their accesses to the shared maps", "why_tests_cant": "interleavings and orders of map iteration cannot be enumerated by tests, nor all histories; with a matcher the same calls about a name that is not in use do go wrong (C101, C103)", "anchors": ["rbac/role_manager.go:73-125", "rbac/role_manager.go:150-252", "rbac/role.go:86-171"]}
{"id": "C107", "title": "The callback of RangeMatches may change the policy that is being searched", "statement": "A callback that is given to RangeMatches may add and remove rules of the policy while the call is running. The call does not fail or panic; the callback is called one call after another until it returns false; every rule it gets is stored at that moment and satisfies the matcher; if it does not return false it gets every matching rule that is stored all the time; afterwards the matcher follows the policy as if the changes had been made outside. In particular, a callback that removes each rule it gets leaves exactly the rules that do not satisfy the matcher. The same for a callback that clears the policy.", "quantifier": "every history of the policy, matcher, request, callback (with its own state), every order of map iteration, and every choice Go has about entries that are added to a map during the iteration", "why_tests_cant": "what a range loop over a map that is changed in its body visits is left open by the language, and the interplay of changes at any point of a traversal of a tree of maps cannot be enumerated", "anchors": ["model/matcher/matcher.go:97-112", "model/matcher/matcher.go:118-168", "model/matcher/matcher.go:170-233", "model/model.go:366-371", "enforcer.go:299-309"]}
{"id": "C108", "title": "Callbacks of RangeMatches may make requests", "statement": "Code that calls RangeMatches with a callback that itself calls Enforce, Filter or RangeMatches on the same model, at any depth, computes what it computes if each of these calls answers as if it were the only one; what happened before makes no difference.", "quantifier": "every program made of such calls and its own computations, every matcher and request, every order of map iteration, every state of the shared function map", "why_tests_cant": "the nesting of calls inside callbacks is unbounded, and a clash shows only for particular matchers, rules and orders of stages", "anchors": ["model/matcher/matcher.go:170-256", "model/fm/function.go:22-66", "model/model.go:366-371", "enforcer.go:251-344"]}
{"id": "C109", "title": "Domains of a domain manager can be used at the same time without disturbing each other", "statement": "When calls of one domain manager run at the same time, calls with one domain path answer as if those with other paths were not there. Questions (HasLink, GetRoles, GetUsers) with any paths are answered right for the links of their domain; AddLink and DeleteLink have the effect of some order of the calls in their domain: no link is lost and none comes back.", "quantifier": "every history of calls alone and at the same time with domain paths of any length, every number of calls, every interleaving of their accesses to the maps of all managers, every order of map iteration", "why_tests_cant": "managers of domains are made on the way by whoever comes first; whether two calls make two of them depends on the interleaving of single map accesses, which a test does not control", "anchors": ["rbac/domain_manager.go:100-105", "rbac/domain_manager.go:129-158", "rbac/domain_manager.go:162-224", "rbac/role_manager.go:102-242"]}
{"id": "C110", "title": "The getters of a model report what was last put under a key", "statement": "After any calls of a model, GetDef, GetPolicy, GetRoleManager, GetMatcher, GetRequestDef and GetEffector return what the last call about the key put there (SetDef, a Set... call, or a BuildMatcher that succeeded), and report false with a nil value if it took it away or if there was no such call; a call about another key changes nothing. Definitions and the objects made from them come and go together.", "quantifier": "every sequence of SetDef, RemoveDef, BuildMatcher, SetPolicy, SetRoleManager, SetMatcher, SetRequestDef and SetEffector with any keys and values, accepted or refused; every key", "why_tests_cant": "six maps are changed by ten calls, some of which touch two maps or none; tests look at single calls, and hardly at keys that do not exist", "anchors": ["model/model.go:166-218", "model/model.go:220-246", "model/model.go:316-363", "model/handlers.go:10-78", "rbac/role_policy.go:51-53"]}
{"id": "C111", "title": "An effector of one's own is asked about exactly the matching rules, and its answer decides", "statement": "With an effector of the caller (SetEffector with an implementation of IEffector), Enforce calls MergeEffects once for each rule that Filter lists, in that order, with the effects and rules so far, stops at the first answer other than Indeterminate, and otherwise asks once more about all of them; the decision is that answer. If early answers agree with the final one, the decision is the answer about all matching rules, independent of map order if the effector is. An error of the effector is returned and nothing is granted.", "quantifier": "every effector, also one with a state of its own, every matcher, policy, request, evaluator and iteration order", "why_tests_cant": "the tests have no effector but the built-in one; the protocol of calls matters for any effector that could be written", "anchors": ["enforcer.go:311-344", "model/effector/effector.go:19-25", "context.go:62-86"]}
{"id": "C112", "title": "Several enforcers on one model keep their stores in step with it", "statement": "When several enforcers are made for the same model, each with its own adapter, every call of one of them acts on this enforcer, its adapter and its answer as if the enforcer were alone with the model, and on every other enforcer as if that one had been asked to add or remove the rules itself, one by one. So a Flush that returns nil makes the store of each enforcer agree with the model, whatever the others do, and a failing store of one enforcer does not keep a change from the others.", "quantifier": "for every number of enforcers, all adapters, and all histories of AddRule, RemoveRule, AddRules, RemoveRules, Flush, LoadPolicy, SavePolicy, SetAdapter, autosave and storage options and AddWait, made on any of them in any order", "why_tests_cant": "tests use one enforcer per model; interleavings of calls of several enforcers, with registrations that move and stores that fail, are unbounded", "anchors": ["enforcer.go:80-139", "enforcer.go:149-229", "storage/controller.go:51-114", "model/model.go:253-286"]}
{"id": "C113", "title": "Requests that ask several role definitions at the same time are decided right, while links elsewhere change", "statement": "A model may have any number of role definitions, with and without domains. When requests whose matchers ask all of them run at the same time, next to questions to the managers and next to AddLink and DeleteLink in domains that none of the others is about, none of them panics in a manager, every request gets the decision that it would get alone for the links added and deleted before, AddLink and DeleteLink tell whether they changed something, and afterwards the links are those of all calls.", "quantifier": "for every list of role definitions without matchers, every history of calls alone and of calls and requests at the same time, all matchers, policies and requests, and all interleavings of the accesses to the maps of the managers", "why_tests_cant": "interleavings of map accesses of several managers are too many to try, and a scheduler rarely produces the bad ones", "anchors": ["rbac/domain_manager.go:84-133", "rbac/domain_manager.go:165-226", "rbac/role_manager.go:100-231", "rbac/role_manager_api.go:53-71", "model/handlers.go:38-51", "enforcer.go:311-344"]}
{"id": "C114", "title": "Request values may be of any type; only strings match fields of rules, roles and patterns", "statement": "The values given to Enforce and Filter may be of any type. A decision is the one that the conditions of the matcher call for, with these values: a request is granted only because of a stored rule that allows and of which the matcher is true. A value that is not a string never equals a field of a rule, is never a user or role of a role function, and never matches a pattern; it makes the call return false or an error, not panic. Calls with values of any type leave the model as calls with strings would.", "quantifier": "for all types of values, all programs, matchers made of any expressions, rules, requests, function maps, and iteration orders", "why_tests_cant": "the values, types, rules and expressions are unbounded; tests try a few structs", "anchors": ["model/matcher/matcher.go:66-76", "model/matcher/matcher.go:187-192", "model/matcher/matcher.go:235-256", "model/defs/defs.go:143-172", "util/builtin_operators.go:72-143", "rbac/role_manager_api.go:53-71", "enforcer.go:231-344", "examples/abac_rule_model.conf"]}
{"id": "C115", "title": "Match questions asked at the same time are answered right through the cache", "statement": "Role and domain managers ask their matcher through a cache that all goroutines share. A match question is answered as the matcher itself would, however many are asked at the same time and however their steps mix, and every question is answered: no call panics or waits forever.", "quantifier": "for all matchers, capacities, numbers of calls, questions, and all orders of the steps of the calls", "why_tests_cant": "the cache is spoiled only by certain orders of pointer assignments of two calls, and what follows shows much later", "anchors": ["util/cache.go:36-104", "rbac/role_manager.go:62-71", "rbac/role_manager.go:148-153", "rbac/domain_manager.go:89-98"]}
