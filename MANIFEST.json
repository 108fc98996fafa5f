{
 "claims": [
  {
   "property": "C01",
   "status": "proved",
   "theorems": [
    "Fastac.c01_some_allow",
    "Fastac.c01_early_stop"
   ],
   "note": "Relative to what Filter reports for the same iteration order."
  },
  {
   "property": "C02",
   "status": "proved",
   "theorems": [
    "Fastac.c02_no_deny"
   ],
   "note": ""
  },
  {
   "property": "C03",
   "status": "partial",
   "theorems": [
    "Fastac.c03_allow_no_deny_partial",
    "Fastac.c03_fails"
   ],
   "note": "False of the code when a matching rule has an eft value other than allow/deny: witness c03_fails. Proved otherwise."
  },
  {
   "property": "C04",
   "status": "partial",
   "theorems": [
    "Fastac.c04_unsupported_never_grants_partial",
    "Fastac.c04_never_reported"
   ],
   "note": "Never grants: proved. Reported: false of the code, proved negation for all inputs."
  },
  {
   "property": "C05",
   "status": "partial",
   "theorems": [
    "Fastac.c05_order_independent_partial",
    "Fastac.c05_fails"
   ],
   "note": "False for some(allow)&&!some(deny) with an eft value that is neither: witness. Proved in all other cases."
  },
  {
   "property": "C06",
   "status": "partial",
   "theorems": [
    "Fastac.c06_eft_column_partial",
    "Fastac.c06_fails_omitted",
    "Fastac.c06_fails"
   ],
   "note": "Full-length rules proved; omitted eft column is misread: proved for all rules."
  },
  {
   "property": "C07",
   "status": "partial",
   "theorems": [
    "Fastac.c07_complete_partial",
    "Fastac.c10_fails_index"
   ],
   "note": "For all histories, requests and orders, for matchers with at most two alternatives per stage whose inner stages read only the attributes extracted from them (c10_fails_index shows what happens otherwise) and comma-free rules."
  },
  {
   "property": "C08",
   "status": "partial",
   "theorems": [
    "Fastac.c08_sound_partial",
    "Fastac.c08_fails"
   ],
   "note": "Reported rules are stored and satisfy the matcher, except for the all-empty phantom rule (witness c08_fails)."
  },
  {
   "property": "C09",
   "status": "partial",
   "theorems": [
    "Fastac.c09_revoked_partial",
    "Fastac.c09_fails"
   ],
   "note": "False of the code: a removed rule can still grant (witness). Proved when no leaf expression is true of the all-empty rule."
  },
  {
   "property": "C10",
   "status": "partial",
   "theorems": [
    "Fastac.c10_index_transparent_partial",
    "Fastac.c10_fails_index"
   ],
   "note": "Equality with a scan for all histories under stated conditions; counterexamples outside them."
  },
  {
   "property": "C11",
   "status": "partial",
   "theorems": [
    "Fastac.c11_stages_partial",
    "Fastac.c11_fails"
   ],
   "note": "Proved for every expression in which no conjunction has an operand containing && to the right of one containing ||; false otherwise because the alternatives share a backing array (witness, under every growth policy)."
  },
  {
   "property": "C12",
   "status": "partial",
   "theorems": [
    "Fastac.c12_no_panic_partial",
    "Fastac.c12_build_partial",
    "Fastac.c12_fails",
    "Fastac.c12_fails_enforce"
   ],
   "note": "Two alternatives per stage: no panic for arbitrary rules and histories. Three or more: panics, proved for every such matcher."
  },
  {
   "property": "C13",
   "status": "partial",
   "theorems": [
    "Fastac.c13_error_reported_partial",
    "Fastac.c13_fails"
   ],
   "note": "Matchers without && report errors; errors after && are swallowed (witness, including a grant). C95 says what the answers are worth when conditions fail, with && too."
  },
  {
   "property": "C14",
   "status": "partial",
   "theorems": [
    "Fastac.c14_multiplicity_partial",
    "Fastac.c14_fails"
   ],
   "note": "Exact multiplicity proved; duplicates exist when two alternatives hold."
  },
  {
   "property": "C15",
   "status": "partial",
   "theorems": [
    "Fastac.c15_build_time_partial",
    "Fastac.c15_fails"
   ],
   "note": "False of the code (c15_fails): a matcher that saw a rule added and removed keeps an empty leaf and can grant what a matcher built afterwards denies. The theorem covers stages whose expressions never fail and are not satisfied by the blank rule (NeverFails, BlankSafe), binary and local ones."
  },
  {
   "property": "C16",
   "status": "partial",
   "theorems": [
    "Fastac.c16_stage_args_partial",
    "Fastac.c16_request_args_partial",
    "Fastac.c16_fails"
   ],
   "note": "Exact when no identifier contains a reference strictly inside it."
  },
  {
   "property": "C17",
   "status": "partial",
   "theorems": [
    "Fastac.c17_policy_set_partial",
    "Fastac.c18_fails"
   ],
   "note": "Set refinement for all histories of comma-free rules; false with commas."
  },
  {
   "property": "C18",
   "status": "partial",
   "theorems": [
    "Fastac.c18_kept_apart_partial",
    "Fastac.c18_fails",
    "Fastac.c18_fails_index"
   ],
   "note": "False of the code for values with commas: the hash joins the values with commas (witnesses, for the policy and for the matcher on it). The theorem covers all histories of rules without commas."
  },
  {
   "property": "C19",
   "status": "partial",
   "theorems": [
    "Fastac.c19_get_distinct_partial",
    "Fastac.c19_fails",
    "Fastac.c19_short_rule_panics"
   ],
   "note": "False of the code for values with commas (witness), and GetDistinct panics exactly as c19_short_rule_panics says when a rule lacks a column. The theorem covers all other rule sets."
  },
  {
   "property": "C20",
   "status": "partial",
   "theorems": [
    "Fastac.c20_clear_partial",
    "Fastac.Model.c20_roles_partial",
    "Fastac.ModelExample.c20_fails"
   ],
   "note": "p policies, all histories; false for g policies (witness: a g matcher keeps reporting cleared rules)."
  },
  {
   "property": "C21",
   "status": "proved",
   "theorems": [
    "Fastac.c21_has_link"
   ],
   "note": "For all histories, names and level bounds."
  },
  {
   "property": "C22",
   "status": "proved",
   "theorems": [
    "Fastac.c22_links_are_a_set"
   ],
   "note": "Role manager, with or without pattern matcher, calls without domain arguments."
  },
  {
   "property": "C23",
   "status": "partial",
   "theorems": [
    "Fastac.c23_queries_pure",
    "Fastac.c23_domains_partial",
    "Fastac.c31_fails"
   ],
   "note": "Role managers in full: the state after a query equals the state before. Domain managers: any history with any matchers, for queries about domains that are no patterns; a query about a pattern domain makes later calls panic (c31_fails). The match cache is not part of this state (C55)."
  },
  {
   "property": "C24",
   "status": "partial",
   "theorems": [
    "Fastac.c24_direct_links",
    "Fastac.c24_converse_partial",
    "Fastac.c24_fails"
   ],
   "note": "Without patterns in full; with patterns for names in use. False for unused names (witness)."
  },
  {
   "property": "C25",
   "status": "partial",
   "theorems": [
    "Fastac.c25_exact",
    "Fastac.c25_pattern_roles_partial",
    "Fastac.c25_order_independent_partial",
    "Fastac.c25_fails"
   ],
   "note": "`c25_exact` characterises every answer for every matcher and history, with the order of first use of the names; independence of that order holds when no pattern among the names in use matches another one, and is false otherwise (witness)."
  },
  {
   "property": "C26",
   "status": "partial",
   "theorems": [
    "Fastac.c26_exact",
    "Fastac.c26_links_kept_partial",
    "Fastac.c26_domains_set_matcher_partial",
    "Fastac.c26_domains_set_domain_matcher_partial",
    "Fastac.DM.c26_pattern_domains_partial",
    "Fastac.c26_fails"
   ],
   "note": "Role managers in full; domain managers when no domain in use is a pattern of the domain matcher; with pattern domains (one level) SetMatcher keeps exactly what Range lists; false for the copies of pattern links (witness)."
  },
  {
   "property": "C27",
   "status": "partial",
   "theorems": [
    "Fastac.c27_isolated_partial",
    "Fastac.c27_other_domain_partial",
    "Fastac.c27_reserved_partial",
    "Fastac.c27_fails"
   ],
   "note": "All paths of ordinary names, any depth, any role matcher, any domain matcher none of whose patterns is used as a domain; the reserved names RoleManager/redundant_role alias the default domain (witness). c27_reserved_partial: for paths of any names every answer is the one for the paths cut off at the first reserved name."
  },
  {
   "property": "C28",
   "status": "partial",
   "theorems": [
    "Fastac.c28_has_link_partial",
    "Fastac.c28_reserved_partial",
    "Fastac.c28_fails"
   ],
   "note": "All paths of ordinary names that are no patterns of the domain matcher. With the reserved names RoleManager and redundant_role the claim is false (c28_fails): a path is cut off at the first of them, and for the paths that are left the claim holds again (c28_reserved_partial, all paths)."
  },
  {
   "property": "C29",
   "status": "partial",
   "theorems": [
    "Fastac.c29_pattern_links_partial",
    "Fastac.c29_exact_partial",
    "Fastac.DM.c29_any_calls_partial",
    "Fastac.c29_fails"
   ],
   "note": "Paths of at most one element, patterns that do not match each other; exact characterisation of HasLink included; c29_any_calls_partial after any calls, deletions and matcher changes included. False for overlapping patterns (witness)."
  },
  {
   "property": "C30",
   "status": "partial",
   "theorems": [
    "Fastac.c30_other_domains_partial",
    "Fastac.c30_fails",
    "Fastac.c30_fails_range"
   ],
   "note": "False of the code (two witnesses); domains not matching the pattern are untouched."
  },
  {
   "property": "C31",
   "status": "partial",
   "theorems": [
    "Fastac.c31_no_panic_partial",
    "Fastac.c31_fails"
   ],
   "note": "No panic in any history, any depth, any matchers, if queries never name a pattern domain; false otherwise (witness)."
  },
  {
   "property": "C32",
   "status": "partial",
   "theorems": [
    "Fastac.c32_dispatch_partial",
    "Fastac.c32_fails"
   ],
   "note": "All model states; only that policy/role manager (and the matchers listening to it) changes; unknown key: error, no change. Empty rules and empty first fields panic (witness)."
  },
  {
   "property": "C33",
   "status": "partial",
   "theorems": [
    "Fastac.c33_range_partial",
    "Fastac.c33_stop_partial",
    "Fastac.ModelExample.c33_fails"
   ],
   "note": "Every model calls can produce: exactly the stored rules, each once, for callbacks returning true; a callback that returns false ends the run over its p policy. The full early stop is false of the code (witness)."
  },
  {
   "property": "C34",
   "status": "partial",
   "theorems": [
    "Fastac.c34_call_partial",
    "Fastac.c34_replay_partial",
    "Fastac.ModelExample.c34_fails",
    "Fastac.ModelExample.c34_fails_panic"
   ],
   "note": "All histories of AddRule/RemoveRule with fitting rules; false for ClearPolicy and for matchers that panic (witnesses)."
  },
  {
   "property": "C35",
   "status": "proved",
   "theorems": [
    "Fastac.c35_flush"
   ],
   "note": "Every adapter behaviour, controller state and queue."
  },
  {
   "property": "C36",
   "status": "proved",
   "theorems": [
    "Fastac.c36_batches"
   ],
   "note": "Every adapter behaviour, controller state and queue, also for failing flushes."
  },
  {
   "property": "C37",
   "status": "partial",
   "theorems": [
    "Fastac.c37_mirror_partial",
    "Fastac.c37_autosave_partial",
    "Fastac.c37_file_partial",
    "Fastac.StorageExample.c37_fails"
   ],
   "note": "All histories without adapter failures (with failures: C91), rules that fit the model, also instantiated to the file adapter; the autosave half is false when changes were queued before autosave was switched on (witness)."
  },
  {
   "property": "C38",
   "status": "partial",
   "theorems": [
    "Fastac.c38_failing_flush_partial",
    "Fastac.StorageExample.c38_fails"
   ],
   "note": "False of the code (witness); the theorem says exactly what is lost and what stays queued."
  },
  {
   "property": "C39",
   "status": "proved",
   "theorems": [
    "Fastac.c39_load",
    "Fastac.c39_load_list"
   ],
   "note": "Every adapter (arbitrary sequence of AddRule calls, any outcome) and every enforcer state."
  },
  {
   "property": "C40",
   "status": "proved",
   "theorems": [
    "Fastac.c40_many"
   ],
   "note": "Every enforcer state, adapter and rule list; AddRules and RemoveRules."
  },
  {
   "property": "C41",
   "status": "partial",
   "theorems": [
    "Fastac.c41_set_adapter_partial",
    "Fastac.StorageExample.c41_fails"
   ],
   "note": "False of the code (witness): queue lost, storage switched on. The autosave setting is kept."
  },
  {
   "property": "C42",
   "status": "partial",
   "theorems": [
    "Fastac.c42_new_partial",
    "Fastac.c42_fails"
   ],
   "note": "False of the code for every model and file: the adapter is nil (shadowed variable). The rules are loaded."
  },
  {
   "property": "C43",
   "status": "partial",
   "theorems": [
    "Fastac.c43_roundtrip_partial",
    "Fastac.c43_enforcer_partial",
    "Fastac.FileExample.c43_fails"
   ],
   "note": "Every model, previous file, write order and chunking, for rules whose fields have no comma, quote, line break, leading blank (Storable); false otherwise (witnesses)."
  },
  {
   "property": "C44",
   "status": "partial",
   "theorems": [
    "Fastac.c44_crash_states_partial",
    "Fastac.FileExample.c44_fails"
   ],
   "note": "False of the code (remove, create, write). The theorem lists exactly the states a crash can leave: old file, no file, prefix of the new text."
  },
  {
   "property": "C45",
   "status": "partial",
   "theorems": [
    "Fastac.c45_change_partial",
    "Fastac.FileExample.c45_fails",
    "Fastac.FileExample.c45_fails_missing"
   ],
   "note": "Every file holding storable rules, every call, write order and chunking. False for quoted fields and missing files (witnesses)."
  },
  {
   "property": "C46",
   "status": "partial",
   "theorems": [
    "Fastac.c46_blank_partial",
    "Fastac.FileExample.c46_fails"
   ],
   "note": "Any other lines whatsoever, also malformed ones. False for lines of 64 KiB or more (witness)."
  },
  {
   "property": "C47",
   "status": "partial",
   "theorems": [
    "Fastac.c47_sound",
    "Fastac.c47_path_match_partial",
    "Fastac.c47_exact",
    "Fastac.c47_fails"
   ],
   "note": "Sound for all inputs; complete unless the path has a literal segment * and the pattern a * before its last segment (witness */a/b vs */b). c47_exact says what is matched in all cases."
  },
  {
   "property": "C48",
   "status": "proved",
   "theorems": [
    "Fastac.c48_terminates"
   ],
   "note": "Every separator, prefix, suffix, path, pattern; nesting at most len(path)+2."
  },
  {
   "property": "C49",
   "status": "proved",
   "theorems": [
    "Fastac.c49_plain",
    "Fastac.isPathPattern_iff"
   ],
   "note": "Every path and non-pattern, both variants."
  },
  {
   "property": "C50",
   "status": "proved",
   "theorems": [
    "Fastac.c50_capacity"
   ],
   "note": "Every capacity >= 1, every sequence; also shows no call panics."
  },
  {
   "property": "C51",
   "status": "partial",
   "theorems": [
    "Fastac.c51_value_partial",
    "Fastac.c51_latest_partial",
    "Fastac.CacheExample.c51_fails"
   ],
   "note": "False: Put of a cached key keeps the old value (witness). The value is that of the Put that brought the key in; the latest one for histories that put only missing keys, as the code's users do."
  },
  {
   "property": "C52",
   "status": "proved",
   "theorems": [
    "Fastac.c52_lru",
    "Fastac.c52_stays"
   ],
   "note": "The cached keys are exactly the cap most recently used ones."
  },
  {
   "property": "C53",
   "status": "proved",
   "theorems": [
    "Fastac.c53_list"
   ],
   "note": "Pointer-level heap model."
  },
  {
   "property": "C54",
   "status": "partial",
   "theorems": [
    "Fastac.c54_alone_partial",
    "Fastac.CacheExample.c54_fails"
   ],
   "note": "False: Get writes under the read lock; interleaving witness. Non-interleaved Gets are fine."
  },
  {
   "property": "C55",
   "status": "partial",
   "theorems": [
    "Fastac.c55_transparent_partial",
    "Fastac.c55_names_partial",
    "Fastac.CacheExample.c55_fails"
   ],
   "note": "All histories incl. matcher changes, for questions without key collision (e.g. names without $); false with $$ (witness)."
  },
  {
   "property": "C56",
   "status": "partial",
   "theorems": [
    "Fastac.c56_concurrent_partial",
    "Fastac.c56_separate_partial",
    "Fastac.c56_finishes",
    "Fastac.ConcurrentExample.c56_fails"
   ],
   "note": "False for matchers using eval: the function map is shared, witness where alice is decided on bob's request. Proved for any number of calls and every interleaving for matchers without eval, and with eval for calls that do not overlap; every fairly scheduled call returns. Go data races are not modelled, and role functions are treated as pure: questions to role managers that meet are C101 (with pattern roles they disturb each other)."
  },
  {
   "property": "C57",
   "status": "partial",
   "theorems": [
    "Fastac.c57_options_partial",
    "Fastac.c57_parameters",
    "Fastac.c57_same_answer",
    "Fastac.c57_total",
    "Fastac.c57_unknown_request",
    "Fastac.ContextExample.c57_fails"
   ],
   "note": "Overriding and last-wins proved for every model and option list, with an exact condition for success. False: an unknown request definition panics (GetRequestDef's type assertion) instead of being reported."
  },
  {
   "property": "C58",
   "status": "partial",
   "theorems": [
    "Fastac.c58_acl_partial",
    "Fastac.EndToEnd.c58_fails"
   ],
   "note": "Whole system (configuration text, index, effector, enforcer) for every history, request and map order, when the action is non-empty and p rules have three comma-free fields; false for an empty action (witness: phantom blank rule)."
  },
  {
   "property": "C59",
   "status": "partial",
   "theorems": [
    "Fastac.c59_rbac_partial",
    "Fastac.c59_ask",
    "Fastac.EndToEnd.c59_fails"
   ],
   "note": "As C58 with role links; at most nine links. False for an empty action (witness)."
  },
  {
   "property": "C60",
   "status": "partial",
   "theorems": [
    "Fastac.c60_domains_partial",
    "Fastac.c59_ask",
    "Fastac.EndToEnd.c60_fails"
   ],
   "note": "As C59 with a domain; the domain is not one of the two reserved names. False for an empty action (witness)."
  },
  {
   "property": "C61",
   "status": "partial",
   "theorems": [
    "Fastac.c61_calls_partial",
    "Fastac.c61_fails"
   ],
   "note": "False: 2^m calls for texts of length O(m), for every m. The theorem gives the exponential upper bound that holds."
  },
  {
   "property": "C62",
   "status": "partial",
   "theorems": [
    "Fastac.c62_decision_partial",
    "Fastac.EndToEnd.c58_fails"
   ],
   "note": "Otherwise false: c58_fails is the ACL matcher with an empty action. For formulas whose stages have at most two alternatives, are local, blank-safe and never fail; see C08/C10/C11 for what happens otherwise, and C95/C96 for what still holds when conditions fail or hold for blank fields."
  },
  {
   "property": "C63",
   "status": "partial",
   "theorems": [
    "Fastac.c63_text_partial",
    "Fastac.TokensExample.c63_fails"
   ],
   "note": "All token lists whose strings contain no quote or backslash and where no accessor is directly followed by a word (PlainToks); false otherwise (witnesses)."
  },
  {
   "property": "C64",
   "status": "partial",
   "theorems": [
    "Fastac.c64_reference",
    "Fastac.c64_rest_partial",
    "Fastac.c64_unchanged",
    "Fastac.RewriteExample.c64_fails"
   ],
   "note": "References are rewritten, only dots between a short name and a word character change. False: dots in string literals and after names like group are rewritten too (witnesses)."
  },
  {
   "property": "C65",
   "status": "proved",
   "theorems": [
    "Fastac.c65_wait"
   ],
   "note": "Every adapter and sequence; starts from a successful Flush."
  },
  {
   "property": "C66",
   "status": "partial",
   "theorems": [
    "Fastac.Model.c66_in_step_partial",
    "Fastac.Model.InStepExample.c66_fails"
   ],
   "note": "Every history with any number of policies and matchers, p and g with domains. False after the policy itself is defined again (witness: old rules still reported); not covered: matchers on g without domains, clearing g (C20)."
  },
  {
   "property": "C67",
   "status": "partial",
   "theorems": [
    "Fastac.c67_all_domains_partial",
    "Fastac.c67_domains_partial",
    "Fastac.DomainListExample.c67_fails"
   ],
   "note": "Every history, map order and name, domains that match no pattern. The lists name a domain by its path joined with a slash: for paths whose parts contain a slash the claim is false (witness: the answer depends on the map order). Not covered: pattern domains."
  },
  {
   "property": "C68",
   "status": "proved",
   "theorems": [
    "Fastac.Model.c68_text"
   ],
   "note": "Every model calls can produce. The ini reader (go-ini, external) is a parameter, assumed to read plain data back (ReadsPlain); a simple reader is shown to do so (simpleIni_reads)."
  },
  {
   "property": "C69",
   "status": "partial",
   "theorems": [
    "Fastac.Model.c69_decision_partial",
    "Fastac.Model.InStepExample.c66_fails",
    "Fastac.EndToEnd.c58_fails"
   ],
   "note": "Every history without redefinition of the matcher or its policy after building (false otherwise, c66_fails). Matchers on p policies whose stages compare rule fields locally, do not hold for blank fields and never fail (see C08\u2013C10 for why these are needed; C95 and C96 say what holds without them)."
  },
  {
   "property": "C70",
   "status": "partial",
   "theorems": [
    "Fastac.c70_policy_partial",
    "Fastac.c70_fails"
   ],
   "note": "For matchers none of whose identifiers contains a policy reference inside. Otherwise false: r.group_id == p2.sub ranges over p, because the regular expression finds p_id in r_group_id."
  },
  {
   "property": "C71",
   "status": "proved",
   "theorems": [
    "Fastac.Model.c71_load"
   ],
   "note": "The ini reader (go-ini) is not modelled: the configuration is the list of sections it delivers."
  },
  {
   "property": "C72",
   "status": "partial",
   "theorems": [
    "Fastac.Model.c72_condition_partial",
    "Fastac.Model.ConditionExample.c72_fails"
   ],
   "note": "Matchers of C11 (no shared pending operands), about one policy; strings in it are plain text without references to policies; the functions answer on the rules the policy was given. If the policy is empty the matcher must not hold of the rule with empty fields, if rules were removed one by one none of its last comparisons may (otherwise false: an empty request is allowed without rules). Domains are no reserved names. Every rule of an effect with deny has the effect allow or deny."
  },
  {
   "property": "C73",
   "status": "partial",
   "theorems": [
    "Fastac.Model.c73_alike_partial",
    "Fastac.Model.c73_restore_partial",
    "Fastac.Model.RestoreExample.c73_fails"
   ],
   "note": "Under the conditions of C69 for decisions (false otherwise: a matcher whose leaf is true of the blank rule still allows alice after her rule is removed) and of C43/C68 for the text and the file (storable rules, plain texts)."
  },
  {
   "property": "C74",
   "status": "partial",
   "theorems": [
    "Fastac.Model.c74_decision_partial",
    "Fastac.Model.c74_fails"
   ],
   "note": "With the rule of empty fields where the code tries it: if the policy is empty the whole matcher must be evaluable on it and false; if rules were removed one by one the last conditions must be. False otherwise (c74_fails: with an empty policy Enforce panics instead of denying)."
  },
  {
   "property": "C75",
   "status": "partial",
   "theorems": [
    "Fastac.Model.c75_eval_partial",
    "Fastac.Model.c75_fails_policy",
    "Fastac.Model.c75_fails_error",
    "Fastac.Model.c75_fails_loop"
   ],
   "note": "For conditions about the request only that compile, answer true or false and do not call eval; with the rule of empty fields as in C72. False otherwise: two rules with the same condition that mentions p.obj are decided on the first one's object; one condition that cannot be evaluated makes other requests fail; a condition eval(p.rule) overflows the stack."
  },
  {
   "property": "C76",
   "status": "partial",
   "theorems": [
    "Fastac.c76_entry",
    "Fastac.c76_decision_partial",
    "Fastac.c76_eval",
    "Fastac.FnExample.c76_fails_role",
    "Fastac.FnExample.c76_fails_remove"
   ],
   "note": "The map: for all programs. The decisions: if the user does not set or remove functions named like a role definition. A role definition silently replaces a function of the user; RemoveDef of a role definition that does not exist removes a built-in function."
  },
  {
   "property": "C77",
   "status": "partial",
   "theorems": [
    "Fastac.FnModel.c77_program_partial",
    "Fastac.EndToEnd.c58_fails"
   ],
   "note": "Holds if functions are not set or removed under names of role definitions (see C76), for the formulas of C75 and under its conditions on blank fields; govaluate and the builder are parameters with stated assumptions."
  },
  {
   "property": "C78",
   "status": "partial",
   "theorems": [
    "Fastac.c78_functions",
    "Fastac.PathRules.c78_shipped_partial",
    "Fastac.PathRules.c78_reordered_partial",
    "Fastac.PathRules.c78_fails"
   ],
   "note": "The functions: proved. The decisions: if no rule is removed one by one, or with the comparison of the subjects written last (non-empty subject). False of the matcher as shipped: after RemoveRule the subject keeps access to the path, for every action, because the empty regular expression matches everything (witness)."
  },
  {
   "property": "C79",
   "status": "partial",
   "theorems": [
    "Fastac.FnModel.c79_now_partial",
    "Fastac.FnModel.c79_replaced",
    "Fastac.FnModel.c79_changed",
    "Fastac.EndToEnd.c58_fails"
   ],
   "note": "Same exclusions as C77 (removed rules when the last condition is true of the blank rule; the empty policy; rules that do not suit the definition)."
  },
  {
   "property": "C80",
   "status": "partial",
   "theorems": [
    "Fastac.FnModel.c80_roles",
    "Fastac.PatternRules.c80_shipped_partial",
    "Fastac.PatternRules.c80_reordered_partial",
    "Fastac.PatternRules.c80_fails"
   ],
   "note": "The roles in full. Decisions: as shipped while no rule is removed one by one; removal is covered for the matcher with g(r.sub, p.sub) at the end, and false as shipped (witness)."
  },
  {
   "property": "C81",
   "status": "proved",
   "theorems": [
    "Fastac.c81_matchers"
   ],
   "note": "Match functions that panic (regular expressions that do not compile) are not modelled."
  },
  {
   "property": "C82",
   "status": "proved",
   "theorems": [
    "Fastac.DM.c82_exact",
    "Fastac.c82_default_leak"
   ],
   "note": "For all call sequences within the stated provisos; the order in which SetDomainMatcher puts links back is arbitrary. c82_default_leak: a concrete case of pattern links reaching calls without a domain."
  },
  {
   "property": "C83",
   "status": "partial",
   "theorems": [
    "Fastac.FnModel.c83_exact_partial",
    "Fastac.FnModel.c83_verdict_partial"
   ],
   "note": "Missing: matchers outside the condition language (C96 has them); conditions that fail or panic on a rule seen (C95, C96); \"some allow and no deny\" when a matching rule has an effect other than allow or deny (the answer then depends on map order); rules with commas or of wrong length."
  },
  {
   "property": "C84",
   "status": "proved",
   "theorems": [
    "Fastac.RootRules.c84_basic",
    "Fastac.RootRules.c84_root",
    "Fastac.PathRules.c84_path"
   ],
   "note": "The statement names the trace of removed rules, which is a defect of the code (C78)."
  },
  {
   "property": "C85",
   "status": "proved",
   "theorems": [
    "Fastac.c85_columns",
    "Fastac.Shipped.c85_rbac",
    "Fastac.Shipped.c85_resource_roles",
    "Fastac.Shipped.c85_patterns",
    "Fastac.Shipped.c85_glob",
    "Fastac.Shipped.c85_custom",
    "Fastac.Shipped.c85_not_deny",
    "Fastac.Shipped.c85_allow_and_deny",
    "Fastac.Shipped.c85_without"
   ],
   "note": "The statement names the trace of removed rules, which is a defect of the code (C78). Functions must answer on an empty field too (regexp and glob do; ipMatch panics, so ipmatch_model.conf is not covered). With the effect of rbac_with_deny_model.conf stored rules must have the effect allow, deny or none."
  },
  {
   "property": "C86",
   "status": "proved",
   "theorems": [
    "Fastac.FnModel.c86_roles",
    "Fastac.FnModel.c86_plain",
    "Fastac.DomainRules.c86_domains",
    "Fastac.DomainRules.c86_objects",
    "Fastac.DomainRules.c86_domains_plain"
   ],
   "note": "One level of domains whose names are not the two reserved ones; a role matcher's patterns must not match each other; no request or stored rule in the history has a value that is a pattern for domains. The trace of removed rules is a defect of the code (C78)."
  },
  {
   "property": "C87",
   "status": "proved",
   "theorems": [
    "Fastac.FnModel.c87_question",
    "Fastac.FnModel.c87_unchanged",
    "Fastac.FnModel.c87_matcher",
    "Fastac.DomainRules.c87_same",
    "Fastac.DomainRules.c87_domains",
    "Fastac.DM.c87_poison",
    "Fastac.Changes.c87_fails",
    "Fastac.Changes.c87_fails_yes",
    "Fastac.Changes.c87_fails_allowed",
    "Fastac.Changes.c87_fails_deeper"
   ],
   "note": "At most one level of domains, whose names are not the two reserved ones. The expression library is a tree of function calls (Model/Changes.lean), assumed to call exactly the function written in a call and none in a comparison; conditions in rules (eval) are covered by c87_unchanged only. The last sentence of the statement is a defect of the code."
  },
  {
   "property": "C88",
   "status": "proved",
   "theorems": [
    "Fastac.FnModel.c88_policy",
    "Fastac.FnModel.c88_requests"
   ],
   "note": "User functions are pure in the model: a function registered by the user that itself calls AddRule is not covered. When HasLink panics, what it wrote before the panic is not recorded by the model (FnModel.call), so for panicking requests the claim reaches up to that call only."
  },
  {
   "property": "C89",
   "status": "partial",
   "theorems": [
    "Fastac.c89_mirror_partial",
    "Fastac.c89_save",
    "Fastac.c89_load_pending",
    "Fastac.c89_file_partial",
    "Fastac.SavingExample.c89_fails"
   ],
   "note": "False for LoadPolicy while a removal is queued (c89_fails): the rule comes back into the model and the flush takes it out of the store; c89_load_pending says exactly when and how they differ. Storage calls that fail: see C91. Missing: rules that do not fit the model."
  },
  {
   "property": "C90",
   "status": "proved",
   "theorems": [
    "Fastac.c90_detached",
    "Fastac.c90_attached"
   ],
   "note": "Rule changes made directly on the old model, to which the controller still listens, are not modelled. The first sentence of the statement is a defect of the code. The second part has the conditions of C37: no failing storage call, rules that fit."
  },
  {
   "property": "C91",
   "status": "proved",
   "theorems": [
    "Fastac.c91_apart",
    "Fastac.c91_touched",
    "Fastac.c91_heal",
    "Fastac.FailingExample.c91_lost"
   ],
   "note": "The adapter is a parameter with the assumption Adapter.Frames: a call that fails leaves alone the rules it is not about. The shipped file adapter does not meet it when writing fails half way (C44), so C91 says nothing about a file that cannot be written. c91_lost shows the case excluded in (a): the rule of the failed call stays out of step although the next Flush returns nil."
  },
  {
   "property": "C92",
   "status": "partial",
   "theorems": [
    "Fastac.c92_drop_partial",
    "Fastac.c92_restore",
    "Fastac.c92_save",
    "Fastac.DroppingExample.c92_fails"
   ],
   "note": "False (c92_fails): the three calls emit no events, so the store keeps every rule of the policy, also those that were only queued. c92_drop_partial says exactly what store and model hold after the Flush and that they agree iff the policy had no rules; c92_restore: LoadPolicy brings the rules back; c92_save: SavePolicy takes them out. Histories with failing storage calls are not covered."
  },
  {
   "property": "C93",
   "status": "partial",
   "theorems": [
    "Fastac.FnModel.c93_long_request",
    "Fastac.FnModel.c93_long_rule",
    "Fastac.FnModel.c93_short_partial",
    "Fastac.ArityExample.c93_fails"
   ],
   "note": "False (c93_fails): GetParameter takes the first of too many values for the key. c93_long_request: a long request is decided exactly like the one without its first value; c93_long_rule: a long rule matches like the one without its first value but has the effect of the one cut at the end, so a deny can be lost; c93_short_partial: a request that lacks an attribute mentioned on every way through the matcher is never granted when an allow is required, and never denied (only by an error) when only a deny counts. Short requests whose missing attributes the matcher does not mention are decided by c83_verdict_partial (Cond.Given). Missing: those in which the missing attribute is not on every way; c93_long_rule is about satisfying the matcher and the effect, not about the index."
  },
  {
   "property": "C94",
   "status": "partial",
   "theorems": [
    "Fastac.FnModel.c94_stored_partial",
    "Fastac.FnModel.c94_inline_partial",
    "Fastac.FnModel.c94_pairs_partial",
    "Fastac.FnModel.c94_range",
    "Fastac.FnModel.c94_enforce",
    "Fastac.FilterExample.c94_fails"
   ],
   "note": "Proved in any program: Filter lists the stored rules the condition is true of, each as often as it is true, without an error, for matchers of the model and for matchers given as text, over rules and over roles with one or no domain, with or without the request values that the matcher does not use; besides these at most rows with empty fields, and exactly when these appear is part of the theorem. The rules are the same afterwards, and after a matcher given as text exactly one more matcher listens to the policy, for good. RangeMatches makes the same calls until the function stops it, and Enforce is the fold of the effector over the same rows. The full statement fails: rows with empty fields that were never stored, rules listed once for each true alternative, shifted field names of links with two domains, lists cut short by errors that are not returned, and a panic without a request definition r (c94_fails)."
  },
  {
   "property": "C95",
   "status": "proved",
   "theorems": [
    "Fastac.FnModel.c95_justified",
    "Fastac.FnModel.c95_listed",
    "Fastac.FnModel.c95_exact",
    "Fastac.JustifiedExample.case_any"
   ],
   "note": "For all programs (FnSeen) and matchers of the condition language. Conditions call functions that exist, and a text given to eval is about the request and does not call eval; nothing is assumed about what functions answer. The exception for removed rules is LeftOver as in C83. case_any applies it to a program with an arbitrary function."
  },
  {
   "property": "C96",
   "status": "proved",
   "theorems": [
    "Fastac.FnModel.c96_justified",
    "Fastac.FnModel.c96_listed",
    "Fastac.FnModel.c96_exact",
    "Fastac.ExpressionsExample.case_any",
    "Fastac.ExpressionsExample.case_exact",
    "Fastac.ExpressionsExample.case_listed"
   ],
   "note": "For all programs (FnSeen) and any evaluation library that is Ok and Scoped. A condition is a text without brackets or backslashes whose policy names are attributes of the policy (Legible) and which does not call eval, or an atom of C95 (which may call eval). Request values are strings in the model; since the library is arbitrary they stand for any values. The cases apply the theorems to r.sub.Age > 18 && r.obj.Owner == p.owner with arbitrary meanings of the two expressions."
  },
  {
   "property": "C97",
   "status": "partial",
   "theorems": [
    "Fastac.SState.c97_values_partial",
    "Fastac.SState.c97_rows",
    "Fastac.SState.c97_acl_partial",
    "Fastac.SlicesExample.c97_fails"
   ],
   "note": "False of the code: the policy, the nodes of the matchers and the storage queue keep the slice of the caller; c97_fails has a program with one buffer for two rules (alice is refused although her rule was added) and one in which the storage is told to remove another rule. c97_values_partial: programs that leave a slice alone once it has been handed over (for RemoveRule until the next flush), and that give slices without spare capacity or from arrays of their own (see C98), do what the calls say. c97_rows (rows of RangeRules are new) is unconditional. Definitions are fixed during the program, and the adapter accepts everything."
  },
  {
   "property": "C98",
   "status": "partial",
   "theorems": [
    "Fastac.SState.c98_behind_partial",
    "Fastac.SState.c98_full_partial",
    "Fastac.SState.c98_bare_partial",
    "Fastac.SState.c98_short_partial",
    "Fastac.SpillExample.c98_fails"
   ],
   "note": "False of the code: append(subdomains, REDUNDANT_ROLE) in domain_manager.go:172, 190 writes behind the rule when the slice has spare capacity; c98_fails has packed rules of which the third loses its key. Proved for all programs: nothing else is ever written (c98_behind_partial); nothing at all if slices have no spare capacity, if no matcher for domains is set, or for rules of policies and links without domain. That the managers themselves are not affected by the sharing is proved too (DM.sLink_eq, used in C97). Arrays that append makes are treated as values."
  },
  {
   "property": "C99",
   "status": "partial",
   "theorems": [
    "Fastac.Realm.c99_decision_partial",
    "Fastac.Realm.c99_rules",
    "Fastac.Realm.ObjectsExample.c99_fails"
   ],
   "note": "False of the code: after SetPolicy the matchers of the model still listen to the old policy; c99_fails has a model whose policy holds exactly the rule of dave (AddRule reported it) and which denies dave and allows alice, who has no rule there, until the matcher is built anew. c99_decision_partial: a matcher decides in every model and under every key by the rules that the policy it was built for holds. c99_rules: a rule call reaches the policy under that key of that model and so all models and keys that have it, and no other policy; the event goes to the listeners of the called model only. Rules must suit the definitions of all matchers that listen to the policy; the policy is no role policy in c99_decision_partial."
  },
  {
   "property": "C100",
   "status": "proved",
   "theorems": [
    "Fastac.Realm.c100_separate",
    "Fastac.Realm.SeparateExample.c100_shared"
   ],
   "note": "The model with pointers (Model/Objects.lean) refines Model/Model.lean: the state of every model of a program that hands no objects over equals what its own calls make of Model.new, with the same events and the same decisions. c100_shared shows that the restriction is needed: with SetPolicy a call on one model changes the decisions of another, without an event there. The function map, which SetFunction changes, is in Model/Functions.lean and not part of this state."
  },
  {
   "property": "C101",
   "status": "partial",
   "theorems": [
    "Fastac.c101_questions_partial",
    "Fastac.c101_answered_partial",
    "Fastac.RoleThreadsExample.c101_fails"
   ],
   "note": "Proved without a matcher, for any number of calls and every interleaving at the granularity of single sync.Map accesses, after any history in which updates ran alone; including that every fairly scheduled call returns. False with a matcher: a question about a new pattern makes another one panic, and a question about a new name makes another one answer wrongly (c101_fails). A Range is one step (nothing is written to the ranged maps here)."
  },
  {
   "property": "C102",
   "status": "partial",
   "theorems": [
    "Fastac.c102_updates_partial",
    "Fastac.c102_returns_partial",
    "Fastac.RoleWritersExample.c102_fails"
   ],
   "note": "Proved without a matcher, for every interleaving, where concurrent AddLink and DeleteLink use names that are already in use (questions next to them may be about any names): HasLink and GetRoles afterwards are right for the calls in some order that keeps the parts of the history in order, and no call panics or hangs. False in general: a link of a new user is lost, a question undoes an AddLink, GetUsers disagrees with GetRoles, two AddLink of one link both report true, and HasLink next to updates answers true though it is true at no moment (c102_fails)."
  },
  {
   "property": "C103",
   "status": "partial",
   "theorems": [
    "Fastac.c103_decisions_partial",
    "Fastac.c103_decided_partial",
    "Fastac.RoleRequestsExample.c103_fails",
    "Fastac.RoleRequestsExample.c103_updates_fail"
   ],
   "note": "Proved without a matcher of the role manager for every number of requests and questions and every interleaving, after every history of such groups. False with a matcher (c103_fails) and next to AddLink/DeleteLink (c103_updates_fail: a decision that was right at no moment). One role manager without domains; the function eval, whose sharing is C56, is not used."
  },
  {
   "property": "C104",
   "status": "proved",
   "theorems": [
    "Fastac.c104_answers"
   ],
   "note": "All calls of RoleManager except the empty GetDomains/GetAllDomains and SetDomainMatcher, on a heap of role objects with pointers; no bound on calls, names or depth. SetMatcher adds the unmarked links again in any order. The cache in front of the matcher is C54/C55; calls at the same time are C101-C103."
  },
  {
   "property": "C105",
   "status": "partial",
   "theorems": [
    "Fastac.c105_order_partial",
    "Fastac.RoleObjectsExample.c105_fails"
   ],
   "note": "Proved for every sequence of calls in which a matcher given to SetMatcher has no pattern that matches another one among the names of links (a matcher that is there from the start may have such patterns). Otherwise false: SetMatcher adds the links again in the order of the map, and whether a pattern role covers another pattern depends on which came first (c105_fails)."
  },
  {
   "property": "C106",
   "status": "partial",
   "theorems": [
    "Fastac.c106_known_partial",
    "Fastac.c106_returns_partial"
   ],
   "note": "Missing: the cache in front of the matcher, without which the claim is proved; with a matcher and more than 100 different questions it is false because of the cache, see c115_fails. Names in use are those of links that were added or deleted since the last Clear or SetMatcher (after SetMatcher: those of links). Names that are not in use are covered by C101 and C103 without a matcher; with one it is false."
  },
  {
   "property": "C107",
   "status": "partial",
   "theorems": [
    "Fastac.c107_calls_partial",
    "Fastac.c107_sound_partial",
    "Fastac.c107_complete_partial",
    "Fastac.c107_remove_partial",
    "Fastac.c107_quiet",
    "Fastac.c107_fails"
   ],
   "note": "Proved for callbacks that add and remove rules of the right length and without commas, for matchers that do not fail. c107_fails: false for a callback that clears the policy (rules are reported that are no longer stored), and with || when a later alternative is true of the rule with empty fields (the callback gets that rule once it has removed all others). c107_quiet: with a callback that changes nothing the call is the one of C07-C15."
  },
  {
   "property": "C108",
   "status": "partial",
   "theorems": [
    "Fastac.c108_nested_partial",
    "Fastac.c108_enforce",
    "Fastac.c108_library",
    "Fastac.c108_fails"
   ],
   "note": "Proved where the matcher of a call whose callback makes calls uses eval in its first condition only (or not at all); matchers of calls whose callbacks make no calls may use it anywhere. c108_fails: with eval in a later condition the outer call lists the rules for the request of the inner call. Not modelled: eval inside eval, unrecovered panics of inner calls, changes of the policy during the calls (C107)."
  },
  {
   "property": "C109",
   "status": "partial",
   "theorems": [
    "Fastac.c109_apart",
    "Fastac.c109_unused",
    "Fastac.c109_questions_partial",
    "Fastac.c109_updates_partial",
    "Fastac.c109_returns_partial",
    "Fastac.DomainThreadsExample.c109_fails"
   ],
   "note": "False for AddLink with a path that is new: two calls that meet there make two managers for one domain, and a link is lost although both calls returned true (c109_fails). Proved where AddLink and DeleteLink that do not run alone have a path in use (c109_apart, with or without a role matcher). Domain matchers are not part of this model."
  },
  {
   "property": "C110",
   "status": "partial",
   "theorems": [
    "Fastac.c110_getters",
    "Fastac.c110_policy",
    "Fastac.c110_known_partial",
    "Fastac.c110_together_partial",
    "Fastac.c110_other_keys",
    "Fastac.GettersExample.c110_fails",
    "Fastac.GettersExample.c110_apart_fails"
   ],
   "note": "False for keys that do not exist: GetRoleManager and GetRequestDef panic, and GetPolicy returns a non-nil interface value with a nil pointer inside (c110_fails). The rest is proved. Definitions and objects go together unless objects are handed over (c110_apart_fails)."
  },
  {
   "property": "C111",
   "status": "partial",
   "theorems": [
    "Fastac.c111_protocol",
    "Fastac.c111_decision_partial",
    "Fastac.c111_order_partial",
    "Fastac.c111_errors_partial",
    "Fastac.c111_never_reported",
    "Fastac.c111_default",
    "Fastac.c111_stored_partial",
    "Fastac.c111_once_partial",
    "Fastac.OwnEffectorExample.c111_fails",
    "Fastac.OwnEffectorExample.c111_order_fails",
    "Fastac.OwnEffectorRulesExample.c111_once_fails"
   ],
   "note": "False as to errors: Enforce never returns an error of the effector (c111_never_reported), and ignores that of the last call, so that access is granted when MergeEffects returns Allow together with an error (c111_fails). The protocol of calls is proved in full; the decision for effectors that do not change their mind, also in terms of the stored rules (c111_stored_partial); a rule that satisfies two alternatives counts twice (c111_once_fails)."
  },
  {
   "property": "C112",
   "status": "partial",
   "theorems": [
    "Fastac.c112_alone_partial",
    "Fastac.c112_registered",
    "Fastac.c112_failing",
    "Fastac.c112_mirror_partial",
    "Fastac.EnforcersExample.c112_fails",
    "Fastac.EnforcersExample.c112_order_matters"
   ],
   "note": "False when a store fails: with autosave its controller panics inside the event, and the controllers registered after it are never told of the change (c112_failing, c112_fails); which ones depends on the order of registration (c112_order_matters). Proved for calls that do not panic."
  },
  {
   "property": "C113",
   "status": "partial",
   "theorems": [
    "Fastac.c113_decisions_partial",
    "Fastac.c113_decided_partial",
    "Fastac.c113_after_partial",
    "Fastac.ManyRolesExample.c113_fails",
    "Fastac.ManyRolesExample.c113_new_domain_fails"
   ],
   "note": "False for managers with matchers (c113_fails), for updates in the domain that a request asks about (c103_updates_fail) and for updates in a domain not used before (c113_new_domain_fails)."
  },
  {
   "property": "C114",
   "status": "partial",
   "theorems": [
    "Fastac.VModel.c114_justified",
    "Fastac.VModel.c114_listed",
    "Fastac.VModel.c114_exact",
    "Fastac.VModel.c114_strict",
    "Fastac.VModel.c114_program",
    "Fastac.VModel.c114_functions",
    "Fastac.VModel.c114_abac",
    "Fastac.c114_fails"
   ],
   "note": "All but \"not panic\" is proved; a value that is no string given to a role function panics (c114_fails). What is left behind by removed rules is an exception as in C96. c114_abac: exact decision for the matcher of abac_rule_model.conf."
  },
  {
   "property": "C115",
   "status": "partial",
   "theorems": [
    "Fastac.c115_answers_partial",
    "Fastac.c115_gets_partial",
    "Fastac.c115_room_partial",
    "Fastac.c115_single_partial",
    "Fastac.c115_returns_partial",
    "Fastac.CacheThreadsExample.c115_fails"
   ],
   "note": "False of the code: Get moves nodes of the list under the read lock. c115_fails: a cache of 100 places, never more than two calls under way, all answered right; the next new question panics in Put. Proved: every answer that is returned is right (questions with the same key must have the same answer, see C55), Get itself never panics, all calls return or panic after ten turns; nobody panics if the keys fit into the cache, or if no two calls move a node at the same time. The reads of one pointer assignment happen together with its write; what a panicking Put has changed is left out."
  }
 ]
}