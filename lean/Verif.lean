import Verif.Base
import Verif.Model.Cache
import Verif.Model.CacheThreads
import Verif.Model.Callbacks
import Verif.Model.Changes
import Verif.Model.Concurrent
import Verif.Model.Context
import Verif.Model.Defs
import Verif.Model.DomainList
import Verif.Model.DomainManager
import Verif.Model.DomainThreads
import Verif.Model.Effector
import Verif.Model.Enforce
import Verif.Model.Enforcers
import Verif.Model.Eval
import Verif.Model.FileAdapter
import Verif.Model.Filter
import Verif.Model.Functions
import Verif.Model.Getters
import Verif.Model.ManyRoles
import Verif.Model.Matcher
import Verif.Model.MatcherDef
import Verif.Model.Matchers
import Verif.Model.Model
import Verif.Model.ModelText
import Verif.Model.Nested
import Verif.Model.Objects
import Verif.Model.OwnEffector
import Verif.Model.PathMatch
import Verif.Model.Policy
import Verif.Model.RoleManager
import Verif.Model.RoleObjects
import Verif.Model.RolePolicy
import Verif.Model.RoleRequests
import Verif.Model.RoleThreads
import Verif.Model.Slices
import Verif.Model.Storage
import Verif.Model.Values
import Verif.Spec.Alike
import Verif.Spec.AnyManager
import Verif.Spec.Arity
import Verif.Spec.Cache
import Verif.Spec.CacheThreads
import Verif.Spec.Callbacks
import Verif.Spec.Changes
import Verif.Spec.Columns
import Verif.Spec.Condition
import Verif.Spec.Context
import Verif.Spec.DomainHistory
import Verif.Spec.DomainThreads
import Verif.Spec.Domains
import Verif.Spec.Dropping
import Verif.Spec.Effects
import Verif.Spec.EndToEnd
import Verif.Spec.Enforcers
import Verif.Spec.Eval
import Verif.Spec.Expressions
import Verif.Spec.Failing
import Verif.Spec.File
import Verif.Spec.Filter
import Verif.Spec.Formula
import Verif.Spec.Functions
import Verif.Spec.Getters
import Verif.Spec.Given
import Verif.Spec.History
import Verif.Spec.InStep
import Verif.Spec.Justified
import Verif.Spec.KnownRoles
import Verif.Spec.Links
import Verif.Spec.Load
import Verif.Spec.ManyRoles
import Verif.Spec.Matching
import Verif.Spec.Model
import Verif.Spec.ModelText
import Verif.Spec.Nested
import Verif.Spec.Objects
import Verif.Spec.OwnEffector
import Verif.Spec.PathMatch
import Verif.Spec.PatternDomains
import Verif.Spec.PolicyKey
import Verif.Spec.Program
import Verif.Spec.RoleHistory
import Verif.Spec.RoleObjects
import Verif.Spec.RoleOrder
import Verif.Spec.RoleRequests
import Verif.Spec.RoleThreads
import Verif.Spec.RuleSet
import Verif.Spec.Saving
import Verif.Spec.Seen
import Verif.Spec.Slices
import Verif.Spec.Spill
import Verif.Spec.Storage
import Verif.Spec.Tokens
import Verif.Spec.Values
import Verif.Spec.Words
import Verif.Lemmas.AnyManager
import Verif.Lemmas.Apart
import Verif.Lemmas.ApartRun
import Verif.Lemmas.ApartSteps
import Verif.Lemmas.Arity
import Verif.Lemmas.Cache
import Verif.Lemmas.CacheThreads
import Verif.Lemmas.Callbacks
import Verif.Lemmas.Changes
import Verif.Lemmas.Columns
import Verif.Lemmas.Concurrent
import Verif.Lemmas.CondDecide
import Verif.Lemmas.CondTree
import Verif.Lemmas.Condition
import Verif.Lemmas.Configured
import Verif.Lemmas.Context
import Verif.Lemmas.Crowds
import Verif.Lemmas.Defs
import Verif.Lemmas.DomainFrame
import Verif.Lemmas.DomainHistory
import Verif.Lemmas.DomainManager
import Verif.Lemmas.DomainNames
import Verif.Lemmas.DomainPatterns
import Verif.Lemmas.DomainPure
import Verif.Lemmas.DomainRange
import Verif.Lemmas.DomainRounds
import Verif.Lemmas.DomainSafe
import Verif.Lemmas.DomainSeen
import Verif.Lemmas.DomainState
import Verif.Lemmas.DomainThreads
import Verif.Lemmas.DomainTracks
import Verif.Lemmas.Dropping
import Verif.Lemmas.EndToEnd
import Verif.Lemmas.Enforce
import Verif.Lemmas.Enforcers
import Verif.Lemmas.Eval
import Verif.Lemmas.Events
import Verif.Lemmas.Exact
import Verif.Lemmas.Expressions
import Verif.Lemmas.Failing
import Verif.Lemmas.File
import Verif.Lemmas.Filled
import Verif.Lemmas.Filter
import Verif.Lemmas.Formula
import Verif.Lemmas.Functions
import Verif.Lemmas.Getters
import Verif.Lemmas.Given
import Verif.Lemmas.Hist
import Verif.Lemmas.InStep
import Verif.Lemmas.Index
import Verif.Lemmas.IndexVisits
import Verif.Lemmas.Ini
import Verif.Lemmas.Justified
import Verif.Lemmas.KnownRoles
import Verif.Lemmas.Live
import Verif.Lemmas.Load
import Verif.Lemmas.Managers
import Verif.Lemmas.ManyCrowds
import Verif.Lemmas.ManyHistories
import Verif.Lemmas.ManyRoles
import Verif.Lemmas.Model
import Verif.Lemmas.ModelShape
import Verif.Lemmas.ModelText
import Verif.Lemmas.Nested
import Verif.Lemmas.NextOp
import Verif.Lemmas.Objects
import Verif.Lemmas.Outcomes
import Verif.Lemmas.OverlapDomains
import Verif.Lemmas.OwnEffector
import Verif.Lemmas.PathMatch
import Verif.Lemmas.Policy
import Verif.Lemmas.Program
import Verif.Lemmas.Quiet
import Verif.Lemmas.Requests
import Verif.Lemmas.ReservedNames
import Verif.Lemmas.Restore
import Verif.Lemmas.Rewrite
import Verif.Lemmas.RoleAlike
import Verif.Lemmas.RoleBase
import Verif.Lemmas.RoleCalls
import Verif.Lemmas.RoleHeap
import Verif.Lemmas.RoleHistory
import Verif.Lemmas.RoleManager
import Verif.Lemmas.RoleMarks
import Verif.Lemmas.RoleMemory
import Verif.Lemmas.RoleObjects
import Verif.Lemmas.RoleOrder
import Verif.Lemmas.RoleParts
import Verif.Lemmas.RoleRequests
import Verif.Lemmas.RoleRounds
import Verif.Lemmas.RoleRuns
import Verif.Lemmas.RoleState
import Verif.Lemmas.RoleThreads
import Verif.Lemmas.RoleWriters
import Verif.Lemmas.Saving
import Verif.Lemmas.Seen
import Verif.Lemmas.Serves
import Verif.Lemmas.Shape
import Verif.Lemmas.Slices
import Verif.Lemmas.Sound
import Verif.Lemmas.Spill
import Verif.Lemmas.Standing
import Verif.Lemmas.Storage
import Verif.Lemmas.Sweep
import Verif.Lemmas.Tame
import Verif.Lemmas.Tokens
import Verif.Lemmas.Values
import Verif.Lemmas.Words
import Verif.Props.AnyManager
import Verif.Props.Arity
import Verif.Props.Cache
import Verif.Props.CacheThreads
import Verif.Props.Callbacks
import Verif.Props.Cases
import Verif.Props.Changes
import Verif.Props.Columns
import Verif.Props.Concurrent
import Verif.Props.Condition
import Verif.Props.Context
import Verif.Props.Decision
import Verif.Props.DomainList
import Verif.Props.DomainRules
import Verif.Props.DomainThreads
import Verif.Props.Domains
import Verif.Props.Dropping
import Verif.Props.Effects
import Verif.Props.EndToEnd
import Verif.Props.Enforcers
import Verif.Props.Eval
import Verif.Props.Exact
import Verif.Props.Expressions
import Verif.Props.ExpressionsCases
import Verif.Props.Failing
import Verif.Props.File
import Verif.Props.Filter
import Verif.Props.FilterCases
import Verif.Props.Functions
import Verif.Props.Getters
import Verif.Props.Given
import Verif.Props.InStep
import Verif.Props.Justified
import Verif.Props.JustifiedCases
import Verif.Props.KnownRoles
import Verif.Props.Load
import Verif.Props.ManyRoles
import Verif.Props.MatcherDef
import Verif.Props.Matching
import Verif.Props.Model
import Verif.Props.ModelText
import Verif.Props.Nested
import Verif.Props.Objects
import Verif.Props.OwnEffector
import Verif.Props.OwnEffectorRules
import Verif.Props.PathMatch
import Verif.Props.PathRules
import Verif.Props.PatternDomains
import Verif.Props.PatternRoles
import Verif.Props.Policy
import Verif.Props.PolicyKey
import Verif.Props.Program
import Verif.Props.Requests
import Verif.Props.Restore
import Verif.Props.Rewrite
import Verif.Props.RoleObjects
import Verif.Props.RoleRequests
import Verif.Props.RoleThreads
import Verif.Props.RoleWriters
import Verif.Props.Roles
import Verif.Props.RootRules
import Verif.Props.Saving
import Verif.Props.Separate
import Verif.Props.Shipped
import Verif.Props.Slices
import Verif.Props.Spill
import Verif.Props.Storage
import Verif.Props.Tokens
import Verif.Props.Values
import Verif.Props.ValuesCases
import Verif.Props.Words
