import Verif.Lemmas.Program
import Verif.Props.Functions

/-!
# C77: programs that register functions, define, build, add and ask
-/

namespace Fastac

namespace FnModel

open Model

/-- Any request, through the model. -/
theorem enforce_own {build : FnBuild} {s : FnModel} (h : s.InPlace) (gov : Gov) (depth : Nat) (ord : Order)
    (params : List Param) :
    ((s.enforce build gov depth ord params).1.model, (s.enforce build gov depth ord params).2) =
      s.model.enforceParams (build s.knows) s.own (gov.withEval depth) ord params :=
  Model.enforceParams_congr (build s.knows) s.model
    (fun _ hx par => gov.withEval_congr depth (fun name hn => h.functions hx name hn) par) ord params

/-- **C77**, the part that holds.  As `c75_eval_partial`, for programs on a model with its function map: functions
may be set and removed at any time (but not under the name of a role definition), definitions may be changed and
other matchers built at any time, also with functions that do not exist yet, and any requests may be made in
between, also with own matchers.  The matcher `mk` says `f`, and `Enforce` decides on exactly the stored rules of
which `f` is true, with the functions registered now. -/
theorem c77_program_partial (build : FnBuild) (u : Str → Res Stage) (hc : build.Coherent u)
    (hbin : ∀ e s, u e = .ok s → s.Binary)
    (grow : Nat → Nat) (rk mk ek pk rText eff : Str) (rArgs pArgs : List Str) (f : List (List Cond)) (root : Stage)
    (hw : (Cond.formula rk pk f).wf = true) (hs : (Cond.formula rk pk f).safe = true)
    (hroot : buildMatcherDef grow (Cond.formula rk pk f).toks = .ok root)
    (P : Rule → Prop) (keep : Prop)
    (s : FnModel) (h : FnGiven build mk root P keep s) (hmk : mk ≠ []) (hek : ek ≠ [])
    (hr : s.model.rDefs.get rk = some rText) (hrA : splitC ',' (removeSpaces rText) = rArgs)
    (d : PolicyDef) (hp : s.model.pDefs.get pk = some d) (hpA : d.args = pArgs)
    (he : s.model.eDefs.get ek = some eff)
    (gov : Gov) (hgov : gov.Ok) (hsc : gov.Scoped) (N : Naming s.own rk pk rArgs pArgs)
    (rvals : List Str) (hrl : Cond.Given rArgs rvals f)
    (hf : ∀ a ∈ Cond.anyAtoms f, a.FitsEval s.model s.own gov rk pk rArgs pArgs rvals P)
    (huse : pk = s% "p" ∨ ∃ a ∈ Cond.anyAtoms f, ∃ y, Ref.pol y ∈ a.refs)
    (hP0 : ¬ keep ∨ s.model.policyRules pk = some [] → P (List.replicate pArgs.length []))
    (hlast : ¬ keep → ∀ a ∈ Cond.anyLasts f,
      ¬ a.holds (Ref.val rArgs pArgs rvals (List.replicate pArgs.length []))
        (s.model.SaysEval s.own gov rk rArgs rvals))
    (hempty : s.model.policyRules pk = some [] → ¬ Cond.anyHolds (fun a => a.holds
      (Ref.val rArgs pArgs rvals (List.replicate pArgs.length [])) (s.model.SaysEval s.own gov rk rArgs rvals)) f)
    (hdet : eff = SOME_ALLOW_NO_DENY → ∀ rules, s.model.policyRules pk = some rules → ∀ r ∈ rules,
      effectOf pArgs r ≠ .indeterminate)
    (ord : Order) (hord : ord.Valid) (depth : Nat) (hdep : 0 < depth) :
    ∃ rules L : List Rule, s.model.policyRules pk = some rules ∧ (∀ r ∈ rules, P r ∧ r.length = pArgs.length) ∧
      (∀ r, r ∈ L ↔ r ∈ rules ∧ Cond.anyHolds
        (fun a => a.holds (Ref.val rArgs pArgs rvals r) (s.model.SaysEval s.own gov rk rArgs rvals)) f) ∧
      (s.enforce build gov depth ord (named rk mk ek ++ rvals.map .val)).2 =
        .ok (decision eff (L.map (effectOf pArgs))) ∧
      (rk = s% "r" → mk = s% "m" → ek = s% "e" →
        (s.enforce build gov depth ord (rvals.map .val)).2 = .ok (decision eff (L.map (effectOf pArgs)))) := by
  have hg := h.given hc
  obtain ⟨rules, L, h1, h0, h2, h3, h4⟩ := Model.c75_eval_partial u hbin grow rk mk ek pk rText eff rArgs pArgs f root hw
    hs hroot P keep s.model hg hmk hek hr hrA d hp hpA he gov hgov hsc s.own N rvals hrl hf huse hP0 hlast
    hempty hdet ord hord depth hdep
  obtain ⟨i, mt, hx, -⟩ := hg.bound.tied.2
  refine ⟨rules, L, h1, h0, h2, ?_, ?_⟩
  · have := congrArg Prod.snd (enforce_own (build := build) h.inPlace gov depth ord (named rk mk ek ++ rvals.map .val))
    simp only at this
    rw [this]
    have e := congrArg Prod.snd h3
    simp only at e
    rw [← e]
    unfold Model.enforceParams
    rw [splitParams_named, newContext_named hr hx he (by rintro rfl; exact absurd N.rHead (by simp)) hmk hek,
      newContext_named hr hx he (by rintro rfl; exact absurd N.rHead (by simp)) hmk hek]
  · rintro rfl rfl rfl
    have := congrArg Prod.snd (enforce_own (build := build) h.inPlace gov depth ord (rvals.map .val))
    simp only at this
    rw [this]
    have e := congrArg Prod.snd (h4 rfl rfl rfl)
    simp only at e
    rw [← e]
    unfold Model.enforceParams
    rw [splitParams_vals, newContext_default hr hx he, newContext_default hr hx he]

/-! ## A case that meets the hypotheses -/

namespace ProgramExample

open EvalExample

/-- the matcher `text` needs the function `eval`, the matcher `more` needs a function `owns` -/
def fbuild : FnBuild := fun known e =>
  if e = s% "text" ∧ known (s% "eval") = true then .ok EvalExample.root
  else if e = s% "more" ∧ known (s% "owns") = true then .ok EvalExample.root else .err

def reading (e : Str) : Res Stage := if e = s% "text" ∨ e = s% "more" then .ok EvalExample.root else .err

theorem coherent : fbuild.Coherent reading := by
  intro known e
  unfold fbuild reading
  by_cases h : e = s% "text" <;> by_cases h' : e = s% "more" <;> by_cases a : known (s% "eval") = true <;>
    by_cases b : known (s% "owns") = true <;> simp [h, h', a, b]

theorem binary : ∀ e s, reading e = .ok s → s.Binary := by
  intro e s h
  refine EvalExample.binary (s% "text") s ?_
  unfold reading at h
  split at h
  · cases h; rfl
  · cases h

def std : StdLib := ⟨fun _ _ => none, fun _ _ => none, fun _ _ => none⟩

def nobody : Fn := fun _ => .bool false

def isRoot : Fn
  | [x] => .bool (x == s% "root")
  | _ => .panic

def defs : FnModel :=
  (((((FnModel.new std [(s% "isRoot", nobody)]).setDef 'r' (s% "r") (s% "sub, owner, obj, act")).1.setDef
    'p' (s% "p") (s% "rule, obj, act")).1.setDef 'e' (s% "e") SOME_ALLOW).1.setDef 'm' (s% "m") (s% "text")).1

/-- The matcher is built; a rule is added; a request with the matcher `more` fails since there is no `owns`, then
it is registered and the request is made again; `isRoot` is replaced; another rule is added. -/
def program : FnModel :=
  let s1 := (defs.buildMatcher fbuild (s% "m")).1
  let s2 : FnModel := { s1 with model := (s1.model.addRule [s% "p", s% "r.sub == r.owner", s% "data1", s% "read"]).1 }
  let s3 := (s2.enforce fbuild EvalExample.gov 1 Order.fwd [.opt (.matcher (.str (s% "more"))), .val (s% "bob")]).1
  let s4 := s3.setFunction (s% "owns") nobody
  let s5 := (s4.enforce fbuild EvalExample.gov 1 Order.fwd [.opt (.matcher (.str (s% "more"))), .val (s% "bob")]).1
  let s6 := s5.setFunction (s% "isRoot") isRoot
  { s6 with model := (s6.model.addRule [s% "p", s% "isRoot(r.sub)", s% "data1", s% "write"]).1 }

theorem given : FnGiven fbuild (s% "m") EvalExample.root Known True program := by
  refine .add (.setFunction (.request (.setFunction (.request (.add (.built (.setDef (.setDef (.setDef (.setDef
    (.new _ _) _ _ _) _ _ _) _ _ _) _ _ _) (s% "text") rfl rfl rfl ?_) _ (by decide) ?_) _ _ _ _) _ _ ?_) _ _ _ _) _
    _ ?_) _ (by decide +kernel) ?_
  · intro rules h
    cases h
    intro r hr
    cases hr
  · intro f e; cases e; unfold Known; decide
  · decide +kernel
  · decide +kernel
  · intro f e; cases e; unfold Known; decide

theorem naming : Naming program.own (s% "r") (s% "p") rArgs pArgs :=
  ⟨writable_of (by decide) (by decide +kernel) (by decide), writable_of (by decide) (by decide +kernel) (by decide),
    rfl, 'p', [], rfl, .inl rfl, by decide⟩

theorem good (sub owner obj act text : Str) (h : text = s% "r.sub == r.owner" ∨ text = s% "isRoot(r.sub)") :
    GoodCondition gov (program.model.functions program.own) (s% "r") (s% "p") rArgs pArgs [sub, owner, obj, act]
      text := by
  rcases h with rfl | rfl
  · have e : replaceArgs (s% "r.sub == r.owner") = s% "r_sub" ++ s% " == " ++ s% "r_owner" := by decide +kernel
    obtain ⟨h1, h2⟩ := gov_ok.eq (program.model.functions program.own)
      (requestPar (s% "r") rArgs [sub, owner, obj, act])
      (s% "r_sub") (s% "r_owner") (by decide) (by decide) (by rfl) (by rfl)
    exact ⟨by decide +kernel, by decide +kernel, by decide +kernel, by rw [e]; exact h1,
      ⟨sub == owner, by rw [e, h2]; rfl⟩⟩
  · have e : replaceArgs (s% "isRoot(r.sub)") = s% "isRoot" ++ s% "(" ++ join (s% ", ") [s% "r_sub"] ++ s% ")" := by
      decide +kernel
    obtain ⟨h1, h2⟩ := gov_ok.call (program.model.functions program.own)
      (requestPar (s% "r") rArgs [sub, owner, obj, act])
      (s% "isRoot") isRoot [s% "r_sub"] (by decide) rfl (by simp) (by
        intro a ha
        rw [List.mem_singleton] at ha
        subst ha
        exact ⟨by decide, rfl⟩)
    exact ⟨by decide +kernel, by decide +kernel, by decide +kernel, by rw [e]; exact h1,
      ⟨sub == s% "root", by rw [e, h2]; rfl⟩⟩

/-- The hypotheses hold for every request. -/
example (sub owner obj act : Str) :
    ∃ rules L : List Rule, program.model.policyRules (s% "p") = some rules ∧
      (∀ r, r ∈ L ↔ r ∈ rules ∧ Cond.anyHolds (fun a => a.holds (Ref.val rArgs pArgs [sub, owner, obj, act] r)
        (program.model.SaysEval program.own gov (s% "r") rArgs [sub, owner, obj, act])) cond) ∧
      (program.enforce fbuild gov 1 Order.fwd ([sub, owner, obj, act].map .val)).2 =
          .ok (decision SOME_ALLOW (L.map (effectOf pArgs))) := by
  obtain ⟨rules, L, h1, -, h2, -, h3⟩ := c77_program_partial fbuild reading coherent binary (fun _ => 0) (s% "r")
    (s% "m") (s% "e") (s% "p") (s% "sub, owner, obj, act") SOME_ALLOW rArgs pArgs cond EvalExample.root (by decide)
    (by decide) root_eq Known True program given (by decide) (by decide) (by decide +kernel) (by decide)
    (newPolicyDef (s% "p") (s% "rule, obj, act")) (by rfl) (by decide +kernel) (by decide +kernel)
    gov gov_ok (Gov.scope_scoped _) naming [sub, owner, obj, act] (.of_len (by rfl)) (by
      intro a ha
      simp only [EvalExample.cond, Cond.anyAtoms, Cond.allAtoms, Cond.atoms, List.append_nil, List.cons_append, List.nil_append,
        List.mem_cons, List.not_mem_nil, or_false] at ha
      rcases ha with rfl | rfl
      · refine ⟨⟨by simp, by decide, by decide, noTailRef_iff (by decide)⟩, ?_⟩
        rintro _ _ ⟨⟩
        rw [if_pos rfl]
        refine ⟨_, rfl, ?_⟩
        intro r hP hl text ht
        apply good
        match r, hl with
        | [a, b, c], _ =>
          have : a = text := Option.some.inj ht
          subst this
          simpa [Known] using hP
      · exact ⟨⟨by decide, by decide⟩, by rintro _ _ ⟨⟩⟩)
    (.inl rfl)
    (by rintro (h | h); exact absurd trivial h; exact absurd h (by decide +kernel))
    (fun h => absurd trivial h) (fun h => absurd h (by decide +kernel)) (fun h => absurd h (by decide))
    Order.fwd Order.fwd_valid 1 (by decide)
  exact ⟨rules, L, h1, h2, h3 rfl rfl rfl⟩

/-- the owner reads, others do not; `root` writes -/
example : ∀ x ∈ [([s% "alice", s% "alice", s% "data1", s% "read"], true),
      ([s% "bob", s% "alice", s% "data1", s% "read"], false),
      ([s% "root", s% "alice", s% "data1", s% "write"], true),
      ([s% "alice", s% "alice", s% "data1", s% "write"], false)],
    (program.enforce fbuild gov 1 Order.fwd (x.1.map .val)).2 = .ok x.2 := by
  decide +kernel

end ProgramExample

end FnModel

end Fastac
