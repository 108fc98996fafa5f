import Verif.Lemmas.Changes
import Verif.Props.DomainRules

/-!
# C87: requests change nothing, unless they ask about a pattern domain
-/

namespace Fastac

open Model

/-! ## The library -/

theorem GovTerm.Ok.free {fns : Str → Option Fn} {x : GovTerm} (h : x.Ok fns) :
    x.Free (fun n => (fns n).isSome) := by
  cases x with
  | var x => exact ⟨h.1, by simp [h.2]⟩
  | lit s => exact h

theorem GovI.Ok.toGov {gi : GovI} (h : gi.Ok) : gi.toGov.Ok := by
  constructor
  · intro fns par x y hx hy
    obtain ⟨h1, h2⟩ := h.eqT (fun n => (fns n).isSome) x y hx.free hy.free
    refine ⟨h1, fun r => ?_⟩
    simp only [GovI.toGov, h2]
    cases x.val (par r) <;> cases y.val (par r) <;> rfl
  · intro fns par f fn args hf ff hne ha
    obtain ⟨h1, h2⟩ := h.callT (fun n => (fns n).isSome) f args hf (by rw [ff]; rfl) hne (fun a h => (ha a h).free)
    refine ⟨h1, fun r => ?_⟩
    simp only [GovI.toGov, h2]
    cases args.mapM (fun a => a.val (par r)) with
    | none => rfl
    | some vs =>
      simp only [Ask.run, ff, Option.elim_some]
      cases fn vs <;> rfl

/-! ## What is asked -/

theorem Ref.mayBe {base : Str → Option Fn} {rk pk : Str} {rArgs pArgs : List Str}
    (N : Naming base rk pk rArgs pArgs) {rvals : List Str} (hr : rvals.length = rArgs.length) {d : PolicyDef} {r : Rule}
    {a : Ref} {v : Str} (h : (a.term rk pk).val (MatchParams.get ⟨d, declare rk rArgs, rvals⟩ r) = some v) :
    a.MayBe rArgs rvals v := by
  cases a with
  | req x =>
    have e := get_r (ps := ⟨d, declare rk rArgs, rvals⟩) (r := r) (N.rHead' x)
    have e' := e.trans (getParameter_attr rk N.r.good rvals hr x)
    exact e'.symm.trans h
  | pol y => trivial
  | lit s => exact (Option.some.inj h).symm

theorem Ref.mayBeAll {base : Str → Option Fn} {rk pk : Str} {rArgs pArgs : List Str}
    (N : Naming base rk pk rArgs pArgs) {rvals : List Str} (hr : rvals.length = rArgs.length) {d : PolicyDef} {r : Rule} :
    ∀ {args : List Ref} {vs : List Str}, (args.map (Ref.term rk pk)).mapM
      (fun a => a.val (MatchParams.get ⟨d, declare rk rArgs, rvals⟩ r)) = some vs → Ref.MayBeAll rArgs rvals args vs
  | [], vs, h => by
    cases h
    trivial
  | a :: as, vs, h => by
    rw [List.map_cons, List.mapM_cons] at h
    cases h1 : (a.term rk pk).val (MatchParams.get ⟨d, declare rk rArgs, rvals⟩ r) with
    | none => rw [h1] at h; cases h
    | some v =>
      cases h2 : (as.map (Ref.term rk pk)).mapM
          (fun a => a.val (MatchParams.get ⟨d, declare rk rArgs, rvals⟩ r)) with
      | none => rw [h1, h2] at h; cases h
      | some ws =>
        rw [h1, h2] at h
        cases h
        exact ⟨Ref.mayBe N hr h1, Ref.mayBeAll N hr h2⟩

theorem Ref.free {base : Str → Option Fn} {rk pk : Str} {rArgs pArgs : List Str} (N : Naming base rk pk rArgs pArgs)
    {known : Str → Bool} (hk : ∀ n, known n = (base n).isSome) {a : Ref} (h : a.Known rArgs pArgs) :
    (a.term rk pk).Free (GovI.withEvalName known) := by
  have key : ∀ (c : Char) (n : Str), n.head? = some c → c ≠ 'e' → base n = none → GovI.withEvalName known n = false := by
    intro c n h1 h2 h3
    have : n ≠ s% "eval" := by
      rintro rfl
      exact h2 (Option.some.inj h1).symm
    simp [GovI.withEvalName, this, hk, h3]
  cases a with
  | req x => exact ⟨N.r.ident x h, key 'r' _ (N.rHead' x) (by decide) (N.r.free x h)⟩
  | pol y => exact ⟨N.p.ident y h, (N.pHead y).elim (fun e => key 'p' _ e (by decide) (N.p.free y h)) (fun e => key 'g' _ e (by decide) (N.p.free y h))⟩
  | lit s => exact h.1

theorem Ask.only_mono {P Q : Str → List Str → Prop} (h : ∀ f vs, P f vs → Q f vs) : ∀ a : Ask, a.Only P → a.Only Q
  | .ret _, _ => trivial
  | .call f vs k, ha => ⟨h f vs ha.1, fun x => only_mono h (k x) (ha.2 x)⟩

/-- The evaluation of an atom makes at most the call written there. -/
theorem Atom.only {base : Str → Option Fn} {rk pk : Str} {rArgs pArgs : List Str} (N : Naming base rk pk rArgs pArgs)
    {known : Str → Bool} (hk : ∀ n, known n = (base n).isSome) {gi : GovI} (hgi : gi.Ok) {rvals : List Str}
    (hr : rvals.length = rArgs.length) (depth : Nat) (d : PolicyDef) (r : Rule) {a : Atom} (hu : a.Uses rArgs pArgs)
    (hc : ∀ g args, a = .call g args → g ≠ s% "eval" ∧ (base g).isSome = true) :
    (gi.stageAsk known depth (a.text rk pk) (MatchParams.get ⟨d, declare rk rArgs, rvals⟩ r)).Only
      (fun g vs => ∃ args, a = .call g args ∧ Ref.MayBeAll rArgs rvals args vs) := by
  unfold GovI.stageAsk
  cases a with
  | eq x y =>
    have := (hgi.eqT (GovI.withEvalName known) (x.term rk pk) (y.term rk pk) (Ref.free N hk hu.1) (Ref.free N hk hu.2)).2
    rw [Ref.term_text, Ref.term_text] at this
    rw [Atom.text, this]
    cases (x.term rk pk).val (MatchParams.get ⟨d, declare rk rArgs, rvals⟩ r) <;>
      cases (y.term rk pk).val (MatchParams.get ⟨d, declare rk rArgs, rvals⟩ r) <;> trivial
  | call g args =>
    obtain ⟨hne, hg⟩ := hc g args rfl
    have := (hgi.callT (GovI.withEvalName known) g (args.map (Ref.term rk pk)) hu.2.2.1
      (by simp [GovI.withEvalName, hk, hg]) (by simpa using hu.1) (by
        intro x hx
        obtain ⟨y, hy, rfl⟩ := List.mem_map.1 hx
        exact Ref.free N hk (hu.2.1 y hy))).2
    have e : (args.map (Ref.term rk pk)).map GovTerm.text = args.map (Ref.name rk pk) := by
      rw [List.map_map]
      exact List.map_congr_left (fun x _ => Ref.term_text rk pk x)
    rw [e] at this
    rw [Atom.text, this]
    cases hv : (args.map (Ref.term rk pk)).mapM
        (fun a => a.val (MatchParams.get ⟨d, declare rk rArgs, rvals⟩ r)) with
    | none => trivial
    | some vs =>
      simp only [Ask.handle, if_neg hne, Ask.Only]
      exact ⟨⟨args, rfl, Ref.mayBeAll N hr hv⟩, fun _ => trivial⟩

namespace FnModel

/-- **C87** for one question: the manager is left as it is. -/
theorem c87_question (build : FnBuild) (s : FnModel) (key : Str) (ds : List Str) (h : QuietAbout build s key ds) :
    ∃ mgr, s.model.mgrOf key = some mgr ∧ ∀ u r, ∃ x, mgr.hasLink u r ds = .ok (mgr, x) := by
  obtain ⟨hg, ⟨level, pm, L, O, h⟩ | ⟨level, m, dmm, cs, h, h1, h2, h3⟩⟩ := h
  · obtain ⟨-, -, rm, hm, h3⟩ := h.behind hg
    exact ⟨_, hm, fun u r => ⟨(rm.hasLink u r).2, by simp only [Mgr.hasLink, h3.has.inv.hasLink_state u r]⟩⟩
  · obtain ⟨_, _, _, _, _, _, _, _, _, mgr, hm, hq⟩ := c86_roles build key hg s level m dmm cs h
    exact ⟨mgr, hm, fun u r => hq ds u r h1 h2 h3⟩

/-- **C87**.  `Enforce`, with calls of functions that may change the managers, made in the order in which the code makes
them: if all calls of role functions that the texts of the matcher can make are quiet, whatever the rules are and
whatever the functions return, then the request returns what it returns if role functions are taken as functions,
no rule changes, and every function returns for all arguments what it returned before. -/
theorem c87_unchanged (build : FnBuild) (s : FnModel) (gi : GovI) (depth : Nat) (ord : Order) (params : List Param)
    (P : Str → List Str → Prop) (hA : s.Asks build gi depth params P)
    (hQ : ∀ key u r ds, s.fns.get key = some .role → P key (u :: r :: ds) → QuietAbout build s key ds) :
    s.enforceE build gi depth ord params = s.enforce build gi.toGov depth ord params ∧
    (∀ key, (s.enforceE build gi depth ord params).1.model.policyRules key = s.model.policyRules key) ∧
    ∀ f, f ≠ s% "eval" → (s.enforceE build gi depth ord params).1.functions f = s.functions f := by
  have e : s.enforceE build gi depth ord params = s.enforce build gi.toGov depth ord params := by
    refine enforceE_quiet build s gi depth ord params P hA ?_
    intro key rp u r ds hf hrp hP mgr b hl
    obtain ⟨mgr', hm, hq⟩ := c87_question build s key ds (hQ key u r ds hf hP)
    unfold mgrOf at hm
    rw [hrp] at hm
    cases hm
    obtain ⟨x, hx⟩ := hq u r
    rw [hx] at hl
    cases hl
    rfl
  have hx : s.model.Extends (s.enforce build gi.toGov depth ord params).1.model := by
    have := newContext_extends (build s.knows) s.model (splitParams params).1
    simp only [enforce, Model.enforceParams]
    cases hn : newContext (build s.knows) s.model (splitParams params).1 with
    | mk m' r =>
      rw [hn] at this
      cases r <;> exact this
  rw [e]
  refine ⟨rfl, fun key => ?_, fun f hf => ?_⟩
  · exact hx.policyRules key
  · unfold functions
    have : (s.enforce build gi.toGov depth ord params).1.fns.get f = s.fns.get f := by
      simp only [enforce]
      split
      · exact GoMap.get_set_ne _ _ hf
      · rfl
    rw [this]
    rcases hx.role f with ⟨e1, e2⟩ | ⟨p, x, e1, e2⟩
    · rw [e1, e2]
    · rw [e1, e2]; rfl

/-- The texts of a matcher that is a condition make only the calls written in it. -/
theorem asks_written (build : FnBuild) (u : Str → Res Stage) (hc : build.Coherent u)
    (hbin : ∀ e s, u e = .ok s → s.Binary)
    (grow : Nat → Nat) (rk mk ek pk rText eff : Str) (rArgs pArgs : List Str) (f : List (List Cond)) (root : Stage)
    (hw : (Cond.formula rk pk f).wf = true) (hs : (Cond.formula rk pk f).safe = true)
    (hroot : buildMatcherDef grow (Cond.formula rk pk f).toks = .ok root)
    (H : Rule → Prop) (s : FnModel) (h : FnSeen build mk root H s) (hmk : mk ≠ []) (hek : ek ≠ [])
    (hr : s.model.rDefs.get rk = some rText) (hrA : splitC ',' (removeSpaces rText) = rArgs)
    (he : s.model.eDefs.get ek = some eff)
    (gi : GovI) (hgi : gi.Ok) (N : Naming s.functions rk pk rArgs pArgs) (hpk : pk.head? = some 'p')
    (rvals : List Str) (hrl : rvals.length = rArgs.length)
    (hu : ∀ a ∈ Cond.anyAtoms f, a.Uses rArgs pArgs)
    (hf : ∀ g args, Atom.call g args ∈ Cond.anyAtoms f → g ≠ s% "eval" ∧ (s.functions g).isSome = true)
    (huse : pk = s% "p" ∨ ∃ a ∈ Cond.anyAtoms f, ∃ y, Ref.pol y ∈ a.refs) (depth : Nat) (params : List Param)
    (hpar : params = named rk mk ek ++ rvals.map .val ∨
      (rk = s% "r" ∧ mk = s% "m" ∧ ek = s% "e" ∧ params = rvals.map .val)) :
    s.Asks build gi depth params
      (fun g vs => ∃ args, Atom.call g args ∈ Cond.anyAtoms f ∧ Ref.MayBeAll rArgs rvals args vs) := by
  have hfull : ∀ a ∈ Cond.anyAtoms f, a.Full := by
    intro a ha
    have := hu a ha
    cases a with
    | eq a b => trivial
    | call g args => exact this.1
  have hall : root.All fun st => ∀ (d : PolicyDef) r,
      (gi.stageAsk s.has depth st.expr (MatchParams.get ⟨d, declare rk rArgs, rvals⟩ r)).Only
        (fun g vs => ∃ args, Atom.call g args ∈ Cond.anyAtoms f ∧ Ref.MayBeAll rArgs rvals args vs) := by
    have hroot' := hroot
    rw [buildMatcherDef_formula grow _ hw hs] at hroot'
    cases hroot'
    refine Cond.all_trD rk pk f [] (fun a ha ks d r => ?_) trivial
    simp only [Stage.expr]
    rw [Atom.expr_eq rk pk (hfull a ha)]
    refine Ask.only_mono ?_ _ (Atom.only N (fun _ => rfl) hgi hrl depth d r (hu a ha) (fun g args e => hf g args (e ▸ ha)))
    rintro g vs ⟨args, rfl, h⟩
    exact ⟨args, ha, h⟩
  have hkey : root.policyKey = pk := by
    rw [buildMatcherDef_formula grow _ hw hs] at hroot
    cases hroot
    exact policyKey_trD hw N hfull hu huse
  have hph : root.policyKey.head? = some 'p' := by
    rw [hkey]; exact hpk
  obtain ⟨m', hg, hps, i, hi, hi'⟩ := h.side hc hph
  obtain ⟨j, mt, p, d, e1, e2, e3, -⟩ := hg.bound.inv hbin hph
  rw [hi'] at e1
  cases e1
  have hmt : mt.exprRoot = root := by
    obtain ⟨j, mt', x1, x2, x3⟩ := hg.bound.tied.2
    rw [hi'] at x1
    cases x1
    rw [e2] at x2
    cases x2
    exact x3
  have hres : s.model.resolve (.live root.policyKey i) = some mt := by
    rw [← e2]
    rw [hps.pMap] at e3
    simp only [resolve, hps.pMap, e3]
  have n1 : rk ≠ [] := by rintro rfl; exact absurd N.rHead (by simp)
  intro m1 ctx mt1 rDef1 hn hb hd
  have hnew : m1 = s.model ∧ ctx = ⟨some (newPolicyDef rk rText), some (.live root.policyKey i), some eff⟩ ∧
      (splitParams params).2 = rvals := by
    rcases hpar with rfl | ⟨rfl, rfl, rfl, rfl⟩
    · rw [splitParams_named, newContext_named hr hi he n1 hmk hek] at hn
      cases hn
      exact ⟨rfl, rfl, by rw [splitParams_named]⟩
    · rw [splitParams_vals, newContext_default hr hi he] at hn
      cases hn
      exact ⟨rfl, rfl, by rw [splitParams_vals]⟩
  obtain ⟨rfl, rfl, e⟩ := hnew
  simp only [Option.bind_some, hres] at hb
  cases hb
  cases hd
  rw [hmt, e, newPolicyDef_names hrA N.r.good]
  exact Stage.all_mono (fun st hst r => hst mt.pDef r) _ hall

/-- **C87** for matchers that are conditions without `eval`: it is enough that the calls of role functions that are
written in the condition, with the values of the request, are about managers without domains or about at most one
domain that is no pattern. -/
theorem c87_matcher (build : FnBuild) (u : Str → Res Stage) (hc : build.Coherent u)
    (hbin : ∀ e s, u e = .ok s → s.Binary)
    (grow : Nat → Nat) (rk mk ek pk rText eff : Str) (rArgs pArgs : List Str) (f : List (List Cond)) (root : Stage)
    (hw : (Cond.formula rk pk f).wf = true) (hs : (Cond.formula rk pk f).safe = true)
    (hroot : buildMatcherDef grow (Cond.formula rk pk f).toks = .ok root)
    (H : Rule → Prop) (s : FnModel) (h : FnSeen build mk root H s) (hmk : mk ≠ []) (hek : ek ≠ [])
    (hr : s.model.rDefs.get rk = some rText) (hrA : splitC ',' (removeSpaces rText) = rArgs)
    (he : s.model.eDefs.get ek = some eff)
    (gi : GovI) (hgi : gi.Ok) (N : Naming s.functions rk pk rArgs pArgs) (hpk : pk.head? = some 'p')
    (rvals : List Str) (hrl : rvals.length = rArgs.length)
    (hu : ∀ a ∈ Cond.anyAtoms f, a.Uses rArgs pArgs)
    (hf : ∀ g args, Atom.call g args ∈ Cond.anyAtoms f → g ≠ s% "eval" ∧ (s.functions g).isSome = true)
    (huse : pk = s% "p" ∨ ∃ a ∈ Cond.anyAtoms f, ∃ y, Ref.pol y ∈ a.refs) (depth : Nat) (ord : Order)
    (hq : ∀ g args, Atom.call g args ∈ Cond.anyAtoms f → s.fns.get g = some .role →
      ∀ u r ds, Ref.MayBeAll rArgs rvals args (u :: r :: ds) → QuietAbout build s g ds)
    (params : List Param) (hpar : params = named rk mk ek ++ rvals.map .val ∨
      (rk = s% "r" ∧ mk = s% "m" ∧ ek = s% "e" ∧ params = rvals.map .val)) :
    s.enforceE build gi depth ord params = s.enforce build gi.toGov depth ord params ∧
    (∀ key, (s.enforceE build gi depth ord params).1.model.policyRules key = s.model.policyRules key) ∧
    ∀ f, f ≠ s% "eval" → (s.enforceE build gi depth ord params).1.functions f = s.functions f :=
  c87_unchanged build s gi depth ord params _
    (asks_written build u hc hbin grow rk mk ek pk rText eff rArgs pArgs f root hw hs hroot H s h hmk hek hr hrA he gi hgi
      N hpk rvals hrl hu hf huse depth params hpar)
    (by
      rintro key u r ds hrole ⟨args, hm, hv⟩
      exact hq key args hm hrole u r ds hv)

end FnModel

/-! ## The models with domains -/

namespace DomainRules

open DM DomState
open Shipped (Defined)

theorem matcher_atoms (b : Bool) : ∀ a ∈ Cond.anyAtoms (matcher b), a.Uses args args ∧
    ∀ g as, a = .call g as → g = s% "g" ∧ ∃ x y, as = [x, y, .req (s% "dom")] := by
  intro a ha
  cases b with
  | true =>
    have : Cond.anyAtoms (matcher true) = [.call (s% "g") [.req (s% "sub"), .pol (s% "sub"), .req (s% "dom")],
      .eq (.req (s% "dom")) (.pol (s% "dom")), .eq (.req (s% "obj")) (.pol (s% "obj")),
      .eq (.req (s% "act")) (.pol (s% "act"))] := rfl
    rw [this] at ha
    simp only [List.mem_cons, List.not_mem_nil, or_false] at ha
    rcases ha with rfl | rfl | rfl | rfl
    · exact ⟨(written (s% "sub") true (by decide)).1, by rintro _ _ ⟨⟩; exact ⟨rfl, _, _, rfl⟩⟩
    · exact ⟨(written (s% "dom") false (by decide)).1, by rintro _ _ ⟨⟩⟩
    · exact ⟨(written (s% "obj") false (by decide)).1, by rintro _ _ ⟨⟩⟩
    · exact ⟨(written (s% "act") false (by decide)).1, by rintro _ _ ⟨⟩⟩
  | false =>
    have : Cond.anyAtoms (matcher false) = [.eq (.req (s% "sub")) (.pol (s% "sub")),
      .call (s% "g") [.req (s% "obj"), .pol (s% "obj"), .req (s% "dom")],
      .eq (.req (s% "dom")) (.pol (s% "dom")), .eq (.req (s% "act")) (.pol (s% "act"))] := rfl
    rw [this] at ha
    simp only [List.mem_cons, List.not_mem_nil, or_false] at ha
    rcases ha with rfl | rfl | rfl | rfl
    · exact ⟨(written (s% "sub") false (by decide)).1, by rintro _ _ ⟨⟩⟩
    · exact ⟨(written (s% "obj") true (by decide)).1, by rintro _ _ ⟨⟩; exact ⟨rfl, _, _, rfl⟩⟩
    · exact ⟨(written (s% "dom") false (by decide)).1, by rintro _ _ ⟨⟩⟩
    · exact ⟨(written (s% "act") false (by decide)).1, by rintro _ _ ⟨⟩⟩

section

variable (build : FnBuild) (u : Str → Res Stage) (hc : build.Coherent u) (hbin : ∀ e s, u e = .ok s → s.Binary)
  (grow : Nat → Nat) (root : Stage) (H : Rule → Prop) (s : FnModel) (h : FnModel.FnSeen build (s% "m") root H s)
  (D : Defined s argsText argsText SOME_ALLOW args args)
  (gi : GovI) (hgi : gi.Ok) (sub dom obj act : Str) (ord : Order)
  (depth : Nat)
  (level : Nat) (m dmm : Option PMatcher) (cs : List DM.Call)
  (hg : FnModel.DomainsAre build (s% "g") s level m dmm cs) (hdom : Clean [dom])

include hc hbin h D hgi hg hdom

/-- **C87** for the models in /repo/examples whose roles have domains: a request about a domain that is no pattern
changes nothing, and returns what `c86_domains` and `c86_objects` say. -/
theorem c87_same (onSub : Bool)
    (hroot : buildMatcherDef grow (Cond.formula (s% "r") (s% "p") (matcher onSub)).toks = .ok root)
    (hnp : ∀ pm, nowDomain dmm cs = some pm → pm.isPattern dom = false) :
    s.enforceE build gi depth ord ([sub, dom, obj, act].map .val) =
      s.enforce build gi.toGov depth ord ([sub, dom, obj, act].map .val) ∧
    (∀ key, (s.enforceE build gi depth ord ([sub, dom, obj, act].map .val)).1.model.policyRules key =
      s.model.policyRules key) ∧
    ∀ f, f ≠ s% "eval" →
      (s.enforceE build gi depth ord ([sub, dom, obj, act].map .val)).1.functions f = s.functions f := by
  have hN : Naming s.functions (s% "r") (s% "p") args args :=
    ⟨writable_of (by decide) (by decide +kernel) D.free, writable_of (by decide) (by decide +kernel) D.free', rfl,
      'p', [], rfl, .inl rfl, by decide⟩
  refine FnModel.c87_matcher build u hc hbin grow (s% "r") (s% "m") (s% "e") (s% "p") argsText SOME_ALLOW args args
    (matcher onSub) root (by cases onSub <;> decide) (by cases onSub <;> decide) hroot H s h (by decide) (by decide) D.r
    (by decide) D.e gi hgi hN rfl [sub, dom, obj, act] rfl (fun a ha => (matcher_atoms onSub a ha).1) ?_ (.inl rfl) depth
    ord ?_ _ (.inr ⟨rfl, rfl, rfl, rfl⟩)
  · intro g as hm
    obtain ⟨rfl, -⟩ := (matcher_atoms onSub _ hm).2 g as rfl
    obtain ⟨_, _, fn, _, _, _, _, hfn, _⟩ := FnModel.c86_roles build (s% "g") rfl s level m dmm cs hg
    exact ⟨by decide, by rw [hfn]; rfl⟩
  · intro g as hm _ a b ds hv
    obtain ⟨rfl, x, y, rfl⟩ := (matcher_atoms onSub _ hm).2 g as rfl
    have : ds = [dom] := by
      obtain ⟨-, -, hv⟩ := hv
      match ds, hv with
      | [d], ⟨hd, _⟩ => exact congrArg (· :: []) (Option.some.inj (show some d = some dom from (by
          have : attr args [sub, dom, obj, act] (s% "dom") = some d := hd
          rw [← this]; rfl)))
    subst this
    exact ⟨rfl, .inr ⟨level, m, dmm, cs, hg, hdom, by simp, fun pm e d hd => by
      rw [List.mem_singleton] at hd
      subst hd
      exact hnp pm e⟩⟩

/-- **C87** with **C86**, examples/rbac_with_domains_model.conf and examples/rbac_with_domain_pattern_model.conf:
what `Enforce` returns, when calls of `g` may change the manager. -/
theorem c87_domains (hsc : gi.toGov.Scoped) (hord : ord.Valid) (hdep : 0 < depth)
    (hroot : buildMatcherDef grow (Cond.formula (s% "r") (s% "p") (matcher true)).toks = .ok root)
    (hnp : ∀ pm, nowDomain dmm cs = some pm → pm.isPattern dom = false)
    (hflat : ∀ pm, nowRole m cs = some pm → ∀ S, Steps (DomState.empty m dmm) cs S →
      ∀ a, (a = [] ∨ ∃ d o c, H [a, d, o, c]) → pm.FlatOn (fun n => S.nameAt dom n ∨ n = sub ∨ n = a)) :
    ∃ (S : DomState) (rules : List Rule) (answer : Bool), Steps (DomState.empty m dmm) cs S ∧
      s.model.policyRules (s% "p") = some rules ∧
      (s.enforceE build gi depth ord ([sub, dom, obj, act].map .val)).2 = .ok answer ∧
      (answer = true ↔
        (∃ role, [role, dom, obj, act] ∈ rules ∧
          roleAnswer (level - 2) (S.linkAt dom) (S.nameAt dom) sub role (nowRole m cs)) ∨
        Trace (fun a b => roleAnswer (level - 2) (S.linkAt dom) (S.nameAt dom) a b (nowRole m cs)) Eq H rules
          sub dom obj act) := by
  rw [(c87_same build u hc hbin grow root H s h D gi hgi sub dom obj act ord depth level m dmm cs hg hdom true hroot
    hnp).1]
  exact c86_domains build u hc hbin grow root H s h D gi.toGov hgi.toGov hsc sub dom obj act ord hord depth hdep level m
    dmm cs hg hdom hroot hnp hflat

end

end DomainRules

/-! ## Pattern domains -/

namespace DM

theorem patternLinks_panic {d : DM} {p : Str} (h : d.linksOf p = none) : ∀ ps : List Str, p ∈ ps →
    d.patternLinks ps = .panic
  | [], hm => by cases hm
  | q :: qs, hm => by
    rw [patternLinks]
    cases hq : d.linksOf q with
    | none => rfl
    | some ls =>
      rcases List.mem_cons.1 hm with rfl | hm
      · rw [h] at hq; cases hq
      · simp only [patternLinks_panic h qs hm, Res.map]

/-- **C87** is false for questions about pattern domains.  In any domain manager with a domain matcher, `HasLink` about a
pattern that is not in use succeeds, and leaves the links as they are; after it `HasLink` and `AddLink` about every domain
that is not in use and matches the pattern panic. -/
theorem c87_poison (d : DM) (pm : PMatcher) (hd : d.domMatcher = some pm) (p x : Str) (hp : Clean [p]) (hx : Clean [x])
    (hpp : pm.isPattern p = true) (hpx : pm.isPattern x = false) (hm : pm.match x p = true)
    (hsp : d.subs.get p = none) (hsx : d.subs.get x = none) (u r : Str) :
    ∃ d' b, (Mgr.dm d).hasLink u r [p] = .ok (.dm d', b) ∧ d'.range = d.range ∧
      ∀ u' r', (Mgr.dm d').hasLink u' r' [x] = .panic ∧ (Mgr.dm d').addLink u' r' [x] = .panic := by
  have hne : p ≠ x := by
    rintro rfl
    rw [hpp] at hpx; cases hpx
  have hpd : p ≠ defaultDomain := (hp p (by simp)).2
  obtain ⟨k, hk⟩ := DM.fuelFor_two d [p]
  have hgp : getDomain [p] = (some p, []) := getDomain_clean hp
  have hgx : getDomain [x] = (some x, []) := getDomain_clean hx
  have hlast : ∃ rm : RM, ∃ s' : DM, getDefault (new (d.level - 1) d.matcher d.domMatcher) = .ok (s', rm) := by
    rw [hd]
    simp only [getDefault, new, dflt, newDomain, domMatcher]
    by_cases h : pm.isPattern defaultDomain = true
    · rw [if_pos h]; exact ⟨_, _, rfl⟩
    · rw [if_neg h]; exact ⟨_, _, rfl⟩
  obtain ⟨rm, s', hrm⟩ := hlast
  refine ⟨d.setPatterns (sins d.patterns p), (rm.hasLink u r).2, ?_, ?_, ?_⟩
  · simp only [Mgr.hasLink, hk, DM.hasLink, query, hgp, getSub, hsp, newDomain, hd, hpp, if_true, Res.bind, List.foldl_nil,
      Res.map]
    rw [← hd]
    simp only [getDomain, hrm]
    simp
  · cases d; rfl
  · have hpan : (d.setPatterns (sins d.patterns p)).newDomain x = .panic := by
      have e : (d.setPatterns (sins d.patterns p)).domMatcher = some pm := by rw [← hd]; cases d; rfl
      have hl : (d.setPatterns (sins d.patterns p)).linksOf p = none := by
        have : (d.setPatterns (sins d.patterns p)).subs = d.subs := by cases d; rfl
        simp only [linksOf, if_neg hpd, this, hsp, Option.map_none]
      simp only [newDomain, e, hpx, Bool.false_eq_true, if_false]
      rw [patternLinks_panic hl]
      · rfl
      · have : (d.setPatterns (sins d.patterns p)).patterns = sins d.patterns p := by cases d; rfl
        rw [matchingPatterns, this, List.mem_filter]
        refine ⟨?_, by simp [hne, hm]⟩
        unfold sins
        split
        · rename_i h; simpa using h
        · simp
    have hs : (d.setPatterns (sins d.patterns p)).subs.get x = none := by
      have : (d.setPatterns (sins d.patterns p)).subs = d.subs := by cases d; rfl
      rw [this]; exact hsx
    intro u' r'
    obtain ⟨k', hk'⟩ := DM.fuelFor_two (d.setPatterns (sins d.patterns p)) [x]
    constructor
    · simp only [Mgr.hasLink, hk', DM.hasLink, query, hgx, getSub, hs, hpan, Res.bind, Res.map]
    · simp only [Mgr.addLink, hk', DM.addLink, hgx, getSub, hs, hpan, Res.bind, Res.map]

end DM

/-! ## Examples -/

namespace Changes

/-- A library that knows the two forms of expressions, and shows an expression only the parameters named in it. -/
def lib : GovI where
  compiles := fun _ _ => true
  eval := fun _ e par =>
    if '(' ∈ e then
      if e.takeWhile (· ≠ '(') ∈ words e then
        match (splitC ',' (removeSpaces ((e.dropWhile (· ≠ '(')).drop 1).dropLast)).mapM
            (EndToEnd.miniTerm (only (words e) par)) with
        | some vs => .call (e.takeWhile (· ≠ '(')) vs .ret
        | none => .ret .err
      else .ret .err
    else
      match EndToEnd.miniTerm (only (words e) par) (e.takeWhile (· ≠ ' ')),
          EndToEnd.miniTerm (only (words e) par) ((e.dropWhile (· ≠ ' ')).drop 4) with
      | some a, some b => .ret (.bool (a == b))
      | _, _ => .ret .err

theorem free_ok {known : Str → Bool} {x : GovTerm} (h : x.Free known) :
    x.Ok (fun n => if known n then some (fun _ => .err) else none) := by
  cases x with
  | var x => exact ⟨h.1, by simp [h.2]⟩
  | lit s => exact h

open EndToEnd

theorem lib_ok : lib.Ok := by
  constructor
  · intro known x y hx hy
    have hx' := free_ok hx
    have hy' := free_ok hy
    refine ⟨rfl, fun par => ?_⟩
    have e : x.text ++ s% " == " ++ y.text = x.text ++ ' ' :: (s% "== " ++ y.text) := by simp
    obtain ⟨t1, t2⟩ := takeWhile_until (y := s% "== " ++ y.text)
      (term_ne hx' (c := ' ') (by decide) (by decide) (by decide))
    have hp : '(' ∉ x.text ++ s% " == " ++ y.text := by
      have h1 := term_ne hx' (c := '(') (by decide) (by decide) (by decide)
      have h2 := term_ne hy' (c := '(') (by decide) (by decide) (by decide)
      simp [h1, h2]
    have hw := words_eq x.text y.text
    have v1 := only_val (ws := words (x.text ++ s% " == " ++ y.text)) hx' (by rw [hw]; intro w h; simp [h]) par
    have v2 := only_val (ws := words (x.text ++ s% " == " ++ y.text)) hy' (by rw [hw]; intro w h; simp [h]) par
    simp only [lib, if_neg hp]
    generalize words (x.text ++ s% " == " ++ y.text) = ws at v1 v2
    rw [e, t1, t2]
    simp only [List.drop_succ_cons, List.drop_zero, List.cons_append, List.nil_append]
    rw [miniTerm_text hx', miniTerm_text hy', v1, v2]
    cases x.val par <;> cases y.val par <;> rfl
  · intro known f args hf ff hne ha
    refine ⟨rfl, fun par => ?_⟩
    have ha' := fun a h => free_ok (ha a h)
    have e : f ++ s% "(" ++ join (s% ", ") (args.map GovTerm.text) ++ s% ")" =
        f ++ '(' :: (join (s% ", ") (args.map GovTerm.text) ++ s% ")") := by
      simp
    obtain ⟨t1, t2⟩ := takeWhile_until (y := join (s% ", ") (args.map GovTerm.text) ++ s% ")")
      (ident_ne hf (c := '(') (by decide))
    have hp : '(' ∈ f ++ s% "(" ++ join (s% ", ") (args.map GovTerm.text) ++ s% ")" := by simp
    have hw : words (f ++ s% "(" ++ join (s% ", ") (args.map GovTerm.text) ++ s% ")") = _ :=
      words_call (args.map GovTerm.text) hf
    have hv : args.mapM (fun a => a.val (only (words (f ++ s% "(" ++ join (s% ", ") (args.map GovTerm.text) ++ s% ")"))
        par)) = args.mapM (fun a => a.val par) := by
      apply mapM_congr'
      intro a hm
      apply only_val (ha' a hm)
      rw [hw]
      intro w h
      exact List.mem_cons_of_mem _ (List.mem_flatMap.2 ⟨a.text, List.mem_map.2 ⟨a, hm, rfl⟩, h⟩)
    have hfw : f ∈ words (f ++ s% "(" ++ join (s% ", ") (args.map GovTerm.text) ++ s% ")") := by rw [hw]; simp
    simp only [lib, if_pos hp]
    generalize words (f ++ s% "(" ++ join (s% ", ") (args.map GovTerm.text) ++ s% ")") = ws at hv hfw
    rw [e, t1, t2, if_pos hfw]
    simp only [List.drop_succ_cons, List.drop_zero, List.dropLast_concat]
    rw [EndToEnd.removeSpaces_join _ (fun a h => by
        obtain ⟨x, hx, rfl⟩ := List.mem_map.1 h
        exact term_ne (ha' x hx) (by decide) (by decide) (by decide)),
      splitC_join ',' _ (by simpa using hne) (fun a h => by
        obtain ⟨x, hx, rfl⟩ := List.mem_map.1 h
        exact term_ne (ha' x hx) (by decide) (by decide) (by decide)),
      mapM_terms _ args ha', hv]
    cases args.mapM (fun a => a.val par) <;> rfl

theorem lib_scoped : lib.toGov.Scoped := by
  intro fns fns' par par' e _ hf
  refine ⟨rfl, fun r r' hr => ?_⟩
  simp only [GovI.toGov, lib]
  rw [only_congr hr]
  split
  · split
    · rename_i h
      cases (splitC ',' (removeSpaces ((e.dropWhile (· ≠ '(')).drop 1).dropLast)).mapM
          (EndToEnd.miniTerm (only (words e) (par' r'))) with
      | none => rfl
      | some vs => simp only [Ask.run, hf _ h]
    · rfl
  · cases EndToEnd.miniTerm (only (words e) (par' r')) (e.takeWhile (· ≠ ' ')) <;>
      cases EndToEnd.miniTerm (only (words e) (par' r')) ((e.dropWhile (· ≠ ' ')).drop 4) <;> rfl

open DomainRules DomainRules.Run DM DomState

/-- The hypotheses of `c87_domains` hold of the program of `Props/DomainRules.lean`. -/
example (sub dom obj act : Str) (hdom : Clean [dom]) (hnp : pathMatcher.isPattern dom = false) :
    ∃ (H : Rule → Prop) (S : DomState) (rules : List Rule) (answer : Bool),
      Steps (DomState.empty none none) calls1 S ∧
      (program (s% "subjects")).model.policyRules (s% "p") = some rules ∧
      ((program (s% "subjects")).enforceE fbuild lib 1 Order.fwd ([sub, dom, obj, act].map .val)).2 = .ok answer ∧
      (answer = true ↔
        (∃ role, [role, dom, obj, act] ∈ rules ∧ roleAnswer 8 (S.linkAt dom) (S.nameAt dom) sub role none) ∨
        Trace (fun a b => roleAnswer 8 (S.linkAt dom) (S.nameAt dom) a b none) Eq H rules sub dom obj act) := by
  obtain ⟨H, hH⟩ := seen (text := s% "subjects") rfl (by decide +kernel) (by decide +kernel) (by decide +kernel)
    (by decide +kernel) (by decide +kernel) (by decide +kernel)
  exact ⟨H, c87_domains fbuild reading coherent binary (fun _ => 0) (rootOf true) H _ (hH.onManager _ _)
    ⟨by decide +kernel, by rfl, by decide +kernel, by decide +kernel, by decide +kernel⟩ lib lib_ok sub dom obj act
    Order.fwd 1 10 none none calls1 (programAre _) hdom lib_scoped Order.fwd_valid (by decide)
    (buildMatcherDef_formula _ _ (by decide) (by decide)) (by rintro _ ⟨⟩; exact hnp) (by rintro _ ⟨⟩)⟩

/-- A request, and the state it leaves. -/
def request (s : FnModel) (vals : List Str) : FnModel × Res Bool := s.enforceE fbuild lib 1 Order.fwd (vals.map .val)

/-- One request after the other; the answers. -/
def requests : FnModel → List (List Str) → List (Res Bool)
  | _, [] => []
  | s, q :: qs => (request s q).2 :: requests (request s q).1 qs

/-- Requests about domains that are no patterns: asking twice changes nothing. -/
example : requests (program (s% "subjects")) [[s% "alice", s% "domain1", s% "data1", s% "read"],
    [s% "bob", s% "domain1", s% "data1", s% "read"], [s% "alice", s% "domain1", s% "data1", s% "read"]] =
    [.ok true, .ok false, .ok true] := by decide +kernel

/-- **C87** is false without the condition on the domain: in the program of `Props/DomainRules.lean`, which is that of
model_test.go:618-632, a request about the domain `:x`, which is denied, makes the following request about `domain1`
panic, which is allowed before. -/
theorem c87_fails :
    requests (program (s% "subjects")) [[s% "alice", s% "domain1", s% "data1", s% "read"],
      [s% "mallory", s% ":x", s% "data1", s% "read"], [s% "alice", s% "domain1", s% "data1", s% "read"]] =
      [.ok true, .ok false, .panic] := by decide +kernel

/-- The same when the question about `:x` is answered with yes, … -/
theorem c87_fails_yes :
    requests (program (s% "subjects")) [[s% "admin", s% ":x", s% "data1", s% "read"],
      [s% "alice", s% "domain1", s% "data1", s% "read"]] = [.ok false, .panic] := by decide +kernel

/-- … and when it is asked in the middle of a request that is allowed: here `alice` has a rule for the domain `:x`. -/
theorem c87_fails_allowed :
    requests (add books2 [s% "p", s% "alice", s% ":x", s% "book_group", s% "read"])
      [[s% "alice", s% "domain2", s% "/book/1", s% "write"], [s% "alice", s% ":x", s% "book_group", s% "read"],
       [s% "alice", s% "domain2", s% "/book/1", s% "write"]] = [.ok true, .ok true, .panic] := by decide +kernel

/-- … and when it is asked in a deeper stage of a request that is denied: `alice` has rules, so the objects are looked
at.  `nobody` has none, the question is not asked, and the next request is answered. -/
theorem c87_fails_deeper :
    requests books2 [[s% "alice", s% ":x", s% "book_group", s% "read"],
      [s% "alice", s% "domain2", s% "/book/1", s% "write"]] = [.ok false, .panic] ∧
    requests books2 [[s% "nobody", s% ":x", s% "book_group", s% "read"],
      [s% "alice", s% "domain2", s% "/book/1", s% "write"]] = [.ok false, .ok true] := by decide +kernel

/-- The hypotheses of `c87_poison` hold of the manager of this program. -/
example : ∃ d, (program (s% "subjects")).model.mgrOf (s% "g") = some (.dm d) ∧ ∀ u r, ∃ d' b,
    (Mgr.dm d).hasLink u r [s% ":x"] = .ok (.dm d', b) ∧ d'.range = d.range ∧
      ∀ u' r', (Mgr.dm d').hasLink u' r' [s% "domain1"] = .panic ∧ (Mgr.dm d').addLink u' r' [s% "domain1"] = .panic := by
  have h : ∃ d : DM, (program (s% "subjects")).model.mgrOf (s% "g") = some (.dm d) ∧ d.domMatcher = some pathMatcher ∧
      d.subs.get (s% ":x") = none ∧ d.subs.get (s% "domain1") = none := by
    refine ⟨_, rfl, rfl, by decide +kernel, by decide +kernel⟩
  obtain ⟨d, h1, h2, h3, h4⟩ := h
  exact ⟨d, h1, fun u r => c87_poison d pathMatcher h2 (s% ":x") (s% "domain1") (by decide) (by decide) (by decide)
    (by decide) (by decide) h3 h4 u r⟩

end Changes

end Fastac
