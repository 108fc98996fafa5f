import Verif.Lemmas.DomainNames
import Verif.Lemmas.DomainHistory
import Verif.Props.Columns
import Verif.Props.PatternDomains
import Verif.Props.Shipped

/-!
# C86: roles in domains, and the models in /repo/examples that use them
-/

namespace Fastac

open Model

namespace FnModel

open DM DomState

/-- **C86**.  In any program, behind a role definition with domains: its rules are the links that are no copies, its
function answers as `roleAnswer` says for the links and names of the domain, where the state `S` of the domains follows
from the calls, and a question about a domain that is no pattern leaves the manager as it is. -/
theorem c86_roles (build : FnBuild) (key : Str) (hg : key.head? = some 'g') (s : FnModel) (level : Nat)
    (m dmm : Option PMatcher) (cs : List DM.Call) (h : DomainsAre build key s level m dmm cs) :
    ∃ (S : DomState) (rules : List Rule) (fn : Fn), Steps (DomState.empty m dmm) cs S ∧
      s.model.policyRules key = some rules ∧ rules.Nodup ∧
      (∀ rule, rule ∈ rules ↔ ∃ u r ds, rule = u :: r :: ds ∧ Clean ds ∧ ds.length ≤ 1 ∧ S.own (domKey ds) u r) ∧
      s.functions key = some fn ∧
      (∀ ds a b, Clean ds → ds.length ≤ 1 →
        (∀ pm, nowRole m cs = some pm → pm.FlatOn (fun n => S.nameAt (domKey ds) n ∨ n = a ∨ n = b)) →
        ∃ x, fn (a :: b :: ds) = .bool x ∧
          (x = true ↔ roleAnswer (level - 1 - ds.length) (S.linkAt (domKey ds)) (S.nameAt (domKey ds)) a b
            (nowRole m cs))) ∧
      (∃ mgr, s.model.mgrOf key = some mgr ∧ ∀ ds a b, Clean ds → ds.length ≤ 1 →
        (∀ pm, nowDomain dmm cs = some pm → ∀ d ∈ ds, pm.isPattern d = false) →
        ∃ x, mgr.hasLink a b ds = .ok (mgr, x)) := by
  obtain ⟨h1, h2, d, S, hm, hS, hsh, hd⟩ := h.behind hg
  have hm' := hm
  unfold mgrOf at hm
  have hmS : S.m = nowRole m cs := (steps_m hS).1
  have hmD : S.dmm = nowDomain dmm cs := (steps_m hS).2
  cases hq : s.model.rpMap.get key with
  | none => rw [hq] at hm; cases hm
  | some rp =>
    rw [hq] at hm
    have hrp : rp.mgr = .dm d := by simpa using hm
    have hrules : rp.rules = d.range.map (fun l => l.1 :: l.2.1 :: l.2.2) := by
      unfold RolePolicy.rules RolePolicy.runs
      rw [hrp]
      simp only [Mgr.runs, List.map_map]
      induction d.range with
      | nil => rfl
      | cons x xs ih => simp only [List.map_cons, List.flatten_cons, ih]; rfl
    refine ⟨S, rp.rules, gFunction rp.mgr, hS, ?_, ?_, ?_, ?_, ?_, .dm d, hm', ?_⟩
    · unfold policyRules; rw [h1, hq]; rfl
    · rw [hrules]
      refine List.Pairwise.map _ ?_ hsh.range_nodup
      rintro ⟨u, r, ds⟩ ⟨u', r', ds'⟩ hne e
      simp only [List.cons.injEq] at e
      obtain ⟨rfl, rfl, rfl⟩ := e
      exact hne rfl
    · intro rule
      rw [hrules, List.mem_map]
      constructor
      · rintro ⟨⟨u, r, ds⟩, hr, rfl⟩
        exact ⟨u, r, ds, rfl, (hsh.range u r ds).1 hr⟩
      · rintro ⟨u, r, ds, rfl, hr⟩
        exact ⟨(u, r, ds), (hsh.range u r ds).2 hr, rfl⟩
    · simp only [FnModel.functions, h2, hq, Option.map_some]
    · intro ds a b hc hl hflat
      obtain ⟨k, hk⟩ := fuelFor_two d ds
      obtain ⟨dm', rm, e', hi, _⟩ := hsh.query hd (fun rm => rm.hasLink a b) (fun rm Lk hi => hi.hasLink_state a b)
        k ds hc hl
      refine ⟨(rm.hasLink a b).2, ?_, ?_⟩
      · rw [hrp]
        simp only [gFunction, Mgr.hasLink, hk, DM.hasLink, e', Res.map_ok]
      · rw [← hmS]
        exact RM.HasR.hasLink hi a b (by rw [hmS]; exact hflat)
    · intro ds a b hc hl hnp
      obtain ⟨k, hk⟩ := fuelFor_two d ds
      obtain ⟨dm', rm, e', hi, hsame⟩ := hsh.query hd (fun rm => rm.hasLink a b) (fun rm Lk hi => hi.hasLink_state a b)
        k ds hc hl
      have : dm' = d := by
        refine hsame ?_
        rintro ⟨pm, e, hp⟩
        cases ds with
        | nil => exact absurd ((hd pm e).symm.trans hp) (by decide)
        | cons x xs => exact absurd ((hnp pm (hmD ▸ e) x (by simp)).symm.trans hp) (by decide)
      subst this
      exact ⟨(rm.hasLink a b).2, by simp only [Mgr.hasLink, hk, DM.hasLink, e', Res.map_ok]⟩

/-- Without matchers the state of the domains is the links. -/
theorem plain_steps {cs : List DM.Call} (hc : ∀ c ∈ cs, ∃ o : DM.Op, c = .op o) : ∀ {S T : DomState}
    (_ : Steps S cs T) (_ : S.dmm = none) (_ : ∀ d a b, S.used d → ¬ S.copied d a b) (L : Str → Str → Str → Prop)
    (_ : ∀ d a b, S.linkAt d a b ↔ L d a b),
    T.dmm = none ∧ (∀ d a b, T.used d → ¬ T.copied d a b) ∧ ∀ d a b, T.linkAt d a b ↔ linksAfter L cs d a b := by
  have nog : ∀ S : DomState, S.dmm = none → ∀ d a b, ¬ S.given d a b := by
    rintro S h d a b ⟨-, p, ⟨pm, e, -⟩, -⟩
    rw [h] at e; cases e
  have noc : ∀ S : DomState, S.dmm = none → ∀ p d, ¬ S.covers p d := by
    rintro S h p d ⟨pm, e, -⟩
    rw [h] at e; cases e
  induction cs with
  | nil =>
    intro S T h h1 h2 L h3
    cases h
    exact ⟨h1, h2, h3⟩
  | cons c cs ih =>
    intro S T h h1 h2 L h3
    cases h with
    | cons hs ht =>
      obtain ⟨o, rfl⟩ := hc c (by simp)
      have ih := @ih (fun c hm => hc c (by simp [hm]))
      cases hs
      have hcop : ∀ d a b, ¬ S.copiedAt d a b := by
        rintro d a b (⟨hu, h⟩ | ⟨-, h⟩)
        · exact h2 d a b hu h
        · exact nog S h1 d a b h
      have hlu : ∀ d a b, S.linkAt d a b → S.used d := by
        rintro d a b (⟨hu, -⟩ | ⟨-, h⟩)
        · exact hu
        · exact absurd h (nog S h1 d a b)
      cases o with
      | add u r π =>
        refine ih ht h1 ?_ _ ?_
        · rintro d a b - (h | ⟨-, -, h⟩)
          · exact hcop d a b h
          · exact noc S h1 _ _ h
        · intro d a b
          rw [← h3]
          constructor
          · rintro (⟨hu, h | ⟨rfl, rfl, rfl | h⟩⟩ | ⟨-, h⟩)
            · exact .inl h
            · exact .inr ⟨rfl, rfl, rfl⟩
            · exact absurd h (noc S h1 _ _)
            · exact absurd h (nog (S.add u r (domKey π)) h1 d a b)
          · rintro (h | ⟨rfl, rfl, rfl⟩)
            · exact .inl ⟨.inl (hlu _ _ _ h), .inl h⟩
            · exact .inl ⟨.inr rfl, .inr ⟨rfl, rfl, .inl rfl⟩⟩
      | del u r π =>
        refine ih ht h1 ?_ _ ?_
        · rintro d a b - ⟨h, -⟩
          exact hcop d a b h
        · intro d a b
          rw [← h3]
          constructor
          · rintro (⟨hu, h, hn⟩ | ⟨-, h⟩)
            · exact ⟨h, fun ⟨e1, e2, e3⟩ => hn ⟨e2, e3, .inl e1⟩⟩
            · exact absurd h (nog (S.del u r (domKey π)) h1 d a b)
          · rintro ⟨h, hn⟩
            refine .inl ⟨.inl (hlu _ _ _ h), h, ?_⟩
            rintro ⟨e1, e2, e3 | e3⟩
            · exact hn ⟨e3, e1, e2⟩
            · exact noc S h1 _ _ e3
      | clear =>
        refine ih ht h1 ?_ _ ?_
        · rintro d a b ⟨⟩
        · intro d a b
          constructor
          · rintro (⟨⟨⟩, -⟩ | ⟨-, h⟩)
            exact absurd h (nog (empty S.m S.dmm) h1 d a b)
          · rintro ⟨⟩
      | hasLink u r π => exact ih ht h1 h2 L h3
      | getRoles u π => exact ih ht h1 h2 L h3
      | getUsers u π => exact ih ht h1 h2 L h3

/-- **C86** without matchers: the rules are the links that were added and not removed since, each with its domain, and
the function answers by the links of the domain. -/
theorem c86_plain (build : FnBuild) (key : Str) (hg : key.head? = some 'g') (s : FnModel) (level : Nat)
    (cs : List DM.Call) (hc : ∀ c ∈ cs, ∃ o : DM.Op, c = .op o) (h : DomainsAre build key s level none none cs) :
    ∃ (rules : List Rule) (fn : Fn), s.model.policyRules key = some rules ∧ rules.Nodup ∧
      (∀ rule, rule ∈ rules ↔ ∃ u r ds, rule = u :: r :: ds ∧ Clean ds ∧ ds.length ≤ 1 ∧
        linksAfter (fun _ _ _ => False) cs (domKey ds) u r) ∧
      s.functions key = some fn ∧
      ∀ ds a b, Clean ds → ds.length ≤ 1 → ∃ x, fn (a :: b :: ds) = .bool x ∧
        (x = true ↔ a = b ∨ ∃ k, k < level - 1 - ds.length ∧
          Reach (linksAfter (fun _ _ _ => False) cs (domKey ds)) k a b) := by
  have hnr : ∀ (cs : List DM.Call) (m : Option PMatcher), (∀ c ∈ cs, ∃ o : DM.Op, c = .op o) → nowRole m cs = m := by
    intro cs
    induction cs with
    | nil => intro m _; rfl
    | cons c cs ih =>
      intro m hc
      obtain ⟨o, rfl⟩ := hc c (by simp)
      exact ih m (fun c hm => hc c (by simp [hm]))
  obtain ⟨S, rules, fn, hS, h1, h2, h3, h4, h5, -⟩ := c86_roles build key hg s level none none cs h
  obtain ⟨p1, p2, p3⟩ := plain_steps hc hS rfl (by rintro _ _ _ ⟨⟩) (fun _ _ _ => False) (by
    intro d a b
    constructor
    · rintro (⟨⟨⟩, -⟩ | ⟨-, -, p, ⟨pm, e, -⟩, -⟩)
      cases e
    · rintro ⟨⟩)
  have hown : ∀ d a b, S.own d a b ↔ linksAfter (fun _ _ _ => False) cs d a b := by
    intro d a b
    rw [← p3]
    constructor
    · rintro ⟨hu, h, -⟩; exact .inl ⟨hu, h⟩
    · rintro (⟨hu, h⟩ | ⟨-, -, p, ⟨pm, e, -⟩, -⟩)
      · exact ⟨hu, h, p2 _ _ _ hu⟩
      · rw [p1] at e; cases e
  refine ⟨rules, fn, h1, h2, ?_, h4, ?_⟩
  · intro rule
    rw [h3]
    simp only [hown]
  · intro ds a b hcl hl
    obtain ⟨x, e, hx⟩ := h5 ds a b hcl hl (by rw [hnr cs none hc]; rintro _ ⟨⟩)
    refine ⟨x, e, hx.trans ?_⟩
    rw [hnr cs none hc]
    have : S.linkAt (domKey ds) = linksAfter (fun _ _ _ => False) cs (domKey ds) := by
      funext a b
      exact propext (p3 _ _ _)
    rw [this]
    exact Iff.rfl

end FnModel

namespace DomainRules

open DM DomState
open Shipped (Defined agrees_at)

/-- `sub, dom, obj, act` -/
def args : List Str := [s% "sub", s% "dom", s% "obj", s% "act"]
def argsText : Str := s% "sub, dom, obj, act"

/-- What is left of removed rules. -/
def Trace (A B : Str → Str → Prop) (H : Rule → Prop) (rules : List Rule) (sub dom obj act : Str) : Prop :=
  act = [] ∧ (((∀ r, ¬ H r) ∧ A sub [] ∧ dom = [] ∧ B obj []) ∨
    ∃ a b, A sub a ∧ B obj b ∧ (∃ c, H [a, dom, b, c]) ∧ ¬ ∃ c, [a, dom, b, c] ∈ rules)

/-- The condition on an attribute: `==`, or `g` with the domain of the request. -/
def column (x : Str) : Bool → Column
  | false => .same x
  | true => .call (s% "g") x [s% "dom"]

theorem column_name (x : Str) (b : Bool) : (column x b).name = x := by cases b <;> rfl

/-- `A`, `B` as a function of the column. -/
def rel {α : Type} (A B C : α) (c : Column) : α :=
  if c.name = s% "sub" then A else if c.name = s% "obj" then B else C

theorem rel_sub {α : Type} (A B C : α) (f : Bool) : rel A B C (column (s% "sub") f) = A := by
  unfold rel; rw [column_name, if_pos rfl]
theorem rel_obj {α : Type} (A B C : α) (f : Bool) : rel A B C (column (s% "obj") f) = B := by
  unfold rel; rw [column_name, if_neg (by decide), if_pos rfl]
theorem rel_act {α : Type} (A B C : α) : rel A B C (.same (s% "act")) = C := rfl
theorem rel_dom {α : Type} (A B C : α) : rel A B C (.same (s% "dom")) = C := rfl

/-- The matchers of the models with domains: `g` is asked about the subject or the object. -/
def matcher (onSub : Bool) : List (List Cond) :=
  if onSub then Column.matcher [column (s% "sub") true, .same (s% "dom"), .same (s% "obj"), .same (s% "act")]
  else Column.matcher [.same (s% "sub"), column (s% "obj") true, .same (s% "dom"), .same (s% "act")]

/-- A relation between a value of the request and one of a rule: equality, or what the function `g` says about the
domain. -/
def Tests (s : FnModel) (v dom : Str) (ok : Str → Prop) (R : Str → Str → Prop) : Bool → Prop
  | false => ∀ v w, R v w ↔ v = w
  | true => ∃ fn, s.functions (s% "g") = some fn ∧ ∀ w, ok w → ∃ b, fn [v, w, dom] = .bool b ∧ (b = true ↔ R v w)

theorem written (x : Str) (b : Bool) (hx : x ∈ args) : (column x b).Written args args := by
  cases b with
  | false => exact ⟨⟨hx, hx⟩, by rintro _ _ _ ⟨⟩⟩
  | true =>
    refine ⟨⟨by simp, ?_, by decide, noTailRef_iff (by decide)⟩, ?_⟩
    · intro a ha
      simp only [List.map_cons, List.map_nil, List.mem_cons, List.not_mem_nil, or_false] at ha
      rcases ha with rfl | rfl | rfl
      · exact hx
      · exact hx
      · exact show s% "dom" ∈ args by decide
    · rintro _ _ _ ⟨⟩
      decide

theorem compares {s : FnModel} {x v dom : Str} {rvals : List Str} {ok : Str → Prop} {R : Str → Str → Prop} {b : Bool}
    (h : Tests s v dom ok R b) (hv : attr args rvals x = some v) (hd : attr args rvals (s% "dom") = some dom) :
    (column x b).Compares s args rvals ok R := by
  cases b with
  | false => exact h
  | true =>
    obtain ⟨fn, e, hfn⟩ := h
    refine ⟨fn, [dom], e, by simp [hd], ?_⟩
    intro v' w hv' hw
    rw [hv] at hv'
    cases hv'
    exact hfn w hw

theorem four {r : Rule} (h : r.length = args.length) : ∃ a b c d, r = [a, b, c, d] := by
  match r, h with
  | [a, b, c, d], _ => exact ⟨a, b, c, d, rfl⟩

/-- **C86** for both matchers. -/
theorem c86_model (build : FnBuild) (u : Str → Res Stage) (hc : build.Coherent u)
    (hbin : ∀ e s, u e = .ok s → s.Binary) (grow : Nat → Nat) (onSub : Bool) (root : Stage)
    (hroot : buildMatcherDef grow (Cond.formula (s% "r") (s% "p") (matcher onSub)).toks = .ok root)
    (H : Rule → Prop) (s : FnModel) (h : FnModel.FnSeen build (s% "m") root H s)
    (D : Defined s argsText argsText SOME_ALLOW args args)
    (sub dom obj act : Str)
    (A B : Str → Str → Prop) (okA okB : Str → Prop)
    (hA : Tests s sub dom okA A onSub) (hB : Tests s obj dom okB B (!onSub))
    (h0 : okA [] ∧ okB []) (hH : ∀ a b c d, H [a, b, c, d] → okA a ∧ okB c)
    (gov : Gov) (hgov : gov.Ok) (hsc : gov.Scoped)
    (ord : Order) (hord : ord.Valid) (depth : Nat) (hdep : 0 < depth) :
    ∃ rules answer, s.model.policyRules (s% "p") = some rules ∧
      (s.enforce build gov depth ord ([sub, dom, obj, act].map .val)).2 = .ok answer ∧
      (answer = true ↔ (∃ a b, [a, dom, b, act] ∈ rules ∧ A sub a ∧ B obj b) ∨ Trace A B H rules sub dom obj act) := by
  have hN : Naming s.functions (s% "r") (s% "p") args args :=
    ⟨writable_of (by decide) (by decide +kernel) D.free, writable_of (by decide) (by decide +kernel) D.free', rfl,
      'p', [], rfl, .inl rfl, by decide⟩
  have hfront : ∃ front : List Column, matcher onSub = Column.matcher (front ++ [.same (s% "act")]) ∧
      ∀ c, c ∈ front ↔ c = column (s% "sub") onSub ∨ c = .same (s% "dom") ∨ c = column (s% "obj") (!onSub) := by
    cases onSub with
    | true =>
      exact ⟨[column (s% "sub") true, .same (s% "dom"), .same (s% "obj")], rfl, fun c => by simp [column]⟩
    | false =>
      refine ⟨[.same (s% "sub"), column (s% "obj") true, .same (s% "dom")], rfl, fun c => ?_⟩
      simp only [List.mem_cons, List.not_mem_nil, or_false, column, Bool.not_false]
      constructor
      · rintro (h | h | h) <;> simp [h]
      · rintro (h | h | h) <;> simp [h]
  obtain ⟨front, hm, hfr⟩ := hfront
  rw [hm] at hroot
  have hcols : ∀ c ∈ front ++ [.same (s% "act")], c = column (s% "sub") onSub ∨ c = .same (s% "dom") ∨
      c = column (s% "obj") (!onSub) ∨ c = .same (s% "act") := by
    intro c hc
    rw [List.mem_append, hfr, List.mem_singleton] at hc
    simpa [or_assoc] using hc
  have q1 : attr args [sub, dom, obj, act] (s% "sub") = some sub := rfl
  have q2 : attr args [sub, dom, obj, act] (s% "dom") = some dom := rfl
  have q3 : attr args [sub, dom, obj, act] (s% "obj") = some obj := rfl
  have q4 : attr args [sub, dom, obj, act] (s% "act") = some act := rfl
  obtain ⟨rules, answer, h1, hst, hlen, -, h3, v1, -, -⟩ := c85_columns build u hc hbin grow (s% "r") (s% "m") (s% "e")
    (s% "p") argsText SOME_ALLOW args args front (.same (s% "act")) root hroot H s h (by decide) (by decide) D.r
    (by decide) _ D.p (by decide +kernel) D.e gov hgov hsc hN [sub, dom, obj, act] rfl
    (rel okA okB (fun _ => True)) (rel A B (fun v w => v = w))
    (by
      intro c hm
      rcases hcols c hm with rfl | rfl | rfl | rfl
      · exact written _ _ (by decide)
      · exact written (s% "dom") false (by decide)
      · exact written _ _ (by decide)
      · exact written (s% "act") false (by decide))
    (by
      intro c hm
      rcases hcols c hm with rfl | rfl | rfl | rfl
      · rw [rel_sub, rel_sub]; exact compares hA q1 q2
      · exact fun _ _ => Iff.rfl
      · rw [rel_obj, rel_obj]; exact compares hB q3 q2
      · exact fun _ _ => Iff.rfl)
    (by
      intro c hm
      rcases hcols c hm with rfl | rfl | rfl | rfl
      · rw [rel_sub]; exact h0.1
      · exact trivial
      · rw [rel_obj]; exact h0.2
      · exact trivial)
    (by
      intro r hr hl c hm w hw
      obtain ⟨x, y, z, t, rfl⟩ := four hl
      obtain ⟨o1, o2⟩ := hH _ _ _ _ hr
      rcases hcols c hm with rfl | rfl | rfl | rfl
      · rw [column_name] at hw; cases (show some x = some w from hw); rw [rel_sub]; exact o1
      · exact trivial
      · rw [column_name] at hw; cases (show some z = some w from hw); rw [rel_obj]; exact o2
      · exact trivial)
    (fun e => absurd e (by decide)) ord hord depth hdep
  have g1 : ∀ a b c d, (column (s% "sub") onSub).Agrees (rel A B (fun v w => v = w)) args args [sub, dom, obj, act]
      [a, b, c, d] ↔ A sub a := by
    intro a b c d
    rw [agrees_at (v := sub) (w := a) (by rw [column_name]; rfl) (by rw [column_name]; rfl), rel_sub]
  have g2 : ∀ a b c d, (Column.same (s% "dom")).Agrees (rel A B (fun v w => v = w)) args args [sub, dom, obj, act]
      [a, b, c, d] ↔ dom = b := by
    intro a b c d
    rw [agrees_at (v := dom) (w := b) rfl rfl, rel_dom]
  have g3 : ∀ a b c d, (column (s% "obj") (!onSub)).Agrees (rel A B (fun v w => v = w)) args args [sub, dom, obj, act]
      [a, b, c, d] ↔ B obj c := by
    intro a b c d
    rw [agrees_at (v := obj) (w := c) (by rw [column_name]; rfl) (by rw [column_name]; rfl), rel_obj]
  have g4 : ∀ a b c d, (Column.same (s% "act")).Agrees (rel A B (fun v w => v = w)) args args [sub, dom, obj, act]
      [a, b, c, d] ↔ act = d := by
    intro a b c d
    rw [agrees_at (v := act) (w := d) rfl rfl, rel_act]
  have hfa : ∀ r : Rule, ∀ a b c d, r = [a, b, c, d] →
      ((∀ k ∈ front, k.Agrees (rel A B (fun v w => v = w)) args args [sub, dom, obj, act] r) ↔
        A sub a ∧ dom = b ∧ B obj c) := by
    rintro r a b c d rfl
    constructor
    · intro h
      exact ⟨(g1 _ _ _ _).1 (h _ ((hfr _).2 (.inl rfl))), (g2 _ _ _ _).1 (h _ ((hfr _).2 (.inr (.inl rfl)))),
        (g3 _ _ _ _).1 (h _ ((hfr _).2 (.inr (.inr rfl))))⟩
    · rintro ⟨x, y, z⟩ k hk
      rcases (hfr k).1 hk with rfl | rfl | rfl
      · exact (g1 _ _ _ _).2 x
      · exact (g2 _ _ _ _).2 y
      · exact (g3 _ _ _ _).2 z
  have hallow : ∀ r, effectOf args r = .allow := by
    intro r
    unfold effectOf attr
    rw [if_neg (by decide)]
  refine ⟨rules, answer, h1, h3 rfl rfl rfl, (v1 rfl).trans (or_congr ?_ ?_)⟩
  · constructor
    · rintro ⟨r, hr, hall, -⟩
      obtain ⟨a, b, c, d, rfl⟩ := four (hlen _ (hst _ hr))
      obtain ⟨x, rfl, z⟩ := (hfa _ _ _ _ _ rfl).1 (fun k hk => hall k (List.mem_append_left _ hk))
      obtain rfl := (g4 _ _ _ _).1 (hall _ (by simp))
      exact ⟨a, c, hr, x, z⟩
    · rintro ⟨a, b, hr, x, z⟩
      refine ⟨_, hr, ?_, hallow _⟩
      intro k hk
      rcases List.mem_append.1 hk with hk | hk
      · exact (hfa _ _ _ _ _ rfl).2 ⟨x, rfl, z⟩ k hk
      · rw [List.mem_singleton.1 hk]; exact (g4 _ _ _ _).2 rfl
  · have hb : List.replicate args.length ([] : Str) = [[], [], [], []] := rfl
    unfold Column.Trace Trace
    rw [hb, g4, hfa _ _ _ _ _ rfl]
    refine and_congr_right (fun _ => or_congr Iff.rfl ?_)
    constructor
    · rintro ⟨seen, hs1, hs2, hno⟩
      obtain ⟨a, b, c, d, rfl⟩ := four (hlen _ hs1)
      obtain ⟨x, rfl, z⟩ := (hfa _ _ _ _ _ rfl).1 hs2
      refine ⟨a, c, x, z, ⟨d, hs1⟩, ?_⟩
      rintro ⟨e, he⟩
      refine hno ⟨_, he, ?_⟩
      intro k hk
      rcases (hfr k).1 hk with rfl | rfl | rfl
      · rw [column_name]; rfl
      · rfl
      · rw [column_name]; rfl
    · rintro ⟨a, b, x, z, ⟨c, hc'⟩, hno⟩
      refine ⟨_, hc', (hfa _ _ _ _ _ rfl).2 ⟨x, rfl, z⟩, ?_⟩
      rintro ⟨r, hr, ht⟩
      obtain ⟨a', b', c', d', rfl⟩ := four (hlen _ (hst _ hr))
      have t1 := ht _ ((hfr _).2 (.inl rfl))
      have t2 := ht _ ((hfr _).2 (.inr (.inl rfl)))
      have t3 := ht _ ((hfr _).2 (.inr (.inr rfl)))
      rw [column_name] at t1 t3
      cases (show some a = some a' from t1)
      cases (show some dom = some b' from t2)
      cases (show some b = some c' from t3)
      exact hno ⟨d', hr⟩

section

variable (build : FnBuild) (u : Str → Res Stage) (hc : build.Coherent u) (hbin : ∀ e s, u e = .ok s → s.Binary)
  (grow : Nat → Nat) (root : Stage) (H : Rule → Prop) (s : FnModel) (h : FnModel.FnSeen build (s% "m") root H s)
  (D : Defined s argsText argsText SOME_ALLOW args args)
  (gov : Gov) (hgov : gov.Ok) (hsc : gov.Scoped) (sub dom obj act : Str) (ord : Order) (hord : ord.Valid)
  (depth : Nat) (hdep : 0 < depth)
  (level : Nat) (m dmm : Option PMatcher) (cs : List DM.Call)
  (hg : FnModel.DomainsAre build (s% "g") s level m dmm cs) (hdom : Clean [dom])

include hc hbin h D hgov hsc hord hdep hg hdom

/-- **C86**, examples/rbac_with_domains_model.conf and examples/rbac_with_domain_pattern_model.conf:
`g(r.sub, p.sub, r.dom) && r.dom == p.dom && r.obj == p.obj && r.act == p.act`.  The domain of the request is no pattern
(`_hnp`: otherwise the question may change the manager). -/
theorem c86_domains
    (hroot : buildMatcherDef grow (Cond.formula (s% "r") (s% "p") (matcher true)).toks = .ok root)
    (_hnp : ∀ pm, nowDomain dmm cs = some pm → pm.isPattern dom = false)
    (hflat : ∀ pm, nowRole m cs = some pm → ∀ S, Steps (DomState.empty m dmm) cs S →
      ∀ a, (a = [] ∨ ∃ d o c, H [a, d, o, c]) → pm.FlatOn (fun n => S.nameAt dom n ∨ n = sub ∨ n = a)) :
    ∃ (S : DomState) (rules : List Rule) (answer : Bool), Steps (DomState.empty m dmm) cs S ∧
      s.model.policyRules (s% "p") = some rules ∧
      (s.enforce build gov depth ord ([sub, dom, obj, act].map .val)).2 = .ok answer ∧
      (answer = true ↔
        (∃ role, [role, dom, obj, act] ∈ rules ∧
          roleAnswer (level - 2) (S.linkAt dom) (S.nameAt dom) sub role (nowRole m cs)) ∨
        Trace (fun a b => roleAnswer (level - 2) (S.linkAt dom) (S.nameAt dom) a b (nowRole m cs)) Eq H rules
          sub dom obj act) := by
  obtain ⟨S, -, fn, hS, -, -, -, hfn, hans, -⟩ := FnModel.c86_roles build (s% "g") rfl s level m dmm cs hg
  obtain ⟨rules, answer, h1, h2, h3⟩ := c86_model build u hc hbin grow true root hroot H s h D sub dom obj act
    (fun a b => roleAnswer (level - 2) (S.linkAt dom) (S.nameAt dom) a b (nowRole m cs)) Eq
    (fun a => a = [] ∨ ∃ d o c, H [a, d, o, c]) (fun _ => True)
    ⟨fn, hfn, fun w hw => hans [dom] sub w hdom (by simp) (fun pm e => hflat pm e S hS w hw)⟩ (fun _ _ => Iff.rfl)
    ⟨.inl rfl, trivial⟩ (fun a b c d hr => ⟨.inr ⟨b, c, d, hr⟩, trivial⟩) gov hgov hsc ord hord depth hdep
  refine ⟨S, rules, answer, hS, h1, h2, h3.trans (or_congr ?_ Iff.rfl)⟩
  constructor
  · rintro ⟨a, _, hr, ha, rfl⟩; exact ⟨a, hr, ha⟩
  · rintro ⟨a, hr, ha⟩; exact ⟨a, _, hr, ha, rfl⟩

/-- **C86**, examples/rbac_with_all_pattern_model.conf:
`r.sub == p.sub && g(r.obj, p.obj, r.dom) && r.dom == p.dom && r.act == p.act` -/
theorem c86_objects
    (hroot : buildMatcherDef grow (Cond.formula (s% "r") (s% "p") (matcher false)).toks = .ok root)
    (_hnp : ∀ pm, nowDomain dmm cs = some pm → pm.isPattern dom = false)
    (hflat : ∀ pm, nowRole m cs = some pm → ∀ S, Steps (DomState.empty m dmm) cs S →
      ∀ o, (o = [] ∨ ∃ a d c, H [a, d, o, c]) → pm.FlatOn (fun n => S.nameAt dom n ∨ n = obj ∨ n = o)) :
    ∃ (S : DomState) (rules : List Rule) (answer : Bool), Steps (DomState.empty m dmm) cs S ∧
      s.model.policyRules (s% "p") = some rules ∧
      (s.enforce build gov depth ord ([sub, dom, obj, act].map .val)).2 = .ok answer ∧
      (answer = true ↔
        (∃ group, [sub, dom, group, act] ∈ rules ∧
          roleAnswer (level - 2) (S.linkAt dom) (S.nameAt dom) obj group (nowRole m cs)) ∨
        Trace Eq (fun a b => roleAnswer (level - 2) (S.linkAt dom) (S.nameAt dom) a b (nowRole m cs)) H rules
          sub dom obj act) := by
  obtain ⟨S, -, fn, hS, -, -, -, hfn, hans, -⟩ := FnModel.c86_roles build (s% "g") rfl s level m dmm cs hg
  obtain ⟨rules, answer, h1, h2, h3⟩ := c86_model build u hc hbin grow false root hroot H s h D sub dom obj act
    Eq (fun a b => roleAnswer (level - 2) (S.linkAt dom) (S.nameAt dom) a b (nowRole m cs))
    (fun _ => True) (fun o => o = [] ∨ ∃ a d c, H [a, d, o, c]) (fun _ _ => Iff.rfl)
    ⟨fn, hfn, fun w hw => hans [dom] obj w hdom (by simp) (fun pm e => hflat pm e S hS w hw)⟩
    ⟨trivial, .inl rfl⟩ (fun a b c d hr => ⟨trivial, .inr ⟨a, b, d, hr⟩⟩) gov hgov hsc ord hord depth hdep
  refine ⟨S, rules, answer, hS, h1, h2, h3.trans (or_congr ?_ Iff.rfl)⟩
  constructor
  · rintro ⟨_, b, hr, rfl, hb⟩; exact ⟨b, hr, hb⟩
  · rintro ⟨b, hr, hb⟩; exact ⟨_, b, hr, rfl, hb⟩

end

/-- **C86**, examples/rbac_with_domains_model.conf without matchers for names or domains: the request is allowed if and
only if there is a rule for its domain, object and action and a role that the subject has in that domain, or a trace of
removed rules is left. -/
theorem c86_domains_plain (build : FnBuild) (u : Str → Res Stage) (hc : build.Coherent u)
    (hbin : ∀ e s, u e = .ok s → s.Binary) (grow : Nat → Nat) (root : Stage)
    (hroot : buildMatcherDef grow (Cond.formula (s% "r") (s% "p") (matcher true)).toks = .ok root)
    (H : Rule → Prop) (s : FnModel) (h : FnModel.FnSeen build (s% "m") root H s)
    (D : Defined s argsText argsText SOME_ALLOW args args)
    (gov : Gov) (hgov : gov.Ok) (hsc : gov.Scoped) (sub dom obj act : Str) (ord : Order) (hord : ord.Valid)
    (depth : Nat) (hdep : 0 < depth) (level : Nat) (cs : List DM.Call) (hops : ∀ c ∈ cs, ∃ o : DM.Op, c = .op o)
    (hg : FnModel.DomainsAre build (s% "g") s level none none cs) (hdom : Clean [dom]) :
    ∃ (rules : List Rule) (answer : Bool), s.model.policyRules (s% "p") = some rules ∧
      (s.enforce build gov depth ord ([sub, dom, obj, act].map .val)).2 = .ok answer ∧
      ∀ has : Str → Str → Prop, (∀ a b, has a b ↔ a = b ∨ ∃ k, k < level - 2 ∧
          Reach (linksAfter (fun _ _ _ => False) cs dom) k a b) →
        (answer = true ↔ (∃ role, [role, dom, obj, act] ∈ rules ∧ has sub role) ∨
          Trace has Eq H rules sub dom obj act) := by
  obtain ⟨-, fn, -, -, -, hfn, hans⟩ := FnModel.c86_plain build (s% "g") rfl s level cs hops hg
  obtain ⟨rules, answer, h1, h2, h3⟩ := c86_model build u hc hbin grow true root hroot H s h D sub dom obj act
    (fun a b => a = b ∨ ∃ k, k < level - 2 ∧ Reach (linksAfter (fun _ _ _ => False) cs dom) k a b) Eq
    (fun _ => True) (fun _ => True)
    ⟨fn, hfn, fun w _ => hans [dom] sub w hdom (by simp)⟩ (fun _ _ => Iff.rfl)
    ⟨trivial, trivial⟩ (fun _ _ _ _ _ => ⟨trivial, trivial⟩) gov hgov hsc ord hord depth hdep
  refine ⟨rules, answer, h1, h2, fun has hhas => ?_⟩
  have : has = fun a b => a = b ∨ ∃ k, k < level - 2 ∧ Reach (linksAfter (fun _ _ _ => False) cs dom) k a b := by
    funext a b; exact propext (hhas a b)
  subst this
  refine h3.trans (or_congr ?_ Iff.rfl)
  constructor
  · rintro ⟨a, _, hr, ha, rfl⟩; exact ⟨a, hr, ha⟩
  · rintro ⟨a, hr, ha⟩; exact ⟨a, _, hr, ha, rfl⟩

/-! ## A program that meets the hypotheses -/

namespace Run

def rootOf (b : Bool) : Stage := .mk [] (Operand.trD (Cond.formula (s% "r") (s% "p") (matcher b)) [])

def reading (e : Str) : Res Stage :=
  if e = s% "subjects" then .ok (rootOf true) else if e = s% "objects" then .ok (rootOf false) else .err

def fbuild : FnBuild := fun _ e => reading e

theorem coherent : fbuild.Coherent reading := fun _ _ => .inl rfl

theorem binary : ∀ e s, reading e = .ok s → s.Binary := by
  intro e s h
  unfold reading at h
  split at h
  · cases h
    simp [rootOf, matcher, Column.matcher, column, Column.atom, Cond.formula, Cond.operands, Cond.operand, Atom.operand,
      Operand.trD, Operand.trC, Operand.trU, Stage.Binary, Stage.All, Stage.AllIn, Stage.children]
  · split at h
    · cases h
      simp [rootOf, matcher, Column.matcher, column, Column.atom, Cond.formula, Cond.operands, Cond.operand, Atom.operand,
        Operand.trD, Operand.trC, Operand.trU, Stage.Binary, Stage.All, Stage.AllIn, Stage.children]
    · cases h

def defs0 : FnModel :=
  (((FnModel.new Shipped.Run.std []).setDef 'r' (s% "r") argsText).1.setDef 'p' (s% "p") argsText).1
def defs (text : Str) : FnModel :=
  (((defs0.setDef 'g' (s% "g") (s% "_, _, _")).1.setDef 'e' (s% "e") SOME_ALLOW).1.setDef 'm' (s% "m") text).1
def start (text : Str) : FnModel := ((defs text).buildMatcher fbuild (s% "m")).1
def add (s : FnModel) (rule : Rule) : FnModel := { s with model := (s.model.addRule rule).1 }
def remove (s : FnModel) (rule : Rule) : FnModel := { s with model := (s.model.removeRule rule).1 }

def rule1 : Rule := [s% "p", s% "admin", s% "domain1", s% "data1", s% "read"]
def rule2 : Rule := [s% "p", s% "admin", s% "domain2", s% "data2", s% "read"]
def rule3 : Rule := [s% "p", s% "admin", s% "domain2", s% "data2", s% "write"]

/-- the policy of examples/rbac_with_domain_pattern_policy.csv (three of the rules); one rule is removed again -/
def policy (text : Str) : FnModel :=
  remove (add (add (add (add (add (start text) rule1) rule2) rule3) [s% "g", s% "alice", s% "admin", s% "*"])
    [s% "g", s% "bob", s% "admin", s% "domain2"]) rule2

/-- … and then `SetDomainMatcher(util.PathMatcher)` as in model_test.go:618-619 -/
def program (text : Str) : FnModel :=
  (policy text).onManager (s% "g") (Mgr.onDM (.setDomainMatcher (some pathMatcher) id))

def calls0 : List DM.Call := [.op (.add (s% "alice") (s% "admin") [s% "*"]), .op (.add (s% "bob") (s% "admin") [s% "domain2"])]
def calls1 : List DM.Call := calls0 ++ [.setDomainMatcher (some pathMatcher) id]

theorem addOther {s : FnModel} {n : Nat} {a b : Option PMatcher} {cs : List DM.Call}
    (h : FnModel.DomainsAre fbuild (s% "g") s n a b cs) {rule : Rule} (hr : rule.head? ≠ some (s% "g")) :
    FnModel.DomainsAre fbuild (s% "g") (add s rule) n a b cs := h.other (.rule (.add rule)) hr trivial

theorem removeOther {s : FnModel} {n : Nat} {a b : Option PMatcher} {cs : List DM.Call}
    (h : FnModel.DomainsAre fbuild (s% "g") s n a b cs) {rule : Rule} (hr : rule.head? ≠ some (s% "g")) :
    FnModel.DomainsAre fbuild (s% "g") (remove s rule) n a b cs := h.other (.rule (.remove rule)) hr trivial

theorem startAre (text : Str) : FnModel.DomainsAre fbuild (s% "g") (start text) 10 none none [] := by
  have h0 : FnModel.DomainsAre fbuild (s% "g") (defs0.setDef 'g' (s% "g") (s% "_, _, _")).1 10 none none [] :=
    .defined defs0 (by decide +kernel) _ (by decide +kernel)
  have h1 := (h0.other (.setDef 'e' (s% "e") SOME_ALLOW) (.inl (by decide)) trivial).other (.setDef 'm' (s% "m") text)
    (.inl (by decide)) trivial
  exact h1.other (.buildMatcher (s% "m")) trivial trivial

theorem policyAre (text : Str) : FnModel.DomainsAre fbuild (s% "g") (policy text) 10 none none calls0 := by
  have h2 := addOther (addOther (addOther (startAre text) (rule := rule1) (by decide)) (rule := rule2) (by decide))
    (rule := rule3) (by decide)
  have h3 := (h2.add (s% "alice") (s% "admin") [s% "*"] (by decide)).add (s% "bob") (s% "admin") [s% "domain2"] (by decide)
  exact removeOther h3 (rule := rule2) (by decide)

theorem programAre (text : Str) : FnModel.DomainsAre fbuild (s% "g") (program text) 10 none none calls1 :=
  (policyAre text).direct (.setDomainMatcher (some pathMatcher) id)
    ⟨fun l => List.Perm.refl l, by rintro _ ⟨⟩; decide⟩

theorem seen {text : Str} {root : Stage} (ht : reading text = .ok root)
    (hd : (defs text).model.mDefs.get (s% "m") = some text)
    (hok : ((defs text).buildMatcher fbuild (s% "m")).2 = .ok ())
    (h1 : (start text).SuitsP rule1) (h2 : (add (start text) rule1).SuitsP rule2)
    (h3 : (add (add (start text) rule1) rule2).SuitsP rule3)
    (h4 : (add (add (add (add (add (start text) rule1) rule2) rule3) [s% "g", s% "alice", s% "admin", s% "*"])
      [s% "g", s% "bob", s% "admin", s% "domain2"]).SuitsP rule2) :
    ∃ H, FnModel.FnSeen fbuild (s% "m") root H (policy text) := by
  have hg : ∀ (s : FnModel) (r : Rule), s.SuitsP ((s% "g") :: r) := fun s r h => absurd h (by decide)
  exact ⟨_, .remove (.add (.add (.add (.add (.add (.built (.setDef (.setDef (.setDef (.setDef (.setDef (.new _ _) _ _ _)
    _ _ _) _ _ _) _ _ _) _ _ _) text hd ht hok) _ h1) _ h2) _ h3) _ (hg _ _)) _ (hg _ _)) _ h4⟩

/-- The hypotheses of `c86_domains` hold of this program, for the requests about domains that are no patterns and have no
reserved name. -/
example (sub dom obj act : Str) (hdom : Clean [dom]) (hnp : pathMatcher.isPattern dom = false) :
    ∃ (H : Rule → Prop) (S : DomState) (rules : List Rule) (answer : Bool),
      Steps (DomState.empty none none) calls1 S ∧
      (program (s% "subjects")).model.policyRules (s% "p") = some rules ∧
      ((program (s% "subjects")).enforce fbuild EvalExample.gov 1 Order.fwd ([sub, dom, obj, act].map .val)).2 =
        .ok answer ∧
      (answer = true ↔
        (∃ role, [role, dom, obj, act] ∈ rules ∧ roleAnswer 8 (S.linkAt dom) (S.nameAt dom) sub role none) ∨
        Trace (fun a b => roleAnswer 8 (S.linkAt dom) (S.nameAt dom) a b none) Eq H rules sub dom obj act) := by
  obtain ⟨H, hH⟩ := seen (text := s% "subjects") rfl (by decide +kernel) (by decide +kernel) (by decide +kernel)
    (by decide +kernel) (by decide +kernel) (by decide +kernel)
  exact ⟨H, c86_domains fbuild reading coherent binary (fun _ => 0) (rootOf true) H _ (hH.onManager _ _)
    ⟨by decide +kernel, by rfl, by decide +kernel, by decide +kernel, by decide +kernel⟩ EvalExample.gov
    EvalExample.gov_ok (Gov.scope_scoped _) sub dom obj act Order.fwd Order.fwd_valid 1 (by decide) 10 none none calls1
    (programAre _) hdom (buildMatcherDef_formula _ _ (by decide) (by decide))
    (by rintro _ ⟨⟩; exact hnp) (by rintro _ ⟨⟩)⟩

/-- The hypotheses of `c86_domains_plain` hold before the domain matcher is set. -/
example (sub dom obj act : Str) (hdom : Clean [dom]) :
    ∃ (H : Rule → Prop) (rules : List Rule) (answer : Bool),
      (policy (s% "subjects")).model.policyRules (s% "p") = some rules ∧
      ((policy (s% "subjects")).enforce fbuild EvalExample.gov 1 Order.fwd ([sub, dom, obj, act].map .val)).2 =
        .ok answer ∧
      ∀ has : Str → Str → Prop, (∀ a b, has a b ↔ a = b ∨ ∃ k, k < 8 ∧
          Reach (linksAfter (fun _ _ _ => False) calls0 dom) k a b) →
        (answer = true ↔ (∃ role, [role, dom, obj, act] ∈ rules ∧ has sub role) ∨
          Trace has Eq H rules sub dom obj act) := by
  obtain ⟨H, hH⟩ := seen (text := s% "subjects") rfl (by decide +kernel) (by decide +kernel) (by decide +kernel)
    (by decide +kernel) (by decide +kernel) (by decide +kernel)
  exact ⟨H, c86_domains_plain fbuild reading coherent binary (fun _ => 0) (rootOf true)
    (buildMatcherDef_formula _ _ (by decide) (by decide)) H _ hH
    ⟨by decide +kernel, by rfl, by decide +kernel, by decide +kernel, by decide +kernel⟩ EvalExample.gov
    EvalExample.gov_ok (Gov.scope_scoped _) sub dom obj act Order.fwd Order.fwd_valid 1 (by decide) 10 calls0
    (by
      intro c hc
      simp only [calls0, List.mem_cons, List.not_mem_nil, or_false] at hc
      rcases hc with rfl | rfl
      · exact ⟨_, rfl⟩
      · exact ⟨_, rfl⟩)
    (policyAre _) hdom⟩

def ask (s : FnModel) (vals : List Str) : Res Bool := (s.enforce fbuild EvalExample.gov 1 Order.fwd (vals.map .val)).2

/-- model_test.go:621-632, and a trace: the removed rule was for `domain2` and `data2`, where another rule is left. -/
example : ask (program (s% "subjects")) [s% "alice", s% "domain1", s% "data1", s% "read"] = .ok true ∧
    ask (program (s% "subjects")) [s% "alice", s% "domain2", s% "data2", s% "write"] = .ok true ∧
    ask (program (s% "subjects")) [s% "bob", s% "domain2", s% "data2", s% "write"] = .ok true ∧
    ask (program (s% "subjects")) [s% "bob", s% "domain1", s% "data1", s% "read"] = .ok false ∧
    ask (program (s% "subjects")) [s% "alice", s% "domain2", s% "data2", s% "read"] = .ok false ∧
    ask (policy (s% "subjects")) [s% "alice", s% "domain1", s% "data1", s% "read"] = .ok false ∧
    ask (policy (s% "subjects")) [s% "bob", s% "domain2", s% "data2", s% "write"] = .ok true ∧
    ask (policy (s% "subjects")) [s% "bob", s% "domain2", s% "data2", s% ""] = .ok false ∧
    ask (remove (policy (s% "subjects")) rule3) [s% "bob", s% "domain2", s% "data2", s% ""] = .ok true := by
  decide +kernel

/-! examples/rbac_with_all_pattern_policy.csv with one of its rules removed, and the matchers of model_test.go:636-637 -/

def group1 : Rule := [s% "p", s% "alice", s% "domain1", s% "book_group", s% "read"]
def group2 : Rule := [s% "p", s% "alice", s% "domain2", s% "book_group", s% "write"]

def books : FnModel :=
  remove (add (add (add (start (s% "objects")) group1) group2) [s% "g", s% "/book/:id", s% "book_group", s% "*"]) group1

def books1 : FnModel := books.onManager (s% "g") (Mgr.onDM (.setMatcher (some pathMatcher) id))
def books2 : FnModel := books1.onManager (s% "g") (Mgr.onDM (.setDomainMatcher (some pathMatcher) id))

def calls2 : List DM.Call := [.op (.add (s% "/book/:id") (s% "book_group") [s% "*"]), .setMatcher (some pathMatcher) id,
  .setDomainMatcher (some pathMatcher) id]

theorem booksAre : FnModel.DomainsAre fbuild (s% "g") books2 10 none none calls2 := by
  have h1 := addOther (addOther (startAre (s% "objects")) (rule := group1) (by decide)) (rule := group2) (by decide)
  have h2 := h1.add (s% "/book/:id") (s% "book_group") [s% "*"] (by decide)
  have h3 := removeOther h2 (rule := group1) (by decide)
  have h4 := h3.direct (.setMatcher (some pathMatcher) id) (fun l => List.Perm.refl l)
  exact h4.direct (.setDomainMatcher (some pathMatcher) id) ⟨fun l => List.Perm.refl l, by rintro _ ⟨⟩; decide⟩

theorem booksSeen : ∃ H, FnModel.FnSeen fbuild (s% "m") (rootOf false) H books ∧
    ∀ a d o c, H [a, d, o, c] → o = s% "book_group" := by
  have hg : ∀ (s : FnModel) (r : Rule), s.SuitsP ((s% "g") :: r) := fun s r h => absurd h (by decide)
  refine ⟨_, .remove (.add (.add (.add (.built (.setDef (.setDef (.setDef (.setDef (.setDef (.new _ _) _ _ _)
    _ _ _) _ _ _) _ _ _) _ _ _) (s% "objects") (by decide +kernel) rfl (by decide +kernel)) group1 (by decide +kernel))
    group2 (by decide +kernel)) _ (hg _ _)) _ (by decide +kernel), ?_⟩
  rintro a d o c (((⟨rules, h1, h2⟩ | h) | h) | h)
  · have : rules = [] := Option.some.inj (h1.symm.trans (by decide +kernel))
    subst this; cases h2
  · cases h; rfl
  · cases h; rfl
  · cases h

/-- The hypotheses of `c86_objects` hold of this program, for the requests whose domain and object are no patterns. -/
example (sub dom obj act : Str) (hdom : Clean [dom]) (hnp : pathMatcher.isPattern dom = false)
    (hobj : pathMatcher.isPattern obj = false) :
    ∃ (H : Rule → Prop) (S : DomState) (rules : List Rule) (answer : Bool),
      Steps (DomState.empty none none) calls2 S ∧
      books2.model.policyRules (s% "p") = some rules ∧
      (books2.enforce fbuild EvalExample.gov 1 Order.fwd ([sub, dom, obj, act].map .val)).2 = .ok answer ∧
      (answer = true ↔
        (∃ group, [sub, dom, group, act] ∈ rules ∧
          roleAnswer 8 (S.linkAt dom) (S.nameAt dom) obj group (some pathMatcher)) ∨
        Trace Eq (fun a b => roleAnswer 8 (S.linkAt dom) (S.nameAt dom) a b (some pathMatcher)) H rules
          sub dom obj act) := by
  obtain ⟨H, hH, hnames⟩ := booksSeen
  refine ⟨H, c86_objects fbuild reading coherent binary (fun _ => 0) (rootOf false) H books2
    ((hH.onManager _ _).onManager _ _)
    ⟨by decide +kernel, by rfl, by decide +kernel, by decide +kernel, by decide +kernel⟩ EvalExample.gov
    EvalExample.gov_ok (Gov.scope_scoped _) sub dom obj act Order.fwd Order.fwd_valid 1 (by decide) 10 none none calls2
    booksAre hdom (buildMatcherDef_formula _ _ (by decide) (by decide))
    (by rintro _ ⟨⟩; exact hnp) ?_⟩
  rintro _ ⟨⟩ S hS o ho p q hp hq h1 h2 hne
  have one : ∀ n, (S.nameAt dom n ∨ n = obj ∨ n = o) → pathMatcher.isPattern n = true → n = s% "/book/:id" := by
    rintro n (hn | rfl | rfl) h
    · obtain ⟨c, hc, hm⟩ := names_of_calls hS hn
      simp only [calls2, List.mem_cons, List.not_mem_nil, or_false] at hc
      rcases hc with rfl | rfl | rfl
      · simp only [names, List.mem_cons, List.not_mem_nil, or_false] at hm
        rcases hm with rfl | rfl
        · rfl
        · exact absurd h (by decide)
      · cases hm
      · cases hm
    · rw [hobj] at h; cases h
    · rcases ho with rfl | ⟨a, d, c, ho⟩
      · exact absurd h (by decide)
      · rw [hnames _ _ _ _ ho] at h; exact absurd h (by decide)
  exact absurd ((one p hp h1).trans (one q hq h2).symm) hne

/-- model_test.go:639-642 without the rule for `domain1` -/
example : ask books2 [s% "alice", s% "domain2", s% "/book/1", s% "write"] = .ok true ∧
    ask books2 [s% "alice", s% "domain2", s% "/book/1", s% "read"] = .ok false ∧
    ask books2 [s% "alice", s% "domain1", s% "/book/1", s% "read"] = .ok false ∧
    ask books2 [s% "alice", s% "domain2", s% "book_group", s% "write"] = .ok true ∧
    ask books1 [s% "alice", s% "domain2", s% "/book/1", s% "write"] = .ok false ∧
    ask books [s% "alice", s% "domain2", s% "book_group", s% "write"] = .ok true := by
  decide +kernel

end Run

end DomainRules

end Fastac
