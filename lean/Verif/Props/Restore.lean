import Verif.Lemmas.Restore
import Verif.Props.Condition

/-!
# C73: decisions depend only on definitions and rules; backup and restore
-/

namespace Fastac

namespace Model

/-- **C73**, the first part that holds.  Two models with the same definitions and rules give the same answers,
whatever their histories: with the same matcher built in both (since its policy was defined), `Enforce` with the
options `SetRequestDef(rk)`, `SetMatcher(mk)`, `SetEffector(ek)` returns the same for every request, every map
order, and every set of functions. -/
theorem c73_alike_partial (build build' : Str → Res Stage) (hbin : ∀ e s, build e = .ok s → s.Binary)
    (hbin' : ∀ e s, build' e = .ok s → s.Binary) (rk mk mk' ek rText eff : Str) (root : Stage) (m m' : Model)
    (h : Bound build mk root m) (h' : Bound build' mk' root m') (ha : Alike m m')
    (hp : root.policyKey.head? = some 'p') (n1 : rk ≠ []) (n2 : mk ≠ []) (n2' : mk' ≠ []) (n3 : ek ≠ [])
    (hr : m.rDefs.get rk = some rText) (he : m.eDefs.get ek = some eff)
    (d : PolicyDef) (hd : m.pDefs.get root.policyKey = some d)
    (base : Str → Option Fn) (gov : Gov) (ord ord' : Order) (hord : ord.Valid) (hord' : ord'.Valid)
    (rvals : List Str) (E : Evaluator)
    (hE : E = gov (m.functions base) (MatchParams.get ⟨d, newPolicyDef rk rText, rvals⟩))
    (hl : root.Local d E) (hb : root.BlankSafe d E) (hn : root.NeverFails d E)
    (hdet : eff = SOME_ALLOW_NO_DENY → ∀ r, root.policyKey :: r ∈ m.rules →
      d.getEft (d.key :: r) ≠ .indeterminate) :
    ∃ b, m.enforceParams build base gov ord (named rk mk ek ++ rvals.map .val) = (m, .ok b) ∧
      m'.enforceParams build' base gov ord' (named rk mk' ek ++ rvals.map .val) = (m', .ok b) := by
  have hm := h.tied.1.made
  have hm' := h'.tied.1.made
  obtain ⟨d1, rules, a1, a2, a3⟩ := c69_decision_partial build hbin rk mk ek rText eff root m h hp n1 n2 n3 hr he
  rw [hd] at a1
  cases a1
  have hr' : ∃ rText', m'.rDefs.get rk = some rText' ∧ newPolicyDef rk rText' = newPolicyDef rk rText := by
    have := ha.r rk
    rw [hr] at this
    cases hx : m'.rDefs.get rk with
    | none => rw [hx] at this; cases this
    | some t =>
      rw [hx] at this
      exact ⟨t, rfl, Option.some.inj this⟩
  obtain ⟨rText', hr', ht⟩ := hr'
  obtain ⟨d2, rules', b1, b2, b3⟩ := c69_decision_partial build' hbin' rk mk' ek rText' eff root m' h' hp n1 n2' n3
    hr' ((ha.e ek).trans he)
  rw [ha.p, hd] at b1
  cases b1
  have hmem : ∀ r, r ∈ rules' ↔ r ∈ rules := by
    intro r
    rw [mem_policyRules hm.tidy a2, mem_policyRules hm'.tidy b2, ha.rules]
  have hE' : E = gov (m'.functions base) (MatchParams.get ⟨d, newPolicyDef rk rText', rvals⟩) := by
    rw [ha.functions hm hm', ht, hE]
  have hdet1 : eff = SOME_ALLOW_NO_DENY → ∀ r ∈ rules, d.getEft (d.key :: r) ≠ .indeterminate :=
    fun e r hr => hdet e r ((mem_policyRules hm.tidy a2 r).1 hr)
  refine ⟨_, (a3 base gov ord hord rvals E hE hl hb hn hdet1).1, ?_⟩
  rw [(b3 base gov ord' hord' rvals E hE' hl hb hn (fun e r hr => hdet1 e r ((hmem r).1 hr))).1]
  rw [scan_congr d root E eff hmem]

/-- **C73**, the second part that holds: backup and restore.  `String` of the model of an enforcer is loaded into
a new model, the rules that `SavePolicy` has written are loaded with `LoadPolicy`.  Both succeed, the new model has
the same definitions and rules as the old one, and all its matchers are built, so that it decides alike. -/
theorem c73_restore_partial (build build' : Str → Res Stage) (hbin : ∀ e s, build e = .ok s → s.Binary)
    (hbin' : ∀ e s, build' e = .ok s → s.Binary) {env : Env} (henv : env.Ok) (e : Enforcer (Option Str))
    (h : Kept build' e.model) (hp : e.model.PlainText) (hs : ∀ r ∈ e.model.rules, Storable r)
    (read : Str → Res IniData) (hread : ReadsPlain read) (order : List Str → List Str)
    (ho : ∀ l, (order l).Perm l)
    (hb : ∀ k x, e.model.mDefs.get k = some x → ∃ root, build x = .ok root ∧ e.model.Knows root.policyKey)
    (hA : e.adapter = fileAdapter env) (hsave : e.savePolicy.res = .ok ())
    (e0 : Enforcer (Option Str)) (hA0 : e0.adapter = fileAdapter env) (hst : e0.st = e.savePolicy.e.st)
    (hm0 : e0.model = (Model.new.loadText read build order e.model.toText).1) :
    (Model.new.loadText read build order e.model.toText).2 = .ok () ∧
    e0.loadPolicy.res = .ok () ∧ Alike e.model e0.loadPolicy.e.model ∧
    ∀ k x root, e.model.mDefs.get k = some x → build x = .ok root → Bound build k root e0.loadPolicy.e.model := by
  obtain ⟨m', hl, hmade, hr, hpd, hg, he, hmd, hrules, -, -, -⟩ :=
    c68_text build build' h.made hp read hread order ho hb
  rw [hl] at hm0 ⊢
  simp only at hm0
  have hempty : e0.model.rules = [] := by
    rw [hm0, List.eq_nil_iff_forall_not_mem]
    intro x hx
    obtain ⟨k, f, rfl, hh⟩ := (mem_rules hmade.tidy _).1 hx
    have : ∃ rules, m'.policyRules k = some rules := by
      unfold policyRules
      rcases hh with ⟨p, hp, -⟩ | ⟨rp, hp, -⟩
      · rw [hp]; exact ⟨_, rfl⟩
      · rw [hp]; cases m'.pMap.get k <;> exact ⟨_, rfl⟩
    obtain ⟨rules, hk⟩ := this
    have h1 := (mem_policyRules hmade.tidy hk f).2 hx
    rw [hrules] at hk
    obtain ⟨_, -, e⟩ := Option.map_eq_some_iff.1 hk
    rw [← e] at h1
    cases h1
  have hsuits : ∀ r ∈ e.model.rules, e0.model.Suits r ∧ ∃ k fs, r = k :: fs ∧ e0.model.Knows k := by
    intro r hrm
    obtain ⟨h1, k, f, rfl, h2⟩ := h.suits hbin' r hrm
    rw [hm0]
    refine ⟨suits_of_defs hpd hg h1, k, f, rfl, ?_⟩
    have w := h.made.wellKeyed
    have w' := hmade.wellKeyed
    unfold Knows GoMap.has at h2 ⊢
    rw [w'.pp, w'.gg, hpd, hg, ← w.pp, ← w.gg]
    exact h2
  have hmade0 : Made build e0.model := by rw [hm0]; exact hmade
  obtain ⟨-, c1, c2⟩ := c43_enforcer_partial hbin henv e e0 hA hs hsave hA0 hst hmade0 hempty
    (fun r hr => (hsuits r hr).1.fits) (fun r hr => (hsuits r hr).2)
  have hsv : fileSave env e.st e.model.rules = (e.savePolicy.e.st, .ok ()) := by
    have h1 : e.savePolicy.e.st = (e.adapter.save e.st e.model.rules).1 := rfl
    have h2 : e.savePolicy.res = (e.adapter.save e.st e.model.rules).2 := rfl
    rw [h1]
    rw [h2] at hsave
    rw [hA] at hsave ⊢
    exact Prod.ext rfl hsave
  have hperm := henv.order e.model.rules
  have hfile : e0.st = some (fileText (env.order e.model.rules)) := by
    rw [hst]
    simp only [fileSave] at hsv
    split at hsv
    · rw [saveSteps_final, henv.chunks] at hsv
      exact (Prod.ext_iff.mp hsv).1.symm
    · simp at hsv
  have hmod : e0.loadPolicy.e.model = (Model.each Model.addRule e0.model (env.order e.model.rules)).1 := by
    refine (c39_load_list e0 (env.order e.model.rules) (.ok ()) ?_).1
    have := holds_fileText (env.order e.model.rules) (fun r hr => hs r (hperm.mem_iff.mp hr))
    rw [hA0, hfile]
    exact this
  refine ⟨rfl, c1, ?_, ?_⟩
  · have : ∀ rs (m : Model), (Model.each Model.addRule m rs).1.rDefs = m.rDefs ∧
        (Model.each Model.addRule m rs).1.pDefs = m.pDefs ∧ (Model.each Model.addRule m rs).1.gDefs = m.gDefs ∧
        (Model.each Model.addRule m rs).1.eDefs = m.eDefs := by
      intro rs
      induction rs with
      | nil => intro m; exact ⟨rfl, rfl, rfl, rfl⟩
      | cons r rs ih =>
        intro m
        have h0 : (m.addRule r).1.rDefs = m.rDefs ∧ (m.addRule r).1.pDefs = m.pDefs ∧
            (m.addRule r).1.gDefs = m.gDefs ∧ (m.addRule r).1.eDefs = m.eDefs := by
          match r with
          | [] => exact ⟨rfl, rfl, rfl, rfl⟩
          | [] :: _ => exact ⟨rfl, rfl, rfl, rfl⟩
          | (c :: cs) :: f =>
            have := (c32_dispatch_partial m (c :: cs) f (by simp)).1.1
            exact ⟨this.1, this.2.1, this.2.2.1, this.2.2.2.1⟩
        simp only [Model.each]
        split
        · have := ih (m.addRule r).1
          rw [h0.1, h0.2.1, h0.2.2.1, h0.2.2.2] at this
          exact this
        · exact h0
        · exact h0
    obtain ⟨k1, k2, k3, k4⟩ := this (env.order e.model.rules) e0.model
    refine ⟨?_, ?_, ?_, ?_, c2⟩
    · rw [hmod, k1, hm0]; exact hr
    · rw [hmod, k2, hm0]; exact hpd
    · rw [hmod, k3, hm0]; exact hg
    · rw [hmod, k4, hm0]; exact he
  · intro k x root hk hx
    rw [hmod]
    refine Bound.each _ ?_ (fun r hr => (hsuits r (hperm.mem_iff.mp hr)).1)
    rw [hm0]
    have hl' := hl
    unfold Model.loadText at hl'
    split at hl'
    · rename_i cfg _
      unfold Model.loadConfig at hl'
      cases hsec : Model.new.loadSections cfg with
      | mk m1 r =>
        rw [hsec] at hl'
        have hk1 : Kept build m1 := by
          have := Kept.loadSections (build := build) cfg .new
          rw [hsec] at this
          exact this
        cases r with
        | err => cases hl'
        | panic => cases hl'
        | ok _ =>
          simp only at hl'
          have hsame : ∀ ks (m : Model), (m.buildMatchers build ks).1.mDefs = m.mDefs := by
            intro ks
            induction ks with
            | nil => intro m; rfl
            | cons k ks ih =>
              intro m
              have h2 := buildMatcher_mDefs build m k
              rw [Model.buildMatchers]
              cases hr : m.buildMatcher build k with
              | mk m' r =>
                rw [hr] at h2
                cases r with
                | ok _ => simp only; rw [ih]; exact h2
                | err => exact h2
                | panic => exact h2
          have hdef : m1.mDefs.get k = some x := by
            have := hsame (order (m1.mDefs.map Prod.fst)) m1
            rw [hl'] at this
            rw [← this, hmd]
            exact hk
          have := Kept.buildMatchers hx (order (m1.mDefs.map Prod.fst)) hk1
            ((ho _).nodup_iff.2 hk1.made.wellKeyed.mwf)
            ((ho _).mem_iff.2 (GoMap.mem_keys_iff.2 (by rw [hdef]; rfl))) hdef (by rw [hl'])
          rw [hl'] at this
          exact this
    · cases hl'
    · cases hl'

/-! ## Cases that meet the hypotheses, and what is missing -/

namespace RestoreExample

open ConditionExample

/-- The model of C72 with a file. -/
def e : Enforcer (Option Str) := ⟨model, fileAdapter FileExample.env, none, SC.new false, true⟩

/-- An enforcer with the loaded text on the written file. -/
def e0 : Enforcer (Option Str) :=
  ⟨(Model.new.loadText simpleIni build List.reverse model.toText).1, fileAdapter FileExample.env,
    e.savePolicy.e.st, SC.new true, true⟩

theorem buildable : ∀ k x, model.mDefs.get k = some x → ∃ root, build x = .ok root ∧ model.Knows root.policyKey := by
  intro k x h
  have hm := GoMap.mem_of_get h
  have : model.mDefs = [(s% "m2", s% "text")] := by decide +kernel
  rw [this] at hm
  simp only [List.mem_cons, List.not_mem_nil, or_false, Prod.mk.injEq] at hm
  obtain ⟨rfl, rfl⟩ := hm
  exact ⟨root, rfl, .inl (by decide +kernel)⟩

theorem restored : e0.loadPolicy.res = .ok () ∧ Alike model e0.loadPolicy.e.model ∧
    Bound build (s% "m2") root e0.loadPolicy.e.model := by
  obtain ⟨-, h1, h2, h3⟩ := c73_restore_partial build build binary binary FileExample.env_ok e bound.tied.1
    (by show model.PlainText; decide +kernel) (by show ∀ r ∈ model.rules, Storable r; decide +kernel) simpleIni
    simpleIni_reads List.reverse List.reverse_perm buildable rfl (by decide +kernel) e0 rfl rfl rfl
  exact ⟨h1, h2, h3 _ (s% "text") _ (by decide +kernel) rfl⟩

/-- The restored model answers as the first one. -/
example : ∀ x ∈ [(s% "alice", true), (s% "carol", true), (s% "bob", false), (s% "dave", false)],
    (e0.loadPolicy.e.model.enforceParams build EndToEnd.noFns EndToEnd.miniGov Order.fwd
      (named (s% "r") (s% "m2") (s% "e2") ++ [x.1, s% "data1", s% "write"].map .val)).2 = .ok x.2 := by
  decide +kernel

/-! The matcher `r.sub == p.sub && r.act == 'read'`. -/

def build9 (_ : Str) : Res Stage := .ok PhantomExample.root

def gov9 : Gov := fun _ get =>
  ⟨fun _ => true, fun e r => if e = s% "r_sub == p_sub" then .bool (get r (s% "r_sub") == get r (s% "p_sub"))
    else .bool (get r (s% "r_act") == some (s% "read"))⟩

def fresh : Model :=
  (((((Model.new.setDef 'r' (s% "r") (s% "sub, act")).1.setDef 'p' (s% "p") (s% "sub")).1.setDef
    'e' (s% "e") (s% "some(where (p.eft == allow))")).1.setDef 'm' (s% "m") (s% "text")).1.buildMatcher
    build9 (s% "m")).1

/-- alice was added and removed -/
def used : Model := ((fresh.addRule [s% "p", s% "alice"]).1.removeRule [s% "p", s% "alice"]).1

theorem bound9 : Bound build9 (s% "m") PhantomExample.root fresh ∧ Bound build9 (s% "m") PhantomExample.root used := by
  have h : Bound build9 (s% "m") PhantomExample.root fresh :=
    .built (.setDef (.setDef (.setDef (.setDef .new _ _ _) _ _ _) _ _ _) _ _ _) (s% "text") (by decide) rfl
      (by decide +kernel)
  exact ⟨h, .remove (.add h _ (by decide +kernel)) _ (by decide +kernel)⟩

/-- **C73 fails** when a leaf expression is true of the blank rule: the two models look alike, and alice is allowed
by the one from which her rule has been removed. -/
theorem c73_fails : Alike fresh used ∧
    (fresh.enforceParams build9 EndToEnd.noFns gov9 Order.fwd ([s% "alice", s% "read"].map .val)).2 = .ok false ∧
    (used.enforceParams build9 EndToEnd.noFns gov9 Order.fwd ([s% "alice", s% "read"].map .val)).2 = .ok true := by
  refine ⟨?_, by decide +kernel, by decide +kernel⟩
  constructor
  · intro k; rfl
  · intro k; rfl
  · intro k; rfl
  · intro k; rfl
  · have h1 : used.rules = [] := by decide +kernel
    have h2 : fresh.rules = [] := by decide +kernel
    rw [h1, h2]
    exact fun x => Iff.rfl

end RestoreExample

end Model

end Fastac
