import Verif.Props.Expressions
import Verif.Props.FilterCases

/-!
# C96: cases that meet the hypotheses
-/

namespace Fastac

namespace ExpressionsExample

open FilterExample (add)

/-- `r.sub.Age > 18` -/
def adultToks : Toks := [⟨.accessor, s% "r_sub.Age"⟩, ⟨.other, s% ">"⟩, ⟨.other, s% "18"⟩]
/-- `r.obj.Owner == p.owner` -/
def ownerToks : Toks := [⟨.accessor, s% "r_obj.Owner"⟩, ⟨.other, s% "=="⟩, ⟨.other, s% "p_owner"⟩]

def adultText : Str := s% "r_sub.Age> 18"
def ownerText : Str := s% "r_obj.Owner== p_owner"

/-- `r.sub.Age > 18 && r.obj.Owner == p.owner` -/
def f : Formula := [[.atom adultToks, .atom ownerToks]]

theorem ways : f.ways = [[adultText, ownerText]] := by decide

theorem conditions : f.conditions = [adultText, ownerText] := by decide

/-- An evaluation library that knows two more expressions.  The values of the request stand for structs: `adult` and
`owns` say what comes out of the expressions, and this may be anything. -/
def lib (adult : Str → EvalRes) (owns : Str → Str → EvalRes) : Gov := fun fns par =>
  { compiles := fun e => e == adultText || e == ownerText || (EndToEnd.miniGov fns par).compiles e
    eval := fun e r =>
      if e = adultText then
        match par r (s% "r_sub") with
        | some v => adult v
        | none => .err
      else if e = ownerText then
        match par r (s% "r_obj"), par r (s% "p_owner") with
        | some v, some w => owns v w
        | _, _ => .err
      else (EndToEnd.miniGov fns par).eval e r }

def gov (adult : Str → EvalRes) (owns : Str → Str → EvalRes) : Gov := (lib adult owns).scope

theorem not_eq (x y : Str) : x ++ s% " == " ++ y ≠ adultText ∧ x ++ s% " == " ++ y ≠ ownerText := by
  have key : ∀ t : Str, (∀ i ≤ t.length, (t.drop i).take 2 ≠ [' ', '=']) → x ++ s% " == " ++ y ≠ t := by
    rintro t h rfl
    refine h x.length (by simp) ?_
    rw [List.append_assoc, List.drop_left]
    rfl
  exact ⟨key _ (by decide), key _ (by decide)⟩

theorem not_call (f x : Str) : f ++ s% "(" ++ x ++ s% ")" ≠ adultText ∧ f ++ s% "(" ++ x ++ s% ")" ≠ ownerText := by
  have key : ∀ t : Str, '(' ∉ t → f ++ s% "(" ++ x ++ s% ")" ≠ t := by
    rintro t h rfl
    exact h (by simp)
  exact ⟨key _ (by decide), key _ (by decide)⟩

theorem gov_ok (adult : Str → EvalRes) (owns : Str → Str → EvalRes) : (gov adult owns).Ok := by
  refine Gov.scope_ok ⟨?_, ?_⟩
  · intro fns par x y hx hy
    obtain ⟨h1, h2⟩ := EndToEnd.miniGov_ok.eqT fns par x y hx hy
    obtain ⟨n1, n2⟩ := not_eq x.text y.text
    simp only [lib]
    refine ⟨by rw [h1]; simp, fun r => ?_⟩
    rw [if_neg n1, if_neg n2]
    exact h2 r
  · intro fns par f fn args hf ff hne ha
    obtain ⟨h1, h2⟩ := EndToEnd.miniGov_ok.callT fns par f fn args hf ff hne ha
    obtain ⟨n1, n2⟩ := not_call f (join (s% ", ") (args.map GovTerm.text))
    simp only [lib]
    refine ⟨by rw [h1]; simp, fun r => ?_⟩
    rw [if_neg n1, if_neg n2]
    exact h2 r

def reading (e : Str) : Res Stage :=
  if e = s% "grown-up owners" then .ok (.mk [] (Operand.trD f [])) else .err

def fbuild : FnBuild := fun _ e => reading e

theorem coherent : fbuild.Coherent reading := fun _ _ => .inl rfl

theorem binary : ∀ e s, reading e = .ok s → s.Binary := by
  intro e s h
  unfold reading at h
  split at h
  · cases h
    simp [f, Operand.trD, Operand.trC, Operand.trU, Stage.Binary, Stage.All, Stage.AllIn, Stage.children]
  · cases h

def start (eff : Str) : FnModel :=
  (((((((FnModel.new Shipped.Run.std []).setDef 'r' (s% "r") (s% "sub, obj")).1.setDef
    'p' (s% "p") (s% "owner, eft")).1.setDef 'e' (s% "e") eff)).1.setDef 'm' (s% "m") (s% "grown-up owners")).1.buildMatcher
    fbuild (s% "m")).1

/-- What alice owns is open, what bob owns is closed. -/
def program (eff : Str) : FnModel :=
  add (add (start eff) [s% "p", s% "alice", s% "allow"]) [s% "p", s% "bob", s% "deny"]

def rArgs : List Str := [s% "sub", s% "obj"]
def pArgs : List Str := [s% "owner", s% "eft"]

theorem seen (eff : Str) : ∃ H, FnModel.FnSeen fbuild (s% "m") (.mk [] (Operand.trD f [])) H (program eff) ∧
    ∀ r, H r → r ∈ [[s% "alice", s% "allow"], [s% "bob", s% "deny"]] := by
  refine ⟨_, .add (.add (.built (.setDef (.setDef (.setDef (.setDef (.new _ _) _ _ _) _ _ _)
    _ _ _) _ _ _) (s% "grown-up owners") rfl rfl rfl) _ ?_) _ ?_, ?_⟩
  · exact of_decide_eq_true (by rfl)
  · exact of_decide_eq_true (by rfl)
  · have : (Stage.mk [] (Operand.trD f [])).policyKey = s% "p" := by decide
    rintro r ((⟨rules, h1, h2⟩ | h) | h)
    · rw [this] at h1
      have : rules = [] := by
        have h1' : some [] = some rules := h1
        exact (Option.some.inj h1').symm
      subst this
      cases h2
    all_goals
      rw [this] at h
      cases h
      simp

theorem free (eff : Str) : (∀ x ∈ rArgs, (program eff).functions (qual (s% "r") x) = none) ∧
    ∀ x ∈ pArgs, (program eff).functions (qual (s% "p") x) = none := by
  constructor
  · intro x hx
    simp only [rArgs, List.mem_cons, List.not_mem_nil, or_false] at hx
    rcases hx with rfl | rfl <;> rfl
  · intro x hx
    simp only [pArgs, List.mem_cons, List.not_mem_nil, or_false] at hx
    rcases hx with rfl | rfl <;> rfl

theorem legible : ∀ e ∈ f.conditions, PlainText e ∧ Legible (s% "p") pArgs e ∧ s% "eval" ∉ words e := by
  rw [conditions]
  have key : ∀ e ∈ [adultText, ownerText], PlainText e ∧ s% "eval" ∉ words e ∧
      (∀ w ∈ words e, IsPolicyRef w → ∃ y ∈ pArgs, w = qual (s% "p") y) ∧
      (words e).all (fun w => noTailRef (fun c => c == 'p' || c == 'g') w.tail) = true := by decide +kernel
  intro e he
  obtain ⟨k1, k2, k3, k4⟩ := key e he
  exact ⟨k1, ⟨k3, noInnerRef_of _ _ k4⟩, k2⟩

section
variable (adult : Str → EvalRes) (owns : Str → Str → EvalRes) (eff : Str) (rvals : List Str)

/-- What the conditions come to. -/
def out (e : Str) (r : Rule) : EvalRes :=
  (program eff).comesTo (gov adult owns) (s% "r") (s% "p") rArgs pArgs rvals e r

theorem explains : ∀ e ∈ f.conditions, (program eff).Explains (gov adult owns) (s% "r") (s% "p") rArgs pArgs rvals
    (fun _ => True) (out adult owns eff rvals) e := fun e he =>
  .inl ⟨(legible e he).1, (legible e he).2.1, (legible e he).2.2, fun _ => rfl⟩

theorem out_adult (r : Rule) : out adult owns eff rvals adultText r =
    match rvals[0]? with
    | some v => adult v
    | none => .err := rfl

theorem out_owner (w x : Str) : out adult owns eff rvals ownerText [w, x] =
    match rvals[1]? with
    | some v => owns v w
    | none => .err := by
  show (match rvals[1]?, some w with
    | some v, some w => owns v w
    | _, _ => .err) = _
  cases rvals[1]? <;> rfl

theorem left_none {H : Rule → Prop} {rules : List Rule} {O : Str → Rule → EvalRes} {ws : List (List Str)}
    (hne : ∃ r, H r) (h : ∀ r, H r → r ∈ rules) : ¬ LeftBehind (s% "p") pArgs O H rules ws := by
  rintro (⟨h1, -⟩ | ⟨way, last, -, seen, h1, -, -, h2⟩)
  · obtain ⟨r, hr⟩ := hne
    exact h1 r hr
  · exact h2 seen (h seen h1) (fun a _ => .inr rfl)

theorem naming : Naming (program eff).functions (s% "r") (s% "p") rArgs pArgs :=
  ⟨Model.writable_of (by decide) (by decide +kernel) (free eff).1, Model.writable_of (by decide) (by decide +kernel)
    (free eff).2, rfl, 'p', [], rfl, .inl rfl, by decide⟩

theorem effectOf_get (heff : eff ∈ [SOME_ALLOW, NO_DENY, SOME_ALLOW_NO_DENY]) :
    (program eff).model.eDefs.get (s% "e") = some eff := by
  simp only [List.mem_cons, List.not_mem_nil, or_false] at heff
  rcases heff with rfl | rfl | rfl <;> rfl

/-- Whatever the two expressions come to, whatever the order and the request: a request is granted only if `r.sub.Age > 18`
is true of the subject and `r.obj.Owner == p.owner` is true of the object and alice; with `!some(where(p.eft==deny))` it is
refused only if they are true of the subject, the object and bob; an error comes from the first expression or from a request
without values; and a panic comes from one of the expressions. -/
theorem case_any (ord : Order) (hord : ord.Valid) (hl : rvals.length ≤ 2)
    (heff : eff ∈ [SOME_ALLOW, NO_DENY, SOME_ALLOW_NO_DENY]) (answer : Res Bool)
    (ha : ((program eff).enforce fbuild (gov adult owns) 1 ord (rvals.map .val)).2 = answer) :
    (answer = .ok true → eff ≠ NO_DENY → ∃ sub obj, rvals = [sub, obj] ∧ adult sub = .bool true ∧
      owns obj (s% "alice") = .bool true) ∧
    (answer = .ok false → eff = NO_DENY → ∃ sub obj, rvals = [sub, obj] ∧ adult sub = .bool true ∧
      owns obj (s% "bob") = .bool true) ∧
    (answer = .err → ∀ sub rest, rvals = sub :: rest → adult sub = .err) ∧
    (answer = .panic → (∃ sub ∈ rvals, adult sub = .panic) ∨
      ∃ obj ∈ rvals, ∃ w ∈ [s% "alice", s% "bob", []], owns obj w = .panic) := by
  obtain ⟨H, h, hH⟩ := seen eff
  obtain ⟨rules, h1, h2, h3, h4⟩ := FnModel.c96_justified fbuild reading coherent binary (fun _ => 0)
    (s% "r") (s% "m") (s% "e") (s% "p") (s% "sub, obj") eff rArgs pArgs f _ (by decide) (by decide)
    (buildMatcherDef_formula _ _ (by decide) (by decide)) (fun _ => True) H (program eff) h (by decide) (by decide)
    (by rfl) (by decide) (newPolicyDef (s% "p") (s% "owner, eft")) (by rfl) (by decide) (effectOf_get eff heff)
    (gov adult owns) (gov_ok adult owns) (Gov.scope_scoped _) (naming eff) rvals hl (out adult owns eff rvals)
    (explains adult owns eff rvals) (.inl rfl)
    (fun _ _ => trivial) trivial ord hord 1 (by decide) _ (fun _ => Iff.rfl)
  obtain ⟨k1, k2, k3, k4⟩ := h4 (rvals.map .val) (by simp)
  have hrules : rules = [[s% "alice", s% "allow"], [s% "bob", s% "deny"]] := (Option.some.inj (h1.symm.trans rfl))
  have hnot := left_none (O := out adult owns eff rvals) (ws := f.ways)
    ⟨_, h2 [s% "alice", s% "allow"] (by rw [hrules]; simp)⟩ hH
  subst hrules ha
  have htrue : ∀ w x : Str, f.TrueOf (out adult owns eff rvals) [w, x] →
      ∃ sub obj, rvals = [sub, obj] ∧ adult sub = .bool true ∧ owns obj w = .bool true := by
    intro w x h
    unfold Formula.TrueOf at h
    rw [ways] at h
    simp only [exists_eq_left, List.mem_cons, List.not_mem_nil, or_false, forall_eq_or_imp,
      forall_eq, out_adult, out_owner] at h
    match rvals, hl, h with
    | [], _, h => simp at h
    | [_], _, h => simp at h
    | [a, b], _, h => exact ⟨a, b, rfl, by simpa using h⟩
  have hlist : ∀ r, (H r ∨ r = List.replicate pArgs.length []) → ∃ a b, r = [a, b] ∧ a ∈ [s% "alice", s% "bob", []] := by
    rintro r (hr | rfl)
    · have := hH r hr
      simp only [List.mem_cons, List.not_mem_nil, or_false] at this
      rcases this with rfl | rfl <;> exact ⟨_, _, rfl, by simp⟩
    · exact ⟨_, _, rfl, by simp⟩
  refine ⟨fun ht hne => ?_, fun ht heq => ?_, fun ht sub rest he => ?_, fun ht => ?_⟩
  · rcases (k1 ht hne).2 with ⟨r, g1, g2, g3⟩ | g
    · simp only [List.mem_cons, List.not_mem_nil, or_false] at g1
      rcases g1 with rfl | rfl
      · exact htrue _ _ g2
      · exact absurd g3 (by decide)
    · exact absurd g hnot
  · obtain ⟨r, g1, g2, g3⟩ := k2 ht heq
    simp only [List.mem_cons, List.not_mem_nil, or_false] at g1
    rcases g1 with rfl | rfl
    · exact absurd g3 (by decide)
    · exact htrue _ _ g2
  · obtain ⟨e, rest', r, g1, -, g3⟩ := k3 ht
    rw [ways] at g1
    simp only [List.mem_singleton, List.cons.injEq] at g1
    rw [g1.1, out_adult, he] at g3
    exact g3
  · obtain ⟨e, he, r, g2, g3⟩ := k4 ht
    obtain ⟨w, x, rfl, hw⟩ := hlist r g2
    rw [conditions] at he
    simp only [List.mem_cons, List.not_mem_nil, or_false] at he
    rcases he with rfl | rfl
    · rw [out_adult] at g3
      cases hv : rvals[0]? with
      | none => rw [hv] at g3; cases g3
      | some v =>
        rw [hv] at g3
        exact .inl ⟨v, List.mem_of_getElem? hv, g3⟩
    · rw [out_owner] at g3
      cases hv : rvals[1]? with
      | none => rw [hv] at g3; cases g3
      | some v =>
        rw [hv] at g3
        exact .inr ⟨v, List.mem_of_getElem? hv, w, hw, g3⟩

/-- If the expressions do not fail, exactly the requests of which they are true with alice as owner are granted. -/
theorem case_exact (ord : Order) (hord : ord.Valid) (sub obj : Str) (h1 : adult sub ≠ .err ∧ adult sub ≠ .panic)
    (h2 : ∀ w, owns obj w ≠ .err ∧ owns obj w ≠ .panic) :
    ((program SOME_ALLOW).enforce fbuild (gov adult owns) 1 ord ([sub, obj].map .val)).2 =
      .ok (decide (adult sub = .bool true ∧ owns obj (s% "alice") = .bool true)) := by
  obtain ⟨H, h, hH⟩ := seen SOME_ALLOW
  have hlist : ∀ r, (H r ∨ r = List.replicate pArgs.length []) → ∃ a b, r = [a, b] := by
    rintro r (hr | rfl)
    · have := hH r hr
      simp only [List.mem_cons, List.not_mem_nil, or_false] at this
      rcases this with rfl | rfl <;> exact ⟨_, _, rfl⟩
    · exact ⟨_, _, rfl⟩
  obtain ⟨rules, answer, g1, g2, -, g4, g5, -, -⟩ := FnModel.c96_exact fbuild reading coherent binary (fun _ => 0)
    (s% "r") (s% "m") (s% "e") (s% "p") (s% "sub, obj") SOME_ALLOW rArgs pArgs f _ (by decide) (by decide)
    (buildMatcherDef_formula _ _ (by decide) (by decide)) (fun _ => True) H (program SOME_ALLOW) h (by decide) (by decide)
    (by rfl) (by decide) (newPolicyDef (s% "p") (s% "owner, eft")) (by rfl) (by decide) (effectOf_get _ (by simp))
    (gov adult owns) (gov_ok adult owns) (Gov.scope_scoped _) (naming _) [sub, obj] (by simp [rArgs])
    (out adult owns SOME_ALLOW [sub, obj]) (explains adult owns _ _) (.inl rfl)
    (fun _ _ => trivial) trivial (fun e => absurd e (by decide)) ord hord 1 (by decide)
    (by
      intro e he r hr
      obtain ⟨a, b, rfl⟩ := hlist r hr
      rw [conditions] at he
      simp only [List.mem_cons, List.not_mem_nil, or_false] at he
      rcases he with rfl | rfl
      · rw [out_adult]; exact h1
      · rw [out_owner]; exact h2 a) _ (fun _ => Iff.rfl)
  have hrules : rules = [[s% "alice", s% "allow"], [s% "bob", s% "deny"]] := (Option.some.inj (g1.symm.trans rfl))
  have hnot := left_none (O := out adult owns SOME_ALLOW [sub, obj]) (ws := f.ways)
    ⟨_, g2 [s% "alice", s% "allow"] (by rw [hrules]; simp)⟩ hH
  subst hrules
  rw [g4 _ (by simp)]
  have g5 := (g5 rfl).trans (or_iff_left hnot)
  have e1 : effectOf pArgs [s% "alice", s% "allow"] = .allow := by decide
  have e2 : effectOf pArgs [s% "bob", s% "deny"] = .deny := by decide
  simp only [or_false, List.mem_cons, List.not_mem_nil, exists_eq_or_imp, exists_eq_left, e1, e2, and_true,
    Formula.TrueOf, ways, forall_eq_or_imp, forall_eq, out_adult, out_owner,
    List.getElem?_cons_zero, List.getElem?_cons_succ, reduceCtorEq, and_false] at g5
  congr 1
  rw [Bool.eq_iff_iff, g5]
  simp

/-- `Filter` lists alice's rule only if the expressions are true of it. -/
theorem case_listed (ord : Order) (hord : ord.Valid) (sub obj : Str) :
    ∀ row ∈ ((program SOME_ALLOW).filter fbuild (gov adult owns) 1 ord ([sub, obj].map .val)).2.1,
      adult sub = .bool true ∧ ∃ w ∈ [s% "alice", s% "bob"], row[1]? = some w ∧ owns obj w = .bool true := by
  obtain ⟨H, h, hH⟩ := seen SOME_ALLOW
  obtain ⟨rules, g1, g2⟩ := FnModel.c96_listed fbuild reading coherent binary (fun _ => 0)
    (s% "r") (s% "m") (s% "p") (s% "sub, obj") rArgs pArgs f _ (by decide) (by decide)
    (buildMatcherDef_formula _ _ (by decide) (by decide)) (fun _ => True) H (program SOME_ALLOW) h (by decide)
    (by rfl) (by decide) (newPolicyDef (s% "p") (s% "owner, eft")) (by rfl) (by decide)
    (gov adult owns) (gov_ok adult owns) (Gov.scope_scoped _) (naming _) [sub, obj] (by simp [rArgs])
    (out adult owns SOME_ALLOW [sub, obj]) (explains adult owns _ _) (.inl rfl)
    (fun _ _ => trivial) trivial ord hord 1 (by decide) ([sub, obj].map .val) (.inr (.inr ⟨rfl, rfl, rfl⟩))
  have hrules : rules = [[s% "alice", s% "allow"], [s% "bob", s% "deny"]] := (Option.some.inj (g1.symm.trans rfl))
  subst hrules
  have hnot : ¬ LeftBehind (s% "p") pArgs (out adult owns SOME_ALLOW [sub, obj]) H
      [[s% "alice", s% "allow"], [s% "bob", s% "deny"]] f.ways := by
    refine left_none ?_ hH
    obtain ⟨rules, k1, k2, -⟩ := FnModel.c96_justified fbuild reading coherent binary (fun _ => 0)
      (s% "r") (s% "m") (s% "e") (s% "p") (s% "sub, obj") SOME_ALLOW rArgs pArgs f _ (by decide) (by decide)
      (buildMatcherDef_formula _ _ (by decide) (by decide)) (fun _ => True) H (program SOME_ALLOW) h (by decide) (by decide)
      (by rfl) (by decide) (newPolicyDef (s% "p") (s% "owner, eft")) (by rfl) (by decide) (effectOf_get _ (by simp))
      (gov adult owns) (gov_ok adult owns) (Gov.scope_scoped _) (naming _) [sub, obj] (by simp [rArgs])
      (out adult owns SOME_ALLOW [sub, obj]) (explains adult owns _ _) (.inl rfl)
      (fun _ _ => trivial) trivial ord hord 1 (by decide) _ (fun _ => Iff.rfl)
    have : rules = [[s% "alice", s% "allow"], [s% "bob", s% "deny"]] := (Option.some.inj (k1.symm.trans rfl))
    exact ⟨_, k2 [s% "alice", s% "allow"] (by rw [this]; simp)⟩
  intro row hrow
  rcases g2 row hrow with ⟨r, q1, ⟨way, q2, q3⟩, rfl⟩ | ⟨q, -⟩
  · rw [ways, List.mem_singleton] at q2
    subst q2
    simp only [List.mem_cons, List.not_mem_nil, or_false, forall_eq_or_imp, forall_eq] at q3
    simp only [List.mem_cons, List.not_mem_nil, or_false] at q1
    rcases q1 with rfl | rfl
    · rw [out_adult, out_owner] at q3
      exact ⟨q3.1, _, by simp, rfl, q3.2⟩
    · rw [out_adult, out_owner] at q3
      exact ⟨q3.1, _, by simp, rfl, q3.2⟩
  · exact absurd q hnot

end

/-- Subjects stand for people with so many years as they have letters; objects are called after their owner. -/
def grown : Str → EvalRes := fun v => if v = [] then .err else .bool (decide (5 ≤ v.length))
def owned : Str → Str → EvalRes := fun v w => if v = s% "thing" then .other else .bool (v == w)

def ask (eff : Str) (ord : Order) (rvals : List Str) : Res Bool :=
  ((program eff).enforce fbuild (gov grown owned) 1 ord (rvals.map .val)).2

/-- Concrete answers. -/
example :
    ask SOME_ALLOW Order.fwd [s% "caesar", s% "alice"] = .ok true ∧
    ask SOME_ALLOW Order.rev [s% "caesar", s% "bob"] = .ok false ∧
    ask NO_DENY Order.rev [s% "caesar", s% "bob"] = .ok false ∧
    ask NO_DENY Order.rev [s% "tim", s% "bob"] = .ok true ∧
    ask SOME_ALLOW Order.fwd [s% "tim", s% "alice"] = .ok false ∧
    ask SOME_ALLOW Order.fwd [s% "caesar", s% "thing"] = .ok false ∧
    ask SOME_ALLOW Order.fwd [[], s% "alice"] = .err ∧
    ask SOME_ALLOW Order.fwd [s% "caesar"] = .ok false ∧
    ask SOME_ALLOW Order.fwd [] = .err ∧
    ((program SOME_ALLOW).filter fbuild (gov grown owned) 1 Order.fwd ([s% "caesar", s% "bob"].map .val)).2.1 =
      [[s% "p", s% "bob", s% "deny"]] := by
  refine ⟨?_, ?_, ?_, ?_, ?_, ?_, ?_, ?_, ?_, ?_⟩ <;> decide +kernel

end ExpressionsExample

end Fastac
