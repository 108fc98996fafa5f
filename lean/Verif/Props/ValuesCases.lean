import Verif.Props.Values
import Verif.Props.ExpressionsCases

/-!
# C114: cases that meet the hypotheses, and what is not true
-/

namespace Fastac

namespace ValuesExample

/-- Values beside strings and truth values: nil, and persons with a name and an age. -/
abbrev Obj := Option (Str × Nat)

def alike (a b : Obj) : Bool := decide (a = b)

/-- `r.sub.Age > 18`, after `replaceArgs` -/
def adultText : Str := s% "r_sub.Age > 18"

def termV (par : Str → Option (Val Obj)) (x : Str) : Option (Val Obj) :=
  if x.head? = some '\'' then some (.str (x.drop 1).dropLast) else par x

/-- A library that knows comparisons, calls, the empty text and the age of persons. -/
def lib : VGov Obj := fun fns par =>
  { compiles := fun _ => true
    eval := fun e r =>
      if e = [] then .val (.other none)
      else if e = adultText then
        match par r (s% "r_sub") with
        | some (.other (some p)) => .val (.bool (decide (p.2 > 18)))
        | _ => .err
      else if '(' ∈ e then
        match fns (e.takeWhile (· ≠ '(')) with
        | none => .err
        | some fn =>
          match (splitC ',' (removeSpaces ((e.dropWhile (· ≠ '(')).drop 1).dropLast)).mapM (termV (par r)) with
          | some vs => fn vs
          | none => .err
      else
        match termV (par r) (e.takeWhile (· ≠ ' ')), termV (par r) ((e.dropWhile (· ≠ ' ')).drop 4) with
        | some a, some b => .val (.bool (a.same alike b))
        | _, _ => .err }

/-- It sees only the names written in the text. -/
def gov : VGov Obj := fun fns par =>
  { compiles := fun e => (lib (only (words e) fns) (fun _ _ => none)).compiles e
    eval := fun e r => (lib (only (words e) fns) (fun _ => only (words e) (par r))).eval e [] }

theorem gov_scoped : gov.Scoped := by
  intro fns fns' par par' e _ hf
  simp only [gov]
  rw [only_congr hf]
  refine ⟨rfl, fun r r' hr => ?_⟩
  rw [only_congr hr]

theorem termV_text {fns : Str → Option (VFn Obj)} {x : GovTerm} (h : x.NoFn fns) (par : Str → Option (Val Obj)) :
    termV par x.text = x.value par := by
  cases x with
  | var x =>
    have : x.head? ≠ some '\'' := by
      intro e
      have := h.1.2.1 '\'' (List.mem_of_mem_head? (by rw [e]; rfl))
      exact absurd this (by decide)
    exact if_neg this
  | lit s =>
    have e : (quoted s).head? = some '\'' := rfl
    refine (if_pos e).trans ?_
    simp [quoted, GovTerm.value, GovTerm.text]

theorem free_ne {fns : Str → Option (VFn Obj)} {x : GovTerm} (h : x.NoFn fns) {c : Char} (hc : isWordC c = false)
    (hc' : c ∉ s% "/.*@:-") (hq : c ≠ '\'') : c ∉ x.text := by
  cases x with
  | var x => exact EndToEnd.ident_ne h.1 hc
  | lit s => exact EndToEnd.term_ne (fns := fun _ => none) (x := .lit s) h hc hc' hq

theorem mapM_termV {fns : Str → Option (VFn Obj)} (par : Str → Option (Val Obj)) : ∀ args : List GovTerm,
    (∀ a ∈ args, a.NoFn fns) → (args.map GovTerm.text).mapM (termV par) = args.mapM (fun a => a.value par)
  | [], _ => rfl
  | a :: as, h => by
    simp only [List.map_cons, List.mapM_cons, mapM_termV par as (fun x hx => h x (by simp [hx])),
      termV_text (h a (by simp))]

theorem eq_ne (x y : Str) : x ++ s% " == " ++ y ≠ [] ∧ x ++ s% " == " ++ y ≠ adultText := by
  have key : ∀ t : Str, (∀ i ≤ t.length, (t.drop i).take 2 ≠ [' ', '=']) → x ++ s% " == " ++ y ≠ t := by
    rintro t h rfl
    refine h x.length (by simp) ?_
    rw [List.append_assoc, List.drop_left]
    rfl
  exact ⟨key _ (by decide), key _ (by decide)⟩

theorem call_ne (f x : Str) : f ++ s% "(" ++ x ++ s% ")" ≠ [] ∧ f ++ s% "(" ++ x ++ s% ")" ≠ adultText := by
  have key : ∀ t : Str, '(' ∉ t → f ++ s% "(" ++ x ++ s% ")" ≠ t := by
    rintro t h rfl
    exact h (by simp)
  exact ⟨key _ (by decide), key _ (by decide)⟩

theorem lib_ok : lib.Ok alike := by
  constructor
  · intro fns par x y hx hy
    refine ⟨rfl, fun r => ?_⟩
    have e : x.text ++ s% " == " ++ y.text = x.text ++ ' ' :: (s% "== " ++ y.text) := by simp
    obtain ⟨t1, t2⟩ := EndToEnd.takeWhile_until (y := s% "== " ++ y.text)
      (free_ne hx (c := ' ') (by decide) (by decide) (by decide))
    have hp : '(' ∉ x.text ++ s% " == " ++ y.text := by
      have h1 := free_ne hx (c := '(') (by decide) (by decide) (by decide)
      have h2 := free_ne hy (c := '(') (by decide) (by decide) (by decide)
      simp [h1, h2]
    obtain ⟨n1, n2⟩ := eq_ne x.text y.text
    simp only [lib, if_neg hp, if_neg n1, if_neg n2]
    rw [e, t1, t2]
    simp only [List.drop_succ_cons, List.drop_zero, List.cons_append, List.nil_append]
    rw [termV_text hx, termV_text hy]
    cases x.value (par r) <;> cases y.value (par r) <;> rfl
  · intro fns par f fn args hf ff hne ha
    refine ⟨rfl, fun r => ?_⟩
    have e : f ++ s% "(" ++ join (s% ", ") (args.map GovTerm.text) ++ s% ")" =
        f ++ '(' :: (join (s% ", ") (args.map GovTerm.text) ++ s% ")") := by
      simp
    obtain ⟨t1, t2⟩ := EndToEnd.takeWhile_until (y := join (s% ", ") (args.map GovTerm.text) ++ s% ")")
      (EndToEnd.ident_ne hf (c := '(') (by decide))
    have hp : '(' ∈ f ++ s% "(" ++ join (s% ", ") (args.map GovTerm.text) ++ s% ")" := by simp
    obtain ⟨n1, n2⟩ := call_ne f (join (s% ", ") (args.map GovTerm.text))
    simp only [lib, if_pos hp, if_neg n1, if_neg n2]
    rw [e, t1, t2, ff]
    simp only [List.drop_succ_cons, List.drop_zero, List.dropLast_concat]
    rw [EndToEnd.removeSpaces_join _ (fun a h => by
        obtain ⟨x, hx, rfl⟩ := List.mem_map.1 h
        exact free_ne (ha x hx) (by decide) (by decide) (by decide)),
      splitC_join ',' _ (by simpa using hne) (fun a h => by
        obtain ⟨x, hx, rfl⟩ := List.mem_map.1 h
        exact free_ne (ha x hx) (by decide) (by decide) (by decide)),
      mapM_termV (par r) args ha]
    cases args.mapM (fun a => a.value (par r)) <;> rfl

theorem only_free {ws : List Str} {fns : Str → Option (VFn Obj)} {x : GovTerm} (h : x.NoFn fns) :
    x.NoFn (only ws fns) := by
  cases x with
  | var x =>
    refine ⟨h.1, ?_⟩
    unfold only
    split
    · exact h.2
    · rfl
  | lit s => exact h

theorem only_value {ws : List Str} {fns : Str → Option (VFn Obj)} {x : GovTerm} (h : x.NoFn fns)
    (hw : ∀ w ∈ words x.text, w ∈ ws) (par : Str → Option (Val Obj)) : x.value (only ws par) = x.value par := by
  cases x with
  | var x =>
    have h2 := words_single h.1.2.1 h.1.1
    exact if_pos (hw x (by rw [GovTerm.text, h2]; simp))
  | lit s => rfl

theorem mapM_same {f g : GovTerm → Option (Val Obj)} : ∀ args : List GovTerm, (∀ a ∈ args, f a = g a) →
    args.mapM f = args.mapM g
  | [], _ => rfl
  | a :: as, h => by simp only [List.mapM_cons, h a (by simp), mapM_same as (fun b hb => h b (by simp [hb]))]

theorem gov_ok : gov.Ok alike := by
  constructor
  · intro fns par x y hx hy
    have hw := words_eq x.text y.text
    have h1 := fun p => lib_ok.eqT (only (words (x.text ++ s% " == " ++ y.text)) fns) p x y (only_free hx) (only_free hy)
    refine ⟨(h1 (fun _ _ => none)).1, fun r => ?_⟩
    simp only [gov]
    rw [(h1 _).2, only_value hx (by rw [hw]; intro w h; simp [h]), only_value hy (by rw [hw]; intro w h; simp [h])]
  · intro fns par f fn args hf ff hne ha
    have hw : words (f ++ s% "(" ++ join (s% ", ") (args.map GovTerm.text) ++ s% ")") = _ :=
      words_call (args.map GovTerm.text) hf
    have hff : only (words (f ++ s% "(" ++ join (s% ", ") (args.map GovTerm.text) ++ s% ")")) fns f = some fn := by
      rw [hw]; unfold only; simp [ff]
    have h1 := fun p => lib_ok.callT (only (words (f ++ s% "(" ++ join (s% ", ") (args.map GovTerm.text) ++ s% ")")) fns) p
      f fn args hf hff hne (fun a h => only_free (ha a h))
    refine ⟨(h1 (fun _ _ => none)).1, fun r => ?_⟩
    simp only [gov]
    rw [(h1 _).2]
    have : args.mapM (fun a => a.value (only (words (f ++ s% "(" ++ join (s% ", ") (args.map GovTerm.text) ++ s% ")"))
        (par r))) = args.mapM (fun a => a.value (par r)) := by
      apply mapM_same
      intro a hm
      apply only_value (ha a hm)
      rw [hw]
      intro w h
      exact List.mem_cons_of_mem _ (List.mem_flatMap.2 ⟨a.text, List.mem_map.2 ⟨a, hm, rfl⟩, h⟩)
    rw [this]

/-! ## examples/abac_rule_model.conf with two rules -/

/-- `g(r.sub, p.sub)`, and others -/
def roleF : Formula := [[(Atom.call (s% "g") [.req (s% "sub"), .pol (s% "sub")]).operand (s% "r") (s% "p")]]
def pathF : Formula := [[(Atom.call (s% "pathMatch") [.req (s% "sub"), .pol (s% "sub")]).operand (s% "r") (s% "p")]]
def sameF : Formula := [[(Atom.eq (.req (s% "sub")) (.pol (s% "sub"))).operand (s% "r") (s% "p")]]
def firstF : Formula := [[(Atom.call (s% "first") [.req (s% "sub"), .pol (s% "sub")]).operand (s% "r") (s% "p")]]
/-- `r.sub == g.user` -/
def userF : Formula := [[(Atom.eq (.req (s% "sub")) (.pol (s% "user"))).operand (s% "r") (s% "g")]]
def textF : Formula := [[(Atom.call (s% "eval") [.req (s% "sub")]).operand (s% "r") (s% "p")]]

def reading (e : Str) : Res Stage :=
  if e = s% "abac" then .ok (.mk [] (Operand.trD VModel.abacMatcher []))
  else if e = s% "role" then .ok (.mk [] (Operand.trD roleF []))
  else if e = s% "path" then .ok (.mk [] (Operand.trD pathF []))
  else if e = s% "same" then .ok (.mk [] (Operand.trD sameF []))
  else if e = s% "text" then .ok (.mk [] (Operand.trD textF []))
  else if e = s% "first" then .ok (.mk [] (Operand.trD firstF []))
  else if e = s% "user" then .ok (.mk [] (Operand.trD userF []))
  else .err

def vbuild : FnBuild := fun _ e => reading e

theorem coherent : vbuild.Coherent reading := fun _ _ => .inl rfl

theorem binary : ∀ e s, reading e = .ok s → s.Binary := by
  intro e s h
  unfold reading at h
  split at h
  · cases h
    simp [VModel.abacMatcher, VModel.ruleAtom, VModel.objAtom, VModel.actAtom, Atom.operand, Operand.trD, Operand.trC,
      Operand.trU, Stage.Binary, Stage.All, Stage.AllIn, Stage.children]
  split at h
  · cases h
    simp [roleF, Atom.operand, Operand.trD, Operand.trC, Operand.trU, Stage.Binary, Stage.All, Stage.AllIn, Stage.children]
  split at h
  · cases h
    simp [pathF, Atom.operand, Operand.trD, Operand.trC, Operand.trU, Stage.Binary, Stage.All, Stage.AllIn, Stage.children]
  split at h
  · cases h
    simp [sameF, Atom.operand, Operand.trD, Operand.trC, Operand.trU, Stage.Binary, Stage.All, Stage.AllIn, Stage.children]
  split at h
  · cases h
    simp [textF, Atom.operand, Operand.trD, Operand.trC, Operand.trU, Stage.Binary, Stage.All, Stage.AllIn, Stage.children]
  split at h
  · cases h
    simp [firstF, Atom.operand, Operand.trD, Operand.trC, Operand.trU, Stage.Binary, Stage.All, Stage.AllIn, Stage.children]
  split at h
  · cases h
    simp [userF, Atom.operand, Operand.trD, Operand.trC, Operand.trU, Stage.Binary, Stage.All, Stage.AllIn, Stage.children]
  · cases h

/-- Adults may read data1 and write data2. -/
def calls : List (VOp Obj) :=
  [.setDef 'r' (s% "r") (s% "sub, obj, act"), .setDef 'p' (s% "p") (s% "sub_rule, obj, act"),
   .setDef 'e' (s% "e") SOME_ALLOW, .setDef 'm' (s% "m") (s% "abac"), .buildMatcher (s% "m"),
   .rule (.add [s% "p", s% "r.sub.Age > 18", s% "data1", s% "read"]),
   .rule (.add [s% "p", s% "r.sub.Age > 18", s% "data2", s% "write"])]

def program : VModel Obj := calls.foldl (VModel.step vbuild) (VModel.new Shipped.Run.std none [])

def stored : List Rule := [[s% "r.sub.Age > 18", s% "data1", s% "read"], [s% "r.sub.Age > 18", s% "data2", s% "write"]]

theorem seen : ∃ H, FnModel.FnSeen vbuild (s% "m") (.mk [] (Operand.trD VModel.abacMatcher [])) H program.plain ∧
    ∀ r, H r → r ∈ stored := by
  have e : program.plain = (calls.map VOp.plain).foldl (FnModel.step vbuild) (FnModel.new Shipped.Run.std []) := by
    rw [program, (VModel.c114_program vbuild).2.2, (VModel.c114_program vbuild).1]
    rfl
  rw [e]
  refine ⟨_, .add (.add (.built (.setDef (.setDef (.setDef (.setDef (.new _ _) _ _ _) _ _ _)
    _ _ _) _ _ _) (s% "abac") rfl rfl rfl) _ ?_) _ ?_, ?_⟩
  · exact of_decide_eq_true (by rfl)
  · exact of_decide_eq_true (by rfl)
  · have : (Stage.mk [] (Operand.trD VModel.abacMatcher [])).policyKey = s% "p" := by decide
    rintro r ((⟨rules, h1, h2⟩ | h) | h)
    · rw [this] at h1
      have : rules = [] := by
        have h1' : some [] = some rules := h1
        exact (Option.some.inj h1').symm
      subst this
      cases h2
    all_goals
      rw [this] at h
      cases h
      simp [stored]

theorem naming : Naming program.plain.functions (s% "r") (s% "p") [s% "sub", s% "obj", s% "act"]
    [s% "sub_rule", s% "obj", s% "act"] := by
  refine ⟨Model.writable_of (by decide) (by decide +kernel) ?_, Model.writable_of (by decide) (by decide +kernel)
    ?_, rfl, 'p', [], rfl, .inl rfl, by decide⟩
  · intro x hx
    simp only [List.mem_cons, List.not_mem_nil, or_false] at hx
    rcases hx with rfl | rfl | rfl <;> rfl
  · intro x hx
    simp only [List.mem_cons, List.not_mem_nil, or_false] at hx
    rcases hx with rfl | rfl | rfl <;> rfl

/-- A person may read data1 and write data2, and nothing else, exactly if older than 18, whatever object and action are. -/
theorem case_person (ord : Order) (hord : ord.Valid) (name : Str) (age : Nat) (obj act : Val Obj) (hact : act ≠ .str []) :
    (program.enforce vbuild gov 1 ord [.val (.other (some (name, age))), .val obj, .val act]).2 =
      .ok (decide (age > 18 ∧ ((obj = .str (s% "data1") ∧ act = .str (s% "read")) ∨
        (obj = .str (s% "data2") ∧ act = .str (s% "write"))))) := by
  obtain ⟨H, h, hH⟩ := seen
  have ht : ∀ text, text = s% "r.sub.Age > 18" → program.answers gov (s% "r") [s% "sub", s% "obj", s% "act"]
      [.other (some (name, age)), obj, act] (s% "eval") [.str text] = .bool (decide (age > 18)) := by
    rintro text rfl
    have hre : replaceArgs (s% "r.sub.Age > 18") = adultText := by decide +kernel
    unfold VModel.answers
    simp only [hre]
    rfl
  obtain ⟨rules, answer, g1, g2, g3⟩ := VModel.c114_abac vbuild reading coherent binary (fun _ => 0) _
    (buildMatcherDef_formula _ _ (by decide) (by decide)) H program h rfl (newPolicyDef (s% "p") (s% "sub_rule, obj, act"))
    (by rfl) (by decide) (by rfl) alike gov gov_ok gov_scoped naming (.other (some (name, age))) obj act hact _ (fun _ => rfl)
    (by
      intro text o a hr
      have hm := hH _ hr
      have : text = s% "r.sub.Age > 18" := by
        simp only [stored, List.mem_cons, List.not_mem_nil, or_false, List.cons.injEq, and_true] at hm
        rcases hm with ⟨e, -⟩ | ⟨e, -⟩ <;> exact e
      rw [ht text this]
      subst this
      exact ⟨by decide +kernel, by decide +kernel, by decide +kernel, by simp, by simp⟩)
    (by
      have : program.answers gov (s% "r") [s% "sub", s% "obj", s% "act"] [.other (some (name, age)), obj, act]
        (s% "eval") [.str []] = .other := rfl
      rw [this]
      simp) ord hord 1 (by decide)
  have hrules : rules = stored := (Option.some.inj (g1.symm.trans rfl))
  subst hrules
  rw [g2]
  congr 1
  rw [Bool.eq_iff_iff, g3, decide_eq_true_iff]
  constructor
  · rintro ⟨text, o, a, k1, k2, k3, k4⟩
    have : text = s% "r.sub.Age > 18" := by
      simp only [stored, List.mem_cons, List.not_mem_nil, or_false, List.cons.injEq, and_true] at k1
      rcases k1 with ⟨e, -⟩ | ⟨e, -⟩ <;> exact e
    rw [ht text this] at k2
    simp only [EvalRes.bool.injEq, decide_eq_true_eq] at k2
    refine ⟨k2, ?_⟩
    simp only [stored, List.mem_cons, List.not_mem_nil, or_false, List.cons.injEq, and_true] at k1
    rcases k1 with ⟨-, rfl, rfl⟩ | ⟨-, rfl, rfl⟩
    · exact .inl ⟨k3, k4⟩
    · exact .inr ⟨k3, k4⟩
  · rintro ⟨k1, ⟨k2, k3⟩ | ⟨k2, k3⟩⟩
    · exact ⟨s% "r.sub.Age > 18", _, _, List.mem_cons_self .., by rw [ht _ rfl]; simpa using k1, k2, k3⟩
    · exact ⟨s% "r.sub.Age > 18", _, _, List.mem_cons_of_mem _ (List.mem_cons_self ..), by rw [ht _ rfl]; simpa using k1, k2, k3⟩

/-- A subject that is no person is an error. -/
example : ∀ sub ∈ [Val.str (s% "alice"), .bool true, .other none],
    (program.enforce vbuild gov 1 Order.fwd [.val sub, .val (.str (s% "data1")), .val (.str (s% "read"))]).2 = .err := by
  decide +kernel

/-! ## One value, several conditions -/

/-- One rule, for alice, with the given matcher. -/
def small (matcher : Str) : VModel Obj :=
  [VOp.setDef 'r' (s% "r") (s% "sub"), .setDef 'p' (s% "p") (s% "sub"), .setDef 'g' (s% "g") (s% "_, _"),
   .setDef 'e' (s% "e") SOME_ALLOW, .setDef 'm' (s% "m") matcher, .buildMatcher (s% "m"),
   .rule (.add [s% "p", s% "alice"])].foldl (VModel.step vbuild) (VModel.new Shipped.Run.std none [])

/-- Of each string and truth value and object, whether it is let in; a comparison is false, a matching function and `eval`
return an error. -/
example : ∀ x ∈ [(Val.str (s% "alice"), Res.ok true, Res.ok true, Res.ok true), (.str (s% "bob"), .ok false, .ok false, .ok false),
      (.bool true, .ok false, .err, .panic), (.other (some (s% "alice", 20)), .ok false, .err, .panic),
      (.other none, .ok false, .err, .panic)],
    ((small (s% "same")).enforce vbuild gov 1 Order.fwd [.val x.1]).2 = x.2.1 ∧
    ((small (s% "path")).enforce vbuild gov 1 Order.fwd [.val x.1]).2 = x.2.2.1 ∧
    ((small (s% "role")).enforce vbuild gov 1 Order.fwd [.val x.1]).2 = x.2.2.2 := by
  decide +kernel

/-- `Filter` lists alice's rule for alice only. -/
example : ((small (s% "same")).filter vbuild gov 1 Order.fwd [.val (.str (s% "alice"))]).2 =
      ([[s% "p", s% "alice"]], .ok ()) ∧
    ((small (s% "same")).filter vbuild gov 1 Order.fwd [.val (.bool true)]).2 = ([], .ok ()) ∧
    ((small (s% "role")).filter vbuild gov 1 Order.fwd [.val (.bool true)]).2 = ([], .panic) ∧
    ((small (s% "path")).filter vbuild gov 1 Order.fwd [.opt (.matcher (.str (s% "m"))), .val (.other none)]).2 =
      ([], .err) := by
  decide +kernel

/-! ## More cases -/

/-- Grown-ups and children, data1 and data2. -/
example : ∀ x ∈ [(20, s% "data1", s% "read", true), (12, s% "data1", s% "read", false), (20, s% "data2", s% "write", true),
      (20, s% "data1", s% "write", false)],
    (program.enforce vbuild gov 1 Order.fwd [.val (.other (some (s% "alice", x.1))), .val (.str x.2.1),
      .val (.str x.2.2.1)]).2 = .ok x.2.2.2 := by
  decide +kernel

/-- A library that cannot compile everything. -/
def picky : VGov Obj := fun fns par =>
  { compiles := fun e => e.head? != some ')', eval := fun e r => (gov fns par).eval e r }

/-- `eval(r.sub)`: names with a dot are attributes; what is no text, or no expression, is an error. -/
example : ∀ x ∈ [(Val.str (s% "r.sub == r.sub"), Res.ok true), (.str (s% "r.sub == 'x'"), .ok false), (.str [], .ok false),
      (.str (s% ")r.sub"), .err), (.bool true, .err), (.other none, .err)],
    ((small (s% "text")).enforce vbuild picky 1 Order.fwd [.val x.1]).2 = x.2 := by
  decide +kernel

/-- What the functions of a model answer. -/
def answer (s : VModel Obj) (f : Str) (args : List (Val Obj)) : Option (VRes Obj) := (s.functions f).map (fun g => g args)

/-- The library whose globs are never well-formed. -/
def noGlob : StdLib := ⟨Shipped.Run.std.regex, Shipped.Run.std.ip, fun _ _ => none⟩

def builtins : VModel Obj :=
  VModel.new noGlob none [(s% "first", fun vs => match vs with | v :: _ => .val v | [] => .err)]

example : ∀ x ∈ [
      (s% "pathMatch", ([.str (s% "/a/b"), .str (s% "/a/:x")] : List (Val Obj)), (.val (.bool true) : VRes Obj)),
      (s% "pathMatch", ([.str (s% "/a/:x"), .str (s% "/a/b")] : List (Val Obj)), (.val (.bool false) : VRes Obj)),
      (s% "pathMatch", ([.str (s% "/a/b")] : List (Val Obj)), (.err : VRes Obj)),
      (s% "pathMatch", ([.str (s% "/a/b"), .str (s% "/a/b"), .bool true] : List (Val Obj)), (.err : VRes Obj)),
      (s% "pathMatch", ([.str (s% "/a/b"), .str (s% "/a/b"), .str (s% "/a/b")] : List (Val Obj)), (.err : VRes Obj)),
      (s% "pathMatch", ([.str (s% "/a/{x}"), .str (s% "/a/:x")] : List (Val Obj)), (.val (.bool true) : VRes Obj)),
      (s% "pathMatch2", ([.str (s% "/a/b"), .str (s% "/a/:x")] : List (Val Obj)), (.val (.bool false) : VRes Obj)),
      (s% "pathMatch2", ([.str (s% "/a/b"), .str (s% "/a/{x}")] : List (Val Obj)), (.val (.bool true) : VRes Obj)),
      (s% "globMatch", ([.str (s% "a"), .str (s% "[")] : List (Val Obj)), (.err : VRes Obj)),
      (s% "ipMatch", ([.str (s% "a"), .str (s% "b")] : List (Val Obj)), (.panic : VRes Obj)),
      (s% "first", ([.other (some (s% "alice", 20))] : List (Val Obj)), (.val (.other (some (s% "alice", 20))) : VRes Obj)),
      (s% "eval", ([.str (s% "true")] : List (Val Obj)), (.val (.other none) : VRes Obj))],
    answer builtins x.1 x.2.1 = some x.2.2 := by
  decide +kernel

/-- Role functions, with and without domains. -/
def roles : VModel Obj :=
  [VOp.setDef 'g' (s% "g") (s% "_, _"), .setDef 'g' (s% "g2") (s% "_, _, _"),
   .rule (.add [s% "g", s% "alice", s% "admin"]), .rule (.add [s% "g2", s% "alice", s% "admin", s% "dom1"])].foldl
    (VModel.step vbuild) (VModel.new Shipped.Run.std none [])

example : ∀ x ∈ [
      (s% "g", ([.str (s% "alice"), .str (s% "admin")] : List (Val Obj)), (.val (.bool true) : VRes Obj)),
      (s% "g", ([.str (s% "admin"), .str (s% "alice")] : List (Val Obj)), (.val (.bool false) : VRes Obj)),
      (s% "g", ([.str (s% "alice"), .str (s% "admin"), .str (s% "dom1")] : List (Val Obj)), (.val (.bool true) : VRes Obj)),
      (s% "g", ([.str (s% "alice"), .str (s% "admin"), .bool true] : List (Val Obj)), (.panic : VRes Obj)),
      (s% "g", ([.str (s% "alice")] : List (Val Obj)), (.panic : VRes Obj)),
      (s% "g2", ([.str (s% "alice"), .str (s% "admin"), .str (s% "dom1")] : List (Val Obj)), (.val (.bool true) : VRes Obj)),
      (s% "g2", ([.str (s% "alice"), .str (s% "admin"), .str (s% "dom2")] : List (Val Obj)), (.val (.bool false) : VRes Obj)),
      (s% "g2", ([.str (s% "alice"), .str (s% "admin"), .other none] : List (Val Obj)), (.panic : VRes Obj))],
    answer roles x.1 x.2.1 = some x.2.2 := by
  decide +kernel

/-- What calls leave behind. -/
example :
    answer (roles.removeDef 'g' (s% "g")) (s% "g") [.str (s% "alice"), .str (s% "admin")] = none ∧
    answer (roles.removeDef 'p' (s% "g")) (s% "g") [.str (s% "alice"), .str (s% "admin")] = some (.val (.bool true)) ∧
    answer (roles.removeFunction (s% "g")) (s% "g") [.str (s% "alice"), .str (s% "admin")] = none ∧
    answer (roles.setFunction (s% "g") (fun _ => .err)) (s% "g") [.str (s% "alice"), .str (s% "admin")] = some .err ∧
    answer (roles.setDef 'g' (s% "g") (s% "_, _")) (s% "g") [.str (s% "alice"), .str (s% "admin")] =
      some (.val (.bool false)) ∧
    (roles.setDef 'p' (s% "q") (s% "x")).knows (s% "q") = false := by
  decide +kernel

/-- Attributes of a role rule. -/
example : VMatchParams.get (O := Obj) ⟨declare (s% "g") [s% "user", s% "role"], declare (s% "r") [s% "sub", s% "obj"],
      [.bool true, .other none]⟩ [s% "alice", s% "admin"] (s% "g_role") = some (.str (s% "admin")) ∧
    VMatchParams.get (O := Obj) ⟨declare (s% "p") [s% "user", s% "role"], declare (s% "r") [s% "sub", s% "obj"],
      [.bool true, .other none]⟩ [s% "alice", s% "admin"] (s% "p_user") = some (.str (s% "alice")) ∧
    VMatchParams.get (O := Obj) ⟨declare (s% "p") [s% "user", s% "role"], declare (s% "r") [s% "sub", s% "obj"],
      [.bool true, .other none]⟩ [s% "alice", s% "admin"] (s% "r_obj") = some (.other none) := by
  decide +kernel

/-- Rules for alice, who is let in, and bob, who is not; the definitions are named. -/
def pair (eff : Str) : VModel Obj :=
  [VOp.setDef 'r' (s% "r") (s% "sub"), .setDef 'p' (s% "p") (s% "sub, eft"),
   .setDef 'e' (s% "e2") eff, .setDef 'm' (s% "m2") (s% "same"), .buildMatcher (s% "m2"),
   .rule (.add [s% "p", s% "alice", s% "allow"]), .rule (.add [s% "p", s% "bob", s% "deny"]),
   .rule (.add [s% "p", s% "alice", s% "deny"])].foldl (VModel.step vbuild) (VModel.new Shipped.Run.std none [])

/-- Which keys are asked for matters, and so does the effect expression; a definition that is not named is not found. -/
example : ∀ x ∈ [(SOME_ALLOW, s% "alice", Res.ok true), (SOME_ALLOW, s% "bob", .ok false), (NO_DENY, s% "bob", .ok false),
      (NO_DENY, s% "carol", .ok true), (SOME_ALLOW_NO_DENY, s% "alice", .ok false)],
    ((pair x.1).enforce vbuild gov 1 Order.fwd (namedV (s% "r") (s% "m2") (s% "e2") ++ [.val (.str x.2.1)])).2 = x.2.2 := by
  decide +kernel

/-- Two rules are listed; a matcher given by its text listens to the policy afterwards; `eval` is set by a call that gets
far enough. -/
example :
    ((pair SOME_ALLOW).filter vbuild gov 1 Order.fwd [.opt (.matcher (.str (s% "m2"))), .val (.str (s% "alice"))]).2 =
      ([[s% "p", s% "alice", s% "allow"], [s% "p", s% "alice", s% "deny"]], .ok ()) ∧
    ((pair SOME_ALLOW).filter vbuild gov 1 Order.fwd [.opt (.matcher (.str (s% "m2"))), .val (.str (s% "alice"))]).1.plain.functions
      (s% "eval") = none ∧
    ((pair SOME_ALLOW).enforce vbuild gov 1 Order.fwd [.opt (.matcher (.str (s% "m2"))), .opt (.effector (.str (s% "e2"))),
      .val (.str (s% "alice"))]).1.functions (s% "eval") = none ∧
    (((pair SOME_ALLOW).enforce vbuild gov 1 Order.fwd [.val (.str (s% "alice"))]).1.functions (s% "eval")).isSome = true ∧
    (((pair SOME_ALLOW).enforce vbuild gov 1 Order.fwd [.opt (.matcher (.str (s% "same"))),
      .opt (.effector (.str (s% "e2"))), .val (.str (s% "alice"))]).1.model.pMap.get (s% "p")).map (fun p => p.listeners.length) =
      ((pair SOME_ALLOW).model.pMap.get (s% "p")).map (fun p => p.listeners.length + 1) := by
  decide +kernel

/-- A function that returns its first argument: only a truth value decides. -/
example : ∀ x ∈ [(Val.bool true, true), (.bool false, false), (.str (s% "true"), false), (.other none, false)],
    (((small (s% "first")).setFunction (s% "first") (fun vs => match vs with | v :: _ => .val v | [] => .err)).enforce vbuild gov 1
      Order.fwd [.val x.1]).2 = .ok x.2 := by
  decide +kernel

/-- A matcher that asks the rules of `g`. -/
def users : VModel Obj :=
  [VOp.setDef 'r' (s% "r") (s% "sub"), .setDef 'g' (s% "g") (s% "_, _"), .setDef 'e' (s% "e") SOME_ALLOW,
   .setDef 'm' (s% "m") (s% "user"), .buildMatcher (s% "m"), .rule (.add [s% "g", s% "alice", s% "admin"])].foldl
    (VModel.step vbuild) (VModel.new Shipped.Run.std none [])

def bob : VOp Obj := .rule (.add [s% "g", s% "bob", s% "admin"])

/-- Rules added after calls on the manager are seen; with another manager the matcher is no longer told. -/
example :
    ((users.step vbuild bob).filter vbuild gov 1 Order.fwd [.val (.str (s% "bob"))]).2 =
      ([[s% "g", s% "bob", s% "admin"]], .ok ()) ∧
    (((users.onManager (s% "g") (fun m => m)).step vbuild bob).filter vbuild gov 1 Order.fwd [.val (.str (s% "bob"))]).2 =
      ([[s% "g", s% "bob", s% "admin"]], .ok ()) ∧
    ((users.setRoleManager (s% "g") (.rm (RM.new 10))).filter vbuild gov 1 Order.fwd [.val (.str (s% "alice"))]).2 =
      ([[s% "g", s% "alice", s% "admin"]], .ok ()) ∧
    (((users.setRoleManager (s% "g") (.rm (RM.new 10))).step vbuild bob).filter vbuild gov 1 Order.fwd
      [.val (.str (s% "bob"))]).2 = ([], .ok ()) := by
  decide +kernel

/-- The effects are read with the definition of the policy that there is now; a matcher is built with the functions that
there are now; removing a role definition removes the function. -/
example :
    (((pair SOME_ALLOW).setDef 'p' (s% "p") (s% "sub, other")).enforce vbuild gov 1 Order.fwd
      (namedV (s% "r") (s% "m2") (s% "e2") ++ [.val (.str (s% "bob"))])).2 = .ok true ∧
    (((small (s% "same")).setDef 'm' (s% "m3") (s% "same")).buildMatcher (fun k e => if k (s% "g") then reading e else .err)
      (s% "m3")).model.mMap.has (s% "m3") = true ∧
    (roles.removeDef 'g' (s% "g")).knows (s% "g") = false := by
  decide +kernel

end ValuesExample

/-- **C114** as a whole is not true: a value that is no string does not make `Enforce` return false or an error if it
reaches a role function; the call panics, because of a type assertion without a check. -/
theorem c114_fails : ∃ (s : VModel ValuesExample.Obj) (v : Val ValuesExample.Obj),
    (s.enforce ValuesExample.vbuild ValuesExample.gov 1 Order.fwd [.val (.str (s% "alice"))]).2 = .ok true ∧
    (s.enforce ValuesExample.vbuild ValuesExample.gov 1 Order.fwd [.val v]).2 = .panic :=
  ⟨ValuesExample.small (s% "role"), .bool true, by decide +kernel, by decide +kernel⟩

end Fastac
