import Verif.Model.Enforce

/-!
# Traversals as event lists

`rangeStage` calls a visitor.  Here the same traversal is described by a list of events that does
not depend on the visitor; running the visitor over the list gives the traversal.
-/

namespace Fastac

/-- What happens during a traversal: a leaf rule is handed to the visitor, a nested error silently
halts everything, a top-level error is returned, or a panic occurs. -/
inductive Ev where
  | visit (r : Rule)
  | halt
  | fail
  | panic
deriving Repr, DecidableEq

def consume {σ : Type} (fn : σ → Rule → σ × Bool) : List Ev → σ → σ × Status
  | [], s => (s, .cont)
  | .visit r :: es, s =>
    match fn s r with
    | (s', true) => consume fn es s'
    | (s', false) => (s', .stop)
  | .halt :: _, s => (s, .stop)
  | .fail :: _, s => (s, .err)
  | .panic :: _, s => (s, .panic)

/-- Errors of nested stages are swallowed (matcher.go:206-207). -/
def demote : Ev → Ev
  | .fail => .halt
  | e => e

def evEntries (E : Evaluator) (expr : Str) (cb : Str → Node → List Ev) : GoMap Str Node → List Ev
  | [] => []
  | (k, child) :: es =>
    match E.eval expr child.rule with
    | .err => [.fail]
    | .panic => [.panic]
    | .other => evEntries E expr cb es
    | .bool false => evEntries E expr cb es
    | .bool true => (cb k child).map demote ++ evEntries E expr cb es

/-- The map actually iterated over (matcher.go:176-181). -/
def entriesOf (nargs : Nat) (ord : Order) (path : List (Nat × Str)) (i : Nat) (m : GoMap Str Node) :
    GoMap Str Node :=
  if m.isEmpty then [([], newNode (List.replicate nargs []))] else ord path i m

mutual
def evStage (E : Evaluator) (nargs : Nat) (ord : Order) :
    Stage → List (Nat × Str) → Node → List Ev
  | .mk _ cs, path, node => evChildren E nargs ord cs 0 path node
def evChildren (E : Evaluator) (nargs : Nat) (ord : Order) :
    List Stage → Nat → List (Nat × Str) → Node → List Ev
  | [], _, _, _ => []
  | st :: rest, i, path, node =>
    match node.children[i]? with
    | none => [.panic]
    | some m =>
      if E.compiles st.expr = false then [.fail]
      else
        evEntries E st.expr (fun k child =>
            (if st.isLeaf then [.visit child.rule] else []) ++
              evStage E nargs ord st (path ++ [(i, k)]) child)
          (entriesOf nargs ord path i m) ++
        evChildren E nargs ord rest (i + 1) path node
end

theorem consume_append {σ : Type} (fn : σ → Rule → σ × Bool) (a b : List Ev) (s : σ) :
    consume fn (a ++ b) s =
      match consume fn a s with
      | (s', .cont) => consume fn b s'
      | r => r := by
  induction a generalizing s with
  | nil => simp [consume]
  | cons e a ih =>
    cases e with
    | visit r =>
      simp only [List.cons_append, consume]
      rcases h : fn s r with ⟨s', b'⟩
      cases b' <;> simp [ih]
    | halt => simp [consume]
    | fail => simp [consume]
    | panic => simp [consume]

theorem consume_demote {σ : Type} (fn : σ → Rule → σ × Bool) (a : List Ev) (s : σ) :
    consume fn (a.map demote) s =
      match consume fn a s with
      | (s', .err) => (s', .stop)
      | r => r := by
  induction a generalizing s with
  | nil => simp [consume]
  | cons e a ih =>
    cases e with
    | visit r =>
      simp only [List.map_cons, demote, consume]
      rcases h : fn s r with ⟨s', b'⟩
      cases b' <;> simp [ih]
    | halt => simp [consume, demote]
    | fail => simp [consume, demote]
    | panic => simp [consume, demote]

theorem rangeEntries_eq {σ : Type} (E : Evaluator) (expr : Str) (fn : σ → Rule → σ × Bool)
    (cb : Str → Node → σ → σ × Status) (ecb : Str → Node → List Ev)
    (h : ∀ k c s, cb k c s = consume fn ((ecb k c).map demote) s)
    (m : GoMap Str Node) (s : σ) :
    rangeEntries E expr cb m s = consume fn (evEntries E expr ecb m) s := by
  induction m generalizing s with
  | nil => simp [rangeEntries, evEntries, consume]
  | cons e es ih =>
    rcases e with ⟨k, c⟩
    simp only [rangeEntries, evEntries]
    cases hE : E.eval expr c.rule with
    | err => simp [consume]
    | panic => simp [consume]
    | other => simp [ih]
    | bool b =>
      cases b with
      | false => simp [ih]
      | true =>
        simp only [h, consume_append, consume_demote]
        rcases hc : consume fn (ecb k c) s with ⟨s', st⟩
        cases st <;> simp [ih]

mutual
theorem rangeStage_eq {σ : Type} (E : Evaluator) (nargs : Nat) (ord : Order)
    (fn : σ → Rule → σ × Bool) : ∀ (st : Stage) (path : List (Nat × Str)) (node : Node) (s : σ),
    rangeStage E nargs ord fn st path node s = consume fn (evStage E nargs ord st path node) s
  | .mk _ cs, path, node, s => by
    simp only [rangeStage, evStage]
    exact rangeChildren_eq E nargs ord fn cs 0 path node s
theorem rangeChildren_eq {σ : Type} (E : Evaluator) (nargs : Nat) (ord : Order)
    (fn : σ → Rule → σ × Bool) : ∀ (cs : List Stage) (i : Nat) (path : List (Nat × Str))
      (node : Node) (s : σ),
    rangeChildren E nargs ord fn cs i path node s =
      consume fn (evChildren E nargs ord cs i path node) s
  | [], _, _, _, s => by simp [rangeChildren, evChildren, consume]
  | st :: rest, i, path, node, s => by
    simp only [rangeChildren, evChildren]
    cases hm : node.children[i]? with
    | none => simp [consume]
    | some m =>
      simp only
      split
      · simp [consume]
      · rw [consume_append]
        rw [rangeEntries_eq E st.expr fn _ (fun k child =>
            (if st.isLeaf then [.visit child.rule] else []) ++
              evStage E nargs ord st (path ++ [(i, k)]) child)]
        · simp only [entriesOf]
          split <;> simp_all [rangeChildren_eq E nargs ord fn rest (i+1) path node]
        · intro k c s
          rw [consume_demote, consume_append]
          cases hl : st.isLeaf with
          | false =>
            simp only [Bool.false_eq_true, if_false, consume]
            rw [rangeStage_eq E nargs ord fn st]
            rcases consume fn (evStage E nargs ord st (path ++ [(i, k)]) c) s with ⟨s', x⟩
            cases x <;> rfl
          | true =>
            simp only [if_true, consume]
            rcases hf : fn s c.rule with ⟨s', b⟩
            cases b with
            | false => simp
            | true =>
              simp only
              rw [rangeStage_eq E nargs ord fn st]
              rcases consume fn (evStage E nargs ord st (path ++ [(i, k)]) c) s' with ⟨s', x⟩
              cases x <;> rfl
end

/-- The events of a whole `Model.RangeMatches` call. -/
def Matcher.events (m : Matcher) (E : Evaluator) (ord : Order) : List Ev :=
  evStage E m.pDef.args.length ord m.exprRoot [] m.root

theorem Matcher.rangeMatches_eq {σ : Type} (m : Matcher) (E : Evaluator) (ord : Order)
    (fn : σ → Rule → σ × Bool) (s : σ) :
    m.rangeMatches E ord fn s =
      consume (fun s rule => fn s (m.pDef.key :: rule)) (m.events E ord) s := by
  simp [Matcher.rangeMatches, Matcher.events, rangeStage_eq]

/-- Rules visited before the first event that is not a visit. -/
def visits : List Ev → List Rule
  | .visit r :: es => r :: visits es
  | _ => []

/-- How a traversal whose visitor never stops ends. -/
def endStatus : List Ev → Status
  | [] => .cont
  | .visit _ :: es => endStatus es
  | .halt :: _ => .stop
  | .fail :: _ => .err
  | .panic :: _ => .panic

theorem consume_collect (key : Str) (es : List Ev) (acc : List Rule) :
    consume (fun rules rule => (rules ++ [key :: rule], true)) es acc =
      (acc ++ (visits es).map (key :: ·), endStatus es) := by
  induction es generalizing acc with
  | nil => simp [consume, visits, endStatus]
  | cons e es ih => cases e <;> simp [consume, visits, endStatus, ih]

theorem exists_mem_keyed (k : Str) (l : List Rule) (P : Rule → Prop) :
    (∃ r ∈ l.map (k :: ·), P r) ↔ ∃ r ∈ l, P (k :: r) := by
  constructor
  · rintro ⟨r, hr, h⟩
    obtain ⟨r', hr', rfl⟩ := List.mem_map.1 hr
    exact ⟨r', hr', h⟩
  · rintro ⟨r, hr, h⟩
    exact ⟨k :: r, List.mem_map.2 ⟨r, hr, rfl⟩, h⟩

theorem filter_eq (m : Matcher) (E : Evaluator) (ord : Order) :
    filter m E ord =
      ((visits (m.events E ord)).map (m.pDef.key :: ·), endStatus (m.events E ord)) := by
  unfold filter
  rw [Matcher.rangeMatches_eq, consume_collect]
  simp

theorem endStatus_cont_iff (es : List Ev) :
    endStatus es = .cont ↔ es = (visits es).map .visit := by
  induction es with
  | nil => simp [endStatus, visits]
  | cons e es ih => cases e <;> simp [endStatus, visits, ih]

theorem mem_visits_of_cont {es : List Ev} (h : endStatus es = .cont) (r : Rule) :
    r ∈ visits es ↔ Ev.visit r ∈ es := by
  have h' := (endStatus_cont_iff es).1 h
  rw [h']
  have : visits ((visits es).map Ev.visit) = visits es := by rw [← h']
  rw [this]; simp

theorem endStatus_append (a b : List Ev) :
    endStatus (a ++ b) = if endStatus a = .cont then endStatus b else endStatus a := by
  induction a with
  | nil => simp [endStatus]
  | cons e a ih =>
    cases e with
    | visit r => exact ih
    | _ => simp [endStatus]

theorem visits_append (a b : List Ev) :
    visits (a ++ b) = if endStatus a = .cont then visits a ++ visits b else visits a := by
  induction a with
  | nil => simp [endStatus, visits]
  | cons e a ih =>
    cases e with
    | visit r =>
      show r :: visits (a ++ b) = if endStatus a = .cont then r :: visits a ++ visits b
        else r :: visits a
      rw [ih]; split <;> simp
    | _ => simp [endStatus, visits]

theorem endStatus_demote (a : List Ev) :
    endStatus (a.map demote) = .cont ↔ endStatus a = .cont := by
  induction a with
  | nil => simp [endStatus]
  | cons e a ih => cases e <;> simp [endStatus, demote, ih]

theorem demote_of_cont {a : List Ev} (h : endStatus a = .cont) : a.map demote = a := by
  rw [(endStatus_cont_iff a).1 h]
  induction visits a <;> simp_all [demote]

theorem endStatus_perm {a b : List Ev} (h : a.Perm b) (ha : endStatus a = .cont) :
    endStatus b = .cont := by
  have key : ∀ es : List Ev, endStatus es = .cont ↔ ∀ e ∈ es, ∃ r, e = .visit r := by
    intro es
    induction es with
    | nil => simp [endStatus]
    | cons e es ih => cases e <;> simp [endStatus, ih]
  rw [key] at ha ⊢
  intro e he
  exact ha e (h.mem_iff.2 he)

end Fastac
