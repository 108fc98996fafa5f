import Verif.Spec.Columns
import Verif.Lemmas.Exact

/-!
# Lemmas about matchers that compare column by column
-/

namespace Fastac

/-- neither a bracket nor a logical operator -/
def Flat (ts : Toks) : Prop := ∀ t ∈ ts, t.kind ≠ .clause ∧ t.kind ≠ .clauseClose ∧ t.kind ≠ .logicalOp

theorem flat_sepToks : ∀ {ts : Toks}, Flat ts → Flat (sepToks ts)
  | [], _ => by intro t ht; cases ht
  | [a], h => h
  | a :: b :: as, h => by
    intro t ht
    simp only [sepToks, List.mem_cons] at ht
    rcases ht with rfl | rfl | ht
    · exact h _ (by simp)
    · decide
    · exact flat_sepToks (ts := b :: as) (fun t ht => h t (List.mem_cons_of_mem _ ht)) t ht

theorem Ref.flat (rk pk : Str) (rs : List Ref) : Flat (rs.map (Ref.tok rk pk)) := by
  intro t ht
  obtain ⟨r, -, rfl⟩ := List.mem_map.1 ht
  cases r <;> simp [Ref.tok, Tok.var]

theorem tokDepth_flat {t : Tok} (h : t.kind ≠ .clause ∧ t.kind ≠ .clauseClose ∧ t.kind ≠ .logicalOp) (d : Int) :
    tokDepth d t = d := by
  unfold tokDepth
  split
  · rename_i e; exact absurd e h.1
  · rename_i e; exact absurd e h.2.1
  · rfl

theorem inside_call {ts : Toks} (h : Flat ts) :
    balancedFrom 1 (ts ++ [.rp]) = true ∧ noTopOp 1 (ts ++ [.rp]) = true := by
  induction ts with
  | nil => decide
  | cons t ts ih =>
    have ht := h t (by simp)
    have ih := ih (fun x hx => h x (List.mem_cons_of_mem _ hx))
    simp only [List.cons_append, balancedFrom, noTopOp, tokDepth_flat ht, ih, Bool.and_true]
    simp

/-- Atoms are atomic. -/
theorem Atom.operand_wf (rk pk : Str) (a : Atom) : (a.operand rk pk).wf = true := by
  cases a with
  | eq a b => cases a <;> cases b <;> rfl
  | call f args =>
    obtain ⟨h1, h2⟩ := inside_call (flat_sepToks (Ref.flat rk pk args))
    have e1 : tokDepth 0 ⟨.function, f⟩ = 0 := rfl
    have e2 : tokDepth 0 Tok.lp = 1 := rfl
    simp only [Atom.operand, Operand.wf, isAtom, balancedFrom, noTopOp, splitsEarly, e1, e2, h1, h2]
    simp
    decide

namespace Column

theorem wf_conj {rk pk : Str} (cols : List Column) :
    Operand.conjWf (Cond.operands rk pk (cols.map (fun c => .atom c.atom))) = true := by
  induction cols with
  | nil => rfl
  | cons c cs ih =>
    simp only [List.map_cons, Cond.operands, Operand.conjWf, ih, Bool.and_true, Cond.operand]
    exact Atom.operand_wf rk pk _

theorem safe_conj {rk pk : Str} (cols : List Column) :
    Operand.conjSafe (Cond.operands rk pk (cols.map (fun c => .atom c.atom))) = true := by
  induction cols with
  | nil => rfl
  | cons c cs ih =>
    simp only [List.map_cons, Cond.operands, Operand.conjSafe, ih, Bool.and_true]
    cases c <;> rfl

theorem wf {rk pk : Str} {cols : List Column} (h : cols ≠ []) : (Cond.formula rk pk (matcher cols)).wf = true := by
  simp only [matcher, Cond.formula, Formula.wf, Operand.disjWf, wf_conj]
  cases cols with
  | nil => exact absurd rfl h
  | cons c cs => rfl

theorem safe (rk pk : Str) (cols : List Column) : (Cond.formula rk pk (matcher cols)).safe = true := by
  simp only [matcher, Cond.formula, Formula.safe, Operand.disjSafe, safe_conj, Bool.and_true]

theorem allAtoms_map (cols : List Column) : Cond.allAtoms (cols.map (fun c => .atom c.atom)) = cols.map atom := by
  induction cols with
  | nil => rfl
  | cons c cs ih => simp only [List.map_cons, Cond.allAtoms, Cond.atoms, ih, List.singleton_append]

theorem anyAtoms (cols : List Column) : Cond.anyAtoms (matcher cols) = cols.map atom := by
  simp only [matcher, Cond.anyAtoms, allAtoms_map, List.append_nil]

theorem allHold_map (P : Atom → Prop) (cols : List Column) :
    Cond.allHold P (cols.map (fun c => .atom c.atom)) ↔ ∀ c ∈ cols, P c.atom := by
  induction cols with
  | nil => simp [Cond.allHold]
  | cons c cs ih => simp only [List.map_cons, Cond.allHold, Cond.holds, ih, List.forall_mem_cons]

theorem anyHolds (P : Atom → Prop) (cols : List Column) :
    Cond.anyHolds P (matcher cols) ↔ ∀ c ∈ cols, P c.atom := by
  simp only [matcher, Cond.anyHolds, allHold_map, or_false]

theorem allWays_map (cols : List Column) :
    Cond.allWays (cols.map (fun c => .atom c.atom)) = [cols.map atom] := by
  induction cols with
  | nil => rfl
  | cons c cs ih => simp [Cond.allWays, Cond.ways, ih]

theorem anyWays (cols : List Column) : Cond.anyWays (matcher cols) = [cols.map atom] := by
  simp only [matcher, Cond.anyWays, allWays_map, List.append_nil]

theorem pol_iff (c : Column) (y : Str) : Ref.pol y ∈ c.atom.refs ↔ y = c.name := by
  cases c <;> simp [atom, Atom.refs, name]

theorem together_iff (pArgs : List Str) (c : Column) (r r' : Rule) :
    c.atom.Together pArgs r r' ↔ attr pArgs r c.name = attr pArgs r' c.name := by
  constructor
  · rintro (⟨-, h⟩ | rfl)
    · exact h _ ((pol_iff _ _).2 rfl)
    · rfl
  · intro h
    exact .inl ⟨⟨_, (pol_iff _ _).2 rfl⟩, fun y hy => by rw [(pol_iff _ _).1 hy]; exact h⟩

theorem mapM_cons_some {α β : Type} (f : α → Option β) (a : α) (as : List α) (vs : List β) :
    (a :: as).mapM f = some vs ↔ ∃ v ws, f a = some v ∧ as.mapM f = some ws ∧ vs = v :: ws := by
  simp only [List.mapM_cons]
  cases hf : f a with
  | none => simp
  | some v =>
    cases hg : as.mapM f with
    | none => simp
    | some ws => simp [eq_comm]

theorem mapM_req (rArgs pArgs rvals : List Str) (r : Rule) (more : List Str) :
    (more.map Ref.req).mapM (Ref.val rArgs pArgs rvals r) = more.mapM (attr rArgs rvals) := by
  induction more with
  | nil => rfl
  | cons x xs ih => simp only [List.map_cons, List.mapM_cons, ih, Ref.val]

/-- The atom of a column is true of a rule if the rule agrees in this column. -/
theorem holds_iff {s : FnModel} {gov : Gov} {rk : Str} {rArgs pArgs rvals : List Str} {ok : Column → Str → Prop}
    {R : Column → Str → Str → Prop} {c : Column} (hw : c.Written rArgs pArgs)
    (hc : c.Compares s rArgs rvals (ok c) (R c)) {r : Rule}
    (hok : ∀ w, attr pArgs r c.name = some w → ok c w) :
    c.atom.holds (Ref.val rArgs pArgs rvals r) (s.SaysNow gov rk rArgs rvals) ↔ c.Agrees R rArgs pArgs rvals r := by
  cases c with
  | same x =>
    simp only [atom, Atom.holds, Ref.val, Agrees, name]
    constructor
    · rintro ⟨v, h, h'⟩; exact ⟨v, v, h, h', (hc v v).2 rfl⟩
    · rintro ⟨v, w, h, h', e⟩
      obtain rfl := (hc v w).1 e
      exact ⟨v, h, h'⟩
  | call f x more =>
    obtain ⟨fn, ws, e, hm, hfn⟩ := hc
    have hev := hw.2 _ _ _ rfl
    simp only [atom, Atom.holds, Agrees, name]
    constructor
    · rintro ⟨vs, h, hs⟩
      obtain ⟨v, l, h1, h2, rfl⟩ := (mapM_cons_some _ _ _ _).1 h
      obtain ⟨w, l', h3, h4, rfl⟩ := (mapM_cons_some _ _ _ _).1 h2
      rw [mapM_req, hm] at h4
      cases h4
      unfold FnModel.SaysNow at hs
      rw [if_neg hev] at hs
      obtain ⟨fn', e', hs⟩ := hs
      rw [e] at e'
      cases e'
      obtain ⟨b, hb, hb'⟩ := hfn v w h1 (hok w h3)
      rw [hb] at hs
      exact ⟨v, w, h1, h3, hb'.1 (EvalRes.bool.inj hs)⟩
    · rintro ⟨v, w, h1, h3, hR⟩
      refine ⟨v :: w :: ws, ?_, ?_⟩
      · exact (mapM_cons_some _ _ _ _).2 ⟨v, _, h1, (mapM_cons_some _ _ _ _).2 ⟨w, _, h3, by rw [mapM_req, hm], rfl⟩, rfl⟩
      · unfold FnModel.SaysNow
        rw [if_neg hev]
        obtain ⟨b, hb, hb'⟩ := hfn v w h1 (hok w h3)
        exact ⟨fn, e, by rw [hb, hb'.2 hR]⟩

theorem fitsNow {s : FnModel} {gov : Gov} {rk pk : Str} {rArgs pArgs rvals : List Str} {ok : Column → Str → Prop}
    {R : Column → Str → Str → Prop} {c : Column} (hw : c.Written rArgs pArgs)
    (hc : c.Compares s rArgs rvals (ok c) (R c)) {P : Rule → Prop}
    (hP : ∀ r, P r → r.length = pArgs.length → ∀ w, attr pArgs r c.name = some w → ok c w) :
    c.atom.FitsNow s gov rk pk rArgs pArgs rvals P := by
  refine ⟨hw.1, ?_⟩
  intro f args e
  cases c with
  | same x => cases e
  | call f' x more =>
    cases e
    rw [if_neg (hw.2 _ _ _ rfl)]
    obtain ⟨fn, ws, e, hm, hfn⟩ := hc
    refine ⟨fn, e, ?_⟩
    intro r hr hl vs h
    obtain ⟨v, l, h1, h2, rfl⟩ := (mapM_cons_some _ _ _ _).1 h
    obtain ⟨w, l', h3, h4, rfl⟩ := (mapM_cons_some _ _ _ _).1 h2
    rw [mapM_req, hm] at h4
    cases h4
    obtain ⟨b, hb, -⟩ := hfn v w h1 (hP r hr hl w h3)
    exact ⟨b, hb⟩

end Column

end Fastac
