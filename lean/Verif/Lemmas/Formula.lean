import Verif.Lemmas.NextOp
import Verif.Spec.Matching

/-!
# The stage tree of a formula

`buildExprTree` on the printed formula produces the tree `trD`, in which every operand of a
conjunction is continued by the operands to its right, provided that no pending operand is overwritten
in the shared backing array.
-/

namespace Fastac

mutual
def Operand.trU : Operand → List Stage → List Stage
  | .atom ts, k => [.mk (tokensToExpr ts) k]
  | .paren f, k => Operand.trD f k
def Operand.trC : List Operand → List Stage → List Stage
  | [], k => k
  | u :: us, k => Operand.trU u (Operand.trC us k)
def Operand.trD : List (List Operand) → List Stage → List Stage
  | [], _ => []
  | c :: cs, k => Operand.trC c k ++ Operand.trD cs k
end

theorem Operand.trC_append (c d : List Operand) (k : List Stage) :
    Operand.trC (c ++ d) k = Operand.trC c (Operand.trC d k) := by
  induction c with
  | nil => simp [Operand.trC]
  | cons u us ih => simp [Operand.trC, ih]

/-! ## Truth of the tree -/

theorem Stage.satAny_append (E : Evaluator) (r : Rule) (a b : List Stage) :
    Stage.satAny E r (a ++ b) = (Stage.satAny E r a || Stage.satAny E r b) := by
  induction a with
  | nil => simp [Stage.satAny]
  | cons x xs ih => simp [Stage.satAny, ih, Bool.or_assoc]

/-- The value of the continuation. -/
def contSat (E : Evaluator) (r : Rule) (k : List Stage) : Bool := k.isEmpty || Stage.satAny E r k

mutual
theorem Operand.trU_sat (E : Evaluator) (r : Rule) (ν : Toks → Bool)
    (hν : ∀ ts, ν ts = (E.eval (tokensToExpr ts) r == .bool true)) :
    ∀ (u : Operand) (k : List Stage), u.wf = true → Operand.trU u k ≠ [] ∧
      Stage.satAny E r (Operand.trU u k) = (u.truth ν && contSat E r k)
  | .atom ts, k, _ => by
    simp [Operand.trU, Stage.satAny, Stage.sat, Operand.truth, hν, contSat]
  | .paren f, k, h => by
    simp only [Operand.wf, Bool.and_eq_true, Bool.not_eq_true', List.isEmpty_eq_false_iff] at h
    obtain ⟨h1, h2⟩ := Operand.trD_sat E r ν hν f k h.2
    exact ⟨h1 h.1, h2⟩
theorem Operand.trC_sat (E : Evaluator) (r : Rule) (ν : Toks → Bool)
    (hν : ∀ ts, ν ts = (E.eval (tokensToExpr ts) r == .bool true)) :
    ∀ (c : List Operand) (k : List Stage), Operand.conjWf c = true →
      (c ≠ [] → Operand.trC c k ≠ []) ∧
      contSat E r (Operand.trC c k) = (Operand.conjTruth ν c && contSat E r k)
  | [], k, _ => by simp [Operand.trC, Operand.conjTruth]
  | u :: us, k, h => by
    rw [Operand.conjWf, Bool.and_eq_true] at h
    obtain ⟨_, h1⟩ := Operand.trC_sat E r ν hν us k h.2
    obtain ⟨h2, h3⟩ := Operand.trU_sat E r ν hν u (Operand.trC us k) h.1
    refine ⟨fun _ => h2, ?_⟩
    simp only [Operand.trC, Operand.conjTruth]
    have : (Operand.trU u (Operand.trC us k)).isEmpty = false := by simpa using h2
    conv => lhs; rw [contSat, this, Bool.false_or, h3, h1]
    rw [Bool.and_assoc]
theorem Operand.trD_sat (E : Evaluator) (r : Rule) (ν : Toks → Bool)
    (hν : ∀ ts, ν ts = (E.eval (tokensToExpr ts) r == .bool true)) :
    ∀ (f : List (List Operand)) (k : List Stage), Operand.disjWf f = true →
      (f ≠ [] → Operand.trD f k ≠ []) ∧
      Stage.satAny E r (Operand.trD f k) = (Operand.disjTruth ν f && contSat E r k)
  | [], k, _ => by simp [Operand.trD, Operand.disjTruth, Stage.satAny]
  | c :: cs, k, h => by
    rw [Operand.disjWf, Bool.and_eq_true, Bool.and_eq_true] at h
    obtain ⟨_, h1⟩ := Operand.trD_sat E r ν hν cs k h.2
    obtain ⟨h2, h3⟩ := Operand.trC_sat E r ν hν c k h.1.2
    have hc : Operand.trC c k ≠ [] := h2 (by simpa using h.1.1)
    refine ⟨fun _ => by simp [Operand.trD, hc], ?_⟩
    simp only [Operand.trD, Operand.disjTruth, Stage.satAny_append, h1]
    have : (Operand.trC c k).isEmpty = false := by simpa using hc
    rw [contSat, this, Bool.false_or] at h3
    rw [h3, Bool.and_or_distrib_right]
end

/-! ## The build -/

/-- The pending operands, in the order in which they will be processed. -/
structure Pending (h : Heap) (a : Slice) (S : List Operand) : Prop where
  view : a.view h = (S.map Operand.toks).reverse
  len : a.len = S.length
  arr : a.arr < h.length

/-- What a call leaves unchanged in the arrays. -/
structure Frame (h h' : Heap) (a : Slice) (f : Formula) (S : List Operand) : Prop where
  same : Operand.disjHasAnd f = false → (∀ u ∈ S, Operand.hasAnd u = false) → h' = h
  grows : h.length ≤ h'.length
  other : ∀ b, b < h.length → b ≠ a.arr → h'[b]?.getD [] = h[b]?.getD []
  low : ∀ i, i < a.len → (∀ k, k ≤ i → ∀ u, S.reverse[k]? = some u → Operand.hasAnd u = false) →
    (h'[a.arr]?.getD [])[i]? = (h[a.arr]?.getD [])[i]?

theorem Frame.view_eq {h h' : Heap} {a : Slice} {f : Formula} {S : List Operand}
    (F : Frame h h' a f S) (hS : ∀ u ∈ S, Operand.hasAnd u = false) : a.view h' = a.view h := by
  simp only [Slice.view]
  apply List.ext_getElem?
  intro i
  rw [List.getElem?_take, List.getElem?_take]
  split
  · rename_i hi
    apply F.low i hi
    intro k _ u hu
    exact hS u (List.mem_reverse.1 (List.mem_of_getElem? hu))
  · rfl

theorem Operand.conjHasOr_append (c d : List Operand) :
    Operand.conjHasOr (c ++ d) = (Operand.conjHasOr c || Operand.conjHasOr d) := by
  induction c with
  | nil => simp [Operand.conjHasOr]
  | cons u us ih => simp [Operand.conjHasOr, ih, Bool.or_assoc]

theorem Operand.conjSafe_snoc (c : List Operand) (u : Operand)
    (h : Operand.conjSafe (c ++ [u]) = true) :
    Operand.conjSafe c = true ∧ u.safe = true ∧
      (Operand.conjHasOr c = true → u.hasAnd = false) := by
  induction c with
  | nil => simp [Operand.conjSafe, Operand.conjHasOr] at h ⊢; exact h
  | cons v vs ih =>
    simp only [List.cons_append, Operand.conjSafe, Bool.and_eq_true, Bool.or_eq_true,
      Bool.not_eq_true', List.all_append, List.all_cons, List.all_nil, Bool.and_true] at h ⊢
    obtain ⟨⟨h1, h2⟩, h3⟩ := h
    obtain ⟨i1, i2, i3⟩ := ih h3
    refine ⟨⟨⟨h1, ?_⟩, i1⟩, i2, ?_⟩
    · rcases h2 with h2 | h2
      · exact Or.inl h2
      · exact Or.inr h2.1
    · simp only [Operand.conjHasOr, Bool.or_eq_true]
      rintro (hv | hv)
      · rcases h2 with h2 | h2
        · rw [h2] at hv; cases hv
        · exact h2.2
      · exact i3 hv

theorem Operand.conjHasAnd_snoc (c : List Operand) (u : Operand) (hne : c ≠ []) :
    Operand.conjHasAnd (c ++ [u]) = true := by
  cases c with
  | nil => exact absurd rfl hne
  | cons v vs => simp [Operand.conjHasAnd]

def pendingLen (S : List Operand) : Nat := ((S.map Operand.toks).map List.length).sum

theorem getD_set_self (h : Heap) (i : Nat) (x : List Toks) (hi : i < h.length) :
    (h.set i x)[i]?.getD [] = x := by simp [hi]

theorem buildExprTree_formula (grow : Nat → Nat) : ∀ (fuel : Nat) (h : Heap) (f : Formula)
    (S : List Operand) (a : Slice), Pending h a S → f.wf = true → f.safe = true →
    Operand.conjWf S = true → Operand.conjSafe S = true →
    (Operand.disjHasOr f = true → ∀ u ∈ S, Operand.hasAnd u = false) →
    f.toks.length + pendingLen S < fuel →
    ∃ h', buildExprTree grow fuel h f.toks a = .ok (Operand.trD f (Operand.trC S []), h') ∧
      Frame h h' a f S := by
  intro fuel
  induction fuel with
  | zero => intro h f S a _ _ _ _ _ _ hlt; omega
  | succ fuel ih =>
    intro h f S a P hw hs hSw hSs hor hlt
    have hw0 := hw
    simp only [Formula.wf, Bool.and_eq_true, Bool.not_eq_true', List.isEmpty_eq_false_iff] at hw
    match f, hw with
    | c :: d :: cs, hw =>
      -- split at the first `||`
      have hnx := nextOperator_or c d cs hw0
      have hS : ∀ u ∈ S, Operand.hasAnd u = false := hor (by simp [Operand.disjHasOr])
      rw [Operand.disjWf, Bool.and_eq_true, Bool.and_eq_true] at hw
      have hsafe : Operand.conjSafe c = true ∧ Operand.disjSafe (d :: cs) = true := by
        simpa [Formula.safe, Operand.disjSafe] using hs
      have htok : Formula.toks (c :: d :: cs) =
          Operand.conjToks c ++ Tok.or :: Operand.disjToks (d :: cs) := by
        simp [Formula.toks, Operand.disjToks]
      have htake : (Formula.toks (c :: d :: cs)).take (Operand.conjToks c).length =
          Formula.toks [c] := by
        rw [htok]; simp [Formula.toks, Operand.disjToks]
      have hdrop : (Formula.toks (c :: d :: cs)).drop ((Operand.conjToks c).length + 1) =
          Formula.toks (d :: cs) := by
        rw [htok]; simp [Formula.toks]
      have hl1 : (Formula.toks (c :: d :: cs)).length =
          (Formula.toks [c]).length + 1 + (Formula.toks (d :: cs)).length := by
        rw [htok]; simp [Formula.toks, Operand.disjToks]; omega
      obtain ⟨h1, e1, F1⟩ := ih h [c] S a P
        (by simp [Formula.wf, Operand.disjWf, hw.2.1.1, hw.2.1.2])
        (by simpa [Formula.safe, Operand.disjSafe] using hsafe.1) hSw hSs (fun _ => hS) (by omega)
      have P1 : Pending h1 a S := ⟨by rw [F1.view_eq hS]; exact P.view, P.len,
        Nat.lt_of_lt_of_le P.arr F1.grows⟩
      obtain ⟨h2, e2, F2⟩ := ih h1 (d :: cs) S a P1
        (by simp only [Formula.wf, Bool.and_eq_true]; exact ⟨rfl, hw.2.2⟩)
        hsafe.2 hSw hSs (fun _ => hS) (by omega)
      refine ⟨h2, ?_, ?_⟩
      · have hget : ((Formula.toks (c :: d :: cs))[(Operand.conjToks c).length]?).map (·.text) =
            some (s% "||") := by
          rw [htok]; simp [Tok.or]
        simp only [buildExprTree]
        rw [show nextOperator (Formula.toks (c :: d :: cs)) =
          .ok (some (Operand.conjToks c).length, false) from hnx]
        simp only [Res.bind_ok, Bool.false_eq_true, if_false]
        rw [if_pos hget, htake, hdrop, e1]
        simp only [Res.bind_ok]
        rw [e2]
        simp [Operand.trD]
      · refine ⟨?_, Nat.le_trans F1.grows F2.grows, ?_, ?_⟩
        · intro hf hSa
          simp only [Operand.disjHasAnd, Bool.or_eq_false_iff] at hf
          have e1' := F1.same (by simp [Operand.disjHasAnd, hf.1]) hSa
          have e2' := F2.same (by simp [Operand.disjHasAnd, hf.2.1, hf.2.2]) hSa
          rw [e2', e1']
        · intro b hb hne
          rw [F2.other b (Nat.lt_of_lt_of_le hb F1.grows) hne, F1.other b hb hne]
        · intro i hi hk
          rw [F2.low i hi hk, F1.low i hi hk]
    | [c], hw =>
      simp only [Operand.disjWf, Bool.and_true, Bool.and_eq_true, Bool.not_eq_true',
        List.isEmpty_eq_false_iff] at hw
      have hsafe : Operand.conjSafe c = true := by
        simpa [Formula.safe, Operand.disjSafe] using hs
      rcases List.eq_nil_or_concat c with rfl | ⟨c', u, rfl⟩
      · exact absurd rfl hw.2.1
      · rw [List.concat_eq_append] at *
        by_cases hc' : c' = []
        · -- a single operand
          subst hc'
          simp only [List.nil_append] at *
          have huw : u.wf = true := by simpa [Operand.conjWf] using hw.2.2
          cases u with
          | paren g =>
            have hg : Formula.wf g = true := by simpa [Operand.wf, Formula.wf] using huw
            have hgs : Formula.safe g = true := by
              simpa [Operand.conjSafe, Operand.safe, Formula.safe] using hsafe
            have hgw : Operand.disjWf g = true := by
              simp only [Formula.wf, Bool.and_eq_true] at hg; exact hg.2
            have htok : Formula.toks [[.paren g]] = Tok.lp :: (Formula.toks g ++ [Tok.rp]) := by
              simp [Formula.toks, Operand.disjToks, Operand.conjToks, Operand.toks]
            have hnx : nextOperator (Formula.toks [[.paren g]]) = .ok (none, true) := by
              have := nextOperator_paren g hgw
              simpa [Formula.toks, Operand.disjToks, Operand.conjToks] using this
            obtain ⟨h', e, F⟩ := ih h g S a P hg hgs hSw hSs
              (fun ho => hor (by simpa [Operand.disjHasOr, Operand.conjHasOr, Operand.hasOr] using ho))
              (by rw [htok] at hlt; simp at hlt; omega)
            refine ⟨h', ?_, ?_⟩
            · simp only [buildExprTree]
              rw [hnx]
              simp only [Res.bind_ok, if_true]
              have hmid : ((Formula.toks [[.paren g]]).drop 1).take
                  ((Formula.toks [[.paren g]]).length - 2) = Formula.toks g := by
                rw [htok]; simp
              rw [hmid, e]
              simp [Operand.trD, Operand.trC, Operand.trU]
            · refine ⟨?_, F.grows, F.other, F.low⟩
              intro hf
              exact F.same (by simpa [Operand.disjHasAnd, Operand.conjHasAnd, Operand.hasAnd] using hf)
          | atom ts =>
            have hat : isAtom ts = true := by simpa [Operand.wf] using huw
            have htok : Formula.toks [[.atom ts]] = ts := by
              simp [Formula.toks, Operand.disjToks, Operand.conjToks, Operand.toks]
            have hnx := nextOperator_atom ts hat
            rw [htok] at hlt
            have htsl : 0 < ts.length := by
              have := (Operand.toks_ok (.atom ts) huw).2.2
              simp only [Operand.toks] at this
              exact List.length_pos_iff.2 this
            cases S with
            | nil =>
              refine ⟨h, ?_, ⟨fun _ _ => rfl, Nat.le_refl _, fun _ _ _ => rfl, fun _ _ _ => rfl⟩⟩
              rw [htok]
              simp only [buildExprTree]
              rw [hnx]
              have : a.len = 0 := by simpa using P.len
              simp [this, Operand.trD, Operand.trC, Operand.trU]
            | cons u S =>
              have hlen : a.len = S.length + 1 := by simpa using P.len
              have hview := P.view
              simp only [List.map_cons, List.reverse_cons] at hview
              have hget : (a.view h)[a.len - 1]? = some u.toks := by
                rw [hview, hlen]
                simp
              have hview' : Slice.view ⟨a.arr, a.len - 1⟩ h = (S.map Operand.toks).reverse := by
                have : Slice.view ⟨a.arr, a.len - 1⟩ h = (a.view h).take (a.len - 1) := by
                  simp only [Slice.view, List.take_take]
                  congr 1; omega
                rw [this, hview, hlen]
                simp
              rw [Operand.conjWf, Bool.and_eq_true] at hSw
              simp only [Operand.conjSafe, Bool.and_eq_true, Bool.or_eq_true, Bool.not_eq_true'] at hSs
              have P' : Pending h ⟨a.arr, a.len - 1⟩ S :=
                ⟨hview', by show a.len - 1 = S.length; omega, P.arr⟩
              have htoku : Formula.toks [[u]] = u.toks := by
                simp [Formula.toks, Operand.disjToks, Operand.conjToks]
              obtain ⟨h', e, F⟩ := ih h [[u]] S ⟨a.arr, a.len - 1⟩ P'
                (by simp [Formula.wf, Operand.disjWf, Operand.conjWf, hSw.1])
                (by simp [Formula.safe, Operand.disjSafe, Operand.conjSafe, hSs.1.1])
                hSw.2 hSs.2
                (by
                  intro ho v hv
                  have ho' : u.hasOr = true := by
                    simpa [Operand.disjHasOr, Operand.conjHasOr] using ho
                  rcases hSs.1.2 with h0 | h0
                  · rw [h0] at ho'; cases ho'
                  · simpa using List.all_eq_true.1 h0 v hv)
                (by rw [htoku]; simp only [pendingLen, List.map_cons, List.sum_cons] at hlt ⊢; omega)
              have hu1 : Operand.disjHasAnd [[u]] = u.hasAnd := by
                simp [Operand.disjHasAnd, Operand.conjHasAnd]
              refine ⟨h', ?_, ?_⟩
              · rw [htok]
                simp only [buildExprTree]
                rw [hnx]
                simp only [Res.bind_ok, Bool.false_eq_true, if_false]
                rw [if_pos (by omega), hget]
                simp only
                rw [← htoku, e]
                simp [Operand.trD, Operand.trC, Operand.trU]
              · refine ⟨?_, F.grows, F.other, ?_⟩
                · intro _ hSa
                  exact F.same (by rw [hu1]; exact hSa u (by simp))
                    (fun v hv => hSa v (by simp [hv]))
                · intro i hi hk
                  by_cases hi' : i < S.length
                  · apply F.low i (by show i < a.len - 1; omega)
                    intro k hki v hv
                    apply hk k hki v
                    rw [List.reverse_cons, List.getElem?_append_left (by simp; omega)]
                    exact hv
                  · have hi2 : i = S.length := by omega
                    have hall : ∀ v ∈ u :: S, v.hasAnd = false := by
                      intro v hv
                      obtain ⟨k, hk2, hkv⟩ := List.mem_iff_getElem.1 (List.mem_reverse.2 hv)
                      apply hk k (by simp at hk2; omega) v
                      rw [List.getElem?_eq_getElem hk2, hkv]
                    have := F.same (by rw [hu1]; exact hall u (by simp))
                      (fun v hv => hall v (by simp [hv]))
                    rw [this]
        · -- a conjunction
          have hnx : nextOperator (Formula.toks [c' ++ [u]]) =
              .ok (some (Operand.conjToks c').length, false) := by
            have := nextOperator_and c' u hc' hw.2.2
            simpa [Formula.toks, Operand.disjToks] using this
          have htok : Formula.toks [c' ++ [u]] = Operand.conjToks c' ++ Tok.and :: u.toks := by
            simp [Formula.toks, Operand.disjToks, Operand.conjToks_snoc c' hc']
          have htake : (Formula.toks [c' ++ [u]]).take (Operand.conjToks c').length =
              Formula.toks [c'] := by rw [htok]; simp [Formula.toks, Operand.disjToks]
          have hdrop : (Formula.toks [c' ++ [u]]).drop ((Operand.conjToks c').length + 1) = u.toks := by
            rw [htok]; simp
          have hget : ¬ ((Formula.toks [c' ++ [u]])[(Operand.conjToks c').length]?).map (·.text) =
              some (s% "||") := by
            rw [htok]; simp [Tok.and]
          have hw2 := hw.2.2
          rw [Operand.conjWf_append, Bool.and_eq_true] at hw2
          have huw : u.wf = true := by simpa [Operand.conjWf] using hw2.2
          obtain ⟨s1, s2, s3⟩ := Operand.conjSafe_snoc c' u hsafe
          have hhas : Operand.disjHasAnd [c' ++ [u]] = true := by
            simp [Operand.disjHasAnd, Operand.conjHasAnd_snoc c' u hc']
          have horc : Operand.disjHasOr [c' ++ [u]] = (Operand.conjHasOr c' || u.hasOr) := by
            simp [Operand.disjHasOr, Operand.conjHasOr_append, Operand.conjHasOr]
          rw [horc] at hor
          have hlen2 : (Formula.toks [c']).length + pendingLen (u :: S) < fuel := by
            rw [htok] at hlt
            simp only [List.length_append, List.length_cons, pendingLen, List.map_cons,
              List.sum_cons, Formula.toks, Operand.disjToks] at hlt ⊢
            omega
          have hfw : Formula.wf [c'] = true := by
            simp only [Formula.wf, Operand.disjWf, Bool.and_true, Bool.and_eq_true, Bool.not_eq_true',
              List.isEmpty_eq_false_iff]
            exact ⟨by simp, hc', hw2.1⟩
          have hfs : Formula.safe [c'] = true := by simpa [Formula.safe, Operand.disjSafe] using s1
          have hSw' : Operand.conjWf (u :: S) = true := by
            rw [Operand.conjWf, huw, hSw]; rfl
          have hSs' : Operand.conjSafe (u :: S) = true := by
            simp only [Operand.conjSafe, Bool.and_eq_true, Bool.or_eq_true, Bool.not_eq_true']
            refine ⟨⟨s2, ?_⟩, hSs⟩
            cases hu : u.hasOr with
            | false => exact Or.inl rfl
            | true =>
              right
              rw [List.all_eq_true]
              intro v hv
              simpa using hor (by simp [hu]) v hv
          have hor' : Operand.disjHasOr [c'] = true → ∀ v ∈ u :: S, Operand.hasAnd v = false := by
            intro ho v hv
            have ho' : Operand.conjHasOr c' = true := by simpa [Operand.disjHasOr] using ho
            rcases List.mem_cons.1 hv with rfl | hv
            · exact s3 ho'
            · exact hor (by simp [ho']) v hv
          have htr : Operand.trD [c' ++ [u]] (Operand.trC S []) =
              Operand.trD [c'] (Operand.trC (u :: S) []) := by
            simp [Operand.trD, Operand.trC_append, Operand.trC]
          have hrev : ∀ k, k < a.len → (u :: S).reverse[k]? = S.reverse[k]? := by
            intro k hk
            rw [List.reverse_cons, List.getElem?_append_left (by simp; have := P.len; omega)]
          by_cases hcap : a.len < (h[a.arr]?.getD []).length
          · -- append in place
            have happ : a.append grow h u.toks =
                (h.set a.arr ((h[a.arr]?.getD []).set a.len u.toks), ⟨a.arr, a.len + 1⟩) := by
              simp [Slice.append, hcap]
            have hA : (h.set a.arr ((h[a.arr]?.getD []).set a.len u.toks))[a.arr]?.getD [] =
                (h[a.arr]?.getD []).set a.len u.toks := getD_set_self _ _ _ P.arr
            have P' : Pending (h.set a.arr ((h[a.arr]?.getD []).set a.len u.toks))
                ⟨a.arr, a.len + 1⟩ (u :: S) := by
              refine ⟨?_, by simp [P.len], by simpa using P.arr⟩
              simp only [Slice.view, hA, List.map_cons, List.reverse_cons]
              rw [← P.view, Slice.view, List.take_add_one, List.take_set_of_le (Nat.le_refl _)]
              simp [hcap]
            obtain ⟨h', e, F⟩ := ih _ [c'] (u :: S) ⟨a.arr, a.len + 1⟩ P' hfw hfs hSw' hSs' hor' hlen2
            refine ⟨h', ?_, ?_⟩
            · simp only [buildExprTree]
              rw [hnx]
              simp only [Res.bind_ok, Bool.false_eq_true, if_false]
              rw [if_neg hget, hdrop, happ, htake]
              simp only
              rw [e, htr]
            · refine ⟨?_, ?_, ?_, ?_⟩
              · intro hf; rw [hhas] at hf; cases hf
              · simpa using F.grows
              · intro b hb hne
                rw [F.other b (by simpa using hb) hne]
                rw [List.getElem?_set_ne (Ne.symm hne)]
              · intro i hi hk
                have := F.low i (by show i < a.len + 1; omega) (by
                  intro k hki v hv
                  rw [hrev k (by omega)] at hv
                  exact hk k hki v hv)
                simp only at this
                rw [this, hA, List.getElem?_set_ne (by omega)]
          · -- a new array
            have happ : a.append grow h u.toks =
                (h ++ [(h[a.arr]?.getD []).take a.len ++ u.toks ::
                  List.replicate (grow (a.len + 1)) []], ⟨h.length, a.len + 1⟩) := by
              simp [Slice.append, hcap]
            have hvl : ((h[a.arr]?.getD []).take a.len).length = a.len := by
              have : (a.view h).length = a.len := by rw [P.view]; simp [P.len]
              exact this
            have P' : Pending (h ++ [(h[a.arr]?.getD []).take a.len ++ u.toks ::
                  List.replicate (grow (a.len + 1)) []]) ⟨h.length, a.len + 1⟩ (u :: S) := by
              refine ⟨?_, by simp [P.len], by simp⟩
              simp only [Slice.view, List.map_cons, List.reverse_cons]
              rw [← P.view, Slice.view]
              simp only [List.getElem?_concat_length, Option.getD_some]
              rw [List.take_append, hvl, List.take_of_length_le (by omega)]
              simp
            obtain ⟨h', e, F⟩ := ih _ [c'] (u :: S) ⟨h.length, a.len + 1⟩ P' hfw hfs hSw' hSs' hor' hlen2
            have hold : ∀ b, b < h.length → h'[b]?.getD [] = h[b]?.getD [] := by
              intro b hb
              rw [F.other b (by simp; omega) (by show b ≠ h.length; omega)]
              rw [List.getElem?_append_left hb]
            refine ⟨h', ?_, ?_⟩
            · simp only [buildExprTree]
              rw [hnx]
              simp only [Res.bind_ok, Bool.false_eq_true, if_false]
              rw [if_neg hget, hdrop, happ, htake]
              simp only
              rw [e, htr]
            · refine ⟨?_, ?_, ?_, ?_⟩
              · intro hf; rw [hhas] at hf; cases hf
              · have := F.grows; simp at this; omega
              · intro b hb _; exact hold b hb
              · intro i hi _; rw [hold _ P.arr]

theorem buildMatcherDef_formula (grow : Nat → Nat) (f : Formula) (hw : f.wf = true)
    (hs : f.safe = true) : buildMatcherDef grow f.toks = .ok (.mk [] (Operand.trD f [])) := by
  obtain ⟨h', e, _⟩ := buildExprTree_formula grow (f.toks.length + 1) Heap.init f [] Slice.nil
    ⟨by simp [Slice.view, Slice.nil], rfl, by simp [Slice.nil, Heap.init]⟩ hw hs
    (by simp [Operand.conjWf]) (by simp [Operand.conjSafe]) (by simp) (by simp [pendingLen])
  simp only [buildMatcherDef, e, Operand.trC]

end Fastac
