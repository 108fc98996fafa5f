import Verif.Spec.Nested

/-!
# Calls inside callbacks
-/

namespace Fastac

variable {σ : Type}

/-- The parameters of the calls before, except those of call `me`, are as they were. -/
structure FrameBut (me : Nat) (d d' : Desk σ) : Prop where
  next : d.next ≤ d'.next
  pvals : ∀ i, i < d.next → i ≠ me → d'.pvals i = d.pvals i

theorem FrameBut.refl (me : Nat) (d : Desk σ) : FrameBut me d d := ⟨Nat.le_refl _, fun _ _ _ => rfl⟩

theorem FrameBut.trans {me : Nat} {d d' d'' : Desk σ} (h : FrameBut me d d') (h' : FrameBut me d' d'') : FrameBut me d d'' :=
  ⟨Nat.le_trans h.next h'.next, fun i hi hm => (h'.pvals i (Nat.lt_of_lt_of_le hi h.next) hm).trans (h.pvals i hi hm)⟩

theorem FrameBut.setRule (me : Nat) (d : Desk σ) (r : Rule) : FrameBut me d (d.setRule me r) :=
  ⟨Nat.le_refl _, fun _ _ hm => if_neg hm⟩

/-- The traversal `x` does what `y` does without other calls. -/
structure Alike (me : Nat) (K : Prop) (d : Desk σ) {β : Type} (x : Desk σ × β) (y : σ × β) : Prop where
  vars : x.1.vars = y.1
  status : x.2 = y.2
  frame : FrameBut me d x.1
  keeps : K → x.1.slot = d.slot

theorem Alike.after {me : Nat} {K : Prop} {d d' : Desk σ} {β : Type} {x : Desk σ × β} {y : σ × β} (h : Alike me K d' x y)
    (hf : FrameBut me d d') (hs : K → d'.slot = d.slot) : Alike me K d x y :=
  ⟨h.vars, h.status, hf.trans h.frame, fun k => (h.keeps k).trans (hs k)⟩

/-- The call `me` is running, and if `K` its function is the one in the map. -/
structure Running (me : Nat) (own : Rule → Fn) (K : Prop) (d : Desk σ) : Prop where
  lt : me < d.next
  slot : K → d.slot = (me, own)

theorem Running.after {me : Nat} {own : Rule → Fn} {K : Prop} {d d' : Desk σ} (h : Running me own K d)
    (hf : FrameBut me d d') (hs : K → d'.slot = d.slot) : Running me own K d' :=
  ⟨Nat.lt_of_lt_of_le h.lt hf.next, fun k => (hs k).trans (h.slot k)⟩

theorem Running.alike {me : Nat} {own : Rule → Fn} {K : Prop} {d : Desk σ} (h : Running me own K d) {β : Type}
    {x : Desk σ × β} {y : σ × β} (ha : Alike me K d x y) : Running me own K x.1 := h.after ha.frame ha.keeps

theorem deskEntries_alike {a : Asker} {expr : Str} {me : Nat} {K : Prop} {o : Nat × (Rule → Fn)}
    {cb : Str → Node → Desk σ → Desk σ × Status} {cb' : Str → Node → σ → σ × Status}
    (ho : (∀ r f g, a.eval expr r f = a.eval expr r g) ∨ o = (me, a.own))
    (hcb : ∀ k c d, Running me a.own K d → Alike me K d (cb k c d) (cb' k c d.vars)) :
    ∀ (es : GoMap Str Node) {d : Desk σ}, Running me a.own K d →
      Alike me K d (deskEntries a expr me o cb es d) (rangeEntries a.alone expr cb' es d.vars)
  | [], d, _ => ⟨rfl, rfl, .refl _ _, fun _ => rfl⟩
  | (k, c) :: es, d, h => by
    have he : a.eval expr c.rule ((d.setRule me c.rule).found o) = a.alone.eval expr c.rule := by
      rcases ho with ho | rfl
      · exact ho _ _ _
      · show a.eval expr c.rule (a.own (if me = me then c.rule else d.pvals me)) = a.eval expr c.rule (a.own c.rule)
        rw [if_pos rfl]
    have hf := FrameBut.setRule me d c.rule
    have h1 : Running me a.own K (d.setRule me c.rule) := h.after hf fun _ => rfl
    have ih := fun (d' : Desk σ) (h' : Running me a.own K d') => deskEntries_alike ho hcb es h'
    simp only [deskEntries, rangeEntries, he]
    cases a.alone.eval expr c.rule with
    | err => exact ⟨rfl, rfl, hf, fun _ => rfl⟩
    | panic => exact ⟨rfl, rfl, hf, fun _ => rfl⟩
    | other => exact (ih _ h1).after hf fun _ => rfl
    | bool b =>
      cases b with
      | false => exact (ih _ h1).after hf fun _ => rfl
      | true =>
        have hv := hcb k c _ h1
        have hr := h1.alike hv
        simp only
        rw [show (d.setRule me c.rule).vars = d.vars from rfl] at hv
        generalize cb k c (d.setRule me c.rule) = x at hv hr
        generalize cb' k c d.vars = y at hv
        obtain ⟨d', st⟩ := x
        obtain ⟨s', st'⟩ := y
        obtain ⟨v1, v2, v3, v4⟩ := hv
        simp only at v1 v2 v3 v4
        subst v1
        subst v2
        cases st with
        | cont => exact (ih d' hr).after (hf.trans v3) v4
        | stop => exact ⟨rfl, rfl, hf.trans v3, v4⟩
        | err => exact ⟨rfl, rfl, hf.trans v3, v4⟩
        | panic => exact ⟨rfl, rfl, hf.trans v3, v4⟩

/-- Where the traversal may start: the next stage finds the right function, if it asks for it; the later ones do not ask
for it, or nobody replaces it. -/
def Ready (a : Asker) (me : Nat) (K : Prop) (d : Desk σ) : List Stage → Prop
  | [] => True
  | st :: rest => (a.Free st ∨ d.slot = (me, a.own)) ∧ (st.All a.Free ∨ K) ∧ (Stage.AllIn a.Free rest ∨ K)

theorem Ready.of {a : Asker} {me : Nat} {K : Prop} {d : Desk σ} {cs : List Stage} (h : Stage.AllIn a.Free cs ∨ K)
    (hr : Running me a.own K d) : Ready a me K d cs := by
  cases cs with
  | nil => trivial
  | cons st rest =>
    rcases h with h | h
    · simp only [Stage.AllIn] at h
      exact ⟨.inl h.1.1, .inl h.1.2, .inl h.2⟩
    · exact ⟨.inr (hr.slot h), .inr h, .inr h⟩

section

variable {a : Asker} {n : Nat} {ord : Order} {me : Nat} {K : Prop} {fn : Desk σ → Rule → Desk σ × Bool}
  {g : σ → Rule → σ × Bool}

mutual
theorem deskStage_alike (hfn : ∀ d r, me < d.next → Alike me K d (fn d r) (g d.vars r)) : ∀ (st : Stage)
    (path : List (Nat × Str)) (node : Node) {d : Desk σ}, Running me a.own K d → (st.All a.Free ∨ K) →
    Alike me K d (deskStage a n ord me fn st path node d) (rangeStage a.alone n ord g st path node d.vars)
  | .mk e cs, path, node, d, h, hs => by
    simp only [deskStage, rangeStage]
    exact deskChildren_alike hfn cs 0 path node h (.of hs h)
theorem deskChildren_alike (hfn : ∀ d r, me < d.next → Alike me K d (fn d r) (g d.vars r)) : ∀ (cs : List Stage) (i : Nat)
    (path : List (Nat × Str)) (node : Node) {d : Desk σ}, Running me a.own K d → Ready a me K d cs →
    Alike me K d (deskChildren a n ord me fn cs i path node d) (rangeChildren a.alone n ord g cs i path node d.vars)
  | [], _, _, _, d, _, _ => by
    simp only [deskChildren, rangeChildren]
    exact ⟨rfl, rfl, .refl _ _, fun _ => rfl⟩
  | st :: rest, i, path, node, d, h, hs => by
    obtain ⟨h1, h2, h3⟩ := hs
    simp only [deskChildren, rangeChildren]
    cases node.children[i]? with
    | none => exact ⟨rfl, rfl, .refl _ _, fun _ => rfl⟩
    | some m =>
      simp only
      by_cases hc : a.compiles st.expr = false
      · rw [if_pos hc, if_pos (show a.alone.compiles st.expr = false from hc)]
        exact ⟨rfl, rfl, .refl _ _, fun _ => rfl⟩
      · rw [if_neg hc, if_neg (show ¬ a.alone.compiles st.expr = false from hc)]
        have key := deskEntries_alike (a := a) (expr := st.expr) (me := me) (K := K) (o := d.slot)
          (cb := fun k child d =>
            match (if st.isLeaf then fn d child.rule else (d, true)) with
            | (d', false) => (d', .stop)
            | (d', true) =>
              match deskStage a n ord me fn st (path ++ [(i, k)]) child d' with
              | (d'', .cont) => (d'', .cont)
              | (d'', .panic) => (d'', .panic)
              | (d'', _) => (d'', .stop))
          (cb' := fun k child s =>
            match (if st.isLeaf then g s child.rule else (s, true)) with
            | (s', false) => (s', .stop)
            | (s', true) =>
              match rangeStage a.alone n ord g st (path ++ [(i, k)]) child s' with
              | (s'', .cont) => (s'', .cont)
              | (s'', .panic) => (s'', .panic)
              | (s'', _) => (s'', .stop))
          h1 (fun k c d' h' => by
            have hx : Alike me K d' (if st.isLeaf then fn d' c.rule else (d', true))
                (if st.isLeaf then g d'.vars c.rule else (d'.vars, true)) := by
              cases st.isLeaf with
              | true => exact hfn d' c.rule h'.lt
              | false => exact ⟨rfl, rfl, .refl _ _, fun _ => rfl⟩
            have hr := h'.alike hx
            generalize (if st.isLeaf then fn d' c.rule else (d', true)) = x at hx hr
            generalize (if st.isLeaf then g d'.vars c.rule else (d'.vars, true)) = y at hx
            obtain ⟨d1, go⟩ := x
            obtain ⟨s1, go'⟩ := y
            obtain ⟨v1, v2, v3, v4⟩ := hx
            simp only at v1 v2 v3 v4
            subst v1
            subst v2
            cases go with
            | false => exact ⟨rfl, rfl, v3, v4⟩
            | true =>
              have hy := deskStage_alike hfn st (path ++ [(i, k)]) c hr h2
              simp only
              simp only at hy
              generalize deskStage a n ord me fn st (path ++ [(i, k)]) c d1 = x at hy
              generalize rangeStage a.alone n ord g st (path ++ [(i, k)]) c d1.vars = y at hy
              obtain ⟨d2, s⟩ := x
              obtain ⟨s2, s'⟩ := y
              obtain ⟨w1, w2, w3, w4⟩ := hy
              simp only at w1 w2 w3 w4
              subst w1
              subst w2
              have e4 : K → d2.slot = d'.slot := fun k => (w4 k).trans (v4 k)
              cases s <;> exact ⟨rfl, rfl, v3.trans w3, e4⟩)
          (if m.isEmpty then [([], newNode (List.replicate n []))] else ord path i m) h
        have hr := h.alike key
        revert key hr
        generalize deskEntries a st.expr me d.slot _ _ d = x
        generalize rangeEntries a.alone st.expr _ _ d.vars = y
        intro key hr
        obtain ⟨d1, s⟩ := x
        obtain ⟨s1, s'⟩ := y
        obtain ⟨v1, v2, v3, v4⟩ := key
        simp only at v1 v2 v3 v4 hr
        subst v1
        subst v2
        cases s with
        | cont => exact (deskChildren_alike hfn rest (i + 1) path node hr (.of h3 hr)).after v3 v4
        | stop => exact ⟨rfl, rfl, v3, v4⟩
        | err => exact ⟨rfl, rfl, v3, v4⟩
        | panic => exact ⟨rfl, rfl, v3, v4⟩
end

end

/-- A piece of code does what `y` says, and leaves the parameters of all running calls as they are. -/
structure Aside {β : Type} (d : Desk σ) (x : Desk σ × β) (y : σ × β) : Prop where
  vars : x.1.vars = y.1
  result : x.2 = y.2
  next : d.next ≤ x.1.next
  pvals : ∀ i, i < d.next → x.1.pvals i = d.pvals i

theorem Asking.range_aside {c : Asking} {fn : Desk σ → Rule → Desk σ × Bool} {g : σ → Rule → σ × Bool} {K : Prop}
    (hfn : ∀ d r, Aside d (fn d r) (g d.vars r)) (hK : K → ∀ d r, (fn d r).1.slot = d.slot) (hc : c.EvalFirst ∨ K)
    (d : Desk σ) : Aside d (c.range fn d) (c.matcher.rangeMatches c.asker.alone c.ord g d.vars) := by
  have hrun : Running d.next c.asker.own K (d.enter c.asker.own) := ⟨Nat.lt_succ_self _, fun _ => rfl⟩
  have hready : Ready c.asker d.next K (d.enter c.asker.own) c.matcher.exprRoot.children := by
    rcases hc with hc | hc
    · unfold Asking.EvalFirst at hc
      revert hc
      cases c.matcher.exprRoot.children with
      | nil => exact fun _ => trivial
      | cons st rest => exact fun hc => ⟨.inr rfl, .inl hc.1, .inl hc.2⟩
    · exact .of (.inr hc) hrun
  have h := deskChildren_alike (a := c.asker) (n := c.matcher.pDef.args.length) (ord := c.ord) (me := d.next) (K := K)
    (fn := fun d rule => fn d (c.matcher.pDef.key :: rule)) (g := fun s rule => g s (c.matcher.pDef.key :: rule))
    (fun d' r _ => by
      have := hfn d' (c.matcher.pDef.key :: r)
      exact ⟨this.vars, this.result, ⟨this.next, fun i hi _ => this.pvals i hi⟩, fun k => hK k _ _⟩)
    c.matcher.exprRoot.children 0 [] c.matcher.root hrun hready
  have e1 : c.range fn d = deskChildren c.asker c.matcher.pDef.args.length c.ord d.next
      (fun d rule => fn d (c.matcher.pDef.key :: rule)) c.matcher.exprRoot.children 0 [] c.matcher.root
      (d.enter c.asker.own) := by
    unfold Asking.range
    cases c.matcher.exprRoot
    simp only [deskStage, Stage.children]
  have e2 : c.matcher.rangeMatches c.asker.alone c.ord g d.vars = rangeChildren c.asker.alone c.matcher.pDef.args.length c.ord
      (fun s rule => g s (c.matcher.pDef.key :: rule)) c.matcher.exprRoot.children 0 [] c.matcher.root d.vars := by
    unfold Matcher.rangeMatches
    cases c.matcher.exprRoot
    simp only [rangeStage, Stage.children]
  rw [e1, e2]
  refine ⟨h.vars, h.status, ?_, fun i hi => ?_⟩
  · exact Nat.le_trans (Nat.le_succ _) h.frame.next
  · exact h.frame.pvals i (Nat.lt_succ_of_lt hi) (Nat.ne_of_lt hi)

theorem Asking.enforce_aside (c : Asking) (pDef : PolicyDef) (expr : Str) (d : Desk σ) :
    Aside d (c.enforce pDef expr d) (d.vars, Fastac.enforce c.matcher pDef c.asker.alone c.ord expr) := by
  have h := Asking.range_aside (c := c) (K := True)
    (fn := fun (d : Desk EnfState) rule => ({ d with vars := (enforceVisit pDef expr d.vars rule).1 },
      (enforceVisit pDef expr d.vars rule).2)) (g := enforceVisit pDef expr)
    (fun d r => ⟨rfl, rfl, Nat.le_refl _, fun _ _ => rfl⟩) (fun _ _ _ => rfl) (.inr trivial)
    ⟨d.slot, d.pvals, d.next, EnfState.init⟩
  unfold Asking.enforce Fastac.enforce
  simp only
  revert h
  generalize Asking.range c _ (⟨d.slot, d.pvals, d.next, EnfState.init⟩ : Desk EnfState) = x
  generalize c.matcher.rangeMatches c.asker.alone c.ord (enforceVisit pDef expr) EnfState.init = y
  intro h
  obtain ⟨d', s⟩ := x
  obtain ⟨e', s'⟩ := y
  obtain ⟨v1, v2, v3, v4⟩ := h
  simp only at v1 v2 v3 v4
  subst v1
  subst v2
  exact ⟨rfl, rfl, v3, v4⟩

theorem Client.exec_slot : ∀ (c : Client σ) (d : Desk σ), c.NoCalls → (c.exec d).1.slot = d.slot
  | .ret _, _, _ => rfl
  | .look k, d, h => Client.exec_slot (k d.vars) d (h d.vars)
  | .set f next, d, h => Client.exec_slot next { d with vars := f d.vars } h
  | .enforce .., _, h => h.elim
  | .range .., _, h => h.elim

theorem Client.exec_aside : ∀ (c : Client σ) (d : Desk σ), c.Careful → Aside d (c.exec d) (c.meaning d.vars)
  | .ret _, _, _ => ⟨rfl, rfl, Nat.le_refl _, fun _ _ => rfl⟩
  | .look k, d, h => Client.exec_aside (k d.vars) d (h d.vars)
  | .set f next, d, h => by
    have := Client.exec_aside next { d with vars := f d.vars } h
    exact ⟨this.vars, this.result, this.next, this.pvals⟩
  | .enforce c pDef expr k, d, h => by
    have h1 := Asking.enforce_aside c pDef expr d
    have h2 := Client.exec_aside (k (c.enforce pDef expr d).2) (c.enforce pDef expr d).1 (h _)
    simp only [Client.exec, Client.meaning]
    rw [h1.vars] at h2
    simp only at h2
    rw [h1.result] at h2 ⊢
    exact ⟨h2.vars, h2.result, Nat.le_trans h1.next h2.next, fun i hi =>
      (h2.pvals i (Nat.lt_of_lt_of_le hi h1.next)).trans (h1.pvals i hi)⟩
  | .range c cb k, d, h => by
    have h1 := Asking.range_aside (c := c) (K := ∀ r, (cb r).NoCalls) (fn := fun d r => (cb r).exec d)
      (g := fun s r => (cb r).meaning s) (fun d r => Client.exec_aside (cb r) d (h.2.1 r))
      (fun hk d r => Client.exec_slot (cb r) d (hk r)) h.1 d
    have h2 := Client.exec_aside (k (c.range (fun d r => (cb r).exec d) d).2) (c.range (fun d r => (cb r).exec d) d).1 (h.2.2 _)
    simp only [Client.exec, Client.meaning]
    rw [h1.vars] at h2
    rw [h1.result] at h2 ⊢
    exact ⟨h2.vars, h2.result, Nat.le_trans h1.next h2.next, fun i hi =>
      (h2.pvals i (Nat.lt_of_lt_of_le hi h1.next)).trans (h1.pvals i hi)⟩

end Fastac
