import Verif.Lemmas.ManyCrowds

/-!
# Several role definitions used at the same time: histories
-/

namespace Fastac

open GHeap RHeap

namespace Crowd

variable {S α : Type}

theorem run_length (is : List Nat) : ∀ y : Crowd S α, (y.run is).calls.length = y.calls.length := by
  induction is with
  | nil => exact fun _ => rfl
  | cons i is ih => exact fun y => (ih _).trans (step_length y i)

end Crowd

/-- What holds while jobs run: `Own` gives the spots of updates, `R` what they leave there, `Q` the right answers. -/
structure Roaming (h : GHeap) (Own : Nat → Option Spot) (R : Nat → RHeap) (Q : Nat → JobAns → Prop)
    (y : Crowd GHeap JobAns) : Prop where
  inv : Around h (fun p => ∃ n, Own n = some p) y.heap
  fair : ∀ n t, y.calls[n]? = some t → Own n = none →
    t.Keeps (Around h fun p => ∃ n, Own n = some p) (Apart fun p => ∃ n, Own n = some p) (Q n) ∧
    ∀ p m, t.Tidies (Clean p m)
  solo : ∀ n t p, y.calls[n]? = some t → Own n = some p → t.Solo h p (R n) (Q n) (y.heap.cell p)
  owed : ∀ p m, (¬ ∃ n, Own n = some p) → Clean p m h →
    Clean p m y.heap ∨ ∃ n t, Own n = none ∧ y.calls[n]? = some t ∧ t.Owing (Clean p m)

namespace Roaming

variable {h : GHeap} {Own : Nat → Option Spot} {R : Nat → RHeap} {Q : Nat → JobAns → Prop} {y : Crowd GHeap JobAns}

theorem step (hi : ∀ n m p, Own n = some p → Own m = some p → n = m) (r : Roaming h Own R Q y) (i : Nat) :
    Roaming h Own R Q (y.step i) := by
  cases ht : y.calls[i]? with
  | none => rw [Crowd.step_none ht]; exact r
  | some t =>
    obtain ⟨eh, ec⟩ := Crowd.step_self ht
    have eo : ∀ n, n ≠ i → (y.step i).calls[n]? = y.calls[n]? := fun n hn => Crowd.step_other hn
    cases hO : Own i with
    | none =>
      obtain ⟨h1, h2⟩ := r.fair i t ht hO
      obtain ⟨k1, k2, k3⟩ := h1.step (fun _ _ _ => rfl) r.inv
      refine ⟨by rw [eh]; exact k1, fun n u hu hn => ?_, fun n u p hu hn => ?_, fun p m hp hc => ?_⟩
      · by_cases c : n = i
        · subst c
          rw [ec] at hu
          cases hu
          exact ⟨k3, fun p m => ((h2 p m).step y.heap).2⟩
        · rw [eo n c] at hu
          exact r.fair n u hu hn
      · have c : n ≠ i := fun c => by rw [c, hO] at hn; cases hn
        rw [eo n c] at hu
        rw [eh, k2 p ⟨n, hn⟩]
        exact r.solo n u p hu hn
      · rcases r.owed p m hp hc with e | ⟨n, u, g1, g2, g3⟩
        · rw [eh]
          rcases ((h2 p m).step y.heap).1 e with e | e
          · exact .inl e
          · exact .inr ⟨i, _, hO, ec, e⟩
        · by_cases c : n = i
          · subst c
            rw [ht] at g2
            cases g2
            rw [eh]
            rcases g3.step y.heap with e | e
            · exact .inl e
            · exact .inr ⟨n, _, hO, ec, e⟩
          · exact .inr ⟨n, u, g1, (eo n c).trans g2, g3⟩
    | some p0 =>
      obtain ⟨k1, k2, k3⟩ := (r.solo i t p0 ht hO).step r.inv.1
      have other : ∀ p, (¬ ∃ n, Own n = some p) → (t.step y.heap).1.cell p = y.heap.cell p := fun p hp =>
        k2 p fun e => hp ⟨i, e ▸ hO⟩
      refine ⟨⟨by rw [eh]; exact k1, fun p hp => ?_⟩, fun n u hu hn => ?_, fun n u p hu hn => ?_, fun p m hp hc => ?_⟩
      · rw [eh, other p hp]
        exact r.inv.2 p hp
      · have c : n ≠ i := fun c => by rw [c, hO] at hn; cases hn
        rw [eo n c] at hu
        exact r.fair n u hu hn
      · by_cases c : n = i
        · subst c
          rw [ec] at hu
          cases hu
          rw [hO] at hn
          cases hn
          rw [eh]
          exact k3
        · rw [eo n c] at hu
          rw [eh, k2 p fun e => c (hi n i p hn (e ▸ hO))]
          exact r.solo n u p hu hn
      · rcases r.owed p m hp hc with e | ⟨n, u, g1, g2, g3⟩
        · left
          unfold Clean
          rw [eh, other p hp]
          exact e
        · have c : n ≠ i := fun c => by rw [c, hO] at g1; cases g1
          exact .inr ⟨n, u, g1, (eo n c).trans g2, g3⟩

theorem run (hi : ∀ n m p, Own n = some p → Own m = some p → n = m) : ∀ (is : List Nat) {y : Crowd GHeap JobAns},
    Roaming h Own R Q y → Roaming h Own R Q (y.run is)
  | [], _, r => r
  | i :: is, _, r => run hi is (r.step hi i)

theorem no_crash (r : Roaming h Own R Q y) (n : Nat) : y.crashed n = false := by
  unfold Crowd.crashed
  cases ht : y.calls[n]? with
  | none => rfl
  | some t =>
    cases t with
    | ret a => rfl
    | act f k => rfl
    | crash =>
      cases hO : Own n with
      | none => exact (r.fair n _ ht hO).1.elim
      | some p => exact (r.solo n _ p ht hO).elim

theorem answered {n : Nat} {a : JobAns} (e : y.answer n = some a) : y.calls[n]? = some (.ret a) := by
  unfold Crowd.answer at e
  split at e
  · rename_i ht; cases e; exact ht
  · cases e

theorem right (r : Roaming h Own R Q y) {n : Nat} {a : JobAns} (e : y.answer n = some a) : Q n a := by
  have ht := answered e
  cases hO : Own n with
  | none => exact (r.fair n _ ht hO).1
  | some p => exact (r.solo n _ p ht hO).2

theorem left_over (r : Roaming h Own R Q y) (ho : y.Over) {n : Nat} {p : Spot} (hl : n < y.calls.length)
    (hn : Own n = some p) : y.heap.cell p = R n := by
  obtain ⟨a, ha⟩ := Option.isSome_iff_exists.1 (ho n hl)
  exact (r.solo n _ p (answered ha) hn).1

theorem clean_over (r : Roaming h Own R Q y) (ho : y.Over) {p : Spot} (hp : ¬ ∃ n, Own n = some p) (m : Str)
    (hm : (h.cell p).all.get m = none) : (y.heap.cell p).all.get m = none := by
  rcases r.owed p m hp hm with e | ⟨n, t, -, h2, h3⟩
  · exact e
  · have hl := (List.getElem?_eq_some_iff.1 h2).1
    obtain ⟨a, ha⟩ := Option.isSome_iff_exists.1 (ho n hl)
    rw [answered ha] at h2
    cases h2
    exact h3.elim

end Roaming

section
variable {D : List GDefn} {h : GHeap} {Rs : List GPart} {js : List GJob}

/-- The spots of the updates among the jobs. -/
def ownOf (D : List GDefn) (h : GHeap) (js : List GJob) (n : Nat) : Option Spot :=
  match js[n]? with
  | some (.call x) => if x.call.asks then none else x.spot D h
  | _ => none

/-- What the updates leave there. -/
def leavesOf (D : List GDefn) (h : GHeap) (js : List GJob) (n : Nat) : RHeap :=
  match js[n]? with
  | some (.call x) =>
    match D[x.defn]?, x.spot D h with
    | some d, some p => (((x.conf d).thread x.call).exec (h.cell p)).1
    | _, _ => RHeap.new
  | _ => RHeap.new

theorem ownOf_some {n : Nat} {p : Spot} (e : ownOf D h js n = some p) : ∃ x : GCall, js[n]? = some (.call x) ∧
    x.call.asks = false ∧ x.spot D h = some p := by
  unfold ownOf at e
  split at e
  · rename_i x hx
    cases ha : x.call.asks with
    | true => rw [if_pos ha] at e; cases e
    | false => rw [if_neg (by rw [ha]; exact fun e => nomatch e)] at e; exact ⟨x, hx, ha, e⟩
  · cases e

theorem ownOf_call {n : Nat} {x : GCall} (hx : js[n]? = some (.call x)) (ha : x.call.asks = false) :
    ownOf D h js n = x.spot D h := by
  unfold ownOf
  rw [hx]
  exact if_neg (by rw [ha]; exact fun e => nomatch e)

theorem own_inj (f : GFit D h Rs) (hm : MayMeet D Rs js) : ∀ n m p, ownOf D h js n = some p → ownOf D h js m = some p →
    n = m := by
  intro n m p e e'
  obtain ⟨x, h1, h2, h3⟩ := ownOf_some e
  obtain ⟨x', h1', h2', h3'⟩ := ownOf_some e'
  refine Decidable.byContradiction fun c => ?_
  obtain ⟨d, -, hd⟩ := hm n x h1
  have := (hd h2).2 m _ (Ne.symm c) h1'
  obtain ⟨g1, g2⟩ := spot_inj f.tree h3' h3
  exact this ⟨g1, by rw [← g1] at g2 ⊢; exact g2⟩

/-- Updates know their spots. -/
theorem spot_known (f : GFit D h Rs) (hm : MayMeet D Rs js) {n : Nat} {x : GCall} (hx : js[n]? = some (.call x))
    (ha : x.call.asks = false) : ∃ d p, D[x.defn]? = some d ∧ x.spot D h = some p := by
  obtain ⟨d, hd, hu⟩ := hm n x hx
  cases hs : x.spot D h with
  | some p => exact ⟨d, p, hd, rfl⟩
  | none =>
    obtain ⟨g1, g2, -⟩ := f.spot_none hd hs
    exact absurd g2 ((hu ha).1 g1)

theorem avoids_own (hm : MayMeet D Rs js) {n : Nat} {j : GJob} (hj : js[n]? = some j)
    (hn : ownOf D h js n = none) {p : Spot} (ho : ∃ m, ownOf D h js m = some p) :
    ∃ i P, spot D h i P = some p ∧ j.Avoids D i P := by
  obtain ⟨m, e⟩ := ho
  obtain ⟨x, h1, h2, h3⟩ := ownOf_some e
  obtain ⟨d, -, hd⟩ := hm m x h1
  refine ⟨_, _, h3, (hd h2).2 n j (fun c => ?_) hj⟩
  rw [c, e] at hn
  cases hn

theorem running_begin (hp : AllPlain D) (f : GFit D h Rs) (hm : MayMeet D Rs js) :
    Roaming h (ownOf D h js) (leavesOf D h js) (fun n a => ∀ j, js[n]? = some j → j.Right D Rs a) (beginG D h js) := by
  classical
  refine ⟨⟨.refl h, fun p _ => Ext.refl _⟩, fun n t ht hn => ?_, fun n t p ht hn => ?_, fun p m _ hc => .inl hc⟩
  · have ht : (js.map (GJob.thread D))[n]? = some t := ht
    rw [List.getElem?_map] at ht
    obtain ⟨j, hj, rfl⟩ := Option.map_eq_some_iff.1 ht
    cases j with
    | call x =>
      obtain ⟨d, hd, -⟩ := hm n x hj
      have ha : x.call.asks = true := by
        cases ha : x.call.asks with
        | true => rfl
        | false =>
          obtain ⟨_, p, _, hs⟩ := spot_known f hm hj ha
          rw [ownOf_call hj ha, hs] at hn
          cases hn
      refine ⟨.bind (fun a h2 => ?_) (question_keeps hp f ha hd fun p hs ho => ?_), fun p m =>
        Thread.Tidies.bind (fun _ => ?_) (question_tidies hp ha hd p m)⟩
      · intro j hj'
        rw [hj] at hj'
        cases hj'
        refine ⟨h2, ?_⟩
        cases hc : x.call <;> first | trivial | (rw [hc] at ha; cases ha)
      · obtain ⟨i, P, h1, h2⟩ := avoids_own hm hj hn ho
        obtain ⟨g1, g2⟩ := spot_inj f.tree hs h1
        exact h2 ⟨g1, by rw [← g1]; exact g2⟩
      · trivial
    | request q =>
      have hg : SaysRolesG D Rs fun q => decide (q.user = q.role ∨
          ∃ k, k < depthOf D q.defn q.path ∧ Reach (linkedG D Rs q.defn q.path) k q.user q.role) := fun q => by simp
      refine ⟨.bind (fun a h2 => ?_) (among_keeps hp f hg fun p ho => avoids_own hm hj hn ho), fun p m =>
        Thread.Tidies.bind (fun _ => ?_) (among_tidies hp p m _)⟩
      · intro j hj' 
        rw [hj] at hj'
        cases hj'
        intro g hg'
        have : g = fun q => decide (q.user = q.role ∨
            ∃ k, k < depthOf D q.defn q.path ∧ Reach (linkedG D Rs q.defn q.path) k q.user q.role) := by
          funext q
          exact Bool.eq_iff_iff.2 ((hg' q).trans (hg q).symm)
        rw [this, h2]
        exact enforceA_value _ _ _ _ _ _
      · trivial
  · have ht : (js.map (GJob.thread D))[n]? = some t := ht
    rw [List.getElem?_map] at ht
    obtain ⟨j, hj, rfl⟩ := Option.map_eq_some_iff.1 ht
    obtain ⟨x, h1, h2, h3⟩ := ownOf_some hn
    rw [h1] at hj
    cases hj
    obtain ⟨d, hd, -⟩ := hm n x h1
    have : leavesOf D h js n = (((x.conf d).thread x.call).exec (h.cell p)).1 := by
      unfold leavesOf
      rw [h1]
      show (match D[x.defn]?, x.spot D h with | some d, some p => _ | _, _ => _) = _
      rw [hd, h3]
    rw [this]
    refine Thread.Solo.map (fun a ha => ?_) (update_solo hp f h2 hd h3)
    intro j hj
    rw [h1] at hj
    cases hj
    exact ha

/-! ## The next part -/

theorem changesAt_append (i : Nat) (P : List Str) (R : GPart) : changesAt D i P (Rs ++ [R]) =
    changesAt D i P Rs ++ (R.calls.filter fun x => decide (x.Changes D i P)).map fun x => x.call.op := by
  unfold changesAt
  simp [List.flatMap_append, List.filter_append]

theorem no_changes {i : Nat} {P : List Str} {R : GPart} (hn : ∀ x ∈ R.calls, ¬ x.Changes D i P) :
    changesAt D i P (Rs ++ [R]) = changesAt D i P Rs := by
  rw [changesAt_append, List.filter_eq_nil_iff.2 fun x hx => by simpa using hn x hx]
  simp

theorem mem_calls {sched : List Nat} {x : GCall} (hx : x ∈ (GPart.together js sched).calls) :
    ∃ n : Nat, js[n]? = some (GJob.call x) := by
  obtain ⟨j, hj, e⟩ := List.mem_filterMap.1 hx
  obtain ⟨n, hn⟩ := List.getElem?_of_mem hj
  cases j with
  | call y => cases e; exact ⟨n, hn⟩
  | request q => cases e

theorem one_change {i : Nat} {P : List Str} : ∀ (js : List GJob) (n : Nat) (x : GCall),
    js[n]? = some (.call x) → x.Changes D i P →
    (∀ (m : Nat) (y : GCall), m ≠ n → js[m]? = some (.call y) → ¬ y.Changes D i P) →
    ((js.filterMap GJob.call?).filter fun x => decide (x.Changes D i P)) = [x]
  | [], n, x, h, _, _ => by cases h
  | j :: js, 0, x, h, hx, hn => by
    cases h
    have : ((js.filterMap GJob.call?).filter fun x => decide (x.Changes D i P)) = [] := by
      refine List.filter_eq_nil_iff.2 fun y hy => ?_
      obtain ⟨j, hj, e⟩ := List.mem_filterMap.1 hy
      obtain ⟨m, hm⟩ := List.getElem?_of_mem hj
      cases j with
      | call z => cases e; simpa using hn (m + 1) y (by omega) hm
      | request q => cases e
    have e : GJob.call? (.call x) = some x := rfl
    rw [List.filterMap_cons_some e, List.filter_cons_of_pos (by simpa using hx), this]
  | j :: js, n + 1, x, h, hx, hn => by
    have ih := one_change js n x h hx fun m y hm hy => hn (m + 1) y (by omega) hy
    cases j with
    | call y =>
      have e : GJob.call? (.call y) = some y := rfl
      rw [List.filterMap_cons_some e, List.filter_cons_of_neg (by simpa using hn 0 y (by omega) rfl), ih]
    | request q =>
      have e : GJob.call? (.request q) = none := rfl
      rw [List.filterMap_cons_none e, ih]

theorem fit_parts_together (hp : AllPlain D) (f : GFit D h Rs) (hm : MayMeet D Rs js) {sched : List Nat}
    (ho : ((beginG D h js).run sched).Over) :
    GFit D (partG D h (.together js sched)) (Rs ++ [.together js sched]) := by
  have r := (running_begin hp f hm).run (own_inj f hm) sched
  have hl : ((beginG D h js).run sched).calls.length = js.length :=
    (Crowd.run_length sched _).trans (List.length_map ..)
  show GFit D ((beginG D h js).run sched).heap _
  generalize ((beginG D h js).run sched) = y at r hl ho
  have sh := r.inv.1
  refine ⟨sh.len.trans f.len, tree_shape sh f.tree, fun i P p e => ?_, fun i d P hd hb e => ?_⟩
  · rw [spot_shape sh] at e
    have fp := f.used i P p e
    by_cases c : ∃ n, ownOf D h js n = some p
    · obtain ⟨n, hn⟩ := c
      obtain ⟨x, h1, h2, h3⟩ := ownOf_some hn
      obtain ⟨d, hd, hmm⟩ := hm n x h1
      obtain ⟨g1, g2⟩ := spot_inj f.tree h3 e
      subst g1
      have hL : y.heap.cell p = (((x.conf d).thread x.call).exec (h.cell p)).1 := by
        rw [r.left_over ho (by rw [hl]; exact (List.getElem?_eq_some_iff.1 h1).1) hn]
        unfold leavesOf
        rw [h1]
        show (match D[x.defn]?, x.spot D h with | some d, some p => _ | _, _ => _) = _
        rw [hd, h3]
      have hC : changesAt D x.defn P (Rs ++ [.together js sched]) = changesAt D x.defn P Rs ++ [x.call.op] := by
        rw [changesAt_append, show (GPart.together js sched).calls = js.filterMap GJob.call? from rfl,
          one_change js n x h1 ⟨h2, rfl, g2⟩]
        · rfl
        · rintro m z hmn hz ⟨z1, z2, z3⟩
          refine (hmm h2).2 m _ hmn hz ⟨z2, ?_⟩
          rw [z3, g2]
      rw [hL, hC]
      exact fit_grow (plain_conf hp hd) fp x.call
    · have hC : changesAt D i P (Rs ++ [.together js sched]) = changesAt D i P Rs := by
        refine no_changes fun x hx => ?_
        rintro ⟨z1, z2, z3⟩
        obtain ⟨n, hn⟩ := mem_calls hx
        refine c ⟨n, ?_⟩
        rw [ownOf_call hn z1]
        unfold GCall.spot
        rw [z2, z3]
        exact e
      rw [hC]
      have ex := r.inv.2 p c
      have cl := r.clean_over ho c
      refine ⟨Ext.base ex fp.base cl, fun n => ?_⟩
      rw [← fp.names]
      unfold GoMap.has
      exact congrArg _ (ex.all_eq cl n)
  · rw [DHeap.rmAt_dms (sh.dms i)] at e
    have h0 := f.unused i d P hd hb e
    refine (no_changes fun x hx => ?_).trans h0
    rintro ⟨z1, z2, z3⟩
    obtain ⟨n, hn⟩ := mem_calls hx
    obtain ⟨d', hd', hu⟩ := hm n x hn
    subst z2
    rw [hd] at hd'
    cases hd'
    refine (hu z1).1 hb ?_
    rw [GCall.place_of hd, if_pos hb] at z3
    rw [z3]
    exact h0

/-! ## A call alone -/

theorem exec_atSpot {α : Type} {p : Spot} (hv : h.Valid p) : ∀ (t : Thread RHeap α) (s : GHeap), Shape h s →
    Shape h ((t.atSpot p).exec s).1 ∧ (∀ q, q ≠ p → ((t.atSpot p).exec s).1.cell q = s.cell q) ∧
      ((t.atSpot p).exec s).1.cell p = (t.exec (s.cell p)).1
  | .ret _, _, e => ⟨e, fun _ _ => rfl, rfl⟩
  | .crash, _, e => ⟨e, fun _ _ => rfl, rfl⟩
  | .act f k, s, e => by
    obtain ⟨h1, h2, h3⟩ := exec_atSpot hv (k (s.cell p)) (s.updCell p f) (shape_upd e p f)
    refine ⟨h1, fun q hq => (h2 q hq).trans (cell_ne hq f), h3.trans ?_⟩
    rw [cell_self (e.valid hv)]
    rfl

theorem exec_inDoms {α : Type} {i : Nat} : ∀ (t : Thread DHeap α) (s : GHeap), i < s.length →
    ((t.inDoms i).exec s).1.length = s.length ∧ (∀ k, k ≠ i → ((t.inDoms i).exec s).1.obj k = s.obj k) ∧
      (((t.inDoms i).exec s).1.obj i).roles = (s.obj i).roles ∧
      (((t.inDoms i).exec s).1.obj i).doms = (t.exec (s.obj i).doms).1
  | .ret _, _, _ => ⟨rfl, fun _ _ => rfl, rfl, rfl⟩
  | .crash, _, _ => ⟨rfl, fun _ _ => rfl, rfl, rfl⟩
  | .act f k, s, hi => by
    have hl : (s.updDoms i f).length = s.length := List.length_modify ..
    obtain ⟨h1, h2, h3, h4⟩ := exec_inDoms (k (s.obj i).doms) (s.updDoms i f) (by rw [hl]; exact hi)
    have ho : (s.updDoms i f).obj i = { s.obj i with doms := f (s.obj i).doms } := by
      rw [obj_updDoms, if_pos ⟨rfl, hi⟩]
    refine ⟨h1.trans hl, fun m hm => (h2 m hm).trans ?_, h3.trans (by rw [ho]), h4.trans ?_⟩
    · rw [obj_updDoms, if_neg fun c => hm c.1.symm]
    · rw [ho]
      rfl

theorem spot_defn {i : Nat} {P : List Str} {p : Spot} (e : spot D h i P = some p) : p.1 = i ∧ ∃ d, D[i]? = some d := by
  unfold spot at e
  cases hd : D[i]? with
  | none => rw [hd] at e; cases e
  | some d =>
    rw [hd] at e
    refine ⟨?_, d, rfl⟩
    by_cases hb : d.domains = true
    · have e : ((h.obj i).doms.rmAt 0 P).map (fun j => (i, some j)) = some p := (if_pos hb).symm.trans e
      obtain ⟨j, _, rfl⟩ := Option.map_eq_some_iff.1 e
      rfl
    · have e : (if P = [] then some (i, none) else none) = some p := (if_neg hb).symm.trans e
      by_cases hP : P = []
      · rw [if_pos hP] at e; cases e; rfl
      · rw [if_neg hP] at e; cases e

theorem spot_domains {i : Nat} {d : GDefn} (hd : D[i]? = some d) (hb : d.domains = true) (s : GHeap) (P : List Str) :
    spot D s i P = ((s.obj i).doms.rmAt 0 P).map fun j => (i, some j) := by
  unfold spot
  rw [hd]
  exact if_pos hb

theorem one_alone {x : GCall} {i : Nat} {P : List Str} (hx : x.Changes D i P) :
    changesAt D i P (Rs ++ [.alone x]) = changesAt D i P Rs ++ [x.call.op] := by
  rw [changesAt_append]
  show _ ++ (List.filter _ [x]).map _ = _
  rw [List.filter_cons_of_pos (by simpa using hx)]
  rfl

theorem none_alone {x : GCall} {i : Nat} {P : List Str} (hx : ¬ x.Changes D i P) :
    changesAt D i P (Rs ++ [.alone x]) = changesAt D i P Rs :=
  no_changes fun y hy => by cases List.mem_singleton.1 hy; exact hx

theorem fit_next {c : RConf} (hc : c.Plain) {r : RHeap} {x : GCall} {i : Nat} {P : List Str}
    (f : RConf.Fit r (changesAt D i P Rs) (fun u v => linked (changesAt D i P Rs) u v = true)) (hi : x.defn = i)
    (hP : placeOf D i x.path = P) :
    RConf.Fit ((c.thread x.call).exec r).1 (changesAt D i P (Rs ++ [.alone x]))
      (fun u v => linked (changesAt D i P (Rs ++ [.alone x])) u v = true) := by
  cases ha : x.call.asks with
  | true =>
    rw [none_alone fun e => nomatch ha.symm.trans e.1]
    exact fit_ask hc f ha
  | false =>
    rw [one_alone ⟨ha, hi, hP⟩]
    exact fit_grow hc f x.call

theorem fit_parts_alone (hp : AllPlain D) (f : GFit D h Rs) (x : GCall) :
    GFit D (partG D h (.alone x)) (Rs ++ [.alone x]) := by
  show GFit D ((x.thread D).exec h).1 _
  cases hd : D[x.defn]? with
  | none =>
    have e : x.thread D = .crash := by unfold GCall.thread; rw [hd]
    rw [e]
    have nc : ∀ {i : Nat} {d : GDefn} {P}, D[i]? = some d → ¬ x.Changes D i P := by
      rintro i d P h1 ⟨-, h2, -⟩
      rw [← h2, hd] at h1
      cases h1
    refine ⟨f.len, f.tree, fun i P p e => ?_, fun i d P h1 h2 h3 => ?_⟩
    · obtain ⟨-, d, h1⟩ := spot_defn e
      rw [none_alone (nc h1)]
      exact f.used i P p e
    · rw [none_alone (nc h1)]
      exact f.unused i d P h1 h2 h3
  | some d =>
    have hc := plain_conf hp hd
    have hi : x.defn < h.length := by rw [f.len]; exact (List.getElem?_eq_some_iff.1 hd).1
    by_cases hb : d.domains = true
    · have e : x.thread D = (d.conf.domainThread x.call x.path).inDoms x.defn := by
        unfold GCall.thread
        rw [hd]
        exact if_pos hb
      rw [e]
      have hpl : placeOf D x.defn x.path = x.path := by rw [GCall.place_of hd, if_pos hb]
      have hcf : x.conf d = d.conf.below x.path := if_pos hb
      rw [hcf] at hc
      obtain ⟨s1, s2, s3, s4⟩ := exec_inDoms (d.conf.domainThread x.call x.path) h hi
      obtain ⟨h', e', t', ht⟩ := RConf.exec_alone (c := d.conf) (f.tree x.defn) ⟨x.call, x.path⟩
      rw [show ((d.conf.domainThread x.call x.path).exec (h.obj x.defn).doms).1 = h' from e'] at s4
      generalize (((d.conf.domainThread x.call x.path).inDoms x.defn).exec h).1 = s at s1 s2 s3 s4
      have nc : ∀ {i P}, (i ≠ x.defn ∨ P ≠ x.path) → ¬ x.Changes D i P := by
        rintro i P h0 ⟨-, h1, h2⟩
        subst h1
        rcases h0 with h0 | h0
        · exact h0 rfl
        · exact h0 (h2.symm.trans hpl)
      have na : x.call.asks = true → ∀ {i P}, ¬ x.Changes D i P := by
        rintro h0 i P ⟨h1, -⟩
        rw [h0] at h1
        cases h1
      refine ⟨s1.trans f.len, fun i => ?_, fun i P p e => ?_, fun i d' P h1 h2 h3 => ?_⟩
      · by_cases c : i = x.defn
        · rw [c, s4]; exact t'
        · rw [s2 i c]; exact f.tree i
      · by_cases c : i = x.defn
        · subst c
          rw [spot_domains hd hb, s4] at e
          obtain ⟨k, hk, rfl⟩ := Option.map_eq_some_iff.1 e
          have ec : s.cell (x.defn, some k) = h'.rm k := by
            show (s.obj x.defn).doms.rm k = _
            rw [s4]
          rw [ec]
          have used : ∀ {P k}, (h.obj x.defn).doms.rmAt 0 P = some k → RConf.Fit ((h.obj x.defn).doms.rm k)
              (changesAt D x.defn P Rs) (fun u v => linked (changesAt D x.defn P Rs) u v = true) := fun {P k} e =>
            f.used x.defn P (x.defn, some k) (by rw [spot_domains hd hb, e]; rfl)
          rcases ht with ⟨g1, g2, g3⟩ | ⟨j, g1, g2, g3, g4, g5⟩
          · rw [none_alone (na g1)]
            subst g3
            exact used hk
          · by_cases cP : P = x.path
            · subst cP
              have g1 : h'.rmAt 0 x.path = some j := g1
              rw [hk] at g1
              cases g1
              rw [g4]
              refine fit_next hc ?_ rfl hpl
              rcases g3 with g3 | ⟨g3, -⟩
              · rw [if_pos g3]
                exact used g3
              · have g3 : (h.obj x.defn).doms.rmAt 0 x.path = none := g3
                rw [if_neg (by rw [g3]; exact fun e => nomatch e), f.unused _ _ _ hd hb g3]
                exact RConf.Fit.new
            · rw [none_alone (nc (.inr cP))]
              obtain ⟨g6, g7⟩ := g5 P cP
              rw [hk] at g6
              rw [g7 k g6.symm]
              exact used g6.symm
        · rw [none_alone (nc (.inl c))]
          have e0 : spot D h i P = some p := by
            unfold spot at e ⊢
            rw [s2 i c] at e
            exact e
          obtain ⟨e1, -⟩ := spot_defn e0
          have ec : s.cell p = h.cell p := by
            obtain ⟨k, o⟩ := p
            subst e1
            cases o with
            | none => show (s.obj k).roles = (h.obj k).roles; rw [s2 k c]
            | some j => show (s.obj k).doms.rm j = (h.obj k).doms.rm j; rw [s2 k c]
          rw [ec]
          exact f.used i P p e0
      · by_cases c : i = x.defn
        · subst c
          rw [s4] at h3
          rcases ht with ⟨g1, g2, g3⟩ | ⟨j, g1, g2, g3, g4, g5⟩
          · rw [none_alone (na g1)]
            subst g3
            exact f.unused _ d' P h1 h2 h3
          · have cP : P ≠ x.path := fun cP => by
              subst cP
              rw [show h'.rmAt 0 x.path = some j from g1] at h3
              cases h3
            rw [none_alone (nc (.inr cP))]
            rw [(g5 P cP).1] at h3
            exact f.unused _ d' P h1 h2 h3
        · rw [none_alone (nc (.inl c))]
          rw [s2 i c] at h3
          exact f.unused i d' P h1 h2 h3
    · have e : x.thread D = (d.conf.thread x.call).atSpot (x.defn, none) := by
        unfold GCall.thread
        rw [hd]
        exact if_neg hb
      rw [e]
      have hpl : placeOf D x.defn x.path = [] := by rw [GCall.place_of hd, if_neg hb]
      have hcf : x.conf d = d.conf := if_neg hb
      rw [hcf] at hc
      have hs : spot D h x.defn [] = some (x.defn, none) := by
        unfold spot
        rw [hd]
        exact (if_neg hb).trans (if_pos rfl)
      have hv : h.Valid (x.defn, none) := hi
      obtain ⟨s1, s2, s3⟩ := exec_atSpot hv (d.conf.thread x.call) h (.refl h)
      generalize (((d.conf.thread x.call).atSpot (x.defn, none)).exec h).1 = s at s1 s2 s3
      refine ⟨s1.len.trans f.len, tree_shape s1 f.tree, fun i P p e => ?_, fun i d' P h1 h2 h3 => ?_⟩
      · rw [spot_shape s1] at e
        by_cases c : p = (x.defn, none)
        · subst c
          obtain ⟨c1, c2⟩ := spot_inj f.tree e hs
          subst c1 c2
          rw [s3]
          exact fit_next hc (f.used _ _ _ hs) rfl hpl
        · rw [s2 p c, none_alone]
          · exact f.used i P p e
          · rintro ⟨-, z2, z3⟩
            subst z2
            rw [hpl] at z3
            subst z3
            rw [hs] at e
            cases e
            exact c rfl
      · rw [DHeap.rmAt_dms (s1.dms i)] at h3
        rw [none_alone]
        · exact f.unused i d' P h1 h2 h3
        · rintro ⟨-, z2, -⟩
          subst z2
          rw [hd] at h1
          cases h1
          exact hb h2

theorem obj_new (D : List GDefn) (i : Nat) : (GHeap.new D).obj i = {} := by
  unfold GHeap.new GHeap.obj
  rw [List.getElem?_map]
  cases D[i]? <;> rfl

theorem fit_new (D : List GDefn) : GFit D (GHeap.new D) [] := by
  have nc : ∀ i P, changesAt D i P [] = [] := fun _ _ => rfl
  refine ⟨List.length_map .., fun i => by rw [obj_new]; exact DHeap.Tree.new, fun i P p e => ?_, fun i d P _ _ _ => nc i P⟩
  rw [nc]
  have : (GHeap.new D).cell p = RHeap.new := by
    obtain ⟨k, o⟩ := p
    cases o with
    | none => show ((GHeap.new D).obj k).roles = _; rw [obj_new]
    | some j =>
      show ((GHeap.new D).obj k).doms.rm j = _
      rw [obj_new]
      rfl
  rw [this]
  exact RConf.Fit.new

theorem fit_parts (hp : AllPlain D) : ∀ (Rs : List GPart) {pre : List GPart} {h : GHeap}, GFit D h pre →
    PeacefulFrom D pre h Rs → GFit D (partsG D h Rs) (pre ++ Rs)
  | [], pre, h, f, _ => by rw [List.append_nil]; exact f
  | .alone x :: Rs, pre, h, f, he => by
    have := fit_parts hp Rs (fit_parts_alone hp f x) he
    rw [List.append_assoc] at this
    exact this
  | .together js sched :: Rs, pre, h, f, he => by
    have := fit_parts hp Rs (fit_parts_together hp f he.1 he.2.1) he.2.2
    rw [List.append_assoc] at this
    exact this

end

/-! ## Every call ends -/

namespace Crowd

variable {S α : Type}

theorem run_append (is js : List Nat) : ∀ y : Crowd S α, y.run (is ++ js) = (y.run is).run js := by
  induction is with
  | nil => exact fun _ => rfl
  | cons i is ih => exact fun y => ih _

theorem run_idle {i : Nat} : ∀ (is : List Nat) {y : Crowd S α}, i ∉ is → (y.run is).calls[i]? = y.calls[i]?
  | [], _, _ => rfl
  | j :: js, y, h => by
    have h1 : i ≠ j := fun e => h (e ▸ List.mem_cons_self)
    exact (run_idle js (fun e => h (List.mem_cons_of_mem _ e))).trans (step_other h1)

/-- A call that is let run again and again comes to its end. -/
theorem ends {i : Nat} {σ : Nat → Nat} (hσ : ∀ m, ∃ k, m ≤ k ∧ σ k = i) : ∀ (t : Thread S α) (m : Nat) {y : Crowd S α},
    (y.run ((List.range m).map σ)).calls[i]? = some t → ∃ k, (∃ a, (y.run ((List.range k).map σ)).calls[i]? = some (.ret a)) ∨
      (y.run ((List.range k).map σ)).calls[i]? = some .crash := by
  intro t
  induction t with
  | ret a => exact fun m y h => ⟨m, .inl ⟨a, h⟩⟩
  | crash => exact fun m y h => ⟨m, .inr h⟩
  | act f k ih =>
    intro m y h
    -- the next time `i` is let run
    have hex : ∀ d m, (∃ k, m ≤ k ∧ k < m + d ∧ σ k = i) → ∃ k, m ≤ k ∧ σ k = i ∧ ∀ j, m ≤ j → j < k → σ j ≠ i := by
      intro d
      induction d with
      | zero => rintro m ⟨k, h1, h2, _⟩; omega
      | succ d ih =>
        rintro m ⟨k, h1, h2, h3⟩
        by_cases c : σ m = i
        · exact ⟨m, Nat.le_refl m, c, fun j h1 h2 => by omega⟩
        · have hk : m + 1 ≤ k := by
            rcases Nat.lt_or_ge m k with h | h
            · exact h
            · have : m = k := by omega
              rw [this] at c; exact absurd h3 c
          obtain ⟨k', g1, g2, g3⟩ := ih (m + 1) ⟨k, hk, by omega, h3⟩
          refine ⟨k', by omega, g2, fun j h1 h2 => ?_⟩
          by_cases e : j = m
          · rw [e]; exact c
          · exact g3 j (by omega) h2
    obtain ⟨k0, h1, h2⟩ := hσ m
    obtain ⟨k1, g1, g2, g3⟩ := hex (k0 - m + 1) m ⟨k0, h1, by omega, h2⟩
    have e : (List.range (k1 + 1)).map σ = (List.range m).map σ ++ (((List.range' m (k1 - m)).map σ) ++ [i]) := by
      rw [List.range_succ, List.map_append, List.map_singleton, g2, ← List.append_assoc, ← List.map_append]
      congr 2
      have := List.range'_append_1 (s := 0) (m := m) (n := k1 - m)
      rw [Nat.zero_add, show m + (k1 - m) = k1 by omega] at this
      rw [List.range_eq_range', List.range_eq_range', this]
    have hidle : i ∉ (List.range' m (k1 - m)).map σ := by
      intro hm
      obtain ⟨j, hj, hj'⟩ := List.mem_map.1 hm
      rw [List.mem_range'_1] at hj
      exact g3 j hj.1 (by omega) hj'
    have h3 : ((y.run ((List.range m).map σ)).run ((List.range' m (k1 - m)).map σ)).calls[i]? = some (.act f k) :=
      (run_idle _ hidle).trans h
    have h4 := (step_self h3).2
    refine ih ((y.run ((List.range m).map σ)).run ((List.range' m (k1 - m)).map σ)).heap (k1 + 1) (y := y) ?_
    rw [e, run_append, run_append]
    exact h4

end Crowd

end Fastac
