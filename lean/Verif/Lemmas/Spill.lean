import Verif.Spec.Spill

/-!
# What a call may do to the memory of the caller: helper lemmas
-/

namespace Fastac

theorem GoMap.mem_set {K V : Type} [DecidableEq K] {m : GoMap K V} {k : K} {v : V} {e : K × V} (h : e ∈ m.set k v) : e = (k, v) ∨ e ∈ m := by
  induction m with
  | nil => simpa [GoMap.set] using h
  | cons e' m ih =>
    obtain ⟨k', v'⟩ := e'
    unfold GoMap.set at h
    split at h
    · rcases List.mem_cons.1 h with h | h
      · exact .inl h
      · exact .inr (List.mem_cons_of_mem _ h)
    · rcases List.mem_cons.1 h with h | h
      · exact .inr (h ▸ List.mem_cons_self)
      · exact (ih h).imp_right (List.mem_cons_of_mem _)

theorem Mem.ext_cell {mem mem' : Mem} (hl : mem'.length = mem.length) {a : Nat}
    (h : ∀ i, mem'.cell a i = mem.cell a i) : mem'[a]? = mem[a]? := by
  have e : mem'[a]?.getD [] = mem[a]?.getD [] := List.ext_getElem? h
  by_cases ha : a < mem.length
  · have ha' : a < mem'.length := by omega
    rw [List.getElem?_eq_getElem ha, List.getElem?_eq_getElem ha'] at e ⊢
    exact congrArg some e
  · rw [List.getElem?_eq_none (by omega), List.getElem?_eq_none (by omega)]

theorem Mem.write_cell (mem : Mem) (a i : Nat) (v : Str) (b j : Nat) :
    (Mem.write mem a i v).cell b j = if b = a ∧ j = i ∧ (mem.cell a i).isSome then some v else mem.cell b j := by
  unfold Mem.write Mem.cell
  rw [List.getElem?_set]
  by_cases hb : a = b
  · subst hb
    by_cases ha : a < mem.length
    · simp only [if_true, if_pos ha, Option.getD_some, List.getElem?_set, true_and]
      by_cases hij : i = j
      · subst hij
        by_cases hi : i < (mem[a]?.getD []).length
        · simp only [if_true, if_pos hi, true_and]
          rw [if_pos]
          rw [List.getElem?_eq_getElem hi]; rfl
        · simp only [if_true, if_neg hi, true_and]
          rw [if_neg]
          · rw [List.getElem?_eq_none (by omega)]
          · rw [List.getElem?_eq_none (by omega)]; simp
      · rw [if_neg hij, if_neg]
        rintro ⟨h, -⟩
        exact hij h.symm
    · simp only [if_true, if_neg ha]
      rw [List.getElem?_eq_none (l := mem) (by omega)]
      simp
  · rw [if_neg hb, if_neg]
    rintro ⟨h, -⟩
    exact hb h.symm

namespace SRef

theorem Spilled.refl (ref : SRef) (mem : Mem) : ref.Spilled mem mem := ⟨rfl, fun _ _ => .inl rfl⟩

theorem Spilled.trans {ref : SRef} {m1 m2 m3 : Mem} (h1 : ref.Spilled m1 m2) (h2 : ref.Spilled m2 m3) :
    ref.Spilled m1 m3 := by
  refine ⟨h2.1.trans h1.1, fun a i => ?_⟩
  rcases h2.2 a i with h | ⟨o, l, c, e, g1, g2, g3, g4⟩
  · rcases h1.2 a i with h' | ⟨o, l, c, e, g1, g2, g3, g4⟩
    · exact .inl (h.trans h')
    · exact .inr ⟨o, l, c, e, g1, g2, g3, h.trans g4⟩
  · refine .inr ⟨o, l, c, e, g1, g2, ?_, g4⟩
    rcases h1.2 a i with h' | ⟨-, -, -, -, -, -, g, -⟩
    · rw [← h']; exact g3
    · exact g

theorem Spilled.of_tail {ref : SRef} {mem mem' : Mem} (h : ref.tail.Spilled mem mem') : ref.Spilled mem mem' := by
  refine ⟨h.1, fun a i => (h.2 a i).imp_right ?_⟩
  rintro ⟨o, l, c, e, g1, g2, g⟩
  cases ref with
  | own r => cases e
  | slice a' o' l' c' =>
    simp only [tail, SRef.slice.injEq] at e
    obtain ⟨rfl, rfl, rfl, rfl⟩ := e
    exact ⟨o', l', c', rfl, by omega, by omega, g⟩

theorem Spilled.array {ref : SRef} {mem mem' : Mem} (h : ref.Spilled mem mem') {a : Nat} (ha : a ∉ ref.array) :
    mem'[a]? = mem[a]? := by
  refine Mem.ext_cell h.1 fun i => ?_
  rcases h.2 a i with h | ⟨o, l, c, rfl, -⟩
  · exact h
  · exact absurd (List.mem_singleton_self a) ha

theorem Spilled.full {ref : SRef} {mem mem' : Mem} (h : ref.Spilled mem mem') (hf : ref.Full) : mem' = mem := by
  refine List.ext_getElem? fun a => Mem.ext_cell h.1 fun i => ?_
  rcases h.2 a i with h | ⟨o, l, c, rfl, g1, g2, -⟩
  · exact h
  · simp only [Full] at hf
    omega

theorem Spilled.read {ref : SRef} {mem mem' : Mem} (h : ref.Spilled mem mem') : ref.read mem' = ref.read mem := by
  cases ref with
  | own r => rfl
  | slice a o l c =>
    refine List.ext_getElem? fun i => ?_
    simp only [SRef.read, List.getElem?_take, List.getElem?_drop]
    split
    · rcases h.2 a (o + i) with h | ⟨o', l', c', e, g1, g2, -⟩
      · exact h
      · cases e
        omega
    · rfl

theorem append1_read (mem : Mem) (v : Str) (ref : SRef) :
    (ref.append1 mem v).2.read (ref.append1 mem v).1 = ref.read mem ++ [v] := by
  cases ref with
  | own r => rfl
  | slice a o l c =>
    unfold append1
    by_cases h : l < c ∧ o + l < (mem[a]?.getD []).length
    · simp only [if_pos h]
      have hc : (mem.cell a (o + l)).isSome := by
        unfold Mem.cell
        rw [List.getElem?_eq_getElem h.2]; rfl
      refine List.ext_getElem? fun i => ?_
      have hlen : (((mem[a]?.getD []).drop o).take l).length = l := by
        simp only [List.length_take, List.length_drop]; omega
      have hw := Mem.write_cell mem a (o + l) v a (o + i)
      simp only [hc, and_true, true_and] at hw
      simp only [SRef.read, List.getElem?_take, List.getElem?_drop]
      by_cases hi : i < l
      · rw [if_pos (by omega), List.getElem?_append_left (by omega)]
        show Mem.cell _ a (o + i) = _
        rw [hw, if_neg (by omega)]
        simp only [List.getElem?_take, List.getElem?_drop, if_pos hi]
        rfl
      · rw [List.getElem?_append_right (by omega), hlen]
        by_cases hi' : i = l
        · subst hi'
          rw [if_pos (by omega)]
          show Mem.cell _ a (o + i) = _
          rw [hw, if_pos rfl, Nat.sub_self]
          rfl
        · rw [if_neg (by omega), List.getElem?_eq_none]
          simp only [List.length_singleton]
          omega
    · simp only [if_neg h]
      rfl

theorem append1_spilled (mem : Mem) (ref : SRef) : ref.Spilled mem (ref.append1 mem redundantRole).1 := by
  cases ref with
  | own r => exact .refl _ _
  | slice a o l c =>
    unfold append1
    by_cases h : l < c ∧ o + l < (mem[a]?.getD []).length
    · simp only [if_pos h]
      refine ⟨by simp [Mem.write], fun b j => ?_⟩
      rw [Mem.write_cell]
      by_cases hb : b = a ∧ j = o + l ∧ (mem.cell a (o + l)).isSome
      · obtain ⟨rfl, rfl, hs⟩ := hb
        exact .inr ⟨o, l, c, rfl, by omega, by omega, hs, by simp [hs]⟩
      · rw [if_neg hb]
        exact .inl rfl
    · simp only [if_neg h]
      exact .refl _ _

theorem Spilled.of_append {mem0 mem mem' : Mem} {ref : SRef} (h : ((ref.append1 mem0 redundantRole).2).Spilled mem mem') :
    ref.Spilled mem mem' := by
  refine ⟨h.1, fun a i => (h.2 a i).imp_right ?_⟩
  rintro ⟨o, l, c, e, g1, g2, g⟩
  cases ref with
  | own r => cases e
  | slice a' o' l' c' =>
    by_cases hc : l' < c' ∧ o' + l' < (mem0[a']?.getD []).length
    · simp only [append1, if_pos hc, SRef.slice.injEq] at e
      obtain ⟨rfl, rfl, rfl, rfl⟩ := e
      exact ⟨o', l', c', rfl, by omega, by omega, g⟩
    · simp only [append1, if_neg hc] at e
      cases e

theorem Spilled.own_eq {r : Rule} {mem mem' : Mem} (h : (SRef.own r).Spilled mem mem') : mem' = mem := h.full trivial

end SRef

namespace DM

theorem sGetDomain_eq (mem : Mem) (ds : SRef) :
    (sGetDomain mem ds).1 = (getDomain (ds.read mem)).1 ∧
    (sGetDomain mem ds).2.read mem = (getDomain (ds.read mem)).2 ∧
    ∀ m1 m2, (sGetDomain mem ds).2.Spilled m1 m2 → ds.Spilled m1 m2 := by
  have own : ∀ (r : Rule) m1 m2, (SRef.own r).Spilled m1 m2 → ds.Spilled m1 m2 := by
    intro r m1 m2 h
    rw [h.own_eq]
    exact .refl _ _
  unfold sGetDomain
  match hr : ds.read mem with
  | [] => exact ⟨rfl, rfl, own _⟩
  | d :: rest =>
    simp only [getDomain]
    split
    · exact ⟨rfl, rfl, own _⟩
    · have ht : ds.tail.read mem = rest := by
        cases ds with
        | own r => simp only [SRef.read] at hr; simp [SRef.tail, SRef.read, hr]
        | slice a o l c =>
          cases l with
          | zero => simp [SRef.read] at hr
          | succ l =>
            simp only [SRef.read] at hr
            simp only [SRef.tail, SRef.read, Nat.add_sub_cancel]
            cases hd : (mem[a]?.getD []).drop o with
            | nil => rw [hd] at hr; simp at hr
            | cons x xs =>
              rw [hd] at hr
              simp only [List.take_succ_cons, List.cons.injEq] at hr
              rw [← List.drop_drop, hd]
              exact hr.2
      split
      · exact ⟨rfl, ht, fun _ _ h => h.of_tail⟩
      · exact ⟨rfl, ht, fun _ _ h => h.of_tail⟩

theorem sMapSubs_eq (sub : SRef) (mem0 : Mem) (f : Mem → DM → Mem × Res DM) (fv : DM → Res DM) (p : Str → Bool)
    (hf : ∀ mem s, sub.Spilled mem0 mem → sub.Spilled mem (f mem s).1 ∧ (f mem s).2 = fv s) (subs : List (Str × DM)) :
    ∀ mem, sub.Spilled mem0 mem →
      sub.Spilled mem (sMapSubs f p mem subs).1 ∧ (sMapSubs f p mem subs).2 = mapSubs fv p subs := by
  induction subs with
  | nil => intro mem _; exact ⟨.refl _ _, rfl⟩
  | cons e rest ih =>
    obtain ⟨d, s⟩ := e
    intro mem hm
    unfold sMapSubs mapSubs
    by_cases hp : p d = true
    · simp only [hp, if_true]
      obtain ⟨h1, h2⟩ := hf mem s hm
      rcases hx : f mem s with ⟨mem', r⟩
      rw [hx] at h1 h2
      subst h2
      cases hr : fv s with
      | ok s' =>
        obtain ⟨i1, i2⟩ := ih mem' (hm.trans h1)
        exact ⟨h1.trans i1, by simp only [i2, Res.bind_ok]⟩
      | err => exact ⟨h1, rfl⟩
      | panic => exact ⟨h1, rfl⟩
    · simp only [hp, if_false, Bool.false_eq_true]
      obtain ⟨i1, i2⟩ := ih mem hm
      exact ⟨i1, by rw [i2]⟩

theorem sPropagate_eq (mem0 mem : Mem) (dm : DM) (domain : Str) (sub : SRef) (hm : sub.Spilled mem0 mem)
    (f : Mem → SRef → DM → Mem × Res DM) (g : RM → List Str → RM) (fv : List Str → DM → Res DM)
    (hf : ∀ mem ref s, ref.Spilled mem (f mem ref s).1 ∧ (f mem ref s).2 = fv (ref.read mem) s) :
    sub.Spilled mem (sPropagate mem dm domain sub f g).1 ∧
    (sPropagate mem dm domain sub f g).2 =
      dm.propagate domain (fv (sub.read mem0 ++ [redundantRole])) (fun rm => g rm (sub.read mem0 ++ [redundantRole])) := by
  unfold sPropagate propagate
  cases hdm : dm.domMatcher with
  | none => exact ⟨.refl _ _, rfl⟩
  | some m =>
    simp only
    split
    · obtain ⟨h1, h2⟩ := sMapSubs_eq sub mem0
        (fun mem s => f (sub.append1 mem redundantRole).1 (sub.append1 mem redundantRole).2 s)
        (fv (sub.read mem0 ++ [redundantRole])) (fun d => domain ≠ d && m.match d domain) (by
          intro mem s hm
          obtain ⟨g1, g2⟩ := hf (sub.append1 mem redundantRole).1 (sub.append1 mem redundantRole).2 s
          refine ⟨(SRef.append1_spilled mem sub).trans g1.of_append, ?_⟩
          rw [g2, SRef.append1_read, hm.read]) dm.subs
        (if (domain ≠ defaultDomain && m.match defaultDomain domain && dm.dflt.isSome) = true then
          (sub.append1 mem redundantRole).1 else mem) (by
          split
          · exact hm.trans (SRef.append1_spilled mem sub)
          · exact hm)
      refine ⟨?_, ?_⟩
      · refine SRef.Spilled.trans ?_ h1
        split
        · exact SRef.append1_spilled mem sub
        · exact .refl _ _
      · unfold forMatching
        simp only
        rw [h2, hm.read]
        congr 1
        funext subs
        by_cases hp : (domain ≠ defaultDomain && m.match defaultDomain domain) = true
        · cases hd : dm.dflt <;> simp only [hp, Option.isSome, Bool.and_true, Bool.and_false, if_true, if_false, Option.map_none, Bool.false_eq_true, hdm]
        · have : (domain ≠ defaultDomain && m.match defaultDomain domain) = false := by simpa using hp
          simp only [this, Bool.false_and, if_false, Bool.false_eq_true, hdm]
    · exact ⟨.refl _ _, rfl⟩

/-- The calls with slices do what the calls with lists do, and change the memory only behind the slice. -/
theorem sLink_eq (del : Bool) : ∀ (fuel : Nat) (mem : Mem) (dm : DM) (u r : Str) (ds : SRef),
    ds.Spilled mem (sLink del fuel mem dm u r ds).1 ∧
    (sLink del fuel mem dm u r ds).2 =
      (if del then deleteLink fuel dm u r (ds.read mem) else addLink fuel dm u r (ds.read mem))
  | 0, mem, dm, u, r, ds => by
    refine ⟨.refl _ _, ?_⟩
    cases del <;> rfl
  | fuel + 1, mem, dm, u, r, ds => by
    have hf : ∀ mem ref s,
        ref.Spilled mem ((sLink del fuel mem s u r ref).1, (sLink del fuel mem s u r ref).2.map (·.1)).1 ∧
        ((sLink del fuel mem s u r ref).1, (sLink del fuel mem s u r ref).2.map (·.1)).2 =
          (fun ds s => (if del then deleteLink fuel s u r ds else addLink fuel s u r ds).map (·.1)) (ref.read mem) s := by
      intro mem ref s
      obtain ⟨h1, h2⟩ := sLink_eq del fuel mem s u r ref
      exact ⟨h1, by simp only [h2]⟩
    obtain ⟨g1, g2, g3⟩ := sGetDomain_eq mem ds
    unfold sLink
    rcases hg : sGetDomain mem ds with ⟨domain, sub⟩
    rw [hg] at g1 g2 g3
    simp only at g1 g2 g3
    have hgd : getDomain (ds.read mem) = (domain, sub.read mem) := by rw [g1, g2]
    cases domain with
    | none =>
      simp only
      cases hd : dm.getDefault with
      | err => refine ⟨.refl _ _, ?_⟩; cases del <;> simp [deleteLink, addLink, hgd, hd]
      | panic => refine ⟨.refl _ _, ?_⟩; cases del <;> simp [deleteLink, addLink, hgd, hd]
      | ok x =>
        obtain ⟨dm1, rm⟩ := x
        simp only
        obtain ⟨i1, i2⟩ := sPropagate_eq mem mem
          (dm1.setDflt (if del then rm.deleteLink u r (sub.read mem) else rm.addLink u r (sub.read mem)).1) defaultDomain sub
          (.refl _ _) (fun mem sub s => ((sLink del fuel mem s u r sub).1, (sLink del fuel mem s u r sub).2.map (·.1)))
          (fun rm sub => (if del then rm.deleteLink u r sub else rm.addLink u r sub).1)
          (fun ds s => (if del then deleteLink fuel s u r ds else addLink fuel s u r ds).map (·.1)) hf
        refine ⟨g3 _ _ i1, ?_⟩
        rw [i2]
        cases del <;> simp [deleteLink, addLink, hgd, hd]
    | some d =>
      simp only
      cases hd : getSub (addLink fuel) dm d with
      | err => refine ⟨.refl _ _, ?_⟩; cases del <;> simp [deleteLink, addLink, hgd, hd]
      | panic => refine ⟨.refl _ _, ?_⟩; cases del <;> simp [deleteLink, addLink, hgd, hd]
      | ok x =>
        obtain ⟨dm1, s⟩ := x
        simp only
        obtain ⟨j1, j2⟩ := sLink_eq del fuel mem s u r sub
        rcases hx : sLink del fuel mem s u r sub with ⟨mem1, res⟩
        rw [hx] at j1 j2
        simp only at j1 j2
        cases res with
        | err =>
          refine ⟨g3 _ _ j1, ?_⟩
          cases del <;> simp at j2 <;> simp [deleteLink, addLink, hgd, hd, ← j2]
        | panic =>
          refine ⟨g3 _ _ j1, ?_⟩
          cases del <;> simp at j2 <;> simp [deleteLink, addLink, hgd, hd, ← j2]
        | ok y =>
          obtain ⟨s', b⟩ := y
          simp only
          obtain ⟨i1, i2⟩ := sPropagate_eq mem mem1 (dm1.setSub d s') d sub j1
            (fun mem sub s => ((sLink del fuel mem s u r sub).1, (sLink del fuel mem s u r sub).2.map (·.1)))
            (fun rm sub => (if del then rm.deleteLink u r sub else rm.addLink u r sub).1)
            (fun ds s => (if del then deleteLink fuel s u r ds else addLink fuel s u r ds).map (·.1)) hf
          refine ⟨g3 _ _ (j1.trans i1), ?_⟩
          rw [i2]
          cases del <;> simp at j2 <;> simp [deleteLink, addLink, hgd, hd, ← j2]

end DM

/-- The same for the manager of a role policy. -/
theorem Mgr.sLink_eq (del : Bool) (mem : Mem) (mgr : Mgr) (u r : Str) (ds : SRef) :
    ds.Spilled mem (mgr.sLink del mem u r ds).1 ∧
    (mgr.sLink del mem u r ds).2 = (if del then mgr.deleteLink u r (ds.read mem) else mgr.addLink u r (ds.read mem)) := by
  cases mgr with
  | rm m =>
    refine ⟨.refl _ _, ?_⟩
    cases del <;> rfl
  | dm m =>
    obtain ⟨h1, h2⟩ := DM.sLink_eq del (m.fuelFor (ds.read mem)) mem m u r ds
    refine ⟨h1, ?_⟩
    unfold Mgr.sLink
    simp only
    rw [h2]
    cases del <;> rfl

namespace DM

theorem bareSubs_iff (subs : List (Str × DM)) : BareSubs subs ↔ ∀ e ∈ subs, e.2.Bare := by
  induction subs with
  | nil => simp [BareSubs]
  | cons e rest ih => simp [BareSubs, ih]

theorem bare_iff (dm : DM) : dm.Bare ↔ dm.domMatcher = none ∧ ∀ e ∈ dm.subs, e.2.Bare := by
  cases dm with
  | mk dflt subs ps l m dmm => simp only [Bare, domMatcher, DM.subs, bareSubs_iff]

theorem sPropagate_bare {mem : Mem} {dm : DM} (h : dm.domMatcher = none) (domain : Str) (sub : SRef)
    (f : Mem → SRef → DM → Mem × Res DM) (g : RM → List Str → RM) : sPropagate mem dm domain sub f g = (mem, .ok dm) := by
  unfold sPropagate
  rw [h]

/-- Without a matcher for domains the memory is left as it is. -/
theorem sLink_bare (del : Bool) : ∀ (fuel : Nat) (mem : Mem) (dm : DM) (u r : Str) (ds : SRef), dm.Bare →
    (sLink del fuel mem dm u r ds).1 = mem ∧ ∀ x, (sLink del fuel mem dm u r ds).2 = .ok x → x.1.Bare
  | 0, mem, dm, u, r, ds, _ => ⟨rfl, fun x h => by cases h⟩
  | fuel + 1, mem, dm, u, r, ds, hp => by
    obtain ⟨hn, hsub⟩ := (bare_iff dm).1 hp
    unfold sLink
    rcases sGetDomain mem ds with ⟨_ | d, sub⟩
    · simp only
      cases hd : dm.getDefault with
      | err => exact ⟨rfl, fun x h => by cases h⟩
      | panic => exact ⟨rfl, fun x h => by cases h⟩
      | ok x =>
        obtain ⟨dm1, rm⟩ := x
        have e : dm1 = dm := by
          unfold getDefault newDomain at hd
          rw [hn] at hd
          cases hdf : dm.dflt with
          | some rm => rw [hdf] at hd; cases hd; rfl
          | none => rw [hdf] at hd; cases hd; rfl
        subst e
        simp only
        rw [sPropagate_bare (by exact hn)]
        refine ⟨rfl, fun x h => ?_⟩
        cases h
        exact (bare_iff _).2 ⟨hn, hsub⟩
    · simp only
      cases hd : getSub (addLink fuel) dm d with
      | err => exact ⟨rfl, fun x h => by cases h⟩
      | panic => exact ⟨rfl, fun x h => by cases h⟩
      | ok x =>
        obtain ⟨dm1, s⟩ := x
        have e : dm1 = dm ∧ s.Bare := by
          unfold getSub newDomain at hd
          rw [hn] at hd
          cases hdf : dm.subs.get d with
          | some s' =>
            rw [hdf] at hd
            cases hd
            exact ⟨rfl, hsub _ (GoMap.mem_of_get hdf)⟩
          | none =>
            rw [hdf] at hd
            cases hd
            exact ⟨rfl, by simp [new, Bare, BareSubs]⟩
        obtain ⟨rfl, hs⟩ := e
        simp only
        obtain ⟨i1, i2⟩ := sLink_bare del fuel mem s u r sub hs
        rcases hx : sLink del fuel mem s u r sub with ⟨mem1, res⟩
        rw [hx] at i1 i2
        simp only at i1 i2
        subst i1
        cases res with
        | err => exact ⟨rfl, fun x h => by cases h⟩
        | panic => exact ⟨rfl, fun x h => by cases h⟩
        | ok y =>
          obtain ⟨s', b⟩ := y
          simp only
          rw [sPropagate_bare (by exact hn)]
          refine ⟨rfl, fun x h => ?_⟩
          cases h
          refine (bare_iff _).2 ⟨hn, fun e he => ?_⟩
          rcases GoMap.mem_set he with rfl | he
          · exact i2 _ rfl
          · exact hsub e he

end DM

theorem Mgr.sLink_bare (del : Bool) (mem : Mem) (mgr : Mgr) (u r : Str) (ds : SRef) (h : mgr.Bare) :
    (mgr.sLink del mem u r ds).1 = mem ∧ ∀ x, (mgr.sLink del mem u r ds).2 = .ok x → x.1.Bare := by
  cases mgr with
  | rm m => exact ⟨rfl, fun x h => by cases h; trivial⟩
  | dm m =>
    obtain ⟨h1, h2⟩ := DM.sLink_bare del (m.fuelFor (ds.read mem)) mem m u r ds h
    refine ⟨h1, fun x hx => ?_⟩
    unfold Mgr.sLink at hx
    simp only at hx
    cases hr : (DM.sLink del (m.fuelFor (ds.read mem)) mem m u r ds).2 with
    | err => rw [hr] at hx; cases hx
    | panic => rw [hr] at hx; cases hx
    | ok y => rw [hr] at hx; cases hx; exact h2 y hr

/-- Without domains the memory is left as it is. -/
theorem DM.sLink_nil (del : Bool) (fuel : Nat) (mem : Mem) (dm : DM) (u r : Str) (ds : SRef) (h : ds.read mem = []) :
    (sLink del fuel mem dm u r ds).1 = mem := by
  cases fuel with
  | zero => rfl
  | succ fuel =>
    unfold sLink sGetDomain
    rw [h]
    simp only
    cases hd : dm.getDefault with
    | err => rfl
    | panic => rfl
    | ok x =>
      simp only
      obtain ⟨i1, -⟩ := sPropagate_eq mem mem
        (x.1.setDflt (if del then x.2.deleteLink u r ((SRef.own []).read mem) else x.2.addLink u r ((SRef.own []).read mem)).1)
        defaultDomain (.own []) (.refl _ _)
        (fun mem sub s => ((sLink del fuel mem s u r sub).1, (sLink del fuel mem s u r sub).2.map (·.1)))
        (fun rm sub => (if del then rm.deleteLink u r sub else rm.addLink u r sub).1)
        (fun ds s => (if del then deleteLink fuel s u r ds else addLink fuel s u r ds).map (·.1)) (by
          intro mem ref s
          obtain ⟨h1, h2⟩ := sLink_eq del fuel mem s u r ref
          exact ⟨h1, by simp only [h2]⟩)
      exact i1.own_eq

theorem Mgr.sLink_nil (del : Bool) (mem : Mem) (mgr : Mgr) (u r : Str) (ds : SRef) (h : ds.read mem = []) :
    (mgr.sLink del mem u r ds).1 = mem := by
  cases mgr with
  | rm m => rfl
  | dm m => exact DM.sLink_nil del _ mem m u r ds h

end Fastac
