import Verif.Lemmas.Crowds

/-!
# Several role definitions used at the same time
-/

namespace Fastac

/-- Where a role manager is: that of a definition, or the one with a number in the domain manager of a definition. -/
abbrev Spot := Nat × Option Nat

namespace GHeap

def cell (s : GHeap) : Spot → RHeap
  | (i, none) => (s.obj i).roles
  | (i, some j) => (s.obj i).doms.rm j

def updCell (s : GHeap) : Spot → (RHeap → RHeap) → GHeap
  | (i, none), f => s.updRoles i f
  | (i, some j), f => s.updDoms i fun d => d.updRM j f

def Valid (s : GHeap) : Spot → Prop
  | (i, none) => i < s.length
  | (i, some j) => i < s.length ∧ j < (s.obj i).doms.rms.length

/-- `s` has the same managers as `h`. -/
structure Shape (h s : GHeap) : Prop where
  len : s.length = h.length
  dms : ∀ i, (s.obj i).doms.dms = (h.obj i).doms.dms
  rms : ∀ i, (s.obj i).doms.rms.length = (h.obj i).doms.rms.length

theorem Shape.refl (h : GHeap) : Shape h h := ⟨rfl, fun _ => rfl, fun _ => rfl⟩

theorem Shape.valid {h s : GHeap} (e : Shape h s) : ∀ {p : Spot}, h.Valid p → s.Valid p
  | (_, none), v => by unfold Valid at v ⊢; rw [e.len]; exact v
  | (i, some j), v => by
    show i < s.length ∧ j < (s.obj i).doms.rms.length
    rw [e.len, e.rms]
    exact v

theorem obj_modify (s : GHeap) (i k : Nat) (f : GObj → GObj) :
    GHeap.obj (s.modify i f) k = if i = k ∧ k < s.length then f (s.obj k) else s.obj k := by
  unfold obj
  rw [List.getElem?_modify]
  rcases Nat.lt_or_ge k s.length with h | h
  · rw [List.getElem?_eq_getElem h]
    by_cases e : i = k <;> simp [e, h]
  · rw [List.getElem?_eq_none h]
    have : ¬ k < s.length := by omega
    simp [this]

theorem obj_updRoles (s : GHeap) (i k : Nat) (f : RHeap → RHeap) : (s.updRoles i f).obj k =
    if i = k ∧ k < s.length then { s.obj k with roles := f (s.obj k).roles } else s.obj k :=
  obj_modify s i k _

theorem obj_updDoms (s : GHeap) (i k : Nat) (f : DHeap → DHeap) : (s.updDoms i f).obj k =
    if i = k ∧ k < s.length then { s.obj k with doms := f (s.obj k).doms } else s.obj k :=
  obj_modify s i k _

theorem cell_self {s : GHeap} : ∀ {p : Spot}, s.Valid p → ∀ f, (s.updCell p f).cell p = f (s.cell p)
  | (i, none), v, f => by
    show ((s.updRoles i f).obj i).roles = _
    rw [obj_updRoles, if_pos ⟨rfl, v⟩]
    rfl
  | (i, some j), v, f => by
    show ((s.updDoms i fun d => d.updRM j f).obj i).doms.rm j = _
    rw [obj_updDoms, if_pos ⟨rfl, v.1⟩]
    exact DHeap.rm_upd_self v.2 f

theorem cell_invalid {s : GHeap} : ∀ {p : Spot}, ¬ s.Valid p → ∀ f, (s.updCell p f).cell p = RHeap.new
  | (i, none), v, f => by
    show ((s.updRoles i f).obj i).roles = _
    rw [obj_updRoles, if_neg fun h => v h.2]
    unfold obj
    rw [List.getElem?_eq_none (by unfold Valid at v; omega)]
    rfl
  | (i, some j), v, f => by
    show ((s.updDoms i fun d => d.updRM j f).obj i).doms.rm j = _
    rw [obj_updDoms]
    have key : ∀ d : DHeap, d.rms.length ≤ j → d.rm j = RHeap.new := fun d h => by
      unfold DHeap.rm
      rw [List.getElem?_eq_none h]
      rfl
    by_cases hi : i < s.length
    · rw [if_pos ⟨rfl, hi⟩]
      have hj : (s.obj i).doms.rms.length ≤ j := Nat.le_of_not_lt fun h => v ⟨hi, h⟩
      exact key _ (by rw [DHeap.updRM_length]; exact hj)
    · rw [if_neg fun h => hi h.2]
      unfold obj
      rw [List.getElem?_eq_none (Nat.le_of_not_lt hi)]
      rfl

theorem cell_ne {s : GHeap} : ∀ {p q : Spot}, q ≠ p → ∀ f, (s.updCell p f).cell q = s.cell q
  | (i, none), (k, none), n, f => by
    show ((s.updRoles i f).obj k).roles = _
    rw [obj_updRoles, if_neg fun h => n (by rw [h.1])]
    rfl
  | (i, none), (k, some j), n, f => by
    show ((s.updRoles i f).obj k).doms.rm j = _
    rw [obj_updRoles]
    split <;> rfl
  | (i, some j), (k, none), n, f => by
    show ((s.updDoms i fun d => d.updRM j f).obj k).roles = _
    rw [obj_updDoms]
    split <;> rfl
  | (i, some j), (k, some l), n, f => by
    show ((s.updDoms i fun d => d.updRM j f).obj k).doms.rm l = _
    rw [obj_updDoms]
    split
    · rename_i h
      exact DHeap.rm_upd_ne (fun e => n (by rw [h.1, e])) f
    · rfl

theorem shape_upd {h s : GHeap} (e : Shape h s) : ∀ (p : Spot) (f : RHeap → RHeap), Shape h (s.updCell p f)
  | (i, none), f => by
    refine ⟨(List.length_modify ..).trans e.len, fun k => ?_, fun k => ?_⟩
    · show ((s.updRoles i f).obj k).doms.dms = _
      rw [obj_updRoles, ← e.dms]; split <;> rfl
    · show ((s.updRoles i f).obj k).doms.rms.length = _
      rw [obj_updRoles, ← e.rms]; split <;> rfl
  | (i, some j), f => by
    refine ⟨(List.length_modify ..).trans e.len, fun k => ?_, fun k => ?_⟩
    · show ((s.updDoms i fun d => d.updRM j f).obj k).doms.dms = _
      rw [obj_updDoms, ← e.dms]; split <;> rfl
    · show ((s.updDoms i fun d => d.updRM j f).obj k).doms.rms.length = _
      rw [obj_updDoms, ← e.rms]
      split
      · exact DHeap.updRM_length ..
      · rfl

end GHeap

open GHeap

/-- A call of the role manager at a spot. -/
def Thread.atSpot {α : Type} (p : Spot) (t : Thread RHeap α) : Thread GHeap α :=
  t.within (fun s => s.cell p) (fun s f => s.updCell p f)

theorem inRM_inDoms {α : Type} (i j : Nat) : ∀ t : Thread RHeap α, (t.inRM j).inDoms i = t.atSpot (i, some j)
  | .ret _ => rfl
  | .crash => rfl
  | .act f k => by
    show Thread.act _ _ = Thread.act _ _
    congr 1
    funext s
    exact inRM_inDoms i j (k _)

/-! ## The way to the role manager -/

/-- Where the role manager of a definition and a path is. -/
def spot (D : List GDefn) (h : GHeap) (i : Nat) (P : List Str) : Option Spot :=
  match D[i]? with
  | none => none
  | some d =>
    if d.domains then ((h.obj i).doms.rmAt 0 P).map fun j => (i, some j)
    else if P = [] then some (i, none) else none

namespace GCall

variable {D : List GDefn} {x : GCall} {d : GDefn}

/-- The configuration of the role manager that is called. -/
def conf (x : GCall) (d : GDefn) : RConf := if d.domains then d.conf.below x.path else d.conf

/-- The first part of a call: the way to its role manager. -/
def way (x : GCall) (d : GDefn) : Thread GHeap (Option Spot) :=
  if d.domains then ((RConf.descend x.call.stores 0 x.path).inDoms x.defn).bind fun o => .ret (o.map fun j => (x.defn, some j))
  else .ret (some (x.defn, none))

/-- The second part. -/
def rest (x : GCall) (d : GDefn) : Option Spot → Thread GHeap RAns
  | some p => ((x.conf d).thread x.call).atSpot p
  | none =>
    match (((x.conf d).thread x.call).exec RHeap.new).2 with
    | some a => .ret a
    | none => .crash

theorem thread_eq (hd : D[x.defn]? = some d) : x.thread D = (x.way d).bind (x.rest d) := by
  unfold GCall.thread
  rw [hd]
  show d.thread x.defn x.call x.path = _
  unfold GDefn.thread way
  by_cases hb : d.domains = true
  · rw [if_pos hb, if_pos hb, Thread.bind_assoc]
    unfold RConf.domainThread Thread.inDoms
    rw [Thread.within_bind]
    congr 1
    funext o
    cases o with
    | some j =>
      show Thread.inDoms x.defn (Thread.inRM j _) = Thread.atSpot (x.defn, some j) _
      rw [inRM_inDoms]
      unfold conf
      rw [if_pos hb]
    | none =>
      show Thread.within _ _ (RConf.private_ _ _) = x.rest d none
      unfold RConf.private_
      have e : x.conf d = d.conf.below x.path := by unfold conf; rw [if_pos hb]
      unfold rest
      rw [e]
      dsimp only
      generalize (((d.conf.below x.path).thread x.call).exec RHeap.new).2 = o
      cases o <;> rfl
  · rw [if_neg hb, if_neg hb]
    show _ = Thread.atSpot (x.defn, none) _
    unfold conf
    rw [if_neg hb]
    rfl

theorem place_of (hd : D[x.defn]? = some d) : placeOf D x.defn x.path = if d.domains then x.path else [] := by
  unfold placeOf
  rw [hd]

theorem depth_of (hd : D[x.defn]? = some d) : depthOf D x.defn x.path = (x.conf d).level := by
  unfold depthOf conf
  rw [hd]
  by_cases hb : d.domains = true
  · rw [if_pos hb]; exact if_pos hb
  · rw [if_neg hb]; exact if_neg hb

end GCall

/-- Down the path nothing is changed. -/
theorem descend_keeps (h : GHeap) (i : Nat) (st : Bool) : ∀ (ds : List Str) (a : Nat),
    (st = true → (h.obj i).doms.rmAt a ds ≠ none) →
    ((RConf.descend st a ds).inDoms i).Keeps (Shape h) Eq (fun o => o = (h.obj i).doms.rmAt a ds)
  | [], a, hs => by
    intro s e
    have hid : s.updDoms i id = s := by
      unfold updDoms
      exact List.modify_id ..
    refine ⟨?_, ?_, ?_⟩
    · show Shape h (s.updDoms i id); rw [hid]; exact e
    · show s = s.updDoms i id; rw [hid]
    · have ed : (s.obj i).doms.dm a = (h.obj i).doms.dm a := by unfold DHeap.dm; rw [e.dms]
      show Thread.Keeps _ _ _ (Thread.within _ _ (Thread.bind (.ret ((s.obj i).doms.dm a).dflt) _))
      rw [ed]
      have hr : (h.obj i).doms.rmAt a [] = ((h.obj i).doms.dm a).dflt := rfl
      rw [hr] at hs ⊢
      cases hf : ((h.obj i).doms.dm a).dflt with
      | some j => rfl
      | none =>
        rw [hf] at hs
        cases st with
        | true => exact absurd rfl (hs rfl)
        | false => rfl
  | c :: ds, a, hs => by
    intro s e
    have hid : s.updDoms i id = s := by
      unfold updDoms
      exact List.modify_id ..
    refine ⟨?_, ?_, ?_⟩
    · show Shape h (s.updDoms i id); rw [hid]; exact e
    · show s = s.updDoms i id; rw [hid]
    · have ed : (s.obj i).doms.dm a = (h.obj i).doms.dm a := by unfold DHeap.dm; rw [e.dms]
      show Thread.Keeps _ _ _ (Thread.within _ _ (Thread.bind (Thread.bind (.ret (((s.obj i).doms.dm a).subs.get c)) _) _))
      rw [ed]
      rw [DHeap.rmAt_cons] at hs ⊢
      cases hf : ((h.obj i).doms.dm a).subs.get c with
      | some b =>
        rw [hf] at hs
        exact descend_keeps h i st ds b hs
      | none =>
        rw [hf] at hs
        cases st with
        | true => exact absurd rfl (hs rfl)
        | false => rfl

theorem descend_reads (i : Nat) : ∀ (ds : List Str) (a : Nat), (RConf.descend false a ds).Reads
  | [], a => by
    intro s
    refine ⟨rfl, ?_⟩
    show Thread.Reads (Thread.bind (.ret (s.dm a).dflt) _)
    cases (s.dm a).dflt <;> trivial
  | c :: ds, a => by
    intro s
    refine ⟨rfl, ?_⟩
    show Thread.Reads (Thread.bind (Thread.bind (.ret ((s.dm a).subs.get c)) _) _)
    cases (s.dm a).subs.get c with
    | some b => exact descend_reads i ds b
    | none => trivial

namespace GCall

variable {D : List GDefn} {x : GCall} {d : GDefn}

theorem spot_eq (hd : D[x.defn]? = some d) (h : GHeap) : spot D h x.defn (placeOf D x.defn x.path) =
    if d.domains then ((h.obj x.defn).doms.rmAt 0 x.path).map fun j => (x.defn, some j) else some (x.defn, none) := by
  rw [place_of hd]
  unfold spot
  rw [hd]
  by_cases hb : d.domains = true
  · rw [if_pos hb, if_pos hb]; exact if_pos hb
  · rw [if_neg hb, if_neg hb]; exact (if_neg hb).trans (if_pos rfl)

theorem way_keeps (hd : D[x.defn]? = some d) (h : GHeap)
    (hs : x.call.asks = false → spot D h x.defn (placeOf D x.defn x.path) ≠ none) :
    (x.way d).Keeps (Shape h) Eq (fun o => o = spot D h x.defn (placeOf D x.defn x.path)) := by
  rw [spot_eq hd] at hs ⊢
  unfold way
  by_cases hb : d.domains = true
  · rw [if_pos hb] at hs ⊢
    rw [if_pos hb]
    refine .bind (fun o ho => ?_) (descend_keeps h x.defn x.call.stores x.path 0 fun hst => ?_)
    · show o.map _ = _
      rw [ho]
    · rw [RCall.stores_eq] at hst
      have := hs (by simpa using hst)
      intro e
      rw [e] at this
      exact this rfl
  · rw [if_neg hb] at hs ⊢
    rw [if_neg hb]
    exact rfl

theorem way_reads (hx : x.call.asks = true) : (x.way d).Reads := by
  unfold way
  split
  · refine Thread.Reads.bind (fun o => ?_) (Thread.Reads.within ?_ ?_)
    · trivial
    · intro s f e
      unfold updDoms
      apply List.ext_getElem?
      intro k
      rw [List.getElem?_modify]
      by_cases c : x.defn = k
      · subst c
        cases hk : s[x.defn]? with
        | none => rfl
        | some o =>
          have : s.obj x.defn = o := by unfold obj; rw [hk]; rfl
          rw [this] at e
          simp [e]
      · simp [c]
    · rw [RCall.stores_eq, hx]
      exact descend_reads 0 _ _
  · trivial

end GCall

end Fastac
