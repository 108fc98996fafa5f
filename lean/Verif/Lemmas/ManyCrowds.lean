import Verif.Lemmas.ManyRoles

/-!
# Several role definitions used at the same time: what is kept
-/

namespace Fastac

open GHeap RHeap

/-! ## Steps -/

namespace Thread

variable {S α β : Type}

theorem Keeps.step {I : S → Prop} {G : S → S → Prop} {Q : α → Prop} (hG : ∀ s, G s s) {t : Thread S α} (h : t.Keeps I G Q)
    {s : S} (hs : I s) : I (t.step s).1 ∧ G s (t.step s).1 ∧ (t.step s).2.Keeps I G Q := by
  cases t with
  | ret a => exact ⟨hs, hG s, h⟩
  | crash => exact ⟨hs, hG s, h⟩
  | act f k => exact h s hs

theorem Owing.step {cl : S → Prop} {t : Thread S α} (h : t.Owing cl) (s : S) : cl (t.step s).1 ∨ (t.step s).2.Owing cl := by
  cases t with
  | ret a => exact h.elim
  | crash => exact .inr trivial
  | act f k => exact h s

theorem Tidies.step {cl : S → Prop} {t : Thread S α} (h : t.Tidies cl) (s : S) :
    (cl s → cl (t.step s).1 ∨ (t.step s).2.Owing cl) ∧ (t.step s).2.Tidies cl := by
  cases t with
  | ret a => exact ⟨.inl, trivial⟩
  | crash => exact ⟨.inl, trivial⟩
  | act f k => exact h s

/-- The call is the only one at the spot `p`, which has the content `c`; it leaves `R` there, and nothing else changes. -/
def Solo (h : GHeap) (p : Spot) (R : RHeap) (Q : α → Prop) : Thread GHeap α → RHeap → Prop
  | .ret a, c => c = R ∧ Q a
  | .crash, _ => False
  | .act f k, c => ∀ s, Shape h s → s.cell p = c →
      Shape h (f s) ∧ (∀ q, q ≠ p → (f s).cell q = s.cell q) ∧ (k s).Solo h p R Q ((f s).cell p)

variable {h : GHeap} {p : Spot} {R : RHeap}

theorem Solo.step {Q : α → Prop} {t : Thread GHeap α} {s : GHeap} (x : t.Solo h p R Q (s.cell p)) (hs : Shape h s) :
    Shape h (t.step s).1 ∧ (∀ q, q ≠ p → (t.step s).1.cell q = s.cell q) ∧
      (t.step s).2.Solo h p R Q ((t.step s).1.cell p) := by
  cases t with
  | ret a => exact ⟨hs, fun _ _ => rfl, x⟩
  | crash => exact x.elim
  | act f k => exact x s hs rfl

theorem Solo.bind {Q : β → Prop} {P : α → Prop} {g : α → Thread GHeap β} : ∀ {t : Thread GHeap α} {c : RHeap},
    t.Keeps (Shape h) Eq P → (∀ a, P a → (g a).Solo h p R Q c) → (t.bind g).Solo h p R Q c
  | .ret a, _, x, y => y a x
  | .crash, _, x, _ => x.elim
  | .act f k, c, x, y => fun s hs e => by
    obtain ⟨h1, h2, h3⟩ := x s hs
    refine ⟨h1, fun q _ => by rw [← h2], ?_⟩
    rw [← h2, e]
    exact Solo.bind h3 y

theorem Solo.map {Q : α → Prop} {P : β → Prop} {g : α → β} (hg : ∀ a, Q a → P (g a)) : ∀ {t : Thread GHeap α} {c : RHeap},
    t.Solo h p R Q c → (t.bind fun a => .ret (g a)).Solo h p R P c
  | .ret _, _, x => ⟨x.1, hg _ x.2⟩
  | .crash, _, x => x.elim
  | .act _ _, _, x => fun s hs e => ⟨(x s hs e).1, (x s hs e).2.1, Solo.map hg (x s hs e).2.2⟩

theorem atSpot_solo (hv : h.Valid p) {Q : α → Prop} : ∀ (t : Thread RHeap α) (c : RHeap), (t.exec c).1 = R →
    (∃ a, (t.exec c).2 = some a ∧ Q a) → (t.atSpot p).Solo h p R Q c
  | .ret a, c, e, ⟨b, hb, hq⟩ => by
    cases hb
    exact ⟨e, hq⟩
  | .crash, c, _, ⟨_, hb, _⟩ => nomatch hb
  | .act f k, c, e, hb => fun s hs ec => by
    refine ⟨shape_upd hs p f, fun q hq => cell_ne hq f, ?_⟩
    show ((k (s.cell p)).atSpot p).Solo h p R Q ((s.updCell p f).cell p)
    rw [cell_self (hs.valid hv) f, ec]
    exact atSpot_solo hv (k c) (f c) e hb

end Thread

/-! ## What is known of the managers -/

/-- The managers have the links of the history. -/
structure GFit (D : List GDefn) (h : GHeap) (Rs : List GPart) : Prop where
  len : h.length = D.length
  tree : ∀ i, (h.obj i).doms.Tree
  used : ∀ i P p, spot D h i P = some p →
    RConf.Fit (h.cell p) (changesAt D i P Rs) (fun u r => linked (changesAt D i P Rs) u r = true)
  unused : ∀ (i : Nat) (d : GDefn) (P : List Str), D[i]? = some d → d.domains = true → (h.obj i).doms.rmAt 0 P = none →
    changesAt D i P Rs = []

/-- The definitions have no matchers. -/
def AllPlain (D : List GDefn) : Prop := ∀ d ∈ D, d.conf.Plain

section
variable {D : List GDefn} {h : GHeap} {Rs : List GPart}

theorem spot_valid (hl : h.length = D.length) (ht : ∀ i, (h.obj i).doms.Tree) {i : Nat} {P : List Str} {p : Spot}
    (e : spot D h i P = some p) : h.Valid p := by
  unfold spot at e
  cases hd : D[i]? with
  | none => rw [hd] at e; cases e
  | some d =>
    rw [hd] at e
    have hi : i < h.length := by rw [hl]; exact (List.getElem?_eq_some_iff.1 hd).1
    by_cases hb : d.domains = true
    · have e : ((h.obj i).doms.rmAt 0 P).map (fun j => (i, some j)) = some p := (if_pos hb).symm.trans e
      obtain ⟨j, hj, rfl⟩ := Option.map_eq_some_iff.1 e
      exact ⟨hi, (ht i).rm_lt hj⟩
    · have e : (if P = [] then some (i, none) else none) = some p := (if_neg hb).symm.trans e
      by_cases hP : P = []
      · rw [if_pos hP] at e; cases e; exact hi
      · rw [if_neg hP] at e; cases e

theorem spot_inj (ht : ∀ i, (h.obj i).doms.Tree) {i i' : Nat} {P P' : List Str} {p : Spot} (e : spot D h i P = some p)
    (e' : spot D h i' P' = some p) : i = i' ∧ P = P' := by
  have key : ∀ {i P}, spot D h i P = some p → i = p.1 ∧ ∃ d, D[i]? = some d ∧
      ((d.domains = true ∧ ∃ j, (h.obj i).doms.rmAt 0 P = some j ∧ p.2 = some j) ∨ (d.domains ≠ true ∧ P = [])) := by
    intro i P e
    unfold spot at e
    cases hd : D[i]? with
    | none => rw [hd] at e; cases e
    | some d =>
      rw [hd] at e
      by_cases hb : d.domains = true
      · have e : ((h.obj i).doms.rmAt 0 P).map (fun j => (i, some j)) = some p := (if_pos hb).symm.trans e
        obtain ⟨j, hj, rfl⟩ := Option.map_eq_some_iff.1 e
        exact ⟨rfl, d, rfl, .inl ⟨hb, j, hj, rfl⟩⟩
      · have e : (if P = [] then some (i, none) else none) = some p := (if_neg hb).symm.trans e
        by_cases hP : P = []
        · rw [if_pos hP] at e; cases e; exact ⟨rfl, d, rfl, .inr ⟨hb, hP⟩⟩
        · rw [if_neg hP] at e; cases e
  obtain ⟨h1, d, h2, h3⟩ := key e
  obtain ⟨h1', d', h2', h3'⟩ := key e'
  have hi : i = i' := h1.trans h1'.symm
  subst hi
  rw [h2] at h2'
  cases h2'
  refine ⟨rfl, ?_⟩
  rcases h3 with ⟨hb, j, hj, hp⟩ | ⟨hb, hP⟩
  · rcases h3' with ⟨_, j', hj', hp'⟩ | ⟨hb', _⟩
    · rw [hp] at hp'
      cases hp'
      exact (ht i).rm_inj hj hj'
    · exact absurd hb hb'
  · rcases h3' with ⟨hb', _⟩ | ⟨_, hP'⟩
    · exact absurd hb' hb
    · rw [hP, hP']

theorem spot_shape {s : GHeap} (e : Shape h s) (i : Nat) (P : List Str) : spot D s i P = spot D h i P := by
  unfold spot
  rw [DHeap.rmAt_dms (e.dms i)]

theorem tree_shape {s : GHeap} (e : Shape h s) (ht : ∀ i, (h.obj i).doms.Tree) (i : Nat) : (s.obj i).doms.Tree :=
  (ht i).of_dms (e.dms i) (e.rms i)

/-- The spot of a call. -/
def GCall.spot (D : List GDefn) (h : GHeap) (x : GCall) : Option Spot := Fastac.spot D h x.defn (placeOf D x.defn x.path)

theorem GFit.spot_none (f : GFit D h Rs) {x : GCall} {d : GDefn} (hd : D[x.defn]? = some d) (e : x.spot D h = none) :
    d.domains = true ∧ changesAt D x.defn x.path Rs = [] ∧ placeOf D x.defn x.path = x.path := by
  unfold GCall.spot at e
  rw [GCall.spot_eq hd] at e
  by_cases hb : d.domains = true
  · rw [if_pos hb] at e
    refine ⟨hb, f.unused _ _ _ hd hb (Option.map_eq_none_iff.1 e), ?_⟩
    rw [GCall.place_of hd, if_pos hb]
  · rw [if_neg hb] at e
    cases e

theorem plain_conf (hp : AllPlain D) {x : GCall} {d : GDefn} (hd : D[x.defn]? = some d) : (x.conf d).Plain := by
  have h := hp d (List.mem_of_getElem? hd)
  unfold GCall.conf
  split
  · exact ⟨h.matcher, h.perm⟩
  · exact h

/-- The invariant of calls that leave the spots `Own` alone. -/
def Around (h : GHeap) (Own : Spot → Prop) (s : GHeap) : Prop := Shape h s ∧ ∀ p, ¬ Own p → Ext (h.cell p) (s.cell p)

def Apart (Own : Spot → Prop) (s s' : GHeap) : Prop := ∀ p, Own p → s'.cell p = s.cell p

/-- The name is not in the role manager. -/
def Clean (p : Spot) (n : Str) (s : GHeap) : Prop := (s.cell p).all.get n = none

variable {Own : Spot → Prop}

theorem question_keeps (hp : AllPlain D) (f : GFit D h Rs) {x : GCall} (hx : x.call.asks = true) {d : GDefn}
    (hd : D[x.defn]? = some d) (ho : ∀ p, x.spot D h = some p → ¬ Own p) :
    (x.thread D).Keeps (Around h Own) (Apart Own)
      (fun a => x.call.Right (depthOf D x.defn x.path) (linkedG D Rs x.defn x.path) a) := by
  rw [GCall.thread_eq hd, GCall.depth_of hd]
  refine .bind (fun o e => ?_) ((GCall.way_keeps hd h fun e => by rw [hx] at e; cases e).mono
    (I' := Around h Own) (G' := Apart Own) (fun s e => e.1) (fun s s' e _ e' => ?_) (fun _ e => e))
  · subst e
    have hc := plain_conf hp hd
    cases hs : x.spot D h with
    | some p =>
      unfold GCall.spot at hs
      rw [hs]
      have hv := spot_valid f.len f.tree hs
      have hb := (f.used _ _ _ hs).base
      have ho := ho p hs
      refine Thread.Keeps.mono (fun _ e => e) (fun _ _ _ e e' => ⟨e, e'⟩) (fun a ha => ?_)
        ((RConf.question_safe hc hb hx).within (I := Around h Own) (G := Apart Own) ?_ ?_ ?_)
      · exact ha.same
      · exact fun s e => e.2 p ho
      · intro s g e e'
        refine ⟨shape_upd e.1 p g, fun q hq => ?_⟩
        by_cases c : q = p
        · subst c
          show Ext _ ((s.updCell q g).cell q)
          rw [cell_self (e.1.valid hv)]
          exact e'
        · show Ext _ ((s.updCell p g).cell q)
          rw [cell_ne c]
          exact e.2 q hq
      · intro s g _ q hq
        have c : q ≠ p := fun c => ho (c ▸ hq)
        exact cell_ne c g
    | none =>
      obtain ⟨h1, h2, h3⟩ := f.spot_none hd hs
      unfold GCall.spot at hs
      rw [hs]
      obtain ⟨-, a, e1, e2⟩ := (RConf.question_safe hc Base.new hx).exec RHeap.new (Ext.refl _)
      unfold GCall.rest
      rw [e1]
      have : linkedG D Rs x.defn x.path = fun _ _ => False := by
        funext u r
        unfold linkedG
        rw [h3, h2]
        simp [linked, linkAfter]
      rw [this]
      exact e2.same
  · subst e'
    exact ⟨e, fun _ _ => rfl⟩

theorem question_tidies (hp : AllPlain D) {x : GCall} (hx : x.call.asks = true) {d : GDefn}
    (hd : D[x.defn]? = some d) (p : Spot) (n : Str) : (x.thread D).Tidies (Clean p n) := by
  rw [GCall.thread_eq hd]
  refine .bind (fun o => ?_) (GCall.way_reads hx).tidies
  cases o with
  | some q =>
    by_cases c : q = p
    · subst c
      refine Thread.Tidies.within (cl := fun s : RHeap => s.all.get n = none) (fun s g => ?_)
        ((RConf.question_neat (h := RHeap.new) (plain_conf hp hd) hx).tidies rfl)
      by_cases hv : s.Valid q
      · exact .inl (cell_self hv g)
      · right
        rw [cell_invalid hv]
        rfl
    · refine Thread.Tidies.elsewhere (fun s g e => ?_) _
      show ((s.updCell q g).cell p).all.get n = none
      rw [cell_ne (Ne.symm c)]
      exact e
  | none =>
    unfold GCall.rest
    dsimp only
    generalize (((x.conf d).thread x.call).exec RHeap.new).2 = o
    cases o <;> trivial

/-! ## Functions for roles -/

/-- The call that a function for roles makes. -/
def GAsk.ask (q : GAsk) : GCall := ⟨q.defn, .hasLink q.user q.role, q.path⟩

theorem GAsk.thread_some {q : GAsk} {d : GDefn} (hd : D[q.defn]? = some d) :
    q.thread D = (q.ask.thread D).bind fun a => .ret a.yes := by
  unfold GAsk.thread GCall.thread
  rw [show D[q.ask.defn]? = some d from hd, hd]
  rfl

theorem GAsk.thread_none {q : GAsk} (hd : D[q.defn]? = none) : q.thread D = .ret (q.user == q.role) := by
  unfold GAsk.thread
  rw [hd]

theorem ask_keeps (hp : AllPlain D) (f : GFit D h Rs) {g : GAsk → Bool} (hg : SaysRolesG D Rs g) {q : GAsk}
    (ho : ∀ p, q.ask.spot D h = some p → ¬ Own p) : (q.thread D).Keeps (Around h Own) (Apart Own) (fun b => b = g q) := by
  cases hd : D[q.defn]? with
  | none =>
    rw [GAsk.thread_none hd]
    show (q.user == q.role) = g q
    refine Bool.eq_iff_iff.2 (Iff.trans ?_ (hg q).symm)
    have : depthOf D q.defn q.path = 0 := by unfold depthOf; rw [hd]
    rw [this]
    simp
  | some d =>
    rw [GAsk.thread_some hd]
    refine .bind (fun a ha => ?_) (question_keeps hp f (x := q.ask) rfl hd ho)
    show a.yes = g q
    cases a with
    | bool b => exact Bool.eq_iff_iff.2 (Iff.trans ha (hg q).symm)
    | names ns => exact ha.elim

theorem ask_tidies (hp : AllPlain D) (q : GAsk) (p : Spot) (n : Str) : (q.thread D).Tidies (Clean p n) := by
  cases hd : D[q.defn]? with
  | none => rw [GAsk.thread_none hd]; trivial
  | some d =>
    rw [GAsk.thread_some hd]
    refine Thread.Tidies.bind (fun _ => ?_) (question_tidies hp rfl hd p n)
    trivial

theorem among_tidies {α : Type} (hp : AllPlain D) (p : Spot) (n : Str) : ∀ t : Asks GAsk α, (t.among D).Tidies (Clean p n)
  | .done _ => trivial
  | .ask q k => .bind (fun b => among_tidies hp p n (k b)) (ask_tidies hp q p n)

theorem among_keeps {α : Type} (hp : AllPlain D) (f : GFit D h Rs) {g : GAsk → Bool} (hg : SaysRolesG D Rs g) :
    ∀ {t : Asks GAsk α}, (∀ p, Own p → ∃ i P, spot D h i P = some p ∧ t.Avoids D i P) →
      (t.among D).Keeps (Around h Own) (Apart Own) (fun a => a = t.value g)
  | .done _, _ => rfl
  | .ask q k, ha => by
    refine .bind (fun b hb => ?_) (ask_keeps hp f hg (q := q) fun p e o => ?_)
    · subst hb
      refine among_keeps hp f hg (t := k (g q)) fun p o => ?_
      obtain ⟨i, P, h1, h2⟩ := ha p o
      exact ⟨i, P, h1, h2.2 _⟩
    · obtain ⟨i, P, h1, h2⟩ := ha p o
      obtain ⟨h3, h4⟩ := spot_inj f.tree e h1
      refine h2.1 ⟨h3, ?_⟩
      rw [← h3]
      exact h4

/-! ## Updates -/

theorem fit_grow {c : RConf} (hc : c.Plain) {r : RHeap} {ops : List LinkOp}
    (f : RConf.Fit r ops (fun u v => linked ops u v = true)) (x : RCall) :
    RConf.Fit ((c.thread x).exec r).1 (ops ++ [x.op]) (fun u v => linked (ops ++ [x.op]) u v = true) := by
  obtain ⟨U, h1, h2⟩ := RConf.fit_alone hc f x
  exact ⟨h1.base.congr (fun _ _ => Iff.rfl) (h2 fun _ _ => Iff.rfl), h1.names⟩

theorem fit_ask {c : RConf} (hc : c.Plain) {r : RHeap} {ops : List LinkOp}
    (f : RConf.Fit r ops (fun u v => linked ops u v = true)) {x : RCall} (hx : x.asks = true) :
    RConf.Fit ((c.thread x).exec r).1 ops (fun u v => linked ops u v = true) := by
  have h := fit_grow hc f x
  obtain ⟨h1, h2⟩ := RConf.ops_ask (xs := [x]) (by simpa using hx) ops
  exact ⟨h.base.congr (fun u v => by rw [← h1 u v]; rfl) (fun u v => by rw [← h1 u v]; rfl), fun n => by
    rw [h.names, ← h2 n]; rfl⟩

theorem update_answer {c : RConf} (hc : c.Plain) {r : RHeap} {L U : Str → Str → Prop} (b : Base r L U) {x : RCall}
    (hx : x.asks = false) (l : Nat) : ∃ a, ((c.thread x).exec r).2 = some a ∧ x.Right l L a ∧ x.Tells L a := by
  cases x with
  | add u v =>
    obtain ⟨s, y, e, -, h⟩ := RConf.addLink_exec hc b u v
    refine ⟨.bool y, ?_, trivial, y, rfl, ?_⟩
    · show (((c.addLink u v).bind fun b => .ret (RAns.bool b)).exec r).2 = _
      rw [RConf.exec_bind_some e]
      rfl
    · rcases h with ⟨h1, h2, -⟩ | ⟨h1, h2, -⟩ <;> subst h2 <;> simp [h1]
  | del u v =>
    obtain ⟨s, y, e, -, h⟩ := RConf.deleteLink_exec hc b u v
    refine ⟨.bool y, ?_, trivial, y, rfl, ?_⟩
    · show (((c.deleteLink u v).bind fun b => .ret (RAns.bool b)).exec r).2 = _
      rw [RConf.exec_bind_some e]
      rfl
    · rcases h with ⟨h1, h2, -⟩ | ⟨h1, h2, -⟩ <;> subst h2 <;> simp [h1]
  | hasLink u v => cases hx
  | getRoles n => cases hx
  | getUsers n => cases hx

theorem update_solo (hp : AllPlain D) (f : GFit D h Rs) {x : GCall} (hx : x.call.asks = false) {d : GDefn}
    (hd : D[x.defn]? = some d) {p : Spot} (hs : x.spot D h = some p) :
    (x.thread D).Solo h p (((x.conf d).thread x.call).exec (h.cell p)).1
      (fun a => x.call.Right (depthOf D x.defn x.path) (linkedG D Rs x.defn x.path) a ∧
        x.call.Tells (linkedG D Rs x.defn x.path) a) (h.cell p) := by
  unfold GCall.spot at hs
  rw [GCall.thread_eq hd]
  refine .bind (GCall.way_keeps hd h fun _ => by rw [hs]; exact fun e => nomatch e) fun o e => ?_
  subst e
  rw [hs]
  exact Thread.atSpot_solo (spot_valid f.len f.tree hs) _ _ rfl
    (update_answer (plain_conf hp hd) (f.used _ _ _ hs).base hx _)

end

end Fastac
