import Verif.Lemmas.RoleParts
import Verif.Lemmas.RoleRuns

/-!
# Role managers with pointers and role managers with names
-/

namespace Fastac

/-- The four maps of a role. -/
inductive RField where
  | roles
  | users
  | matched
  | matchedBy
deriving DecidableEq

def RObj.fld (o : RObj) : RField → GoMap Str Nat
  | .roles => o.roles
  | .users => o.users
  | .matched => o.matched
  | .matchedBy => o.matchedBy

def RObj.put (o : RObj) (f : RField) (m : GoMap Str Nat) : RObj :=
  match f with
  | .roles => { o with roles := m }
  | .users => { o with users := m }
  | .matched => { o with matched := m }
  | .matchedBy => { o with matchedBy := m }

def Role.fld (o : Role) : RField → List Str
  | .roles => o.roles
  | .users => o.users
  | .matched => o.matched
  | .matchedBy => o.matchedBy

theorem RObj.fld_put (o : RObj) (f g : RField) (m : GoMap Str Nat) : (o.put f m).fld g = if f = g then m else o.fld g := by
  cases f <;> cases g <;> simp [RObj.put, RObj.fld]

theorem RObj.put_name (o : RObj) (f : RField) (m : GoMap Str Nat) : (o.put f m).name = o.name := by
  cases f <;> rfl

theorem RObj.put_redundant (o : RObj) (f : RField) (m : GoMap Str Nat) : (o.put f m).redundant = o.redundant := by
  cases f <;> rfl

namespace RHeap

/-- The roles of the names of `al` hold pointers to roles of the names of `al`: those that `T` says; `D` are the marks. -/
structure Pic (h : RHeap) (al : GoMap Str Nat) (T : RField → Str → Str → Prop) (D : Str → List Str) : Prop where
  valid : ∀ n a, al.get n = some a → a < h.objs.length
  inj : ∀ n n' a, al.get n = some a → al.get n' = some a → n = n'
  wf : ∀ f n a, al.get n = some a → ((h.role a).fld f).WF
  get : ∀ f n a, al.get n = some a → ∀ k x, ((h.role a).fld f).get k = some x ↔ T f n k ∧ al.get k = some x
  closed : ∀ f n k, T f n k → al.has n = true ∧ al.has k = true
  red : ∀ n a, al.get n = some a → (h.role a).redundant = D n
  nm : ∀ n a, al.get n = some a → (h.role a).name = n

variable {h : RHeap} {al : GoMap Str Nat} {T : RField → Str → Str → Prop} {D : Str → List Str}

theorem Pic.congr {T' : RField → Str → Str → Prop} {D' : Str → List Str} (p : Pic h al T D)
    (ht : ∀ f n k, T' f n k ↔ T f n k) (hd : ∀ n, al.has n = true → D' n = D n) : Pic h al T' D' :=
  ⟨p.valid, p.inj, p.wf, fun f n a hn k x => (p.get f n a hn k x).trans (and_congr_left' (ht f n k).symm),
    fun f n k e => p.closed f n k ((ht f n k).1 e), fun n a hn => (p.red n a hn).trans
      (hd n (by unfold GoMap.has; rw [hn]; rfl)).symm, p.nm⟩

theorem Pic.write {T' : RField → Str → Str → Prop} (p : Pic h al T D) {n : Str} {a : Nat} (hn : al.get n = some a)
    {f : RField} {F : GoMap Str Nat → GoMap Str Nat} (hw : (F ((h.role a).fld f)).WF)
    (hF : ∀ k x, (F ((h.role a).fld f)).get k = some x ↔ T' f n k ∧ al.get k = some x)
    (hT : ∀ g m k, ¬ (g = f ∧ m = n) → (T' g m k ↔ T g m k)) (hk : ∀ k, T' f n k → al.has k = true) :
    Pic (h.upd a fun o => o.put f (F (o.fld f))) al T' D := by
  have hr : ∀ x, x < h.objs.length → (h.upd a fun o => o.put f (F (o.fld f))).role x =
      if a = x then (h.role x).put f (F ((h.role x).fld f)) else h.role x := by
    intro x hx
    rw [role_upd]
    simp [hx]
  refine ⟨fun m b hm => by rw [upd_length]; exact p.valid m b hm, p.inj, fun g m b hm => ?_, fun g m b hm k x => ?_,
    fun g m k e => ?_, fun m b hm => ?_, fun m b hm => ?_⟩
  · rw [hr b (p.valid m b hm)]
    split
    · rename_i e
      subst e
      rw [RObj.fld_put]
      split
      · exact hw
      · exact p.wf g m a hm
    · exact p.wf g m b hm
  · rw [hr b (p.valid m b hm)]
    by_cases e : a = b
    · subst e
      have := p.inj m n a hm hn
      subst this
      rw [if_pos rfl, RObj.fld_put]
      split
      · rename_i e; subst e; exact hF k x
      · rename_i e
        rw [hT g m k (fun x => e x.1.symm)]
        exact p.get g m a hm k x
    · have : ¬ (g = f ∧ m = n) := by
        rintro ⟨-, rfl⟩
        rw [hn] at hm
        exact e (Option.some.inj hm)
      rw [if_neg e, hT g m k this]
      exact p.get g m b hm k x
  · by_cases e' : g = f ∧ m = n
    · obtain ⟨rfl, rfl⟩ := e'
      exact ⟨by unfold GoMap.has; rw [hn]; rfl, hk k e⟩
    · exact p.closed g m k ((hT g m k e').1 e)
  · rw [hr b (p.valid m b hm)]
    split
    · rw [RObj.put_redundant]; exact p.red m b hm
    · exact p.red m b hm
  · rw [hr b (p.valid m b hm)]
    split
    · rw [RObj.put_name]; exact p.nm m b hm
    · exact p.nm m b hm

/-- One pointer more. -/
def plusT (T : RField → Str → Str → Prop) (f : RField) (n j : Str) : RField → Str → Str → Prop :=
  fun g m k => T g m k ∨ (g = f ∧ m = n ∧ k = j)

/-- One pointer less. -/
def minusT (T : RField → Str → Str → Prop) (f : RField) (n j : Str) : RField → Str → Str → Prop :=
  fun g m k => T g m k ∧ ¬ (g = f ∧ m = n ∧ k = j)

theorem Pic.add (p : Pic h al T D) (f : RField) {n j : Str} {a x : Nat} (hn : al.get n = some a) (hj : al.get j = some x) :
    Pic (h.upd a fun o => o.put f ((o.fld f).set j x)) al (plusT T f n j) D := by
  refine p.write (F := fun m => m.set j x) hn ((p.wf f n a hn).set j x) (fun k y => ?_) (fun g m k e => ?_) fun k e => ?_
  · simp only [GoMap.get_set, plusT, true_and]
    by_cases c : j = k
    · subst c; simp [hj]
    · rw [if_neg c, p.get f n a hn k y]
      simp [Ne.symm c]
  · simp only [plusT]
    constructor
    · rintro (x | ⟨x, y, -⟩)
      · exact x
      · exact absurd ⟨x, y⟩ e
    · exact .inl
  · rcases e with e | ⟨-, -, rfl⟩
    · exact (p.closed f n k e).2
    · unfold GoMap.has; rw [hj]; rfl

theorem Pic.del (p : Pic h al T D) (f : RField) {n : Str} (j : Str) {a : Nat} (hn : al.get n = some a) :
    Pic (h.upd a fun o => o.put f ((o.fld f).del j)) al (minusT T f n j) D := by
  refine p.write (F := fun m => m.del j) hn ((p.wf f n a hn).del j) (fun k y => ?_) (fun g m k e => ?_) fun k e => ?_
  · simp only [GoMap.get_del, minusT, true_and]
    by_cases c : j = k
    · subst c; simp
    · rw [if_neg c, p.get f n a hn k y]
      simp [Ne.symm c]
  · simp only [minusT]
    exact ⟨fun x => x.1, fun x => ⟨x, fun y => e ⟨y.1, y.2.1⟩⟩⟩
  · exact (p.closed f n k e.1).2

theorem Pic.mark (p : Pic h al T D) {n : Str} {a : Nat} (hn : al.get n = some a) (G : List Str → List Str) :
    Pic (h.upd a fun o => { o with redundant := G o.redundant }) al T (fun m => if m = n then G (D m) else D m) := by
  have hr : ∀ x, x < h.objs.length → (h.upd a fun o => { o with redundant := G o.redundant }).role x =
      if a = x then { h.role x with redundant := G (h.role x).redundant } else h.role x := by
    intro x hx
    rw [role_upd]
    simp [hx]
  have hf : ∀ x, x < h.objs.length → ∀ f, ((h.upd a fun o => { o with redundant := G o.redundant }).role x).fld f =
      (h.role x).fld f := by
    intro x hx f
    rw [hr x hx]
    split
    · cases f <;> rfl
    · rfl
  refine ⟨fun m b hm => by rw [upd_length]; exact p.valid m b hm, p.inj, fun g m b hm => ?_, fun g m b hm k x => ?_,
    p.closed, fun m b hm => ?_, fun m b hm => ?_⟩
  · rw [hf b (p.valid m b hm)]; exact p.wf g m b hm
  · rw [hf b (p.valid m b hm)]; exact p.get g m b hm k x
  · rw [hr b (p.valid m b hm)]
    by_cases e : a = b
    · subst e
      have := p.inj m n a hm hn
      subst this
      rw [if_pos rfl, if_pos rfl]
      exact congrArg G (p.red m a hm)
    · have : m ≠ n := by
        rintro rfl
        rw [hn] at hm
        exact e (Option.some.inj hm)
      rw [if_neg e, if_neg this]
      exact p.red m b hm
  · rw [hr b (p.valid m b hm)]
    split
    · exact p.nm m b hm
    · exact p.nm m b hm

/-- The heap after `create`. -/
def made (h : RHeap) (n : Str) : RHeap :=
  { h with objs := h.objs ++ [{ name := n }], all := h.all.set n h.objs.length }

theorem role_made (h : RHeap) (n : Str) (a : Nat) : (h.made n).role a = if a = h.objs.length then { name := n } else h.role a := by
  unfold RHeap.role made
  simp only [List.getElem?_append]
  by_cases c1 : a < h.objs.length
  · rw [if_pos c1, if_neg (by omega)]
  · rw [if_neg c1]
    by_cases c2 : a = h.objs.length
    · simp [c2]
    · rw [if_neg c2, List.getElem?_eq_none (Nat.le_of_not_lt c1)]
      rw [List.getElem?_eq_none (by simp; omega)]

theorem Pic.made (p : Pic h h.all T D) {n : Str} (hn : h.all.get n = none) (hd : D n = []) :
    Pic (h.made n) (h.made n).all T D := by
  have hT : ∀ f k, ¬ T f n k ∧ ¬ T f k n := by
    intro f k
    refine ⟨fun e => ?_, fun e => ?_⟩
    · have := (p.closed f n k e).1; unfold GoMap.has at this; rw [hn] at this; cases this
    · have := (p.closed f k n e).2; unfold GoMap.has at this; rw [hn] at this; cases this
  have hg : ∀ m a, (h.made n).all.get m = some a → (m = n ∧ a = h.objs.length) ∨
      (m ≠ n ∧ h.all.get m = some a ∧ a < h.objs.length) := by
    intro m a hm
    simp only [RHeap.made, GoMap.get_set] at hm
    split at hm
    · rename_i e; cases hm; exact .inl ⟨e.symm, rfl⟩
    · rename_i e; exact .inr ⟨fun x => e x.symm, hm, p.valid m a hm⟩
  refine ⟨fun m a hm => ?_, fun m m' a hm hm' => ?_, fun f m a hm => ?_, fun f m a hm k x => ?_, fun f m k e => ?_,
    fun m a hm => ?_, fun m a hm => ?_⟩
  · simp only [RHeap.made, List.length_append, List.length_singleton]
    rcases hg m a hm with ⟨-, rfl⟩ | ⟨-, -, x⟩ <;> omega
  · rcases hg m a hm with ⟨rfl, rfl⟩ | ⟨-, x, y⟩ <;> rcases hg m' _ hm' with ⟨rfl, z⟩ | ⟨-, u, v⟩
    · rfl
    · omega
    · omega
    · exact p.inj m m' a x u
  · rw [role_made]
    rcases hg m a hm with ⟨rfl, rfl⟩ | ⟨-, x, y⟩
    · rw [if_pos rfl]; cases f <;> exact GoMap.WF.nil
    · rw [if_neg (by omega)]; exact p.wf f m a x
  · rw [role_made]
    rcases hg m a hm with ⟨rfl, rfl⟩ | ⟨-, x', y⟩
    · rw [if_pos rfl]
      constructor
      · intro e; cases f <;> cases e
      · intro e; exact absurd e.1 (hT f k).1
    · rw [if_neg (by omega), p.get f m a x' k x]
      refine and_congr_right fun e => ?_
      have : n ≠ k := by rintro rfl; exact (hT f m).2 e
      simp only [RHeap.made, GoMap.get_set]
      rw [if_neg this]
  · have hh : ∀ k, h.all.has k = true → (h.made n).all.has k = true := by
      intro k hk
      unfold GoMap.has at hk ⊢
      simp only [RHeap.made, GoMap.get_set]
      split
      · rfl
      · exact hk
    exact ⟨hh _ (p.closed f m k e).1, hh _ (p.closed f m k e).2⟩
  · rw [role_made]
    rcases hg m a hm with ⟨rfl, rfl⟩ | ⟨-, x', y⟩
    · rw [if_pos rfl, hd]
    · rw [if_neg (by omega)]; exact p.red m a x'
  · rw [role_made]
    rcases hg m a hm with ⟨rfl, rfl⟩ | ⟨-, x', y⟩
    · rw [if_pos rfl]
    · rw [if_neg (by omega)]; exact p.nm m a x'

/-- A role without pointers from and to it is taken out. -/
theorem Pic.drop (p : Pic h al T D) {n : Str} (hT : ∀ f k, ¬ T f n k ∧ ¬ T f k n) : Pic h (al.del n) T D := by
  have hg : ∀ m a, (al.del n).get m = some a → al.get m = some a := by
    intro m a hm
    simp only [GoMap.get_del] at hm
    split at hm
    · cases hm
    · exact hm
  refine ⟨fun m a hm => p.valid m a (hg m a hm), fun m m' a hm hm' => p.inj m m' a (hg m a hm) (hg m' a hm'),
    fun f m a hm => p.wf f m a (hg m a hm), fun f m a hm k x => ?_, fun f m k e => ?_, fun m a hm => p.red m a (hg m a hm),
    fun m a hm => p.nm m a (hg m a hm)⟩
  · rw [p.get f m a (hg m a hm) k x]
    refine and_congr_right fun e => ?_
    have : n ≠ k := by rintro rfl; exact (hT f m).2 e
    rw [GoMap.get_del, if_neg this]
  · have hh : ∀ k, n ≠ k → al.has k = true → (al.del n).has k = true := by
      intro k h1 hk
      unfold GoMap.has at hk ⊢
      rw [GoMap.get_del, if_neg h1]
      exact hk
    have h1 : n ≠ m := by rintro rfl; exact (hT f k).1 e
    have h2 : n ≠ k := by rintro rfl; exact (hT f m).2 e
    exact ⟨hh _ h1 (p.closed f m k e).1, hh _ h2 (p.closed f m k e).2⟩

/-- `allRoles` and `patternRoles` are as before. -/
def Kept (h h' : RHeap) : Prop := h'.all = h.all ∧ h'.patterns = h.patterns

theorem Kept.trans {h h' h'' : RHeap} (a : Kept h h') (b : Kept h' h'') : Kept h h'' := ⟨b.1.trans a.1, b.2.trans a.2⟩

end RHeap

namespace RConf

open RHeap

variable {c : RConf} {h : RHeap} {al : GoMap Str Nat} {T : RField → Str → Str → Prop} {D : Str → List Str}

theorem addMatch_runs (p : Pic h al T D) {pn rn : Str} {pa ra : Nat} (hp : al.get pn = some pa) (hr : al.get rn = some ra) :
    ∃ h', (addMatch pn pa rn ra).exec h = (h', some ()) ∧ Kept h h' ∧
      Pic h' al (plusT (plusT T .matched pn rn) .matchedBy rn pn) D :=
  ⟨_, rfl, ⟨rfl, rfl⟩, (p.add .matched hp hr).add .matchedBy hr hp⟩

theorem removeMatch_runs (p : Pic h al T D) {pn rn : Str} {pa ra : Nat} (hp : al.get pn = some pa) (hr : al.get rn = some ra) :
    ∃ h', (removeMatch pn pa rn ra).exec h = (h', some ()) ∧ Kept h h' ∧
      Pic h' al (minusT (minusT T .matched pn rn) .matchedBy rn pn) D :=
  ⟨_, rfl, ⟨rfl, rfl⟩, (p.del .matched rn hp).del .matchedBy pn hr⟩

/-- Pointers between patterns and names, as `addMatch` sets them. -/
def plusM (T : RField → Str → Str → Prop) (e : Str × Str) : RField → Str → Str → Prop :=
  plusT (plusT T .matched e.1 e.2) .matchedBy e.2 e.1

/-- Pointers between patterns and names, as `removeMatch` removes them. -/
def minusM (T : RField → Str → Str → Prop) (e : Str × Str) : RField → Str → Str → Prop :=
  minusT (minusT T .matched e.1 e.2) .matchedBy e.2 e.1

/-- The pointers for one match. -/
def isM (e : Str × Str) (g : RField) (m k : Str) : Prop :=
  (g = .matched ∧ m = e.1 ∧ k = e.2) ∨ (g = .matchedBy ∧ m = e.2 ∧ k = e.1)

theorem foldl_plusM {g : RField} {m k : Str} : ∀ (es : List (Str × Str)) (T : RField → Str → Str → Prop),
    es.foldl plusM T g m k ↔ T g m k ∨ ∃ e ∈ es, isM e g m k
  | [], T => by simp
  | e :: es, T => by
    rw [List.foldl_cons, foldl_plusM es]
    simp only [plusM, plusT, isM, List.mem_cons, exists_eq_or_imp, or_assoc]

theorem foldl_minusM {g : RField} {m k : Str} : ∀ (es : List (Str × Str)) (T : RField → Str → Str → Prop),
    es.foldl minusM T g m k ↔ T g m k ∧ ∀ e ∈ es, ¬ isM e g m k
  | [], T => by simp
  | e :: es, T => by
    rw [List.foldl_cons, foldl_minusM es]
    simp only [minusM, minusT, isM, List.mem_cons, forall_eq_or_imp, not_or, and_assoc]

theorem each_runs {β : Type} {body : β → Thread RHeap Unit} {al' : GoMap Str Nat}
    (step : (RField → Str → Str → Prop) → Str × Str → RField → Str → Str → Prop) (q : β → Str × Str) :
    ∀ (l : List β) (_ : ∀ x ∈ l, ∀ (h : RHeap) (T : RField → Str → Str → Prop), Pic h al T D → h.all = al' →
      ∃ h', (body x).exec h = (h', some ()) ∧ Kept h h' ∧ Pic h' al (step T (q x)) D) (h : RHeap)
      (T : RField → Str → Str → Prop), Pic h al T D → h.all = al' →
      ∃ h', (Thread.each body l).exec h = (h', some ()) ∧ Kept h h' ∧ Pic h' al ((l.map q).foldl step T) D
  | [], _, h, T, p, _ => ⟨h, rfl, ⟨rfl, rfl⟩, p⟩
  | x :: xs, hb, h, T, p, ha => by
    obtain ⟨h1, e1, k1, p1⟩ := hb x List.mem_cons_self h T p ha
    obtain ⟨h2, e2, k2, p2⟩ := each_runs step q xs (fun y hy => hb y (List.mem_cons_of_mem _ hy)) h1 _ p1 (k1.1.trans ha)
    exact ⟨h2, (exec_bind_some e1).trans e2, k1.trans k2, p2⟩

/-! ## The two models -/

/-- The heap holds the roles of the role manager, with pointers in the place of names. -/
structure Sim (h : RHeap) (rm : RM) : Prop where
  pic : Pic h h.all (fun f n k => k ∈ (rm.obj n).fld f) (fun n => (rm.obj n).redundant)
  wf : h.all.WF
  names : ∀ n, h.all.has n = true ↔ n ∈ rm.names
  pats : h.patterns = rm.patterns
  nd : ∀ f n, ((rm.obj n).fld f).Nodup

theorem Sim.new (level : Nat) (m : Option PMatcher) : Sim RHeap.new (RM.new level m) := by
  refine ⟨⟨?_, ?_, ?_, ?_, ?_, ?_, ?_⟩, GoMap.WF.nil, fun n => ?_, rfl, fun f n => ?_⟩
  · intro n a e; cases e
  · intro n n' a e; cases e
  · intro f n a e; cases e
  · intro f n a e; cases e
  · intro f n k e
    cases f <;> cases e
  · intro n a e; cases e
  · intro n a e; cases e
  · simp [RHeap.new, RM.new, GoMap.has]
  · cases f <;> exact List.nodup_nil

theorem Sim.get_none {rm : RM} (s : Sim h rm) {n : Str} : h.all.get n = none ↔ n ∉ rm.names := by
  rw [← s.names, GoMap.has]
  cases h.all.get n <;> simp

theorem Sim.get_some {rm : RM} (s : Sim h rm) {n : Str} (hn : n ∈ rm.names) : ∃ a, h.all.get n = some a :=
  Option.isSome_iff_exists.1 ((s.names n).2 hn)

theorem mem_ordSet (hp : ∀ l, (c.ord l).Perm l) {ps : List Str} {p : Str} : p ∈ c.ordSet ps ↔ p ∈ ps := by
  unfold ordSet
  simp only [List.mem_map, (hp _).mem_iff]
  constructor
  · rintro ⟨_, ⟨q, hq, rfl⟩, rfl⟩; exact hq
  · intro e; exact ⟨_, ⟨p, e, rfl⟩, rfl⟩

theorem nodup_foldl_sins : ∀ (ks : List Str) {s : List Str}, s.Nodup → (ks.foldl sins s).Nodup
  | [], _, h => h
  | _ :: ks, _, h => nodup_foldl_sins ks (nodup_sins h)

theorem getRole_runs (hp : ∀ l, (c.ord l).Perm l) {rm : RM} (hm : c.matcher = rm.matcher) (s : Sim h rm)
    {L : Str → Str → Prop} (i : rm.Inv L) (n : Str) :
    ∃ h' a, (c.getRole n).exec h = (h', some (a, (rm.getRole n).2)) ∧ Sim h' (rm.getRole n).1 ∧ h'.all.get n = some a ∧
      (∀ m x, h.all.get m = some x → h'.all.get m = some x) := by
  by_cases hn : n ∈ rm.names
  · obtain ⟨a, ha⟩ := s.get_some hn
    rw [RM.getRole_of_mem hn]
    refine ⟨h, a, ?_, s, ha, fun _ _ e => e⟩
    unfold getRole
    simp only [Thread.exec, Thread.read, Thread.bind, id, ha]
  · have hg := s.get_none.2 hn
    have ho := i.getRole_obj hn
    have hks : n ∉ rm.newKs n := fun x => hn (RM.mem_newKs.1 x).1
    have hps : n ∉ rm.newPs n := fun x => hn (i.mem_newPs.1 x).1
    have hr : ∀ k, ((rm.getRole n).1.obj k).redundant = (rm.obj k).redundant := fun k => by rw [ho]
    have hd : (rm.obj n).redundant = [] := by rw [i.fresh n hn]
    have p0 := s.pic.made hg hd
    have ha : (h.made n).all.get n = some h.objs.length := GoMap.get_set_self ..
    have hold : ∀ m x, h.all.get m = some x → (h.made n).all.get m = some x := by
      intro m x hx
      simp only [RHeap.made, GoMap.get_set]
      split
      · rename_i e; rw [← e, hg] at hx; cases hx
      · exact hx
    have hw : (h.made n).all.WF := s.wf.set n h.objs.length
    have hnames : ∀ m, (h.made n).all.has m = true ↔ m ∈ (rm.getRole n).1.names := by
      intro m
      rw [RM.mem_getRole_names, ← s.names]
      simp only [RHeap.made, GoMap.has, GoMap.get_set]
      split
      · rename_i e; simp [e]
      · rename_i e; simp [Ne.symm e]
    have hnd : ∀ f k, (((rm.getRole n).1.obj k).fld f).Nodup := by
      intro f k
      rw [ho]
      cases f with
      | roles => exact s.nd .roles k
      | users => exact s.nd .users k
      | matched =>
        simp only [Role.fld]
        split
        · exact nodup_foldl_sins _ List.nodup_nil
        · split
          · exact nodup_sins (s.nd .matched k)
          · exact s.nd .matched k
      | matchedBy =>
        simp only [Role.fld]
        split
        · exact nodup_foldl_sins _ List.nodup_nil
        · split
          · exact nodup_sins (s.nd .matchedBy k)
          · exact s.nd .matchedBy k
    -- what is to be shown about the heap that is reached
    have key : ∀ (h' : RHeap) (es : List (Str × Str)), h'.all = (h.made n).all →
        h'.patterns = (rm.getRole n).1.patterns →
        Pic h' (h.made n).all (es.foldl plusM fun f n k => k ∈ (rm.obj n).fld f) (fun n => (rm.obj n).redundant) →
        (∀ e, e ∈ es ↔ (e.1 = n ∧ e.2 ∈ rm.newKs n) ∨ (e.2 = n ∧ e.1 ∈ rm.newPs n)) → Sim h' (rm.getRole n).1 := by
      intro h' es e1 e2 pc he
      refine ⟨?_, e1 ▸ hw, fun m => by rw [e1]; exact hnames m, e2, hnd⟩
      rw [e1]
      refine pc.congr (fun f m k => ?_) fun m _ => hr m
      rw [foldl_plusM, ho]
      have hemp : ∀ f, (rm.obj n).fld f = [] := fun f => by rw [i.fresh n hn]; cases f <;> rfl
      cases f with
      | roles => simp [Role.fld, isM]
      | users => simp [Role.fld, isM]
      | matched =>
        have e0 : (rm.obj n).matched = [] := hemp .matched
        simp only [Role.fld, isM, he, true_and, reduceCtorEq, false_and, or_false, Prod.exists]
        by_cases c1 : m = n
        · subst c1
          rw [if_pos rfl, e0, mem_foldl_sins]
          constructor
          · rintro (x | x)
            · cases x
            · exact .inr ⟨m, k, .inl ⟨rfl, x⟩, rfl, rfl⟩
          · rintro (x | ⟨a, b, x | x, rfl, rfl⟩)
            · cases x
            · exact .inr x.2
            · exact absurd x.2 hps
        · rw [if_neg c1]
          by_cases c2 : m ∈ rm.newPs n
          · rw [if_pos c2, mem_sins]
            constructor
            · rintro (x | rfl)
              · exact .inl x
              · exact .inr ⟨m, k, .inr ⟨rfl, c2⟩, rfl, rfl⟩
            · rintro (x | ⟨a, b, x | x, rfl, rfl⟩)
              · exact .inl x
              · exact absurd x.1 c1
              · exact .inr x.1
          · rw [if_neg c2]
            constructor
            · exact .inl
            · rintro (x | ⟨a, b, x | x, rfl, rfl⟩)
              · exact x
              · exact absurd x.1 c1
              · exact absurd x.2 c2
      | matchedBy =>
        have e0 : (rm.obj n).matchedBy = [] := hemp .matchedBy
        simp only [Role.fld, isM, he, true_and, reduceCtorEq, false_and, false_or, Prod.exists]
        by_cases c1 : m = n
        · subst c1
          rw [if_pos rfl, e0, mem_foldl_sins]
          constructor
          · rintro (x | x)
            · cases x
            · exact .inr ⟨k, m, .inr ⟨rfl, x⟩, rfl, rfl⟩
          · rintro (x | ⟨a, b, x | x, rfl, rfl⟩)
            · cases x
            · exact absurd x.2 hks
            · exact .inr x.2
        · rw [if_neg c1]
          by_cases c2 : m ∈ rm.newKs n
          · rw [if_pos c2, mem_sins]
            constructor
            · rintro (x | rfl)
              · exact .inl x
              · exact .inr ⟨k, m, .inl ⟨rfl, c2⟩, rfl, rfl⟩
            · rintro (x | ⟨a, b, x | x, rfl, rfl⟩)
              · exact .inl x
              · exact .inr x.1
              · exact absurd x.1 c1
          · rw [if_neg c2]
            constructor
            · exact .inl
            · rintro (x | ⟨a, b, x | x, rfl, rfl⟩)
              · exact x
              · exact absurd x.2 c2
              · exact absurd x.1 c1
    have hcr : (rm.getRole n).2 = true := by rw [RM.getRole_created]; simp [hn]
    rw [hcr]
    have hpat := RM.getRole_patterns (rm := rm) hn
    unfold getRole
    simp only [Thread.exec, Thread.read, Thread.bind, create, id, hg]
    show ∃ h' a, Thread.exec _ (h.made n) = _ ∧ _
    cases hcm : c.matcher with
    | none =>
      refine ⟨h.made n, h.objs.length, rfl, key _ [] rfl ?_ p0 fun e => ?_, ha, hold⟩
      · rcases hpat with ⟨⟨m', x, -⟩, -⟩ | ⟨-, x⟩
        · rw [← hm, hcm] at x; cases x
        · rw [x]; exact s.pats
      · unfold RM.newKs RM.newPs
        rw [← hm, hcm]
        simp
    | some pm =>
      have hrm : rm.matcher = some pm := hm.symm.trans hcm
      by_cases hi : pm.isPattern n = true
      · -- a pattern
        simp only [if_pos hi]
        let es := (c.ord (h.made n).all).filter fun e => n ≠ e.1 && pm.match e.1 n
        obtain ⟨h', x1, x2, x3⟩ := each_runs (al := (h.made n).all) (al' := (h.made n).all)
          (body := fun e : Str × Nat => addMatch n h.objs.length e.1 e.2) plusM (fun e : Str × Nat => (n, e.1)) es
          (fun e he h1 T1 p1 _ => addMatch_runs p1 ha
            (hw.get_of_mem ((hp _).mem_iff.1 (List.mem_filter.1 he).1)))
          { h.made n with patterns := sins h.patterns n } _ ⟨p0.valid, p0.inj, p0.wf, p0.get, p0.closed, p0.red, p0.nm⟩ rfl
        refine ⟨h', h.objs.length, exec_bind_some x1, key h' _ x2.1 ?_ x3 fun e => ?_, by rw [x2.1]; exact ha,
          fun m x hx => by rw [x2.1]; exact hold m x hx⟩
        · rcases hpat with ⟨-, x⟩ | ⟨x, -⟩
          · rw [x, x2.2, ← s.pats]
          · exact absurd ⟨pm, hrm, hi⟩ x
        · obtain ⟨e1, e2⟩ := e
          have hz : rm.newPs n = [] := by unfold RM.newPs; rw [hrm]; simp [hi]
          have hk : e2 ∈ rm.newKs n ↔ e2 ∈ rm.names ∧ n ≠ e2 ∧ pm.match e2 n = true := by
            unfold RM.newKs
            rw [hrm]
            simp [hi]
          simp only [hz, List.not_mem_nil, and_false, or_false, hk, List.mem_map, es, List.mem_filter, Bool.and_eq_true,
            decide_eq_true_eq, Prod.mk.injEq, Prod.exists]
          constructor
          · rintro ⟨k, x, ⟨y, z1, z2⟩, rfl, rfl⟩
            have := hw.get_of_mem ((hp _).mem_iff.1 y)
            have hh : (h.made n).all.has k = true := by unfold GoMap.has; rw [this]; rfl
            rcases RM.mem_getRole_names.1 ((hnames k).1 hh) with w | w
            · exact ⟨rfl, w, z1, z2⟩
            · exact absurd w.symm (z1)
          · rintro ⟨rfl, y, z1, z2⟩
            obtain ⟨x, hx⟩ := s.get_some y
            exact ⟨e2, x, ⟨(hp _).mem_iff.2 (GoMap.mem_of_get (hold e2 x hx)), z1, z2⟩, rfl, rfl⟩
      · -- a name
        simp only [if_neg hi]
        let ps := (c.ordSet (h.made n).patterns).filter fun p => p ≠ n && pm.match n p
        have hmem : ∀ p ∈ ps, ∃ a, (h.made n).all.get p = some a := by
          intro p hx
          have := (mem_ordSet hp).1 (List.mem_filter.1 hx).1
          have : p ∈ rm.patterns := s.pats ▸ this
          obtain ⟨a, ha⟩ := s.get_some ((i.pats p).1 this).1
          exact ⟨a, hold p a ha⟩
        obtain ⟨h', x1, x2, x3⟩ := each_runs (al := (h.made n).all) (al' := (h.made n).all)
          (body := fun p => (Thread.read fun s : RHeap => s.all.get p).bind fun
            | none => .crash
            | some b => addMatch p b n h.objs.length) plusM (fun p => (p, n)) ps
          (fun p he h1 T1 p1 ha1 => by
            obtain ⟨a, hpa⟩ := hmem p he
            obtain ⟨h2, y1, y2⟩ := addMatch_runs p1 hpa ha
            refine ⟨h2, ?_, y2⟩
            simp only [Thread.exec, Thread.read, Thread.bind, id, ha1, hpa]
            exact y1)
          (h.made n) _ p0 rfl
        refine ⟨h', h.objs.length, exec_bind_some x1, key h' _ x2.1 ?_ x3 fun e => ?_, by rw [x2.1]; exact ha,
          fun m x hx => by rw [x2.1]; exact hold m x hx⟩
        · rcases hpat with ⟨⟨m', y, x⟩, -⟩ | ⟨-, x⟩
          · rw [hrm] at y; cases y; exact absurd x hi
          · rw [x, x2.2]; exact s.pats
        · obtain ⟨e1, e2⟩ := e
          have hz : rm.newKs n = [] := by unfold RM.newKs; rw [hrm]; simp [hi]
          have hk : e1 ∈ rm.newPs n ↔ e1 ∈ rm.patterns ∧ e1 ≠ n ∧ pm.match n e1 = true := by
            unfold RM.newPs
            rw [hrm]
            simp [hi]
          simp only [hz, List.not_mem_nil, and_false, false_or, hk, List.mem_map, ps, List.mem_filter, Bool.and_eq_true,
            decide_eq_true_eq, Prod.mk.injEq, mem_ordSet hp]
          constructor
          · rintro ⟨p, ⟨y, z1, z2⟩, rfl, rfl⟩
            exact ⟨rfl, s.pats ▸ y, z1, z2⟩
          · rintro ⟨rfl, y, z1, z2⟩
            exact ⟨e1, ⟨(s.pats.symm ▸ y : e1 ∈ h.patterns), z1, z2⟩, rfl, rfl⟩

end RConf

end Fastac
