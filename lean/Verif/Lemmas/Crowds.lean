import Verif.Lemmas.RoleWriters
import Verif.Lemmas.DomainTracks
import Verif.Lemmas.RoleRequests
import Verif.Spec.ManyRoles

/-!
# Calls on parts of a state
-/

namespace Fastac

namespace Thread

variable {S T α β : Type} {get : S → T} {upd : S → (T → T) → S}

theorem within_bind (g : α → Thread T β) : ∀ t : Thread T α,
    (t.bind g).within get upd = (t.within get upd).bind fun a => (g a).within get upd
  | .ret _ => rfl
  | .crash => rfl
  | .act f k => by
    show Thread.act _ _ = Thread.act _ _
    congr 1
    funext s
    exact within_bind g (k (get s))

theorem bind_assoc {γ : Type} (g : α → Thread S β) (g' : β → Thread S γ) : ∀ t : Thread S α,
    (t.bind g).bind g' = t.bind fun a => (g a).bind g'
  | .ret _ => rfl
  | .crash => rfl
  | .act f k => by
    show Thread.act _ _ = Thread.act _ _
    congr 1
    funext s
    exact bind_assoc g g' (k s)

/-- A call alone on a part. -/
theorem exec_within (ok : S → Prop) (hg : ∀ s f, ok s → get (upd s f) = f (get s)) (ho : ∀ s f, ok s → ok (upd s f))
    (hi : ∀ s, upd s (fun _ => get s) = s) (hu : ∀ s f g, ok s → upd (upd s f) g = upd s (fun x => g (f x))) :
    ∀ (t : Thread T α) (s : S), ok s →
      (t.within get upd).exec s = (upd s (fun _ => (t.exec (get s)).1), (t.exec (get s)).2)
  | .ret a, s, _ => by
    show (s, some a) = (upd s (fun _ => get s), some a)
    rw [hi]
  | .crash, s, _ => by
    show (s, none) = (upd s (fun _ => get s), none)
    rw [hi]
  | .act f k, s, o => by
    show ((k (get s)).within get upd).exec (upd s f) = _
    rw [exec_within ok hg ho hi hu (k (get s)) _ (ho s f o), hg s f o, hu s f _ o]
    rfl

/-- A safe call on a part keeps what is not part of it. -/
theorem Safe.within {I : S → Prop} {G : S → S → Prop} {J : T → Prop} {Q : α → Prop} (h1 : ∀ s, I s → J (get s))
    (h2 : ∀ s f, I s → J (f (get s)) → I (upd s f)) (h3 : ∀ s f, I s → G s (upd s f)) : ∀ {t : Thread T α}, t.Safe J Q →
    (t.within get upd).Keeps I G Q
  | .ret _, h => h
  | .crash, h => h
  | .act f _, h => fun s hs =>
    ⟨h2 s f hs (h _ (h1 s hs)).1, h3 s f hs, Safe.within h1 h2 h3 (h _ (h1 s hs)).2⟩

theorem Keeps.mono {I I' : S → Prop} {G G' : S → S → Prop} {Q Q' : α → Prop} (h1 : ∀ s, I' s → I s)
    (h2 : ∀ s s', I' s → I s' → G s s' → I' s' ∧ G' s s') (h3 : ∀ a, Q a → Q' a) : ∀ {t : Thread S α}, t.Keeps I G Q →
    t.Keeps I' G' Q'
  | .ret _, h => h3 _ h
  | .crash, h => h
  | .act _ _, h => fun s hs =>
    have x := h s (h1 s hs)
    ⟨(h2 _ _ hs x.1 x.2.1).1, (h2 _ _ hs x.1 x.2.1).2, Keeps.mono h1 h2 h3 x.2.2⟩

/-! ## What is owed -/

/-- The call is going to make `cl` true. -/
def Owing (cl : S → Prop) : Thread S α → Prop
  | .ret _ => False
  | .crash => True
  | .act f k => ∀ s, cl (f s) ∨ (k s).Owing cl

/-- If the call makes `cl` false, it is going to make it true again. -/
def Tidies (cl : S → Prop) : Thread S α → Prop
  | .ret _ => True
  | .crash => True
  | .act f k => ∀ s, (cl s → cl (f s) ∨ (k s).Owing cl) ∧ (k s).Tidies cl

theorem Owing.bind_left {cl : S → Prop} {g : α → Thread S β} : ∀ {t : Thread S α}, t.Owing cl → (t.bind g).Owing cl
  | .ret _, h => h.elim
  | .crash, _ => trivial
  | .act _ _, h => fun s => (h s).imp id Owing.bind_left

theorem Tidies.bind {cl : S → Prop} {g : α → Thread S β} (hg : ∀ a, (g a).Tidies cl) : ∀ {t : Thread S α}, t.Tidies cl →
    (t.bind g).Tidies cl
  | .ret a, _ => hg a
  | .crash, _ => trivial
  | .act _ _, x => fun s => ⟨fun e => ((x s).1 e).imp id Owing.bind_left, Tidies.bind hg (x s).2⟩

theorem Owes.owing {n : Str} : ∀ {t : Thread RHeap α}, t.Owes n → t.Owing fun s => s.all.get n = none
  | .ret _, h => h
  | .crash, _ => trivial
  | .act _ _, h => fun s => (h s).imp id Owes.owing

theorem Neat.tidies {h : RHeap} {n : Str} (hn : h.all.get n = none) : ∀ {t : Thread RHeap α}, t.Neat h →
    t.Tidies fun s => s.all.get n = none
  | .ret _, _ => trivial
  | .crash, _ => trivial
  | .act _ _, x => fun s => ⟨fun e => ((x s).1 n hn e).imp id Owes.owing, (x s).2.tidies hn⟩

theorem Owing.within {cl : T → Prop} (h : ∀ s f, get (upd s f) = f (get s) ∨ cl (get (upd s f))) : ∀ {t : Thread T α},
    t.Owing cl → (t.within get upd).Owing fun s => cl (get s)
  | .ret _, x => x
  | .crash, _ => trivial
  | .act f k, x => fun s => by
    rcases h s f with e | e
    · exact (x (get s)).imp (fun y => by show cl (get (upd s f)); rw [e]; exact y) (Owing.within h)
    · exact .inl e

theorem Tidies.within {cl : T → Prop} (h : ∀ s f, get (upd s f) = f (get s) ∨ cl (get (upd s f))) : ∀ {t : Thread T α},
    t.Tidies cl → (t.within get upd).Tidies fun s => cl (get s)
  | .ret _, _ => trivial
  | .crash, _ => trivial
  | .act f k, x => fun s => by
    refine ⟨fun c => ?_, Tidies.within h (x (get s)).2⟩
    rcases h s f with e | e
    · exact ((x (get s)).1 c).imp (fun y => by show cl (get (upd s f)); rw [e]; exact y) (Owing.within h)
    · exact .inl e

theorem Tidies.elsewhere {cl : S → Prop} (h : ∀ s f, cl s → cl (upd s f)) : ∀ t : Thread T α, (t.within get upd).Tidies cl
  | .ret _ => trivial
  | .crash => trivial
  | .act f k => fun s => ⟨fun c => .inl (h s f c), Tidies.elsewhere h (k (get s))⟩

/-- The call only reads. -/
def Reads : Thread S α → Prop
  | .ret _ => True
  | .crash => True
  | .act f k => ∀ s, f s = s ∧ (k s).Reads

theorem Reads.bind {g : α → Thread S β} (hg : ∀ a, (g a).Reads) : ∀ {t : Thread S α}, t.Reads → (t.bind g).Reads
  | .ret a, _ => hg a
  | .crash, _ => trivial
  | .act _ _, x => fun s => ⟨(x s).1, Reads.bind hg (x s).2⟩

theorem Reads.within (h : ∀ s f, f (get s) = get s → upd s f = s) : ∀ {t : Thread T α}, t.Reads → (t.within get upd).Reads
  | .ret _, _ => trivial
  | .crash, _ => trivial
  | .act f _, x => fun s => ⟨h s f (x (get s)).1, Reads.within h (x (get s)).2⟩

theorem Reads.tidies {cl : S → Prop} : ∀ {t : Thread S α}, t.Reads → t.Tidies cl
  | .ret _, _ => trivial
  | .crash, _ => trivial
  | .act f k, x => fun s => ⟨fun c => .inl (by rw [(x s).1]; exact c), (x s).2.tidies⟩

end Thread

namespace Crowd

variable {S α : Type}

theorem step_other {y : Crowd S α} {i j : Nat} (h : j ≠ i) : (y.step i).calls[j]? = y.calls[j]? := by
  unfold step
  split
  · rfl
  · exact List.getElem?_set_ne (fun e => h e.symm)

theorem step_none {y : Crowd S α} {i : Nat} (h : y.calls[i]? = none) : y.step i = y := by
  unfold step
  rw [h]

theorem step_self {y : Crowd S α} {i : Nat} {t : Thread S α} (h : y.calls[i]? = some t) :
    (y.step i).heap = (t.step y.heap).1 ∧ (y.step i).calls[i]? = some (t.step y.heap).2 := by
  have hl := (List.getElem?_eq_some_iff.1 h).1
  unfold step
  rw [h]
  exact ⟨rfl, List.getElem?_set_self hl⟩

theorem step_length (y : Crowd S α) (i : Nat) : (y.step i).calls.length = y.calls.length := by
  unfold step
  split
  · rfl
  · simp

end Crowd

end Fastac
