import Verif.Model.Slices

/-!
# What a call may do to the memory of the caller
-/

namespace Fastac

/-- The string at an index of an array. -/
def Mem.cell (mem : Mem) (a i : Nat) : Option Str := (mem[a]?.getD [])[i]?

/-- The memory differs only behind the slice: between its end and its capacity there may be `redundant_role` in place of
what was there. -/
def SRef.Spilled (ref : SRef) (mem mem' : Mem) : Prop :=
  mem'.length = mem.length ∧
  ∀ a i, mem'.cell a i = mem.cell a i ∨
    ∃ o l c, ref = .slice a o l c ∧ o + l ≤ i ∧ i < o + c ∧ (mem.cell a i).isSome ∧ mem'.cell a i = some redundantRole

/-- A slice with no room behind its end. -/
def SRef.Full : SRef → Prop
  | .own _ => True
  | .slice _ _ l c => c ≤ l

/-- What the program itself does to the memory in a step: it makes and writes arrays, and it gets the rows of
`RangeRules`. -/
def Cmd.mine (s : SState) : Cmd → Mem
  | .make values => s.mem ++ [values]
  | .write a i v => Mem.write s.mem a i v
  | .list => s.mem ++ (s.model.read s.mem).rules
  | _ => s.mem

/-- The slice that is handed over. -/
def Cmd.given : Cmd → Option SRef
  | .add ref | .remove ref => some ref
  | _ => none

/-- In no step of the program the library writes into the memory. -/
def SState.Untouched (build : Str → Res Stage) (s : SState) (cmds : List Cmd) : Prop :=
  ∀ before c after, cmds = before ++ c :: after → ((s.run build before).step build c).mem = c.mine (s.run build before)

mutual
/-- No matcher for domains has been set. -/
def DM.Bare : DM → Prop
  | .mk _ subs _ _ _ dmm => dmm = none ∧ DM.BareSubs subs
def DM.BareSubs : List (Str × DM) → Prop
  | [] => True
  | (_, s) :: rest => DM.Bare s ∧ DM.BareSubs rest
end

def Mgr.Bare : Mgr → Prop
  | .rm _ => True
  | .dm d => d.Bare

/-- In no role manager a matcher for domains has been set. -/
def SModel.Bare (m : SModel) : Prop := ∀ k p, (k, p) ∈ m.rpMap → p.mgr.Bare

end Fastac
