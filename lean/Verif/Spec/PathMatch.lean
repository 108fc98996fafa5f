import Verif.Base

/-!
# Matching of segments

Independent of how the code goes through the two texts.
-/

namespace Fastac

/-- `SegMatch dyn path pattern`: the segments of the path can be matched against those of the pattern. -/
inductive SegMatch (dyn : Str → Prop) : List Str → List Str → Prop where
  | nil : SegMatch dyn [] []
  | lit (s : Str) {ps qs : List Str} : SegMatch dyn ps qs → SegMatch dyn (s :: ps) (s :: qs)
  | any {p q : Str} {ps qs : List Str} : dyn q → SegMatch dyn ps qs → SegMatch dyn (p :: ps) (q :: qs)
  | star {front ps qs : List Str} : front ≠ [] → SegMatch dyn ps qs → SegMatch dyn (front ++ ps) (['*'] :: qs)

/-- The same, except that a `*` of the pattern, unless it is the last segment, covers no segment `*` of the path but
as the last one. -/
inductive StarMatch (dyn : Str → Prop) : List Str → List Str → Prop where
  | nil : StarMatch dyn [] []
  | lit (s : Str) {ps qs : List Str} : StarMatch dyn ps qs → StarMatch dyn (s :: ps) (s :: qs)
  | any {p q : Str} {ps qs : List Str} : dyn q → StarMatch dyn ps qs → StarMatch dyn (p :: ps) (q :: qs)
  | star {front ps qs : List Str} : front ≠ [] → ['*'] ∉ front.dropLast → StarMatch dyn ps qs →
      StarMatch dyn (front ++ ps) (['*'] :: qs)
  | rest {front : List Str} : front ≠ [] → StarMatch dyn front [['*']]

/-- `:x` -/
def Colon (seg : Str) : Prop := ∃ x, seg = ':' :: x

/-- `{x}` -/
def Braces (seg : Str) : Prop := ∃ x, seg = '{' :: x ++ ['}']

end Fastac
