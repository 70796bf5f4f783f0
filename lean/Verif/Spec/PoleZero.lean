import Verif.Model.Layout

/-! # Specification: the poles and zeros held by a layout, and the history of insertions -/

namespace Edsp.Spec

/-- The poles of a layout: both members of every complete pair and the first member of the last,
single one. -/
def polesOf (l : Layout) : List Pt :=
  ((l.pairs.take (l.poles / 2)).flatMap fun q => [q.p1, q.p2]) ++
    (if l.poles % 2 = 1 then l.pairs[l.poles / 2]?.toList.map (·.p1) else [])

/-- The zeros of a layout. -/
def zerosOf (l : Layout) : List Pt :=
  ((l.pairs.take (l.poles / 2)).flatMap fun q => [q.z1, q.z2]) ++
    (if l.poles % 2 = 1 then l.pairs[l.poles / 2]?.toList.map (·.z1) else [])

/-- What has been inserted: pole, zero, second pole, second zero and the number of poles that count. -/
abbrev Entry := (Pt × Pt × Pt × Pt) × Nat

/-- The history of insertions since the last reset. -/
noncomputable def record (es : List Entry) : Layout.Op → List Entry
  | .insert p z => es ++ [((p, z, some 0, some 0), 1)]
  | .insertConj p z => es ++ [((p, z, p.map (starRingEnd ℂ), z.map (starRingEnd ℂ)), 2)]
  | .insertPair p1 p2 z1 z2 => es ++ [((p1, z1, p2, z2), 2)]
  | .reset => []

/-- The number of poles inserted. -/
def poleCount (es : List Entry) : Nat := (es.map (·.2)).sum

end Edsp.Spec
