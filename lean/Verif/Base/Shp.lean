import Verif.Model.Ops
/-!
# A tensor type that only knows its shape

Used for concrete examples about network structure (everything is decidable).  No acqdp code.
-/

namespace Verif

/-- A tensor known only by its `shape` property. -/
abbrev Shp := Option (List (Option Nat))

instance : NetTensor Shp where
  shape := id
  ofNet := TN.shape?
  shape_ofNet := fun _ => rfl

/-- An array of the given shape. -/
def shp (l : List Nat) : Shp := some (l.map some)

end Verif
