import Verif.Lite.MapsModel
import Verif.Lite.LieSpec

/-!
# Vocabulary for the maps between Lie elements and tensors
-/

namespace RoughPy.Lite

/-- What the maps of a width and depth can remember: they are created with nothing remembered
except products of Lie keys; expansions and bracketings, of any keys, are computed; and products
of Lie keys are computed by other objects of the width. -/
inductive MapsHistory (w depth : ℕ) (hs : HallSet) : MapsState → Prop
  | fresh {c : LieCache} : LieHistory w c → MapsHistory w depth hs ⟨fun _ => none, fun _ => none, c⟩
  | expand {st : MapsState} {fuel : ℕ} {k : Key} {p : Product} {memo : Memo} :
      MapsHistory w depth hs st → expand w depth hs fuel st.expanded k = some (p, memo) →
      MapsHistory w depth hs { st with expanded := memo }
  | bracket {st : MapsState} {fuel fuel' : ℕ} {k : Key} {p : Product} {memo : Memo} {c : LieCache} :
      MapsHistory w depth hs st →
      rbracketing w depth hs (lieProd hs depth fuel') fuel (st.bracketed, st.lie) k =
        some (p, memo, c) →
      MapsHistory w depth hs { st with bracketed := memo, lie := c }
  | other {st : MapsState} {c : LieCache} : MapsHistory w depth hs st → LieHistory w c →
      MapsHistory w depth hs { st with lie := c }

end RoughPy.Lite
