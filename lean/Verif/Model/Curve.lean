import Verif.Model.Codec
import Verif.Model.Hash

/-!
# Curves with a serialization (`AffineCurve`)
-/

namespace Verif

/-- What the crate uses of an `AffineCurve` besides the group law: the fixed generator and the point codec. -/
structure Curve (G : Type) where
  /-- `C::prime_subgroup_generator()` -/
  gen : G
  /-- `serialize` / `deserialize` -/
  codec : Codec G

/-- ASCII bytes of a string literal. -/
def ascii (s : String) : List UInt8 := s.toList.map fun c => UInt8.ofNat c.toNat

end Verif
