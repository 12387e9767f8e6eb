import Verif.Model.FileBacked

/-!
# Model of the provided methods of the trait of streams: `len` and `is_empty`
-/

namespace Byoc

/-- src/stream/mod.rs 64-66: `len`. -/
def VecStream.len (s : VecStream) : Nat × VecStream := s.seek (.end 0)

/-- src/stream/mod.rs 68-73: `is_empty`. -/
def VecStream.isEmpty (s : VecStream) : Bool × VecStream := (decide (s.len.1 > 0), s.len.2)

/-- src/stream/mod.rs 64-66: `len`; `none` is `Err`. -/
def FileStream.len (s : FileStream) : Option (Nat × FileStream) := s.seek (.end 0)

/-- src/stream/mod.rs 68-73: `is_empty`; `none` is `Err`. -/
def FileStream.isEmpty (s : FileStream) : Option (Bool × FileStream) := s.len.map fun x => (decide (x.1 > 0), x.2)

end Byoc
