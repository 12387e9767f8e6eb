import Verif.Model.Array
import Verif.Model.BTree

/-!
# Model of `with_element_size`

The size function is a parameter of the methods of the models; the calls that follow use the new one.
-/

namespace Byoc

/-- src/array/array.rs 97-106: `with_element_size`; the state is kept. -/
def Array.withElementSize {K V : Type} (a : Array K V) : Res (Array K V) :=
  if a.totalSize > 0 then .panic else .ok a

/-- src/btree/btree.rs 117-126: `with_element_size`; the state is kept. -/
def BTree.withElementSize {K V : Type} (t : BTree K V) : Res (BTree K V) :=
  if t.totalSize > 0 then .panic else .ok t

end Byoc
