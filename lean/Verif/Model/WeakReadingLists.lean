import Verif.Model.WeakReading
import Verif.Model.JagPipeline

/-!
# Model of kernels that read vectors and jagged vectors on weak memory, and append

As `Model/WeakReading`, for the buffers of `Model/JagPipeline`.
-/

namespace Vecmem

/-- The size and the address of an element of one of the vectors with the views `vs`, of elements of `t` bytes, that there are in an input.  An input is one variable.
Code: `core/include/vecmem/containers/impl/device_vector.ipp`, lines 62-100; `core/include/vecmem/containers/impl/jagged_device_vector.ipp`, lines 43-82. -/
def locateRow (vs : List View) (t : Nat) (m : Mem) (d : Cell) : Option (Nat × Nat) :=
  match d.var, vs[d.row]? with
  | 0, some v => if d.index < v.len m then some (t, v.ptr + d.index * t) else none
  | _, _ => none

/-- The size and the address of each element of the inputs: first the vector buffers `ins`, of which each has one row, and then the jagged buffers `jins`, whose rows are found through
the views in device memory.
Code: `core/include/vecmem/containers/impl/device_vector.ipp`, lines 62-100; `core/include/vecmem/containers/impl/jagged_device_vector.ipp`, lines 43-82. -/
def JPipe.locs {σ : Type} (p : JPipe σ) (c : JagCfg) (ins jins : List Nat) (i : Nat) (d : Cell) : Option (Nat × Nat) :=
  match ins[i]? with
  | some k => match p.vec.bufs.lookup k with
    | some b => locateRow [b.view] (c.vec.ty k).size p.vec.mem d
    | none => none
  | none => match jins[i - ins.length]? with
    | some k => match p.jags.lookup k with
      | some b => locateRow (b.deviceRows p.vec.mem) (c.ty k).size p.vec.mem d
      | none => none
    | none => none

end Vecmem
