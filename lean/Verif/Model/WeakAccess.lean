import Verif.Model.WeakVector
import Verif.Model.EdmPipeline

/-!
# Model of kernels that load and store elements on weak memory

The threads are those of `Model/EdmPipeline` (`KProg`); on the machine of `Model/WeakMemory` every byte of the memory is a variable, and an element is read and written
byte by byte (simplification: hardware uses larger pieces, and variables of the machine are wider than a byte).
-/

namespace Vecmem

/-- The bytes of the memory as variables of the machine.
No counterpart in /repo: memory as bytes. -/
def byteVars (m : Mem) : AMem 32 := fun a => BitVec.ofNat 32 (m a).toNat

/-- The byte that was read.
No counterpart in /repo: memory as bytes. -/
def byteOf (r : Option (BitVec 32)) : UInt8 := UInt8.ofNat (r.getD 0).toNat

/-- Read `t` bytes from address `a` on: an lvalue-to-rvalue conversion of a reference that was returned by impl/device_vector.ipp:62-100. -/
def readBytes (k : Elem → WProg 32) : Nat → Nat → Elem → WProg 32
  | 0, _, l => k l
  | t + 1, a, l => .act a .read fun r => readBytes k t (a + 1) (l ++ [byteOf r])

/-- Write bytes from address `a` on: an assignment to a reference that was returned by impl/device_vector.ipp:62-100. -/
def writeBytes (k : WProg 32) : Nat → Elem → WProg 32
  | _, [] => k
  | a, x :: l => .act a (.write (BitVec.ofNat 32 x.toNat)) fun _ => writeBytes k (a + 1) l

/-- The accesses of a thread.  `loc` gives the size and the address of each element (`EdmView.locate`): the views and the sizes, which it depends on, are not
changed by the kernel, and reading them is left out (simplification).  If there is no such element, behaviour is undefined.
Code: `core/include/vecmem/containers/impl/device_vector.ipp`, lines 62-100; `core/include/vecmem/containers/impl/jagged_device_vector.ipp`, lines 43-82;
`core/include/vecmem/edm/impl/device.ipp`, lines 106-165. -/
def KProg.code (loc : Cell → Option (Nat × Nat)) : KProg → WProg 32
  | .done => .done
  | .load c next =>
    match loc c with
    | some (t, a) => readBytes (fun x => (next x).code loc) t a []
    | none => .failed
  | .store c x next =>
    match loc c with
    | some (_, a) => writeBytes (next.code loc) a x
    | none => .failed

end Vecmem
