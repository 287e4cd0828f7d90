import Verif.Model.WeakVector
import Verif.Model.DeviceVectorConcurrent

/-!
# Model of kernels that append to a `vecmem::device_vector` on weak memory

The calls are those of `Model/DeviceVectorConcurrent`, for vectors of any element type; on the machine of `Model/WeakMemory` an element is several
variables, which are written one after the other.
-/

namespace Vecmem

variable {α : Type} {w : Nat}

/-- The stores that make an element of the vector, `j` places behind the first new one, out of the words `l`: `construct`,
impl/device_vector.ipp:511-520 (`new (ptr) value_type(value)`).  That an element is constructed word by word is a simplification: a compiler may write it in other pieces. -/
def wordStores (j : Nat) (l : List (BitVec w)) : List (Nat × Nat × BitVec w) := l.zipIdx.map fun x => (x.2, j, x.1)

/-- An element of bytes, as words: every byte is a variable of its own (simplification: the variables of the machine are as wide as the size).
No counterpart in /repo: memory as bytes. -/
def byteWords (e : List UInt8) : List (BitVec 32) := e.map fun b => BitVec.ofNat 32 b.toNat

/-- The words of an argument.  A reference to an element of the vector itself is not modelled here (no words).
No counterpart in /repo: C++ references. -/
def Arg.words (words : α → List (BitVec w)) : Arg α → List (BitVec w)
  | .val x => words x
  | .elem _ => []

/-- A call as `fetch_add`, assertion and stores: `emplace_back` and `push_back`, impl/device_vector.ipp:175-214; `bulk_append`,
impl/device_vector.ipp:216-257; `bulk_append_implicit` and `bulk_append_implicit_unsafe`, impl/device_vector.ipp:259-294. -/
def ACall.weak (words : α → List (BitVec w)) (dflt : α) : ACall α → WAppend w
  | .push a => ⟨1, true, wordStores 0 (a.words words)⟩
  | .emplace a => ⟨1, true, wordStores 0 (a.words words)⟩
  | .bulk n => ⟨n, false, (List.range n).flatMap fun j => wordStores j (words dflt)⟩
  | .bulkValue n a => ⟨n, false, (List.range n).flatMap fun j => wordStores j (a.words words)⟩
  | .bulkImplicit n => ⟨n, false, []⟩

/-- A thread that makes the calls one after the other.
No counterpart in /repo: kernels of users. -/
def WTask.calls (words : α → List (BitVec w)) (dflt : α) : List (ACall α) → WTask w
  | [] => .done
  | c :: cs => .append (c.weak words dflt) fun _ => calls words dflt cs

end Vecmem
