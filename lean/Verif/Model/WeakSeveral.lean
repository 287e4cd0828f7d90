import Verif.Model.WeakKernel

/-!
# Model of appends to several vectors at once on weak memory

The vectors are numbered: they are vectors of several buffers, rows of a jagged vector, or containers.
-/

namespace Vecmem

variable {α : Type} {w : Nat}

/-- What a thread does with the vectors: nothing more; an access; or a call that appends to vector `k`, which returns the index.
No counterpart in /repo: programs of users. -/
inductive MTask (w : Nat) where
  | done
  | access (addr : Nat) (call : WCall w) (next : Option (BitVec w) → MTask w)
  | append (k : Nat) (c : WAppend w) (next : Nat → MTask w)

/-- The accesses of a program: an appending call is `fetch_add` on the size of the vector with its default order, the assertion, and the stores.
Code: `core/include/vecmem/containers/impl/device_vector.ipp`, lines 175-294; `core/include/vecmem/containers/impl/jagged_device_vector.ipp`, lines 67-80 (`operator[]` gives the device vector
of a row); `core/include/vecmem/edm/impl/device.ipp`, lines 55-84. -/
def MTask.code (V : Nat → WVec) : MTask w → WProg w
  | .done => .done
  | .access a c next => .act a c fun r => (next r).code V
  | .append k c next => .act (V k).size (.atomic (.fetchAdd (BitVec.ofNat w c.count)) none) fun r =>
      if (V k).dbg && !c.check (V k).cap (r.getD 0).toNat then .failed
      else (V k).stores (r.getD 0).toNat ((next (r.getD 0).toNat).code V) c.stores

/-- A thread that makes the calls one after the other, each on the vector with the number given.
No counterpart in /repo: kernels of users. -/
def MTask.calls (words : Nat → α → List (BitVec w)) (dflt : Nat → α) : List (Nat × ACall α) → MTask w
  | [] => .done
  | (k, c) :: cs => .append k (c.weak (words k) (dflt k)) fun _ => calls words dflt cs

end Vecmem
