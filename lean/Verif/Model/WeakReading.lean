import Verif.Model.WeakAccess
import Verif.Model.WeakContainer
import Verif.Model.WeakSeveral

/-!
# Model of kernels that read their inputs on weak memory, and append

A thread loads elements of input containers, as in `Model/WeakAccess`, and makes calls that append to another container, as in `Model/WeakContainer`; both depend on what it has
loaded before.
-/

namespace Vecmem

/-- What a thread still does: nothing; load an element of an input, and go on depending on its value; or make a call that appends, and go on.
No counterpart in /repo: kernels of users. -/
inductive RTask (γ : Type) where
  | done
  | load (input : Nat) (c : Cell) (next : Elem → RTask γ)
  | call (x : γ) (next : RTask γ)

/-- Read `t` bytes from address `a` on, of which variable `B a` of the machine is the first: see `readBytes`, impl/device_vector.ipp:62-100. -/
def readInput (B : Nat → Nat) (k : Elem → WProg 32) : Nat → Nat → Elem → WProg 32
  | 0, _, l => k l
  | t + 1, a, l => .act (B a) .read fun r => readInput B k t (a + 1) (l ++ [byteOf r])

/-- The accesses of a call that appends, after which `k` is left to be done: `fetch_add` on the size, the assertion, and the stores, as in `WTask.code`.
Code: `core/include/vecmem/containers/impl/device_vector.ipp`, lines 175-294; `core/include/vecmem/edm/impl/device.ipp`, lines 55-84. -/
def WAppend.code {w : Nat} (V : WVec) (c : WAppend w) (k : WProg w) : WProg w :=
  .act V.size (.atomic (.fetchAdd (BitVec.ofNat w c.count)) none) fun r =>
    if V.dbg && !c.check V.cap (r.getD 0).toNat then .failed else V.stores (r.getD 0).toNat k c.stores

/-- The accesses of a thread.  `locs` gives the size and the address of each element of each input (`EdmView.locate`): the views and the sizes, which it depends on,
are not changed by the kernel, and reading them is left out (simplification).  If there is no such element, behaviour is undefined.
Code: `core/include/vecmem/containers/impl/device_vector.ipp`, lines 62-100; `core/include/vecmem/containers/impl/jagged_device_vector.ipp`, lines 43-82;
`core/include/vecmem/edm/impl/device.ipp`, lines 106-165. -/
def RTask.code {γ : Type} (locs : Nat → Cell → Option (Nat × Nat)) (B : Nat → Nat) (call : γ → WProg 32 → WProg 32) : RTask γ → WProg 32
  | .done => .done
  | .load k c next =>
    match locs k c with
    | some (t, a) => readInput B (fun x => (next x).code locs B call) t a []
    | none => .failed
  | .call x next => call x (next.code locs B call)

/-- What a thread still does that loads elements of inputs, and loads and stores elements of another container.
No counterpart in /repo: kernels of users. -/
inductive IProg where
  | done
  | input (k : Nat) (c : Cell) (next : Elem → IProg)
  | load (c : Cell) (next : Elem → IProg)
  | store (c : Cell) (x : Elem) (next : IProg)

/-- The accesses of such a thread, as those of `KProg.code`.
Code: `core/include/vecmem/containers/impl/device_vector.ipp`, lines 62-100; `core/include/vecmem/containers/impl/jagged_device_vector.ipp`, lines 43-82;
`core/include/vecmem/edm/impl/device.ipp`, lines 106-165. -/
def IProg.code (loc : Cell → Option (Nat × Nat)) (locs : Nat → Cell → Option (Nat × Nat)) : IProg → WProg 32
  | .done => .done
  | .input k c next =>
    match locs k c with
    | some (t, a) => readBytes (fun x => (next x).code loc locs) t a []
    | none => .failed
  | .load c next =>
    match loc c with
    | some (t, a) => readBytes (fun x => (next x).code loc locs) t a []
    | none => .failed
  | .store c x next =>
    match loc c with
    | some (_, a) => writeBytes (next.code loc locs) a x
    | none => .failed

end Vecmem
