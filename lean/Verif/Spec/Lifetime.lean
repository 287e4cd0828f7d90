import Verif.Model.UniquePtr
import Verif.Spec.Buffers

/-!
# Specification: traces in which memory and objects are used correctly

`Traced tr B O`: in the trace, memory is returned exactly as it was obtained, objects are constructed in memory that
is held and not used by another object, each destroyed object is alive, and no memory with a living object is
returned; at the end, the blocks `B` are held and the objects `O` alive (as multisets).  So each block is returned
at most once, and exactly once if it is not in `B`; likewise objects are destroyed exactly once if not in `O`.
-/

namespace Vecmem

inductive Traced {ι : Type} : List (Ev ι) → List (ι × Blk) → List Blk → Prop
  | nil : Traced [] [] []
  | alloc {tr B O} (i : ι) (p n a : Nat) : Traced tr B O → 0 < n →
      Traced (tr ++ [.alloc i p n a]) ((i, ⟨p, n, a⟩) :: B) O
  | allocZero {tr B O} (i : ι) (p a : Nat) : Traced tr B O → Traced (tr ++ [.alloc i p 0 a]) B O
  | free {tr B O i b} : Traced tr ((i, b) :: B) O → (∀ o ∈ O, Blk.Disjoint o b) →
      Traced (tr ++ [.free i b.addr b.size b.align]) B O
  | ctor {tr B O} (o : Blk) : Traced tr B O → (∃ e ∈ B, o.Inside e.2) → (∀ x ∈ O, Blk.Disjoint o x) →
      Traced (tr ++ [.ctor o]) B (o :: O)
  | dtor {tr B O o} : Traced tr B (o :: O) → Traced (tr ++ [.dtor o]) B O
  | copy {tr B O} (p n : Nat) : Traced tr B O → (n ≠ 0 → ∃ e ∈ B, e.2.addr = p ∧ e.2.size = n) →
      Traced (tr ++ [.copy p n]) B O
  | perm {tr B B' O O'} : Traced tr B O → B.Perm B' → O.Perm O' → Traced tr B' O'

variable {ι : Type}

/-- The element type and the number of elements a factory is asked for. -/
def Factory.request : Factory → CType × Nat
  | .obj t | .alloc t | .allocCopy t => (t, 1)
  | .objArray t n | .allocArray t n | .allocArrayCopy t n => (t, n)

/-- Is the factory one that constructs objects? -/
def Factory.isObj : Factory → Bool
  | .obj _ | .objArray _ _ => true
  | _ => false

/-- A program uses only existing variables, asks for representable sizes within the limits, and its constructors
do not throw. -/
def POp.Valid (R : Limits) (slots : Nat) : POp ι → Prop
  | .make d _ f fail => d < slots ∧ fail = none ∧ 0 < f.request.1.size ∧ IsReq R (f.request.2 * f.request.1.size) maxAlign
  | .move d s => d < slots ∧ s < slots
  | .reset d | .release d => d < slots
  | .swap d e => d < slots ∧ e < slots

/-- The block a pointer owns: nothing, if it is null. -/
def UPtr.owns (x : UPtr ι) : List (ι × Blk) :=
  if x.ptr = 0 then []
  else match x.del.mr with
    | none => []
    | some i => [(i, ⟨x.ptr, x.del.size, maxAlign⟩)]

/-- The objects a pointer owns: the elements of its array, if it is a pointer from `make_unique_obj`. -/
def UPtr.objects (x : UPtr ι) : List Blk :=
  if x.ptr = 0 then []
  else match x.del.kind with
    | .alloc => []
    | .obj => [⟨x.ptr, x.del.elem.size, x.del.elem.align⟩]
    | .objArray => (List.range x.del.elems).map fun k => ⟨x.ptr + k * x.del.elem.size, x.del.elem.size, x.del.elem.align⟩

end Vecmem
