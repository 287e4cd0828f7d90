import Verif.Model.EdmCopy
import Verif.Model.EdmHost

/-!
# Model of `vecmem::copy` from containers to host containers

Of the host container only the sizes and addresses of its arrays are modelled: one array for a scalar (of one element) or a
vector, and as many as there are inner vectors for a jagged vector.
-/

namespace Vecmem

open Prog

/-- The sizes that the arrays of one variable get, impl/copy.ipp:805-833, in a container with jagged vectors. -/
def hostSizesVar : VarView → Prog (List Nat)
  | .scalar _ => .ret (.ok [1])
  | .vector v => (getSize v).bind fun n => .ret (.ok [n])
  | .jagged j => getSizes j.views

/-- The recursion of `resize_impl`, impl/copy.ipp:837-840, which collects the sizes. -/
def hostSizesVars : List VarView → Prog (List (List Nat))
  | [] => .ret (.ok [])
  | x :: xs => (hostSizesVar x).bind fun n => (hostSizesVars xs).bind fun ns => .ret (.ok (n :: ns))

/-- `resize_impl`, impl/copy.ipp:765-842.  Without jagged vectors the size is read as by `get_size`, and all vectors are
resized (edm/impl/host.ipp:41-53).  (A failure of `std::vector::resize` is an exception that is passed on; it is not modelled
here.) -/
def hostSizes (dbg : Bool) (S : Schema) (src : EdmView) : Prog (List (List Nat)) :=
  if S.hasJagged then hostSizesVars src.vars
  else (getSizeEdm dbg S src).bind fun n => .ret (.ok (S.map fun v => if v.kind = .vector then [n] else [1]))

/-- What `host_traits.hpp:99-108` says is the size of a variable, if its arrays have these sizes. -/
def Var.outerSize (v : Var) (sizes : List Nat) : Option Nat :=
  match v.kind with
  | .scalar => none
  | .vector => some (sizes.headD 0)
  | .jagged => some sizes.length

/-- The view of one variable that `get_data` makes, edm/impl/host.ipp:172-203 (for jagged vectors compare `fillViews`). -/
def Var.hostView (v : Var) (sizes addrs : List Nat) : VarView :=
  match v.kind with
  | .scalar => .scalar (addrs.headD 0)
  | .vector => .vector ⟨sizes.headD 0 % 2 ^ 32, 0, addrs.headD 0⟩
  | .jagged => .jagged ⟨List.zipWith (fun n p => ⟨n % 2 ^ 32, 0, p⟩) sizes addrs, 0, 0⟩

/-- The views of all variables.
Code: `core/include/vecmem/edm/impl/host.ipp`, lines 166-297 (`get_data`). -/
def hostVars (S : Schema) (sizes addrs : List (List Nat)) : List VarView :=
  List.zipWith (fun v sa => v.hostView sa.1 sa.2) S (List.zip sizes addrs)

/-- `get_data` of a host container, edm/impl/host.ipp:205-230: an exception if `size()` throws.  (The allocation of the
arrays of views is not modelled here.) -/
def hostData (S : Schema) (sizes addrs : List (List Nat)) : Res EdmView :=
  (getHostSize (List.zipWith Var.outerSize S sizes) 0 false).map fun n =>
    { capacity := n % 2 ^ 32, vars := hostVars S sizes addrs }

/-- `operator()` from a container to a host container, impl/copy.ipp:434-446.  `place` gives the addresses of the arrays of
the host container once they have these sizes.  (With only scalars it does not compile.) -/
def copyEdmToHost (dbg : Bool) (S : Schema) (src : EdmView) (place : List (List Nat) → List (List Nat)) : Prog Nat :=
  (hostSizes dbg S src).bind fun sizes =>
    (Prog.ret (hostData S sizes (place sizes))).bind fun dst => copyEdm dbg S src dst

/-- A copy from a host container, `operator()(get_data(host), dst)`, edm/impl/host.ipp:205-230 and impl/copy.ipp:354-432. -/
def copyEdmFromHost (dbg : Bool) (S : Schema) (sizes addrs : List (List Nat)) (dst : EdmView) : Prog Nat :=
  (Prog.ret (hostData S sizes addrs)).bind fun src => copyEdm dbg S src dst

end Vecmem
