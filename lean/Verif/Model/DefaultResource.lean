/-!
# Model of `default_resource_polyfill.cpp`

`M/default_resource_polyfill.cpp`: a replacement for the standard library's default memory resource.  The default resource
is an atomic pointer; the null pointer is address 0.
-/

namespace Vecmem.Default

/-- `get_default_resource()` or `set_default_resource(p)`.
Code: `core/src/memory/default_resource_polyfill.cpp`, lines 38-48. -/
inductive Op where
  | get
  | set (p : Nat)
deriving DecidableEq, Repr

/-- `default_resource()`: a function-local static atomic pointer, which is made to point to
`new_delete_resource()` (here `nd`) when it is first used.  `none`: not used yet.  (C++ makes the initialisation safe when
threads race for it.)
Code: `core/src/memory/default_resource_polyfill.cpp`, lines 24-27. -/
def current (nd : Nat) (s : Option Nat) : Nat := s.getD nd

/-- One call.  `get_default_resource` (lines 38-40) is an atomic load.  `set_default_resource` (lines 42-48) replaces null by
`new_delete_resource()` and exchanges the pointer atomically; it returns the old one.
Code: `core/src/memory/default_resource_polyfill.cpp`, lines 38-48. -/
def call (nd : Nat) (s : Option Nat) : Op → Nat × Option Nat
  | .get => (current nd s, some (current nd s))
  | .set p => (current nd s, some (if p = 0 then nd else p))

/-- Threads call the functions in the order of `calls`, whose entries are the number of the thread and what it calls: every
interleaving of any programs is such a list, as each call has one atomic access.  The results, and the state after.
No counterpart in /repo: threads and their interleaving. -/
def run (nd : Nat) (s : Option Nat) : List (Nat × Op) → List (Nat × Op × Nat) × Option Nat
  | [] => ([], s)
  | (t, op) :: cs =>
    let r := call nd s op
    let rs := run nd r.2 cs
    ((t, op, r.1) :: rs.1, rs.2)

end Vecmem.Default
