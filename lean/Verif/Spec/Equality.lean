import Verif.Model.Equality

/-!
# Which resources are compared
-/

namespace Vecmem

/-- Neither the resource nor one it uses through `identity_memory_resource` is synchronized. -/
def Rsc.Unsynchronized : Rsc → Prop
  | .synchronized _ => False
  | .identity up => Unsynchronized up
  | _ => True

/-- The resource without the synchronized resources in it. -/
def Rsc.strip : Rsc → Rsc
  | .identity up => .identity (strip up)
  | .synchronized up => strip up
  | r => r

/-- The resource at the bottom. -/
def Rsc.bottom : Rsc → Rsc
  | .identity up => bottom up
  | .synchronized up => bottom up
  | r => r

/-- No SYCL resource at the bottom. -/
def Rsc.NoSycl : Rsc → Prop
  | .sycl _ _ => False
  | .identity up => NoSycl up
  | .synchronized up => NoSycl up
  | _ => True

end Vecmem
