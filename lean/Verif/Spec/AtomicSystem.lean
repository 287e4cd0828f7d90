import Verif.Model.Atomics

/-!
# What atomic operations of several threads promise
-/

namespace Vecmem

variable {w : Nat}

/-- `o` is an order in which the operations that have had their effect can have happened one by one, as meant: they lead from
the memory `m` to the present one, and for every thread they are those that have returned, with what was returned, and
perhaps its current one. -/
structure Linearizes {I : AImpl w} (m : AMem w) (g : ASys I) (o : List (Nat × ADone w)) : Prop where
  sequential : OneByOne m (o.map (·.2)) g.mem
  threads : ∀ x ∈ o, x.1 < g.threads.length
  own : ∀ (i : Nat) (t : AThread I), g.threads[i]? = some t →
    ∃ pending, (o.filter (·.1 = i)).map (·.2) = t.done ++ pending ∧
      (pending = [] ∨ ∃ x s, pending = [x] ∧ t.now = some (x.call, s))

/-- Nothing else runs while an operation does: the operation ends, and has done what it is meant to do. -/
def AImpl.WorksAlone (I : AImpl w) (op : AOp w) : Prop :=
  ∀ v, ∃ n, ∀ (g : ASys I) (i : Nat) (t : AThread I) (c : ACallAt w) (cs : List (ACallAt w)),
    g.threads[i]? = some t → t.now = none → t.todo = c :: cs → c.op = op → g.mem c.addr = v →
    g.run (List.replicate n i) =
      { mem := fun a => if a = c.addr then (op.spec v).1 else g.mem a,
        threads := g.threads.set i { todo := cs, now := none, done := t.done ++ [⟨c, (op.spec v).2⟩] } }

/-- C47: `compare_exchange_strong(e, d)` on a variable with the value `v`, in one access: the new value, what is returned,
and what is in `expected` afterwards. -/
def AImpl.ComparesTo (I : AImpl w) (v e d : BitVec w) (v' : BitVec w) (success : Bool) (e' : BitVec w) : Prop :=
  ∃ f, I.act (I.start (.compareExchange e d)) = .access f ∧ (f v).1 = v' ∧ I.act (f v).2 = .ret (.compared success e')

end Vecmem
