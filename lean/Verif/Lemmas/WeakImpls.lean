import Verif.Lemmas.WeakMemory

/-!
# Lemmas: the atomic references on weak memory
-/

namespace Vecmem

open WSys

variable {w : Nat}

theorem posix_releases {e : WEvent w} {code : WCode w} (hc : posixWeak e.call = some code) (hd : Did code.acc e.read e.wrote)
    (hr : e.Releases) : CodeReleases posixWeak e := by
  obtain ⟨hs, ho⟩ := hr
  refine ⟨code, hc, hs, ?_⟩
  obtain ⟨th, ad, call, rd, wr⟩ := e
  simp only [WEvent.order] at hc hd hs ho
  cases call with
  | read => simp at ho
  | write x => simp at ho
  | atomic op o =>
    cases op <;> cases o with
    | none => simp_all [posixWeak, builtinOrder, builtinStore, builtinLoad, builtinUpdate, builtinCompare, posixCompare, casOrders, casAssertion,
        orderRel]; (try subst hc); simp_all [Did]
    | some o => cases o <;> simp_all [posixWeak, builtinOrder, builtinStore, builtinLoad, builtinUpdate, builtinCompare, posixCompare, casOrders, casAssertion,
        orderRel] <;> (try subst hc) <;> simp_all [Did]
  | compareExchange2 x d su fa =>
    cases su <;> cases fa <;> simp_all [posixWeak, builtinOrder, builtinCompare, posixCompare, casAssertion, orderRel] <;> (try subst hc) <;> simp_all [Did]

theorem posix_acquires {e : WEvent w} {code : WCode w} (hc : posixWeak e.call = some code) (hd : Did code.acc e.read e.wrote)
    (hr : e.Acquires) : CodeAcquires posixWeak e := by
  obtain ⟨hs, ho⟩ := hr
  refine ⟨code, hc, hs, ?_⟩
  obtain ⟨th, ad, call, rd, wr⟩ := e
  simp only [WEvent.order] at hc hd hs ho
  cases call with
  | read => simp at ho
  | write x => simp at ho
  | atomic op o =>
    cases op <;> cases o with
    | none => cases wr <;> simp_all [posixWeak, builtinOrder, builtinStore, builtinLoad, builtinUpdate, builtinCompare, posixCompare, casOrders, casAssertion,
        orderAcq] <;> (try subst hc) <;> simp_all [Did]
    | some o => cases wr <;> cases o <;> simp_all [posixWeak, builtinOrder, builtinStore, builtinLoad, builtinUpdate, builtinCompare, posixCompare, casOrders, casAssertion,
        orderAcq] <;> (try subst hc) <;> simp_all [Did]
  | compareExchange2 x d su fa =>
    cases wr <;> cases su <;> cases fa <;> simp_all [posixWeak, builtinOrder, builtinCompare, posixCompare, casAssertion, orderAcq] <;> (try subst hc) <;> simp_all [Did]

/-- With the order given, the references of SYCL are like those with the built-in functions. -/
theorem syclBuiltin_eq {c : WCall w} (h : ∀ op, c ≠ .atomic op none) : syclBuiltinWeak c = posixWeak c := by
  cases c with
  | atomic op o =>
    cases o with
    | none => exact absurd rfl (h op)
    | some o => rfl
  | _ => rfl

theorem correct_of_did {I : WImpl w} (hI : I = posixWeak ∨ I = cudaWeak ∨ I = syclWeak ∨ I = syclBuiltinWeak) {e : WEvent w}
    {code : WCode w} (hc : I e.call = some code) (hd : Did code.acc e.read e.wrote) : e.Correct := by
  obtain ⟨th, ad, call, rd, wr⟩ := e
  have hopt : ∀ (v x d : BitVec w) (t : Nat), Option.map (fun y => (t + 1, y)) (if v = x then some d else none) = if v = x then some (t + 1, d) else none := by
    intro v x d t; split <;> rfl
  cases call with
  | read => rcases hI with rfl | rfl | rfl | rfl <;> (cases hc; exact hd)
  | write x => rcases hI with rfl | rfl | rfl | rfl <;> (cases hc; exact hd)
  | atomic op o =>
    rcases hI with rfl | rfl | rfl | rfl <;> cases op <;>
      simp only [posixWeak, cudaWeak, syclWeak, syclBuiltinWeak, gpuUpdate, gpuCompare, builtinStore, builtinLoad, builtinUpdate,
        builtinCompare, posixCompare, Option.some.injEq] at hc <;> (try split at hc) <;> cases hc <;>
      simpa only [WEvent.Correct, AOp.spec, Did, hopt, BitVec.sub_eq_add_neg, Option.map_some] using hd
  | compareExchange2 x d su fa =>
    rcases hI with rfl | rfl | rfl | rfl <;>
      simp only [posixWeak, cudaWeak, syclWeak, syclBuiltinWeak, gpuCompare, builtinCompare, posixCompare] at hc <;> split at hc <;> cases hc <;> simpa only [WEvent.Correct, Did, hopt] using hd

/-- A value that was written by one access only is read by those that happen after it. -/
theorem only_write {R A : WEvent w → Prop} {m : AMem w} {tr : WTrace w} (ho : tr.Ordered R A) (hf : tr.FromWrites m) {i j : Nat}
    {e f : WEvent w} {t t' : Nat} {x v : BitVec w} (hb : tr.HappensBefore R A i j) (hi : tr[i]? = some e) (hj : tr[j]? = some f)
    (hadr : e.addr = f.addr) (hw : e.wrote = some (t, x)) (hr : f.read = some (t', v))
    (only : ∀ (k : Nat) (g : WEvent w), tr[k]? = some g → g.addr = e.addr → g.wrote.isSome → k = i) : v = x := by
  have h1 := (ho i j e f hb hi hj hadr t (.inr ⟨x, hw⟩)).1 t' v hr
  have h2 := hf.2.1 i e t x hi hw
  rcases hf.1 j f t' v hj hr with ⟨h3, -⟩ | ⟨k, g, -, h4, h5, h6⟩
  · omega
  · have hk := only k g h4 (by rw [h5, hadr]) (by rw [h6]; rfl)
    subst hk
    cases hi.symm.trans h4
    rw [hw] at h6
    cases h6
    rfl

end Vecmem
