import Verif.Spec.Equality

/-!
# C50: equality of memory resources
-/

namespace Vecmem.Props

open Vecmem

/-- C50: `is_equal` is reflexive. -/
theorem c50_reflexive (a : Rsc) : a.isEqual a = true := by
  induction a with
  | identity up ih => simpa [Rsc.isEqual] using ih
  | synchronized up ih => simpa [Rsc.isEqual] using ih
  | _ => simp [Rsc.isEqual]

/-- C50: it is transitive. -/
theorem c50_transitive (a b c : Rsc) (hab : a.isEqual b = true) (hbc : b.isEqual c = true) : a.isEqual c = true := by
  induction a generalizing b c with
  | identity up ih =>
    cases b <;> simp [Rsc.isEqual] at hab
    cases c <;> simp [Rsc.isEqual] at hbc
    simpa [Rsc.isEqual] using ih _ _ hab hbc
  | synchronized up ih =>
    cases b with
    | synchronized up' =>
      simp only [Rsc.isEqual] at hab
      cases c <;> simp only [Rsc.isEqual] at hbc ⊢ <;> exact ih _ _ hab hbc
    | _ =>
      simp only [Rsc.isEqual] at hab
      cases c <;> simp only [Rsc.isEqual, Bool.false_eq_true] at hbc ⊢ <;> refine ih _ _ hab ?_ <;>
        simp [Rsc.isEqual, hbc] <;> simpa using hbc
  | _ =>
    cases b <;> simp [Rsc.isEqual] at hab <;> cases c <;> simp [Rsc.isEqual] at hbc ⊢ <;> simp_all

/-- C50: it is symmetric for resources that are not synchronized.
Missing: synchronized resources, for which it is not (`c50_not_symmetric`). -/
theorem c50_symmetric_partial (a b : Rsc) (ha : Rsc.Unsynchronized a) (hb : Rsc.Unsynchronized b) :
    a.isEqual b = b.isEqual a := by
  induction a generalizing b with
  | identity up ih =>
    cases b with
    | identity up' => exact ih _ ha hb
    | synchronized => exact hb.elim
    | _ => rfl
  | synchronized => exact ha.elim
  | _ =>
    cases b with
    | synchronized => exact hb.elim
    | _ => first | rfl | exact Bool.beq_comm

/-- C50: a synchronized resource is equal to the resource it uses, but not the other way round. -/
theorem c50_not_symmetric :
    (Rsc.synchronized .host).isEqual .host = true ∧ Rsc.host.isEqual (.synchronized .host) = false := by
  decide

/-- C50: more generally, exactly one direction holds for every resource that is not synchronized itself. -/
theorem c50_synchronized (a : Rsc) (ha : ∀ up, a ≠ .synchronized up) :
    (Rsc.synchronized a).isEqual a = true ∧ a.isEqual (.synchronized a) = false := by
  cases a with
  | synchronized up => exact absurd rfl (ha up)
  | _ => simp [Rsc.isEqual, c50_reflexive]

theorem isEqual_strip (a b : Rsc) (h : a.isEqual b = true) : (Rsc.strip a).isEqual (Rsc.strip b) = true := by
  induction a generalizing b with
  | identity up ih =>
    cases b <;> simp [Rsc.isEqual] at h
    simpa [Rsc.strip, Rsc.isEqual] using ih _ h
  | synchronized up ih =>
    cases b with
    | synchronized up' => exact ih up' h
    | _ => exact ih _ h
  | _ => cases b <;> simp [Rsc.isEqual] at h <;> simp_all [Rsc.strip, Rsc.isEqual]

/-- C50: two resources that are equal, in either direction, differ only in the synchronized resources they contain: without
these `is_equal` is symmetric. -/
theorem c50_up_to_synchronized (a b : Rsc) (h : a.isEqual b = true) :
    (Rsc.strip a).isEqual (Rsc.strip b) = true ∧ (Rsc.strip b).isEqual (Rsc.strip a) = true := by
  have un : ∀ r, Rsc.Unsynchronized (Rsc.strip r) := by
    intro r
    induction r with
    | identity up ih => exact ih
    | synchronized up ih => exact ih
    | _ => exact trivial
  refine ⟨isEqual_strip a b h, ?_⟩
  rw [c50_symmetric_partial _ _ (un b) (un a)]
  exact isEqual_strip a b h

variable {σ : Type}

/-- C50: equal resources can give back each other's memory: what `deallocate` does is the same, in every state of the machine and
for all arguments. -/
theorem c50_deallocate (M : Machine σ) (a b : Rsc) (h : a.isEqual b = true) :
    (a.mr M).deallocate = (b.mr M).deallocate := by
  induction a generalizing b with
  | identity up ih =>
    cases b <;> simp [Rsc.isEqual] at h
    simp only [Rsc.mr, identityMR, ih _ h]
  | synchronized up ih =>
    cases b with
    | synchronized up' => exact ih up' h
    | _ => exact ih _ h
  | _ => cases b <;> simp [Rsc.isEqual] at h <;> simp_all [Rsc.mr]

/-- C50: apart from SYCL, equal resources do the same for all calls. -/
theorem c50_same (M : Machine σ) (a b : Rsc) (h : a.isEqual b = true) (ha : Rsc.NoSycl a) : a.mr M = b.mr M := by
  induction a generalizing b with
  | identity up ih =>
    cases b <;> simp [Rsc.isEqual] at h
    simp only [Rsc.mr, ih _ h ha]
  | synchronized up ih =>
    cases b with
    | synchronized up' => exact ih up' h ha
    | _ => exact ih _ h ha
  | sycl => exact ha.elim
  | _ => cases b <;> simp [Rsc.isEqual] at h <;> simp_all [Rsc.mr]

/-- A machine on which every resource leaves a mark of its own. -/
def markMachine : Machine (Option Rsc) :=
  let mark (r : Rsc) : MR (Option Rsc) := ⟨fun _ _ _ => (.ok 1, some r), fun _ _ _ _ => (.ok (), some r)⟩
  { host := mark .host, cudaHost := mark .cudaHost, cudaManaged := mark .cudaManaged, cudaDevice := fun d => mark (.cudaDevice d),
    hipHost := mark .hipHost, hipManaged := mark .hipManaged, hipDevice := fun d => mark (.hipDevice d),
    syclAllocate := fun k q => (mark (.sycl k q)).allocate,
    syclDeallocate := fun q => (mark (.sycl .device q)).deallocate, object := fun a => mark (.object .pool a) }

theorem markMachine_mark (a : Rsc) : ((a.mr markMachine).deallocate none 1 1 1).2 = match a.bottom with
    | .terminal => none
    | .sycl _ q => some (.sycl .device q)
    | .object _ o => some (.object .pool o)
    | r => some r := by
  induction a with
  | identity up ih =>
    show ((identityMR (up.mr markMachine)).deallocate none 1 1 1).2 = _
    simpa [identityMR, Rsc.bottom] using ih
  | synchronized up ih => exact ih
  | _ => rfl

/-- C50: resources are told apart if they could not give back each other's memory: if what `deallocate` does is the same on every
machine, the resources at the bottom are equal. -/
theorem c50_finest (a b : Rsc)
    (h : ∀ (σ : Type) (M : Machine σ), (a.mr M).deallocate = (b.mr M).deallocate) :
    a.bottom.isEqual b.bottom = true := by
  have h1 := markMachine_mark a
  rw [h _ markMachine, markMachine_mark b] at h1
  have hb : ∀ r : Rsc, (∀ up, r.bottom ≠ .identity up) ∧ ∀ up, r.bottom ≠ .synchronized up := by
    intro r
    induction r with
    | identity up ih => exact ih
    | synchronized up ih => exact ih
    | _ => simp [Rsc.bottom]
  have ha := hb a
  have hb := hb b
  generalize a.bottom = x at *
  generalize b.bottom = y at *
  cases x with
  | identity up => exact absurd rfl (ha.1 up)
  | synchronized up => exact absurd rfl (ha.2 up)
  | _ =>
    cases y with
    | identity up => exact absurd rfl (hb.1 up)
    | synchronized up => exact absurd rfl (hb.2 up)
    | _ => simp_all [Rsc.isEqual]

/-- C50: SYCL resources for different kinds of memory on one queue are equal. -/
theorem c50_sycl_kinds (q : Nat) (k k' : SyclKind) : (Rsc.sycl k q).isEqual (.sycl k' q) = true := by
  simp [Rsc.isEqual]

/-- Two resources that are equal and not the same. -/
example :
    (Rsc.synchronized (.identity (.synchronized (.cudaDevice 1)))).isEqual (.identity (.cudaDevice 1)) = true ∧
      (Rsc.identity (.cudaDevice 1)).isEqual (.identity (.cudaDevice 2)) = false ∧
      (Rsc.object .pool 3).isEqual (.object .pool 4) = false := by
  decide

end Vecmem.Props
