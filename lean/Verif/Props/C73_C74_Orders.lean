import Verif.Lemmas.WeakImpls

/-!
# C73, C74: memory orders of the atomic references
-/

namespace Vecmem.Props

open Vecmem WSys

variable {w : Nat}

/-! ## C73: what is published is seen -/

/-- C73: with the POSIX references, every program of every number of threads has its accesses ordered as C++ promises from the memory
orders it has asked for. -/
theorem c73_posix {m : AMem w} {s : WSys w} (h : Reach posixWeak m s) :
    s.trace.Ordered WEvent.Releases WEvent.Acquires :=
  h.ordered (fun k e hk hr => by obtain ⟨code, hc, hd⟩ := h.values.did k e hk; exact posix_releases hc hd hr)
    (fun k e hk hr => by obtain ⟨code, hc, hd⟩ := h.values.did k e hk; exact posix_acquires hc hd hr)

/-- C73: with the CUDA and HIP references, the accesses are ordered by what stores publish to loads, directly or through other atomic
operations on the variable.
Missing: publications by and to the other operations, which do not take place (`c73_cuda_exchange`, `c73_cuda_acquire`). -/
theorem c73_cuda_partial {m : AMem w} {s : WSys w} (h : Reach cudaWeak m s) :
    s.trace.Ordered (fun e => e.Releases ∧ e.IsStore) (fun e => e.Acquires ∧ e.IsLoad) := by
  refine h.ordered (fun k e hk hr => ?_) (fun k e hk ha => ?_)
  · obtain ⟨⟨hs, -⟩, x, o, hx⟩ := hr
    exact ⟨⟨true, .store x false, false⟩, by rw [hx]; rfl, hs, Or.inr rfl⟩
  · obtain ⟨⟨hs, -⟩, o, hx⟩ := ha
    exact ⟨⟨true, .load false, true⟩, by rw [hx]; rfl, hs, Or.inr rfl⟩

/-- C73: with `sycl::atomic_ref`, the accesses are ordered as C++ promises if every operation is given its memory order.
Missing: the default order, which is not the strongest one but the weakest (`c73_sycl_default`). -/
theorem c73_sycl_builtin_partial {m : AMem w} {s : WSys w} (h : Reach syclBuiltinWeak m s)
    (hg : ∀ e ∈ s.trace, ∀ op, e.call ≠ .atomic op none) : s.trace.Ordered WEvent.Releases WEvent.Acquires := by
  refine h.ordered (fun k e hk hr => ?_) (fun k e hk hr => ?_)
  · obtain ⟨code, hc, hd⟩ := h.values.did k e hk
    have heq := syclBuiltin_eq (hg e (List.mem_of_getElem? hk))
    rw [heq] at hc
    obtain ⟨code', h1, h2⟩ := posix_releases hc hd hr
    exact ⟨code', by rw [heq]; exact h1, h2⟩
  · obtain ⟨code, hc, hd⟩ := h.values.did k e hk
    have heq := syclBuiltin_eq (hg e (List.mem_of_getElem? hk))
    rw [heq] at hc
    obtain ⟨code', h1, h2⟩ := posix_acquires hc hd hr
    exact ⟨code', by rw [heq]; exact h1, h2⟩

/-- C73: the values are right with all of them: every access does what it is meant to do to the value that it reads, and that value was written
by one earlier access, or is the initial one. -/
theorem c73_values (I : WImpl w) (hI : I = posixWeak ∨ I = cudaWeak ∨ I = syclWeak ∨ I = syclBuiltinWeak) {m : AMem w} {s : WSys w}
    (h : Reach I m s) : (∀ e ∈ s.trace, e.Correct) ∧ s.trace.FromWrites m := by
  refine ⟨fun e he => ?_, h.values.writes⟩
  obtain ⟨k, hk⟩ := List.getElem?_of_mem he
  obtain ⟨code, hc, hd⟩ := h.values.did k e hk
  exact correct_of_did hI hc hd

/-- The example: thread 0 writes 7 to variable 0, and then 1 to variable 1 with `put`; thread 1 reads variable 1 with `get`, and then
variable 0, where it finds the value `v` at position `t`. -/
def message (put get : WCall 8) (r : Option (Nat × BitVec 8)) (u : Option (Nat × BitVec 8)) (t : Nat) (v : BitVec 8) : WTrace 8 :=
  [⟨0, 0, .write 7, none, some (1, 7)⟩, ⟨0, 1, put, r, some (1, 1)⟩, ⟨1, 1, get, some (1, 1), u⟩, ⟨1, 0, .read, some (t, v), none⟩]

theorem message_not_ordered {put get : WCall 8} {r u : Option (Nat × BitVec 8)} {v : BitVec 8}
    (hp : (⟨0, 1, put, r, some (1, 1)⟩ : WEvent 8).Releases) (hg : (⟨1, 1, get, some (1, 1), u⟩ : WEvent 8).Acquires) :
    ¬ (message put get r u 0 v).Ordered WEvent.Releases WEvent.Acquires := by
  intro h
  have h01 : (message put get r u 0 v).HappensBefore WEvent.Releases WEvent.Acquires 0 1 :=
    .program ⟨_, _, rfl, rfl, rfl, by decide⟩
  have h12 : (message put get r u 0 v).HappensBefore WEvent.Releases WEvent.Acquires 1 2 :=
    .publish ⟨_, _, 1, rfl, hp, rfl, hg, .head, _, _, 1, 1, rfl, rfl, rfl, rfl, rfl⟩
  have h23 : (message put get r u 0 v).HappensBefore WEvent.Releases WEvent.Acquires 2 3 :=
    .program ⟨_, _, rfl, rfl, rfl, by decide⟩
  have := (h 0 3 _ _ ((h01.trans h12).trans h23) rfl rfl rfl 1 (.inr ⟨7, rfl⟩)).1 0 v rfl
  omega

/-- C73, for users of POSIX references: a value written once before a releasing operation is what a thread reads after an acquiring operation that
has read the value of the first one, or one derived from it by other operations. -/
theorem c73_message_posix {m : AMem w} {s : WSys w} (h : Reach posixWeak m s) {i p q j : Nat} {e f : WEvent w} {t t' : Nat} {x v : BitVec w}
    (hi : s.trace[i]? = some e) (hj : s.trace[j]? = some f) (hadr : e.addr = f.addr) (hw : e.wrote = some (t, x))
    (hr : f.read = some (t', v)) (only : ∀ (k : Nat) (g : WEvent w), s.trace[k]? = some g → g.addr = e.addr → g.wrote.isSome → k = i)
    (h₁ : s.trace.Before i p) (h₂ : s.trace.Synchronizes WEvent.Releases WEvent.Acquires p q) (h₃ : s.trace.Before q j) : v = x :=
  only_write (c73_posix h) h.values.writes (((WTrace.HappensBefore.program h₁).trans (.publish h₂)).trans (.program h₃)) hi hj hadr hw hr only

/-- C73, for users of CUDA and HIP references: the same, from stores to loads. -/
theorem c73_message_cuda_partial {m : AMem w} {s : WSys w} (h : Reach cudaWeak m s) {i p q j : Nat} {e f : WEvent w} {t t' : Nat} {x v : BitVec w}
    (hi : s.trace[i]? = some e) (hj : s.trace[j]? = some f) (hadr : e.addr = f.addr) (hw : e.wrote = some (t, x))
    (hr : f.read = some (t', v)) (only : ∀ (k : Nat) (g : WEvent w), s.trace[k]? = some g → g.addr = e.addr → g.wrote.isSome → k = i)
    (h₁ : s.trace.Before i p)
    (h₂ : s.trace.Synchronizes (fun e => e.Releases ∧ e.IsStore) (fun e => e.Acquires ∧ e.IsLoad) p q) (h₃ : s.trace.Before q j) : v = x :=
  only_write (c73_cuda_partial h) h.values.writes (((WTrace.HappensBefore.program h₁).trans (.publish h₂)).trans (.program h₃)) hi hj hadr hw hr
    only

/-- The hypotheses are met: a message with a store and a load of CUDA references. -/
example : ∃ s, Reach cudaWeak (fun _ => 0) s ∧ s.trace = message (.atomic (.store 1) none) (.atomic .load none) none none 1 7 ∧
    s.trace.Before 0 1 ∧ s.trace.Synchronizes (fun e => e.Releases ∧ e.IsStore) (fun e => e.Acquires ∧ e.IsLoad) 1 2 ∧
    s.trace.Before 2 3 := by
  have r := Reach.start (I := cudaWeak) (m := fun _ => (0 : BitVec 8))
  have r := r.step (.call _ 0 0 (.write 7) _ rfl rfl)
  have r := r.step (.plainStore _ 0 0 1 (.write 7) _ 7 rfl rfl (by decide) rfl)
  have r := r.step (.call _ 0 1 (.atomic (.store 1) none) _ rfl rfl)
  have r := r.step (.fence _ 0 1 _ _ rfl)
  have r := r.step (.store _ 0 1 1 _ _ _ _ rfl rfl (by decide) rfl)
  have r := r.step (.call _ 1 1 (.atomic .load none) _ rfl rfl)
  have r := r.step (.fence _ 1 1 _ _ rfl)
  have r := r.step (.load _ 1 1 1 _ _ _ _ rfl rfl (by decide) rfl)
  have r := r.step (.leave _ 1 rfl)
  have r := r.step (.call _ 1 0 .read _ rfl rfl)
  have r := r.step (.plainLoad _ 1 0 1 _ _ _ rfl rfl (by decide) rfl)
  exact ⟨_, r, rfl, ⟨_, _, rfl, rfl, rfl, by decide⟩, ⟨_, _, 1, rfl, ⟨⟨rfl, .inr (.inr rfl)⟩, _, _, rfl⟩, rfl, ⟨⟨rfl, .inr (.inr rfl)⟩, _, rfl⟩,
    .head, _, _, 1, 1, rfl, rfl, rfl, rfl, rfl⟩, ⟨_, _, rfl, rfl, rfl, by decide⟩⟩

/-- The hypotheses are met: a message with an addition that releases and a comparison that acquires, of POSIX references, through an
addition without order by a third thread. -/
example : ∃ s : WSys 8, Reach posixWeak (fun _ => 0) s ∧ s.trace = [⟨0, 0, .write 7, none, some (1, 7)⟩,
      ⟨0, 1, .atomic (.fetchAdd 1) (some .release), some (0, 0), some (1, 1)⟩,
      ⟨2, 1, .atomic (.fetchAdd 1) (some .relaxed), some (1, 1), some (2, 2)⟩,
      ⟨1, 1, .atomic (.compareExchange 2 5) (some .acqRel), some (2, 2), some (3, 5)⟩, ⟨1, 0, .read, some (1, 7), none⟩] ∧
    s.trace.Before 0 1 ∧ s.trace.Synchronizes WEvent.Releases WEvent.Acquires 1 3 ∧ s.trace.Before 3 4 := by
  have r := Reach.start (I := posixWeak) (m := fun _ => (0 : BitVec 8))
  have r := r.step (.call _ 0 0 (.write 7) _ rfl rfl)
  have r := r.step (.plainStore _ 0 0 1 (.write 7) _ 7 rfl rfl (by decide) rfl)
  have r := r.step (.call _ 0 1 (.atomic (.fetchAdd 1) (some .release)) _ rfl rfl)
  have r := r.step (.update _ 0 1 0 _ _ _ _ _ _ _ 1 rfl rfl (by decide) rfl rfl rfl)
  have r := r.step (.call _ 2 1 (.atomic (.fetchAdd 1) (some .relaxed)) _ rfl rfl)
  have r := r.step (.update _ 2 1 1 _ _ _ _ _ _ _ 2 rfl rfl (by decide) rfl rfl rfl)
  have r := r.step (.call _ 1 1 (.atomic (.compareExchange 2 5) (some .acqRel)) _ rfl rfl)
  have r := r.step (.update _ 1 1 2 _ _ _ _ _ _ _ 5 rfl rfl (by decide) rfl rfl rfl)
  have r := r.step (.call _ 1 0 .read _ rfl rfl)
  have r := r.step (.plainLoad _ 1 0 1 _ _ _ rfl rfl (by decide) rfl)
  refine ⟨_, r, rfl, ⟨_, _, rfl, rfl, rfl, by decide⟩, ⟨_, _, 2, rfl, ⟨rfl, .inl rfl⟩, rfl, ⟨rfl, .inr (.inl rfl)⟩,
    .next .head ⟨_, _, 1, 1, rfl, rfl, rfl, rfl, rfl⟩ rfl rfl, _, _, 2, 2, rfl, rfl, rfl, rfl, rfl⟩, ⟨_, _, rfl, rfl, rfl, by decide⟩⟩

/-- C73 fails with CUDA and HIP references, if a message is sent with `exchange`, with the strongest order. -/
theorem c73_cuda_exchange : ∃ s, Reach cudaWeak (fun _ => 0) s ∧
    s.trace = message (.atomic (.exchange 1) none) (.atomic .load none) (some (0, 0)) none 0 0 ∧
    ¬ s.trace.Ordered WEvent.Releases WEvent.Acquires := by
  have r := Reach.start (I := cudaWeak) (m := fun _ => (0 : BitVec 8))
  have r := r.step (.call _ 0 0 (.write 7) _ rfl rfl)
  have r := r.step (.plainStore _ 0 0 1 (.write 7) _ 7 rfl rfl (by decide) rfl)
  have r := r.step (.call _ 0 1 (.atomic (.exchange 1) none) _ rfl rfl)
  have r := r.step (.update _ 0 1 0 _ _ _ _ _ _ _ 1 rfl rfl (by decide) rfl rfl rfl)
  have r := r.step (.call _ 1 1 (.atomic .load none) _ rfl rfl)
  have r := r.step (.fence _ 1 1 _ _ rfl)
  have r := r.step (.load _ 1 1 1 _ _ _ _ rfl rfl (by decide) rfl)
  have r := r.step (.leave _ 1 rfl)
  have r := r.step (.call _ 1 0 .read _ rfl rfl)
  have r := r.step (.plainLoad _ 1 0 0 _ _ _ rfl rfl (by decide) rfl)
  exact ⟨_, r, rfl, message_not_ordered ⟨rfl, .inr (.inr rfl)⟩ ⟨rfl, .inr (.inr rfl)⟩⟩

/-- C73 fails with CUDA and HIP references, if a message is received with `fetch_add`: so a lock that is taken with an atomic operation and
given back with a store does not protect the variables. -/
theorem c73_cuda_acquire : ∃ s, Reach cudaWeak (fun _ => 0) s ∧
    s.trace = message (.atomic (.store 1) none) (.atomic (.fetchAdd 1) none) none (some (2, 2)) 0 0 ∧
    ¬ s.trace.Ordered WEvent.Releases WEvent.Acquires := by
  have r := Reach.start (I := cudaWeak) (m := fun _ => (0 : BitVec 8))
  have r := r.step (.call _ 0 0 (.write 7) _ rfl rfl)
  have r := r.step (.plainStore _ 0 0 1 (.write 7) _ 7 rfl rfl (by decide) rfl)
  have r := r.step (.call _ 0 1 (.atomic (.store 1) none) _ rfl rfl)
  have r := r.step (.fence _ 0 1 _ _ rfl)
  have r := r.step (.store _ 0 1 1 _ _ _ _ rfl rfl (by decide) rfl)
  have r := r.step (.call _ 1 1 (.atomic (.fetchAdd 1) none) _ rfl rfl)
  have r := r.step (.update _ 1 1 1 _ _ _ _ _ _ _ 2 rfl rfl (by decide) rfl rfl rfl)
  have r := r.step (.call _ 1 0 .read _ rfl rfl)
  have r := r.step (.plainLoad _ 1 0 0 _ _ _ rfl rfl (by decide) rfl)
  exact ⟨_, r, rfl, message_not_ordered ⟨rfl, .inr (.inr rfl)⟩ ⟨rfl, .inr (.inr rfl)⟩⟩

/-- C73 fails with `sycl::custom_device_atomic_ref`, even from stores to loads: the orders are ignored. -/
theorem c73_sycl_custom : ∃ s, Reach syclWeak (fun _ => 0) s ∧
    s.trace = message (.atomic (.store 1) (some .release)) (.atomic .load (some .acquire)) none none 0 0 ∧
    ¬ s.trace.Ordered WEvent.Releases WEvent.Acquires := by
  have r := Reach.start (I := syclWeak) (m := fun _ => (0 : BitVec 8))
  have r := r.step (.call _ 0 0 (.write 7) _ rfl rfl)
  have r := r.step (.plainStore _ 0 0 1 (.write 7) _ 7 rfl rfl (by decide) rfl)
  have r := r.step (.call _ 0 1 (.atomic (.store 1) (some .release)) _ rfl rfl)
  have r := r.step (.store _ 0 1 1 _ _ _ _ rfl rfl (by decide) rfl)
  have r := r.step (.call _ 1 1 (.atomic .load (some .acquire)) _ rfl rfl)
  have r := r.step (.load _ 1 1 1 _ _ _ _ rfl rfl (by decide) rfl)
  have r := r.step (.call _ 1 0 .read _ rfl rfl)
  have r := r.step (.plainLoad _ 1 0 0 _ _ _ rfl rfl (by decide) rfl)
  exact ⟨_, r, rfl, message_not_ordered ⟨rfl, .inl rfl⟩ ⟨rfl, .inl rfl⟩⟩

/-- C73 fails with `sycl::builtin_device_atomic_ref` if no order is given: its default is the relaxed one. -/
theorem c73_sycl_default : ∃ s, Reach syclBuiltinWeak (fun _ => 0) s ∧
    s.trace = message (.atomic (.store 1) none) (.atomic .load none) none none 0 0 ∧
    ¬ s.trace.Ordered WEvent.Releases WEvent.Acquires := by
  have r := Reach.start (I := syclBuiltinWeak) (m := fun _ => (0 : BitVec 8))
  have r := r.step (.call _ 0 0 (.write 7) _ rfl rfl)
  have r := r.step (.plainStore _ 0 0 1 (.write 7) _ 7 rfl rfl (by decide) rfl)
  have r := r.step (.call _ 0 1 (.atomic (.store 1) none) _ rfl rfl)
  have r := r.step (.store _ 0 1 1 _ _ _ _ rfl rfl (by decide) rfl)
  have r := r.step (.call _ 1 1 (.atomic .load none) _ rfl rfl)
  have r := r.step (.load _ 1 1 1 _ _ _ _ rfl rfl (by decide) rfl)
  have r := r.step (.call _ 1 0 .read _ rfl rfl)
  have r := r.step (.plainLoad _ 1 0 0 _ _ _ rfl rfl (by decide) rfl)
  exact ⟨_, r, rfl, message_not_ordered ⟨rfl, .inr (.inr rfl)⟩ ⟨rfl, .inr (.inr rfl)⟩⟩

/-! ## C74: two threads do not miss each other -/

/-- C74: with CUDA and HIP references, of two threads that each access a variable and then load the variable of the other one, at least one
sees what the other has done.
Missing: reads with the other operations, for which it fails (`c74_cuda_exchange`), the POSIX references (the memory model has
no total order of the strongest operations), and SYCL, for which it fails (`c74_sycl_custom`). -/
theorem c74_cuda_partial {m : AMem w} {s : WSys w} (h : Reach cudaWeak m s) : s.trace.OneSees (fun _ => True) WEvent.IsLoad := by
  intro i i' j j' e e' f f' hi hi' hj hj' he hf h₁ h₂ _ _ ⟨o, hl⟩ ⟨o', hl'⟩ x y p q v u hx hy hp hq
  exact h.fences_ordered hi hi' hj hj' he hf (by rw [hl]; rfl) (by rw [hl']; rfl) rfl rfl hx hy h₁ h₂ hp hq

/-- C74 fails with CUDA and HIP references, if the threads look at the variables with `exchange`. -/
theorem c74_cuda_exchange : ∃ s : WSys 8, Reach cudaWeak (fun _ => 0) s ∧ s.trace = [⟨0, 0, .atomic (.store 1) none, none, some (2, 1)⟩,
    ⟨1, 1, .atomic (.store 1) none, none, some (2, 1)⟩, ⟨0, 1, .atomic (.exchange 0) none, some (0, 0), some (1, 0)⟩,
    ⟨1, 0, .atomic (.exchange 0) none, some (0, 0), some (1, 0)⟩] ∧
    ¬ s.trace.OneSees (fun e => e.order = some .seqCst) (fun e => e.order = some .seqCst) := by
  have r := Reach.start (I := cudaWeak) (m := fun _ => (0 : BitVec 8))
  have r := r.step (.call _ 0 0 (.atomic (.store 1) none) _ rfl rfl)
  have r := r.step (.call _ 1 1 (.atomic (.store 1) none) _ rfl rfl)
  have r := r.step (.fence _ 0 0 _ _ rfl)
  have r := r.step (.fence _ 1 1 _ _ rfl)
  have r := r.step (.store _ 0 0 2 _ _ _ _ rfl rfl (by decide) rfl)
  have r := r.step (.store _ 1 1 2 _ _ _ _ rfl rfl (by decide) rfl)
  have r := r.step (.call _ 0 1 (.atomic (.exchange 0) none) _ rfl rfl)
  have r := r.step (.update _ 0 1 0 _ _ _ _ _ _ _ 0 rfl rfl (by decide) rfl rfl rfl)
  have r := r.step (.call _ 1 0 (.atomic (.exchange 0) none) _ rfl rfl)
  have r := r.step (.update _ 1 0 0 _ _ _ _ _ _ _ 0 rfl rfl (by decide) rfl rfl rfl)
  refine ⟨_, r, rfl, fun h => ?_⟩
  have := h 0 2 1 3 _ _ _ _ rfl rfl rfl rfl ⟨_, _, rfl, rfl, rfl, by decide⟩ ⟨_, _, rfl, rfl, rfl, by decide⟩ rfl rfl rfl rfl rfl rfl
    2 2 0 0 0 0 (.inr ⟨1, rfl⟩) (.inr ⟨1, rfl⟩) rfl rfl
  omega

/-- C74 fails with `sycl::custom_device_atomic_ref`, with the strongest order. -/
theorem c74_sycl_custom : ∃ s : WSys 8, Reach syclWeak (fun _ => 0) s ∧
    s.trace = [⟨0, 0, .atomic (.store 1) none, none, some (1, 1)⟩, ⟨1, 1, .atomic (.store 1) none, none, some (1, 1)⟩,
      ⟨0, 1, .atomic .load none, some (0, 0), none⟩, ⟨1, 0, .atomic .load none, some (0, 0), none⟩] ∧
    ¬ s.trace.OneSees (fun e => e.order = some .seqCst) (fun e => e.order = some .seqCst) := by
  have r := Reach.start (I := syclWeak) (m := fun _ => (0 : BitVec 8))
  have r := r.step (.call _ 0 0 (.atomic (.store 1) none) _ rfl rfl)
  have r := r.step (.store _ 0 0 1 _ _ _ _ rfl rfl (by decide) rfl)
  have r := r.step (.call _ 1 1 (.atomic (.store 1) none) _ rfl rfl)
  have r := r.step (.store _ 1 1 1 _ _ _ _ rfl rfl (by decide) rfl)
  have r := r.step (.call _ 0 1 (.atomic .load none) _ rfl rfl)
  have r := r.step (.load _ 0 1 0 _ _ _ _ rfl rfl (by decide) rfl)
  have r := r.step (.call _ 1 0 (.atomic .load none) _ rfl rfl)
  have r := r.step (.load _ 1 0 0 _ _ _ _ rfl rfl (by decide) rfl)
  refine ⟨_, r, rfl, fun h => ?_⟩
  have := h 0 2 1 3 _ _ _ _ rfl rfl rfl rfl ⟨_, _, rfl, rfl, rfl, by decide⟩ ⟨_, _, rfl, rfl, rfl, by decide⟩ rfl rfl rfl rfl rfl rfl
    1 1 0 0 0 0 (.inr ⟨1, rfl⟩) (.inr ⟨1, rfl⟩) rfl rfl
  omega

/-- The hypotheses are met: with CUDA references, two threads store and load, and the second one sees the store of the first. -/
example : ∃ s : WSys 8, Reach cudaWeak (fun _ => 0) s ∧
    s.trace = [⟨0, 0, .atomic (.store 1) none, none, some (1, 1)⟩, ⟨1, 1, .atomic (.store 1) none, none, some (1, 1)⟩,
      ⟨0, 1, .atomic .load none, some (0, 0), none⟩, ⟨1, 0, .atomic .load none, some (1, 1), none⟩] ∧
    s.trace.Before 0 2 ∧ s.trace.Before 1 3 := by
  have r := Reach.start (I := cudaWeak) (m := fun _ => (0 : BitVec 8))
  have r := r.step (.call _ 0 0 (.atomic (.store 1) none) _ rfl rfl)
  have r := r.step (.fence _ 0 0 _ _ rfl)
  have r := r.step (.store _ 0 0 1 _ _ _ _ rfl rfl (by decide) rfl)
  have r := r.step (.call _ 1 1 (.atomic (.store 1) none) _ rfl rfl)
  have r := r.step (.fence _ 1 1 _ _ rfl)
  have r := r.step (.store _ 1 1 1 _ _ _ _ rfl rfl (by decide) rfl)
  have r := r.step (.call _ 0 1 (.atomic .load none) _ rfl rfl)
  have r := r.step (.fence _ 0 1 _ _ rfl)
  have r := r.step (.load _ 0 1 0 _ _ _ _ rfl rfl (by decide) rfl)
  have r := r.step (.call _ 1 0 (.atomic .load none) _ rfl rfl)
  have r := r.step (.fence _ 1 0 _ _ rfl)
  have r := r.step (.load _ 1 0 1 _ _ _ _ rfl rfl (by decide) rfl)
  exact ⟨_, r, rfl, ⟨_, _, rfl, rfl, rfl, by decide⟩, ⟨_, _, rfl, rfl, rfl, by decide⟩⟩

end Vecmem.Props
