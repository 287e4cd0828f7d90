import Verif.Lemmas.WeakRuns
import Mathlib.Data.Nat.Pairing

/-!
# C76: appends by many threads on weak memory
-/

namespace Vecmem.Props

open Vecmem Vecmem.WRun

variable {w : Nat} {I : WImpl w} {m : AMem w} {V : WVec} {tasks : Nat → WTask w} {s : WRun w}

/-- C76: whatever the threads run, if they change the vector by appending only and what they append fits, the calls get places behind the old elements, no two
of them the same, and without gaps. -/
theorem c76_places (hI : I = posixWeak ∨ I = cudaWeak ∨ I = syclWeak ∨ I = syclBuiltinWeak)
    (h : WRun.Reach I m (fun i => (tasks i).code V) s) (hv : V.Valid w) (hp : ∀ i, (tasks i).Polite V)
    (fits : (m V.size).toNat + s.sys.trace.claimed V.size ≤ V.cap) :
    (∀ (q : Nat) (e : WEvent w) (v n : Nat), s.sys.trace[q]? = some e → e.Claims V.size v n →
      (m V.size).toNat ≤ v ∧ v + n ≤ (m V.size).toNat + s.sys.trace.claimed V.size) ∧
    (∀ (q q' : Nat) (e e' : WEvent w) (v n v' n' : Nat), s.sys.trace[q]? = some e → s.sys.trace[q']? = some e' → e.Claims V.size v n →
      e'.Claims V.size v' n' → q ≠ q' → v + n ≤ v' ∨ v' + n' ≤ v) ∧
    ∀ p, (m V.size).toNat ≤ p → p < (m V.size).toNat + s.sys.trace.claimed V.size →
      ∃ (q : Nat) (e : WEvent w) (v n : Nat), s.sys.trace[q]? = some e ∧ e.Claims V.size v n ∧ v ≤ p ∧ p < v + n := by
  have ha := h.appending hI hv hp fits
  refine ⟨fun q e v n hq hc => ha.bounds hq hc, fun q q' e e' v n v' n' hq hq' hc hc' hne => ?_, fun p h1 h2 => ?_⟩
  · rcases Nat.lt_or_gt_of_ne hne with hlt | hlt
    · exact .inl (ha.disjoint hq hq' hc hc' hlt)
    · exact .inr (ha.disjoint hq' hq hc' hc hlt)
  · exact ha.covered h1 s.sys.trace.length (by rw [List.take_length]; exact h2)

/-- C76: an element is written only by the thread that has claimed its place, and after it has; so the old elements stay as they were, and every read of an
element finds its initial value, or what that thread has written. -/
theorem c76_elements (hI : I = posixWeak ∨ I = cudaWeak ∨ I = syclWeak ∨ I = syclBuiltinWeak)
    (h : WRun.Reach I m (fun i => (tasks i).code V) s) (hv : V.Valid w) (hp : ∀ i, (tasks i).Polite V)
    (fits : (m V.size).toNat + s.sys.trace.claimed V.size ≤ V.cap) :
    (∀ (k v p : Nat) (x : BitVec w), s.sys.trace.Writes k (V.cell v p) x → ∃ (q : Nat) (e : WEvent w) (a n : Nat), q < k ∧ s.sys.trace[q]? = some e ∧
      s.sys.trace.By e.thread k ∧ e.Claims V.size a n ∧ a ≤ p ∧ p < a + n) ∧
    (∀ (k k' i i' v v' p : Nat) (x x' : BitVec w), s.sys.trace.Writes k (V.cell v p) x → s.sys.trace.Writes k' (V.cell v' p) x' → s.sys.trace.By i k →
      s.sys.trace.By i' k' → i = i') ∧
    ∀ (j v p : Nat) (x : BitVec w), s.sys.trace.Reads j (V.cell v p) x → x = m (V.cell v p) ∨
      ((m V.size).toNat ≤ p ∧ p < (m V.size).toNat + s.sys.trace.claimed V.size ∧ ∃ k, k < j ∧ s.sys.trace.Writes k (V.cell v p) x) := by
  have ha := h.appending hI hv hp fits
  refine ⟨?_, ?_, ?_⟩
  · rintro k v p x ⟨e, t, hk, hadr, hw⟩
    obtain ⟨q, f, a, n, h1, h2, h3, h4⟩ := ha.store hk hadr (by rw [hw]; rfl)
    exact ⟨q, f, a, n, h1, h2, ⟨e, hk, h3.symm⟩, h4⟩
  · rintro k k' i i' v v' p x x' ⟨e, t, hk, hadr, hw⟩ ⟨e', t', hk', hadr', hw'⟩ ⟨f, hf, rfl⟩ ⟨f', hf', rfl⟩
    rw [hk] at hf; cases hf
    rw [hk'] at hf'; cases hf'
    exact ha.same_thread hk hk' hadr hadr' (by rw [hw]; rfl) (by rw [hw']; rfl)
  · rintro j v p x ⟨f, t, hj, hadr, hr⟩
    rcases ha.writes.1 j f t x hj hr with ⟨-, h1⟩ | ⟨k, e, h1, h2, h3, h4⟩
    · exact .inl (by rw [h1, hadr])
    · obtain ⟨q, g, a, n, -, h5, -, h6, h7, h8⟩ := ha.store h2 (h3.trans hadr) (by rw [h4]; rfl)
      have := ha.bounds h5 h6
      exact .inr ⟨by omega, by omega, k, h1, e, t, h2, h3.trans hadr, h4⟩

/-- C76: no assertion fails; and a thread that has come to the end has made all the appends of its program, each with all of its elements at the places it has
claimed. -/
theorem c76_complete (hI : I = posixWeak ∨ I = cudaWeak ∨ I = syclWeak ∨ I = syclBuiltinWeak)
    (h : WRun.Reach I m (fun i => (tasks i).code V) s) (hv : V.Valid w) (hp : ∀ i, (tasks i).Polite V)
    (fits : (m V.size).toNat + s.sys.trace.claimed V.size ≤ V.cap) (i : Nat) :
    s.prog i ≠ .failed ∧ (s.prog i = .done → (tasks i).Ran V (s.sys.trace.of i)) :=
  ⟨(h.appending hI hv hp fits).not_failed i, (h.appending hI hv hp fits).ran⟩

/-- C76: every read of the size finds the size after some of the claims: not less than the old size, and not more than what is claimed. -/
theorem c76_size (hI : I = posixWeak ∨ I = cudaWeak ∨ I = syclWeak ∨ I = syclBuiltinWeak)
    (h : WRun.Reach I m (fun i => (tasks i).code V) s) (hv : V.Valid w) (hp : ∀ i, (tasks i).Polite V)
    (fits : (m V.size).toNat + s.sys.trace.claimed V.size ≤ V.cap) (j : Nat) (x : BitVec w) (hr : s.sys.trace.Reads j V.size x) :
    (∃ q, x.toNat = (m V.size).toNat + WTrace.claimed V.size (s.sys.trace.take q)) ∧
    (m V.size).toNat ≤ x.toNat ∧ x.toNat ≤ (m V.size).toNat + s.sys.trace.claimed V.size := by
  obtain ⟨f, t, hj, ha, hr⟩ := hr
  obtain ⟨q, h1, -⟩ := (h.appending hI hv hp fits).size_read hj ha hr
  have := claimed_take_le (a := V.size) s.sys.trace q
  exact ⟨⟨q, h1⟩, by omega, by omega⟩

/-- C76, with POSIX references: a thread that has heard of an element by releasing and acquiring operations reads it, or a later value from the same thread; and
one that has heard of all appends reads the final size. -/
theorem c76_heard_posix (h : WRun.Reach posixWeak m (fun i => (tasks i).code V) s) (hv : V.Valid w) (hp : ∀ i, (tasks i).Polite V)
    (fits : (m V.size).toNat + s.sys.trace.claimed V.size ≤ V.cap) :
    (∀ (k j i v p : Nat) (x y : BitVec w), s.sys.trace.Writes k (V.cell v p) x → s.sys.trace.By i k → s.sys.trace.Reads j (V.cell v p) y →
      s.sys.trace.HappensBefore WEvent.Releases WEvent.Acquires k j → ∃ k', k ≤ k' ∧ s.sys.trace.By i k' ∧ s.sys.trace.Writes k' (V.cell v p) y) ∧
    ∀ (j : Nat) (x : BitVec w), s.sys.trace.Reads j V.size x →
      (∀ (q : Nat) (e : WEvent w) (v n : Nat), s.sys.trace[q]? = some e → e.Claims V.size v n →
        s.sys.trace.HappensBefore WEvent.Releases WEvent.Acquires q j) →
      x.toNat = (m V.size).toNat + s.sys.trace.claimed V.size := by
  have ha := h.appending (.inl rfl) hv hp fits
  have ho : s.sys.trace.Ordered WEvent.Releases WEvent.Acquires :=
    h.sys.ordered (fun k e hk hr => by obtain ⟨code, hc, hd⟩ := h.sys.values.did k e hk; exact posix_releases hc hd hr)
      (fun k e hk hr => by obtain ⟨code, hc, hd⟩ := h.sys.values.did k e hk; exact posix_acquires hc hd hr)
  refine ⟨?_, ?_⟩
  · rintro k j i v p x y ⟨e, t, hk, hadr, hw⟩ ⟨e', hk', rfl⟩ ⟨f, t', hj, hf, hr⟩ hb
    rw [hk] at hk'; cases hk'
    obtain ⟨k', e', h1, h2, h3, h4, h5⟩ := ha.read ho hk hj hadr hf hw hr hb
    exact ⟨k', h1, ⟨e', h2, h3⟩, e', t', h2, h4, h5⟩
  · rintro j x ⟨f, t, hj, hf, hr⟩ hb
    exact ha.size_last ho hj hf hr hb

/-- C76, with CUDA and HIP references: the same, if it has heard of it from stores by loads.
Missing: from and by other operations, which do not order the elements (C73); in particular the appending calls themselves do not
(`c76_size_no_signal`). -/
theorem c76_heard_cuda_partial (h : WRun.Reach cudaWeak m (fun i => (tasks i).code V) s) (hv : V.Valid w) (hp : ∀ i, (tasks i).Polite V)
    (fits : (m V.size).toNat + s.sys.trace.claimed V.size ≤ V.cap) :
    (∀ (k j i v p : Nat) (x y : BitVec w), s.sys.trace.Writes k (V.cell v p) x → s.sys.trace.By i k → s.sys.trace.Reads j (V.cell v p) y →
      s.sys.trace.HappensBefore (fun e => e.Releases ∧ e.IsStore) (fun e => e.Acquires ∧ e.IsLoad) k j →
      ∃ k', k ≤ k' ∧ s.sys.trace.By i k' ∧ s.sys.trace.Writes k' (V.cell v p) y) ∧
    ∀ (j : Nat) (x : BitVec w), s.sys.trace.Reads j V.size x →
      (∀ (q : Nat) (e : WEvent w) (v n : Nat), s.sys.trace[q]? = some e → e.Claims V.size v n →
        s.sys.trace.HappensBefore (fun e => e.Releases ∧ e.IsStore) (fun e => e.Acquires ∧ e.IsLoad) q j) →
      x.toNat = (m V.size).toNat + s.sys.trace.claimed V.size := by
  have ha := h.appending (.inr (.inl rfl)) hv hp fits
  have ho : s.sys.trace.Ordered (fun e => e.Releases ∧ e.IsStore) (fun e => e.Acquires ∧ e.IsLoad) := by
    refine h.sys.ordered (fun k e hk hr => ?_) (fun k e hk ha => ?_)
    · obtain ⟨⟨hs, -⟩, x, o, hx⟩ := hr
      exact ⟨⟨true, .store x false, false⟩, by rw [hx]; rfl, hs, Or.inr rfl⟩
    · obtain ⟨⟨hs, -⟩, o, hx⟩ := ha
      exact ⟨⟨true, .load false, true⟩, by rw [hx]; rfl, hs, Or.inr rfl⟩
  refine ⟨?_, ?_⟩
  · rintro k j i v p x y ⟨e, t, hk, hadr, hw⟩ ⟨e', hk', rfl⟩ ⟨f, t', hj, hf, hr⟩ hb
    rw [hk] at hk'; cases hk'
    obtain ⟨k', e', h1, h2, h3, h4, h5⟩ := ha.read ho hk hj hadr hf hw hr hb
    exact ⟨k', h1, ⟨e', h2, h3⟩, e', t', h2, h4, h5⟩
  · rintro j x ⟨f, t, hj, hf, hr⟩ hb
    exact ha.size_last ho hj hf hr hb

/-- C76, with `sycl::atomic_ref`: the same, if it has heard of it by operations with an explicit memory order.
Missing: by operations with the default order, which do not order the elements (C73). -/
theorem c76_heard_sycl_partial (h : WRun.Reach syclBuiltinWeak m (fun i => (tasks i).code V) s) (hv : V.Valid w) (hp : ∀ i, (tasks i).Polite V)
    (fits : (m V.size).toNat + s.sys.trace.claimed V.size ≤ V.cap) :
    (∀ (k j i v p : Nat) (x y : BitVec w), s.sys.trace.Writes k (V.cell v p) x → s.sys.trace.By i k → s.sys.trace.Reads j (V.cell v p) y →
      s.sys.trace.HappensBefore (fun e => e.Releases ∧ ∀ op, e.call ≠ .atomic op none) (fun e => e.Acquires ∧ ∀ op, e.call ≠ .atomic op none) k j →
      ∃ k', k ≤ k' ∧ s.sys.trace.By i k' ∧ s.sys.trace.Writes k' (V.cell v p) y) ∧
    ∀ (j : Nat) (x : BitVec w), s.sys.trace.Reads j V.size x →
      (∀ (q : Nat) (e : WEvent w) (v n : Nat), s.sys.trace[q]? = some e → e.Claims V.size v n →
        s.sys.trace.HappensBefore (fun e => e.Releases ∧ ∀ op, e.call ≠ .atomic op none) (fun e => e.Acquires ∧ ∀ op, e.call ≠ .atomic op none) q j) →
      x.toNat = (m V.size).toNat + s.sys.trace.claimed V.size := by
  have ha := h.appending (.inr (.inr (.inr rfl))) hv hp fits
  have ho : s.sys.trace.Ordered (fun e => e.Releases ∧ ∀ op, e.call ≠ .atomic op none) (fun e => e.Acquires ∧ ∀ op, e.call ≠ .atomic op none) := by
    refine h.sys.ordered (fun k e hk hr => ?_) (fun k e hk hr => ?_)
    · obtain ⟨code, hc, hd⟩ := h.sys.values.did k e hk
      have heq := syclBuiltin_eq hr.2
      rw [heq] at hc
      obtain ⟨code', h1, h2⟩ := posix_releases hc hd hr.1
      exact ⟨code', by rw [heq]; exact h1, h2⟩
    · obtain ⟨code, hc, hd⟩ := h.sys.values.did k e hk
      have heq := syclBuiltin_eq hr.2
      rw [heq] at hc
      obtain ⟨code', h1, h2⟩ := posix_acquires hc hd hr.1
      exact ⟨code', by rw [heq]; exact h1, h2⟩
  refine ⟨?_, ?_⟩
  · rintro k j i v p x y ⟨e, t, hk, hadr, hw⟩ ⟨e', hk', rfl⟩ ⟨f, t', hj, hf, hr⟩ hb
    rw [hk] at hk'; cases hk'
    obtain ⟨k', e', h1, h2, h3, h4, h5⟩ := ha.read ho hk hj hadr hf hw hr hb
    exact ⟨k', h1, ⟨e', h2, h3⟩, e', t', h2, h4, h5⟩
  · rintro j x ⟨f, t, hj, hf, hr⟩ hb
    exact ha.size_last ho hj hf hr hb

/-- C76, with all of them: a thread reads back the elements that it has appended. -/
theorem c76_own (hI : I = posixWeak ∨ I = cudaWeak ∨ I = syclWeak ∨ I = syclBuiltinWeak)
    (h : WRun.Reach I m (fun i => (tasks i).code V) s) (hv : V.Valid w) (hp : ∀ i, (tasks i).Polite V)
    (fits : (m V.size).toNat + s.sys.trace.claimed V.size ≤ V.cap) (k j i v p : Nat) (x y : BitVec w) (hw : s.sys.trace.Writes k (V.cell v p) x)
    (hk : s.sys.trace.By i k) (hr : s.sys.trace.Reads j (V.cell v p) y) (hj : s.sys.trace.By i j) (hlt : k < j) :
    ∃ k', k ≤ k' ∧ s.sys.trace.By i k' ∧ s.sys.trace.Writes k' (V.cell v p) y := by
  have ha := h.appending hI hv hp fits
  have ho : s.sys.trace.Ordered (fun _ => False) (fun _ => False) := h.sys.ordered (fun _ _ _ h => h.elim) (fun _ _ _ h => h.elim)
  obtain ⟨e, t, hk₁, hadr, hw⟩ := hw
  obtain ⟨e', hk', rfl⟩ := hk
  rw [hk₁] at hk'; cases hk'
  obtain ⟨f, t', hj₁, hf, hr⟩ := hr
  obtain ⟨f', hj', hth⟩ := hj
  rw [hj₁] at hj'; cases hj'
  obtain ⟨k', e', h1, h2, h3, h4, h5⟩ := ha.read ho hk₁ hj₁ hadr hf hw hr (.program ⟨_, _, hk₁, hj₁, hth.symm, hlt⟩)
  exact ⟨k', h1, ⟨e', h2, h3⟩, e', t', h2, h4, h5⟩

/-- C76, with all of them: after a thread has appended, the sizes it reads cover what it has appended, so the assertion of `at` holds for it. -/
theorem c76_at (hI : I = posixWeak ∨ I = cudaWeak ∨ I = syclWeak ∨ I = syclBuiltinWeak)
    (h : WRun.Reach I m (fun i => (tasks i).code V) s) (hv : V.Valid w) (hp : ∀ i, (tasks i).Polite V)
    (fits : (m V.size).toNat + s.sys.trace.claimed V.size ≤ V.cap) (q j v n : Nat) (e : WEvent w) (x : BitVec w) (hq : s.sys.trace[q]? = some e)
    (hc : e.Claims V.size v n) (hr : s.sys.trace.Reads j V.size x) (hj : s.sys.trace.By e.thread j) (hlt : q < j) : v + n ≤ x.toNat := by
  have ho : s.sys.trace.Ordered (fun _ => False) (fun _ => False) := h.sys.ordered (fun _ _ _ h => h.elim) (fun _ _ _ h => h.elim)
  obtain ⟨f, t, hj₁, hf, hr⟩ := hr
  obtain ⟨f', hj', hth⟩ := hj
  rw [hj₁] at hj'; cases hj'
  exact (h.appending hI hv hp fits).size_after ho hq hj₁ hf hr hc (.program ⟨_, _, hq, hj₁, hth.symm, hlt⟩)

/-- C76: what is left in the end.  The size is the old one and all that was appended; a place that was not claimed is as it was; an element has the value that was written to
it last. -/
theorem c76_final (hI : I = posixWeak ∨ I = cudaWeak ∨ I = syclWeak ∨ I = syclBuiltinWeak)
    (h : WRun.Reach I m (fun i => (tasks i).code V) s) (hv : V.Valid w) (hp : ∀ i, (tasks i).Polite V)
    (fits : (m V.size).toNat + s.sys.trace.claimed V.size ≤ V.cap) :
    (∃ y, s.sys.trace.Final m V.size y ∧ y.toNat = (m V.size).toNat + s.sys.trace.claimed V.size) ∧
    (∀ v p, (p < (m V.size).toNat ∨ (m V.size).toNat + s.sys.trace.claimed V.size ≤ p) → s.sys.trace.Final m (V.cell v p) (m (V.cell v p))) ∧
    ∀ (k v p : Nat) (x : BitVec w), s.sys.trace.Writes k (V.cell v p) x → (∀ k' y, s.sys.trace.Writes k' (V.cell v p) y → k' ≤ k) →
      s.sys.trace.Final m (V.cell v p) x := by
  have ha := h.appending hI hv hp fits
  exact ⟨ha.final_size, fun v p => ha.final_old, fun k v p x =>
    ha.final_cell (h.sys.ordered (fun _ _ _ h => h.elim) (fun _ _ _ h => h.elim))⟩

/-- C76: whatever the calls of a thread are, when it has ended they have left their values in the elements that they have claimed, and nobody has changed them since.  Elements
that a call claims but does not store (`bulk_append_implicit`) are as they were. -/
theorem c76_left (hI : I = posixWeak ∨ I = cudaWeak ∨ I = syclWeak ∨ I = syclBuiltinWeak)
    (h : WRun.Reach I m (fun i => (tasks i).code V) s) (hv : V.Valid w) (hp : ∀ i, (tasks i).Polite V)
    (fits : (m V.size).toNat + s.sys.trace.claimed V.size ≤ V.cap) (i : Nat) (ended : s.prog i = .done) :
    (tasks i).Left V m (s.sys.trace.Final m) (s.sys.trace.of i) :=
  (h.appending hI hv hp fits).left (h.sys.ordered (fun _ _ _ h => h.elim) (fun _ _ _ h => h.elim)) ended

/-- C76: there is one value in the end, and it is read by everything that happens after all writes to the variable, by whatever means the accesses are ordered. -/
theorem c76_read_final {R A : WEvent w → Prop} {tr : WTrace w} (hf : tr.FromWrites m) (ho : tr.Ordered R A) {a j : Nat} {x y : BitVec w}
    (hx : tr.Final m a x) (hr : tr.Reads j a y) (hb : ∀ k z, tr.Writes k a z → tr.HappensBefore R A k j) : y = x := by
  obtain ⟨f, t', hj, ha, hr⟩ := hr
  rcases hx with ⟨rfl, h1⟩ | ⟨e, t, h1, h2, h3, h4⟩
  · rcases hf.1 j f t' y hj hr with ⟨-, h2⟩ | ⟨k, g, -, h2, h3, h4⟩
    · rw [h2, ha]
    · rw [h1 g (List.mem_of_getElem? h2) (h3.trans ha)] at h4; cases h4
  · obtain ⟨k, hk⟩ := List.getElem?_of_mem h1
    have h5 := (ho k j e f (hb k x ⟨e, t, hk, h2, h3⟩) hk hj (h2.trans ha.symm) t (.inr ⟨x, h3⟩)).1 t' y hr
    have h6 := hf.2.1 k e t x hk h3
    rcases hf.1 j f t' y hj hr with ⟨h7, -⟩ | ⟨k', g, -, h7, h8, h9⟩
    · omega
    · have h10 := h4 g (List.mem_of_getElem? h7) (h8.trans ha) t' y h9
      have h11 : t' = t := by omega
      subst h11
      have := hf.2.2 k k' e g t' x y hk h7 (h2.trans (h8.trans ha).symm) h3 h9
      subst this
      rw [hk] at h7; cases h7
      rw [h3] at h9; cases h9
      rfl

theorem c76_final_unique {tr : WTrace w} (hf : tr.FromWrites m) {a : Nat} {x y : BitVec w} (hx : tr.Final m a x) (hy : tr.Final m a y) : x = y := by
  rcases hx with ⟨rfl, h1⟩ | ⟨e, t, h1, h2, h3, h4⟩ <;> rcases hy with ⟨rfl, h1'⟩ | ⟨e', t', h1', h2', h3', h4'⟩
  · rfl
  · rw [h1 e' h1' h2'] at h3'; cases h3'
  · rw [h1' e h1 h2] at h3; cases h3
  · have h5 := h4 e' h1' h2' t' y h3'
    have h6 := h4' e h1 h2 t x h3
    have : t = t' := by omega
    subst this
    obtain ⟨k, hk⟩ := List.getElem?_of_mem h1
    obtain ⟨k', hk'⟩ := List.getElem?_of_mem h1'
    have := hf.2.2 k k' e e' t x y hk hk' (h2.trans h2'.symm) h3 h3'
    subst this
    rw [hk] at hk'; cases hk'
    rw [h3] at h3'; cases h3'
    rfl

/-- C76, for a kernel in which every thread pushes values: when all have ended, every value that was pushed is at a place of its own, there is one at every place
between the old size and the new one, and nothing else was written to the elements. -/
theorem c76_pushes (hI : I = posixWeak ∨ I = cudaWeak ∨ I = syclWeak ∨ I = syclBuiltinWeak) (hw : 0 < w) {vals : Nat → List (BitVec w)}
    (h : WRun.Reach I m (fun i => (WTask.pushAll (vals i)).code V) s) (hv : V.Valid w)
    (fits : (m V.size).toNat + s.sys.trace.claimed V.size ≤ V.cap) (ended : ∀ i, s.prog i = .done) :
    ∃ place : Nat → Nat → Nat,
      (∀ (i j : Nat) (x : BitVec w), (vals i)[j]? = some x → (m V.size).toNat ≤ place i j ∧ place i j < (m V.size).toNat + s.sys.trace.claimed V.size ∧
        s.sys.trace.Final m (V.cell 0 (place i j)) x) ∧
      (∀ i j i' j', j < (vals i).length → j' < (vals i').length → place i j = place i' j' → i = i' ∧ j = j') ∧
      (∀ p, (m V.size).toNat ≤ p → p < (m V.size).toNat + s.sys.trace.claimed V.size → ∃ i j, j < (vals i).length ∧ place i j = p) ∧
      ∀ (k v p : Nat) (x : BitVec w), s.sys.trace.Writes k (V.cell v p) x → v = 0 ∧ ∃ i j, (vals i)[j]? = some x ∧ place i j = p := by
  have ha := h.appending (tasks := fun i => WTask.pushAll (vals i)) hI hv (fun i => pushAll_polite V hw _) fits
  have hran : ∀ i, (WTask.pushAll (vals i)).Ran V (s.sys.trace.of i) := fun i => ha.ran (ended i)
  have hindex : ∀ {e : WEvent w} {v n : Nat}, e.Claims V.size v n → e.index = v := by
    rintro e v n ⟨-, x, o, t, y, -, -, h1, h2⟩
    simp only [WEvent.index, h1, Option.map_some, Option.getD_some, h2]
  have hown : ∀ {i p : Nat} {e : WEvent w}, (s.sys.trace.of i)[p]? = some e → ∃ q, (s.sys.trace.own i)[p]? = some (e, q) ∧ s.sys.trace[q]? = some e ∧ e.thread = i := by
    intro i p e hp
    rw [← own_map, List.getElem?_map, Option.map_eq_some_iff] at hp
    obtain ⟨⟨e', q⟩, h1, h2⟩ := hp
    cases h2
    exact ⟨q, h1, (mem_own.1 (List.mem_of_getElem? h1)).1, (mem_own.1 (List.mem_of_getElem? h1)).2⟩
  have hof : ∀ {k : Nat} {e : WEvent w}, s.sys.trace[k]? = some e → ∃ p : Nat, (s.sys.trace.of e.thread)[p]? = some e := by
    intro k e hk
    obtain ⟨pos, hpos⟩ := Appending.position hk
    exact ⟨pos, by rw [← own_map, List.getElem?_map, hpos]; rfl⟩
  obtain ⟨place, hplace⟩ : ∃ place : Nat → Nat → Nat, ∀ i j, place i j = ((s.sys.trace.of i)[2 * j]?.map (·.index)).getD 0 := ⟨_, fun _ _ => rfl⟩
  have hinj : ∀ i j i' j', j < (vals i).length → j' < (vals i').length → place i j = place i' j' → i = i' ∧ j = j' := by
    intro i j i' j' hj hj' heq
    obtain ⟨e, f, v, h1, h2, h3, h4⟩ := (pushAll_ran (hran i)).2 j _ (List.getElem?_eq_getElem hj)
    obtain ⟨e', f', v', h1', h2', h3', h4'⟩ := (pushAll_ran (hran i')).2 j' _ (List.getElem?_eq_getElem hj')
    simp only [hplace, h1, h1', Option.map_some, Option.getD_some, hindex h3, hindex h3'] at heq
    subst heq
    obtain ⟨q, h5, h6, h7⟩ := hown h1
    obtain ⟨q', h5', h6', h7'⟩ := hown h1'
    have hq := ha.same_claim h6 h6' h3 h3' (p := v) (by omega) (by omega)
    subst hq
    rw [h6] at h6'; cases h6'
    have hi : i = i' := h7.symm.trans h7'
    subst hi
    refine ⟨rfl, ?_⟩
    obtain ⟨l1, e1⟩ := List.getElem?_eq_some_iff.1 h5
    obtain ⟨l2, e2⟩ := List.getElem?_eq_some_iff.1 h5'
    rcases Nat.lt_trichotomy j j' with hlt | heq | hlt
    · have := List.pairwise_iff_getElem.1 (own_sorted s.sys.trace i) _ _ l1 l2 (by omega)
      rw [e1, e2] at this; simp at this
    · exact heq
    · have := List.pairwise_iff_getElem.1 (own_sorted s.sys.trace i) _ _ l2 l1 (by omega)
      rw [e1, e2] at this; simp at this
  have hwrites : ∀ (k v p : Nat) (x : BitVec w), s.sys.trace.Writes k (V.cell v p) x →
      v = 0 ∧ ∃ i j f, (vals i)[j]? = some x ∧ place i j = p ∧ (s.sys.trace.own i)[2 * j + 1]? = some (f, k) := by
    rintro k v p x ⟨e, t, hk, hadr, hwr⟩
    obtain ⟨pos, h0⟩ := Appending.position hk
    have h7 : (s.sys.trace.of e.thread)[pos]? = some e := by rw [← own_map, List.getElem?_map, h0]; rfl
    obtain ⟨hlen, hall⟩ := pushAll_ran (hran e.thread)
    have hlt := (List.getElem?_eq_some_iff.1 h7).1
    have hj : pos / 2 < (vals e.thread).length := by omega
    obtain ⟨e', f, v', h1, h2, h3, h4⟩ := hall (pos / 2) _ (List.getElem?_eq_getElem hj)
    rcases Nat.mod_two_eq_zero_or_one pos with hm | hm
    · rw [show 2 * (pos / 2) = pos by omega, h7] at h1
      cases h1
      exact absurd (hadr.symm.trans h3.1) (hv.size _ _)
    · rw [show 2 * (pos / 2) + 1 = pos by omega, h7] at h2
      cases h2
      obtain ⟨h5, h6⟩ := hv.cells _ _ _ _ (hadr.symm.trans h4.1)
      have hx := h4.2.2
      rw [hwr] at hx
      simp only [Option.map_some, Option.some.injEq] at hx
      refine ⟨h5, e.thread, pos / 2, e, ?_, ?_, ?_⟩
      · rw [List.getElem?_eq_getElem hj, hx]
      · simp only [hplace, h1, Option.map_some, Option.getD_some, hindex h3, h6]
        rfl
      · rw [show 2 * (pos / 2) + 1 = pos by omega, h0]
  refine ⟨place, ?_, hinj, ?_, ?_⟩
  · intro i j x hx
    obtain ⟨e, f, v, h1, h2, h3, h4⟩ := (pushAll_ran (hran i)).2 j x hx
    obtain ⟨q, -, h5, -⟩ := hown h1
    obtain ⟨k, h0, h6, h7⟩ := hown h2
    have := ha.bounds h5 h3
    have hpl : place i j = v := by simp only [hplace, h1, Option.map_some, Option.getD_some, hindex h3]
    refine ⟨by omega, by omega, ?_⟩
    obtain ⟨h8, h9, h10⟩ := h4
    obtain ⟨⟨t, y⟩, h11, h12⟩ := Option.map_eq_some_iff.1 h10
    cases h12
    rw [hpl]
    refine ha.final_cell (h.sys.ordered (fun _ _ _ h => h.elim) (fun _ _ _ h => h.elim)) ⟨f, t, h6, h8, h11⟩ fun k' z hz => ?_
    obtain ⟨-, i', j', f', h13, h14, h15⟩ := hwrites k' 0 v z hz
    obtain ⟨rfl, rfl⟩ := hinj i' j' i j (List.getElem?_eq_some_iff.1 h13).1 (List.getElem?_eq_some_iff.1 hx).1 (h14.trans hpl.symm)
    rw [h0] at h15; cases h15
    exact Nat.le_refl _
  · intro p h1 h2
    obtain ⟨q, e, v, n, h3, h4, h5, h6⟩ := ha.covered h1 s.sys.trace.length (by rw [List.take_length]; exact h2)
    obtain ⟨pos, h7⟩ := hof h3
    obtain ⟨j, h8, rfl⟩ := pushAll_claims hv (hran e.thread) h7 h4
    refine ⟨e.thread, j, h8, ?_⟩
    obtain ⟨e', f, v', h9, -, h10, -⟩ := (pushAll_ran (hran e.thread)).2 j _ (List.getElem?_eq_getElem h8)
    rw [h7] at h9; cases h9
    obtain ⟨rfl, rfl⟩ := Appending.claims_unique h4 h10
    simp only [hplace, h7, Option.map_some, Option.getD_some, hindex h4]
    omega
  · intro k v p x hx
    obtain ⟨h1, i, j, f, h2, h3, -⟩ := hwrites k v p x hx
    exact ⟨h1, i, j, h2, h3⟩

/-- C76: the calls that append do as the claims above ask for, in any program that appends only; and they leave the values that they are given: `push_back` one, `bulk_append` as many as
asked for, `bulk_append_implicit` none, and a record of a container what was assigned, or else the defaults. -/
theorem c76_calls (V : WVec) :
    (∀ (x : BitVec w) (next : Nat → WTask w), 0 < w → (∀ i, (next i).Polite V) → (WTask.append (.push x) next).Polite V) ∧
    (∀ (n : Nat) (x : BitVec w) (next : Nat → WTask w), n < 2 ^ w → (∀ i, (next i).Polite V) → (WTask.append (.bulk n x) next).Polite V) ∧
    (∀ (n : Nat) (next : Nat → WTask w), n < 2 ^ w → (∀ i, (next i).Polite V) → (WTask.append (.bulkImplicit n) next).Polite V) ∧
    (∀ (vectors assigns : List (Nat × BitVec w)) (next : Nat → WTask w), 0 < w → (∀ i, (next i).Polite V) →
      (WTask.append (.record vectors assigns) next).Polite V) ∧
    (∀ x : BitVec w, (WAppend.push x).count = 1 ∧ ∀ v j, (WAppend.push x).leaves v j = if v = 0 ∧ j = 0 then some x else none) ∧
    (∀ (n : Nat) (x : BitVec w), (WAppend.bulk n x).count = n ∧ ∀ v j, (WAppend.bulk n x).leaves v j = if v = 0 ∧ j < n then some x else none) ∧
    (∀ n : Nat, (WAppend.bulkImplicit n : WAppend w).count = n ∧ ∀ v j, (WAppend.bulkImplicit n : WAppend w).leaves v j = none) ∧
    ∀ vectors assigns : List (Nat × BitVec w), (WAppend.record vectors assigns).count = 1 ∧ ∀ (v : Nat) (x : BitVec w),
      ((∀ y, (v, y) ∈ assigns ↔ y = x) → (WAppend.record vectors assigns).leaves v 0 = some x) ∧
      ((∀ y, (v, y) ∉ assigns) → (∀ y, (v, y) ∈ vectors ↔ y = x) → (WAppend.record vectors assigns).leaves v 0 = some x) := by
  have hone : 0 < w → 1 < 2 ^ w := fun hw => Nat.one_lt_two_pow (by omega)
  refine ⟨?_, ?_, ?_, ?_, ?_, ?_, ?_, ?_⟩
  · intro x next hw hn
    refine ⟨⟨hone hw, fun _ => rfl, ?_⟩, hn⟩
    intro st hst
    simp only [WAppend.push, List.mem_singleton] at hst
    subst hst
    exact Nat.zero_lt_one
  · intro n x next hw hn
    refine ⟨⟨hw, fun h => (nomatch h), ?_⟩, hn⟩
    intro st hst
    simp only [WAppend.bulk, List.mem_map, List.mem_range] at hst ⊢
    obtain ⟨j, hj, rfl⟩ := hst
    exact hj
  · intro n next hw hn
    exact ⟨⟨hw, fun h => (nomatch h), fun st hst => (nomatch hst)⟩, hn⟩
  · intro vectors assigns next hw hn
    refine ⟨⟨hone hw, fun _ => rfl, ?_⟩, hn⟩
    intro st hst
    simp only [WAppend.record, List.mem_map] at hst
    obtain ⟨y, -, rfl⟩ := hst
    exact Nat.zero_lt_one
  · intro x
    refine ⟨rfl, fun v j => ?_⟩
    simp only [WAppend.leaves, WAppend.push, List.reverse_singleton, List.find?_singleton]
    by_cases h : v = 0 ∧ j = 0
    · rw [if_pos h, h.1, h.2]; rfl
    · rw [if_neg h, if_neg]
      · rfl
      · simp only [Bool.and_eq_true, beq_iff_eq]
        omega
  · intro n x
    refine ⟨rfl, fun v j => ?_⟩
    by_cases h : v = 0 ∧ j < n
    · rw [if_pos h, h.1]
      simp only [WAppend.leaves, WAppend.bulk]
      rw [find?_unique (x := (0, j, x))]
      · rfl
      · simp [h.2]
      · simp
      · intro y hy hp
        simp only [List.mem_reverse, List.mem_map] at hy
        obtain ⟨k, -, rfl⟩ := hy
        simp only [Bool.and_eq_true, beq_iff_eq] at hp
        rw [hp.2]
    · rw [if_neg h]
      simp only [WAppend.leaves, WAppend.bulk, Option.map_eq_none_iff, List.find?_eq_none]
      intro y hy
      simp only [List.mem_reverse, List.mem_map, List.mem_range] at hy
      obtain ⟨k, hk, rfl⟩ := hy
      simp only [Bool.and_eq_true, beq_iff_eq]
      omega
  · intro n
    exact ⟨rfl, fun v j => rfl⟩
  · intro vectors assigns
    refine ⟨rfl, fun v x => ⟨fun h => ?_, fun h h' => ?_⟩⟩
    · simp only [WAppend.leaves, WAppend.record, List.map_append, List.reverse_append, List.find?_append]
      rw [find?_unique (x := (v, 0, x))]
      · rfl
      · simp [(h x).2 rfl]
      · simp
      · intro y hy hp
        simp only [List.mem_reverse, List.mem_map] at hy
        obtain ⟨⟨v', y⟩, hy, rfl⟩ := hy
        simp only [Bool.and_eq_true, beq_iff_eq] at hp
        rw [hp.1] at hy ⊢
        rw [(h y).1 hy]
    · simp only [WAppend.leaves, WAppend.record, List.map_append, List.reverse_append, List.find?_append]
      have : (assigns.map fun y => (y.1, 0, y.2)).reverse.find? (fun st : Nat × Nat × BitVec w => st.1 == v && st.2.1 == 0) = none := by
        rw [List.find?_eq_none]
        intro y hy
        simp only [List.mem_reverse, List.mem_map] at hy
        obtain ⟨⟨v', y⟩, hy, rfl⟩ := hy
        simp only [Bool.and_eq_true, beq_iff_eq]
        rintro ⟨rfl, -⟩
        exact h y hy
      rw [this, find?_unique (x := (v, 0, x))]
      · rfl
      · simp [(h' x).2 rfl]
      · simp
      · intro y hy hp
        simp only [List.mem_reverse, List.mem_map] at hy
        obtain ⟨⟨v', y⟩, hy, rfl⟩ := hy
        simp only [Bool.and_eq_true, beq_iff_eq] at hp
        rw [hp.1] at hy ⊢
        rw [(h' y).1 hy]

/-! ## executions -/

/-- The vector of the examples: the size in variable 0, the elements in the others, and room for four. -/
def exampleVector : WVec := ⟨0, fun v i => 1 + Nat.pair v i, 4, true⟩

theorem exampleVector_valid : exampleVector.Valid 8 := by
  refine ⟨fun v i v' i' h => ?_, fun v i h => ?_, by decide⟩
  · have h : Nat.pair v i = Nat.pair v' i' := by simp only [exampleVector] at h; omega
    exact Nat.pair_eq_pair.1 h
  · simp only [exampleVector] at h
    omega

/-- Thread 0 pushes 7, and thread 1 pushes 8. -/
def examplePushes : Nat → List (BitVec 8)
  | 0 => [7]
  | 1 => [8]
  | _ => []

/-- The hypotheses are met with CUDA references: thread 1 claims its place between the claim and the store of thread 0, in a vector with one element; both
come to the end. -/
example : ∃ s : WRun 8, WRun.Reach cudaWeak (fun a => if a = 0 then 1 else 0) (fun i => (WTask.pushAll (examplePushes i)).code exampleVector) s ∧
    s.sys.trace = [⟨0, 0, .atomic (.fetchAdd 1) none, some (0, 1), some (1, 2)⟩, ⟨1, 0, .atomic (.fetchAdd 1) none, some (1, 2), some (2, 3)⟩,
      ⟨1, 5, .write 8, none, some (1, 8)⟩, ⟨0, 2, .write 7, none, some (1, 7)⟩] ∧
    1 + s.sys.trace.claimed exampleVector.size ≤ exampleVector.cap ∧ ∀ i, s.prog i = .done := by
  have r := WRun.Reach.start (I := cudaWeak) (m := fun a => if a = 0 then (1 : BitVec 8) else 0)
    (progs := fun i => (WTask.pushAll (examplePushes i)).code exampleVector)
  have r := r.call 0 0 (.atomic (.fetchAdd 1) none) _ rfl rfl rfl
  have r := r.step (.access _ _ _ _ (.update _ 0 0 0 _ _ _ _ _ _ _ 2 rfl rfl (by decide) rfl rfl rfl) rfl rfl)
  have r := r.call 1 0 (.atomic (.fetchAdd 1) none) _ rfl rfl rfl
  have r := r.step (.access _ _ _ _ (.update _ 1 0 1 _ _ _ _ _ _ _ 3 rfl rfl (by decide) rfl rfl rfl) rfl rfl)
  have r := r.call 1 5 (.write 8) _ rfl rfl rfl
  have r := r.step (.access _ _ _ _ (.plainStore _ 1 5 1 (.write 8) _ 8 rfl rfl (by decide) rfl) rfl rfl)
  have r := r.call 0 2 (.write 7) _ rfl rfl rfl
  have r := r.step (.access _ _ _ _ (.plainStore _ 0 2 1 (.write 7) _ 7 rfl rfl (by decide) rfl) rfl rfl)
  refine ⟨_, r, rfl, by decide, fun i => ?_⟩
  match i with
  | 0 => rfl
  | 1 => rfl
  | i + 2 => rfl

/-- Thread 0 pushes 7; thread 1 loads the size, and then reads the first element. -/
def exampleLook : Nat → WTask 8
  | 0 => WTask.pushAll [7]
  | 1 => .access 0 (.atomic .load none) fun _ => .access 1 .read fun _ => .done
  | _ => .done

theorem exampleLook_polite (i : Nat) : (exampleLook i).Polite exampleVector := by
  match i with
  | 0 => exact pushAll_polite _ (by decide) _
  | 1 => exact ⟨fun _ => .inr ⟨none, rfl⟩, fun _ => ⟨fun _ => .inl rfl, fun _ => trivial⟩⟩
  | i + 2 => trivial

/-- C76: the size is no sign that the elements are there.  A thread sees the new size, although with the strongest order, and finds the old value at the place
of the new element, even after that was written: the size is increased before.  With POSIX references, and with those for CUDA and HIP. -/
theorem c76_size_no_signal (I : WImpl 8) (hI : I = posixWeak ∨ I = cudaWeak) :
    ∃ s : WRun 8, WRun.Reach I (fun _ => 0) (fun i => (exampleLook i).code exampleVector) s ∧
      s.sys.trace = [⟨0, 0, .atomic (.fetchAdd 1) none, some (0, 0), some (1, 1)⟩, ⟨0, 1, .write 7, none, some (1, 7)⟩,
        ⟨1, 0, .atomic .load none, some (1, 1), none⟩, ⟨1, 1, .read, some (0, 0), none⟩] ∧
      ∀ i, s.prog i = .done := by
  rcases hI with rfl | rfl
  · have r := WRun.Reach.start (I := posixWeak) (m := fun _ => (0 : BitVec 8)) (progs := fun i => (exampleLook i).code exampleVector)
    have r := r.call 0 0 (.atomic (.fetchAdd 1) none) _ rfl rfl rfl
    have r := r.step (.access _ _ _ _ (.update _ 0 0 0 _ _ _ _ _ _ _ 1 rfl rfl (by decide) rfl rfl rfl) rfl rfl)
    have r := r.call 0 1 (.write 7) _ rfl rfl rfl
    have r := r.step (.access _ _ _ _ (.plainStore _ 0 1 1 (.write 7) _ 7 rfl rfl (by decide) rfl) rfl rfl)
    have r := r.call 1 0 (.atomic .load none) _ rfl rfl rfl
    have r := r.step (.access _ _ _ _ (.load _ 1 0 1 _ _ _ _ rfl rfl (by decide) rfl) rfl rfl)
    have r := r.call 1 1 .read _ rfl rfl rfl
    have r := r.step (.access _ _ _ _ (.plainLoad _ 1 1 0 _ _ _ rfl rfl (by decide) rfl) rfl rfl)
    refine ⟨_, r, rfl, fun i => ?_⟩
    match i with
    | 0 => rfl
    | 1 => rfl
    | i + 2 => rfl
  · have r := WRun.Reach.start (I := cudaWeak) (m := fun _ => (0 : BitVec 8)) (progs := fun i => (exampleLook i).code exampleVector)
    have r := r.call 0 0 (.atomic (.fetchAdd 1) none) _ rfl rfl rfl
    have r := r.step (.access _ _ _ _ (.update _ 0 0 0 _ _ _ _ _ _ _ 1 rfl rfl (by decide) rfl rfl rfl) rfl rfl)
    have r := r.call 0 1 (.write 7) _ rfl rfl rfl
    have r := r.step (.access _ _ _ _ (.plainStore _ 0 1 1 (.write 7) _ 7 rfl rfl (by decide) rfl) rfl rfl)
    have r := r.call 1 0 (.atomic .load none) _ rfl rfl rfl
    have r := r.fence 1 0 _ _ rfl
    have r := r.step (.access _ _ _ _ (.load _ 1 0 1 _ _ _ _ rfl rfl (by decide) rfl) rfl rfl)
    have r := r.leave 1 rfl
    have r := r.call 1 1 .read _ rfl rfl rfl
    have r := r.step (.access _ _ _ _ (.plainLoad _ 1 1 0 _ _ _ rfl rfl (by decide) rfl) rfl rfl)
    refine ⟨_, r, rfl, fun i => ?_⟩
    match i with
    | 0 => rfl
    | 1 => rfl
    | i + 2 => rfl

/-- Thread 0 pushes 7 and then stores a flag; thread 1 loads the flag, and then reads the first element and the size. -/
def exampleFlag : Nat → WTask 8
  | 0 => .append (.push 7) fun _ => .access 2 (.atomic (.store 1) none) fun _ => .done
  | 1 => .access 2 (.atomic .load none) fun _ => .access 1 .read fun _ => .access 0 .read fun _ => .done
  | _ => .done

/-- A vector of one variable with room for one element, so that variable 2 is not of the vector. -/
def oneVector : WVec := ⟨0, fun v i => if v = 0 ∧ i = 0 then 1 else 3 + Nat.pair v i, 1, true⟩

theorem oneVector_valid : oneVector.Valid 8 := by
  refine ⟨fun v i v' i' h => ?_, fun v i h => ?_, by decide⟩
  · simp only [oneVector] at h
    split at h <;> split at h
    · omega
    · omega
    · omega
    · have h : Nat.pair v i = Nat.pair v' i' := by omega
      exact Nat.pair_eq_pair.1 h
  · simp only [oneVector] at h
    split at h <;> omega

theorem exampleFlag_polite (i : Nat) : (exampleFlag i).Polite oneVector := by
  have h2 : ¬ oneVector.Owns 2 := by
    rintro (h | ⟨v, i, h⟩)
    · cases h
    · simp only [oneVector] at h
      split at h <;> omega
  match i with
  | 0 => exact ⟨⟨by decide, fun _ => rfl, fun st hst => by
      simp only [WAppend.push, List.mem_singleton] at hst; subst hst; exact Nat.zero_lt_one⟩, fun _ => ⟨fun h => absurd h h2, fun _ => trivial⟩⟩
  | 1 => exact ⟨fun _ => .inr ⟨none, rfl⟩, fun _ => ⟨fun _ => .inl rfl, fun _ => ⟨fun _ => .inl rfl, fun _ => trivial⟩⟩⟩
  | i + 2 => trivial

/-- The hypotheses are met with CUDA references: a thread that has seen the flag reads the element and the size. -/
example : ∃ s : WRun 8, WRun.Reach cudaWeak (fun _ => 0) (fun i => (exampleFlag i).code oneVector) s ∧
    0 + s.sys.trace.claimed oneVector.size ≤ oneVector.cap ∧
    s.sys.trace.Writes 1 (oneVector.cell 0 0) 7 ∧ s.sys.trace.By 0 1 ∧ s.sys.trace.Reads 4 (oneVector.cell 0 0) 7 ∧ s.sys.trace.Reads 5 oneVector.size 1 ∧
    s.sys.trace.HappensBefore (fun e => e.Releases ∧ e.IsStore) (fun e => e.Acquires ∧ e.IsLoad) 1 4 ∧
    s.sys.trace.HappensBefore (fun e => e.Releases ∧ e.IsStore) (fun e => e.Acquires ∧ e.IsLoad) 0 5 := by
  have r := WRun.Reach.start (I := cudaWeak) (m := fun _ => (0 : BitVec 8)) (progs := fun i => (exampleFlag i).code oneVector)
  have r := r.call 0 0 (.atomic (.fetchAdd 1) none) _ rfl rfl rfl
  have r := r.step (.access _ _ _ _ (.update _ 0 0 0 _ _ _ _ _ _ _ 1 rfl rfl (by decide) rfl rfl rfl) rfl rfl)
  have r := r.call 0 1 (.write 7) _ rfl rfl rfl
  have r := r.step (.access _ _ _ _ (.plainStore _ 0 1 1 (.write 7) _ 7 rfl rfl (by decide) rfl) rfl rfl)
  have r := r.call 0 2 (.atomic (.store 1) none) _ rfl rfl rfl
  have r := r.fence 0 2 _ _ rfl
  have r := r.step (.access _ _ _ _ (.store _ 0 2 1 _ _ _ _ rfl rfl (by decide) rfl) rfl rfl)
  have r := r.call 1 2 (.atomic .load none) _ rfl rfl rfl
  have r := r.fence 1 2 _ _ rfl
  have r := r.step (.access _ _ _ _ (.load _ 1 2 1 _ _ _ _ rfl rfl (by decide) rfl) rfl rfl)
  have r := r.leave 1 rfl
  have r := r.call 1 1 .read _ rfl rfl rfl
  have r := r.step (.access _ _ _ _ (.plainLoad _ 1 1 1 _ _ _ rfl rfl (by decide) rfl) rfl rfl)
  have r := r.call 1 0 .read _ rfl rfl rfl
  have r := r.step (.access _ _ _ _ (.plainLoad _ 1 0 1 _ _ _ rfl rfl (by decide) rfl) rfl rfl)
  refine ⟨_, r, by decide, ⟨_, 1, rfl, rfl, rfl⟩, ⟨_, rfl, rfl⟩, ⟨_, 1, rfl, rfl, rfl⟩, ⟨_, 1, rfl, rfl, rfl⟩, ?_, ?_⟩
  · refine .trans (j := 3) (.trans (j := 2) ?_ ?_) ?_
    · exact .program ⟨_, _, rfl, rfl, rfl, by decide⟩
    · exact .publish ⟨_, _, 2, rfl, ⟨⟨rfl, .inr (.inr rfl)⟩, _, _, rfl⟩, rfl, ⟨⟨rfl, .inr (.inr rfl)⟩, _, rfl⟩, .head, _, _, 1, 1, rfl, rfl, rfl, rfl, rfl⟩
    · exact .program ⟨_, _, rfl, rfl, rfl, by decide⟩
  · refine .trans (j := 3) (.trans (j := 2) ?_ ?_) ?_
    · exact .program ⟨_, _, rfl, rfl, rfl, by decide⟩
    · exact .publish ⟨_, _, 2, rfl, ⟨⟨rfl, .inr (.inr rfl)⟩, _, _, rfl⟩, rfl, ⟨⟨rfl, .inr (.inr rfl)⟩, _, rfl⟩, .head, _, _, 1, 1, rfl, rfl, rfl, rfl, rfl⟩
    · exact .program ⟨_, _, rfl, rfl, rfl, by decide⟩

/-- A container with two vector variables and a scalar: a record of it, with default values and assignments, stores within its place. -/
example : (WTask.append (.record [(0, 0), (1, 0)] [(0, 5), (1, 6)]) fun _ => .done : WTask 8).Polite exampleVector := by
  refine ⟨⟨by decide, fun _ => rfl, ?_⟩, fun _ => trivial⟩
  decide

/-- The values in the end of the kernel of the first example: the size and the two elements; the element that was there is as it was. -/
example : ∀ tr : WTrace 8, tr = [⟨0, 0, .atomic (.fetchAdd 1) none, some (0, 1), some (1, 2)⟩, ⟨1, 0, .atomic (.fetchAdd 1) none, some (1, 2), some (2, 3)⟩,
      ⟨1, 5, .write 8, none, some (1, 8)⟩, ⟨0, 2, .write 7, none, some (1, 7)⟩] →
    tr.Final (fun a => if a = 0 then 1 else 0) 0 3 ∧ tr.Final (fun a => if a = 0 then 1 else 0) 5 8 ∧ tr.Final (fun a => if a = 0 then 1 else 0) 2 7 ∧
    tr.Final (fun a => if a = 0 then 1 else 0) 1 0 := by
  rintro tr rfl
  refine ⟨.inr ⟨⟨1, 0, .atomic (.fetchAdd 1) none, some (1, 2), some (2, 3)⟩, 2, by simp, rfl, rfl, ?_⟩, .inr ⟨⟨1, 5, .write 8, none, some (1, 8)⟩, 1, by simp, rfl, rfl, ?_⟩,
    .inr ⟨⟨0, 2, .write 7, none, some (1, 7)⟩, 1, by simp, rfl, rfl, ?_⟩, .inl ⟨rfl, ?_⟩⟩
  · intro f hf ha t' y hw
    simp only [List.mem_cons, List.not_mem_nil, or_false] at hf
    rcases hf with rfl | rfl | rfl | rfl <;> cases hw <;> decide
  · intro f hf ha t' y hw
    simp only [List.mem_cons, List.not_mem_nil, or_false] at hf
    rcases hf with rfl | rfl | rfl | rfl <;> cases hw <;> cases ha <;> decide
  · intro f hf ha t' y hw
    simp only [List.mem_cons, List.not_mem_nil, or_false] at hf
    rcases hf with rfl | rfl | rfl | rfl <;> cases hw <;> cases ha <;> decide
  · intro f hf ha
    simp only [List.mem_cons, List.not_mem_nil, or_false] at hf
    rcases hf with rfl | rfl | rfl | rfl <;> cases ha

end Vecmem.Props
