import Verif.Props.C73_C74_Orders

/-!
# C73: reads that are ordered with all writes

Vocabulary: `Verif/Spec/WeakMemory.lean`.
-/

namespace Vecmem.Props

open Vecmem WSys

variable {w : Nat} {m : AMem w}

/-- A read of a variable, where each write of the variable comes before or after it in the order of what happens before what, gives the last value that was written before. -/
theorem latest_write {R A : WEvent w → Prop} {tr : WTrace w} (ho : tr.Ordered R A) (hw : tr.FromWrites m) {j : Nat} {f : WEvent w} {t : Nat} {v : BitVec w}
    (hj : tr[j]? = some f) (hf : f.read = some (t, v))
    (hs : ∀ (i : Nat) (e : WEvent w), tr[i]? = some e → e.addr = f.addr → e.wrote.isSome → i ≠ j → tr.HappensBefore R A i j ∨ tr.HappensBefore R A j i) :
    (v = m f.addr ∧ ∀ (i : Nat) (e : WEvent w), tr[i]? = some e → e.addr = f.addr → tr.HappensBefore R A i j → e.wrote = none) ∨
    ∃ (i : Nat) (e : WEvent w), tr[i]? = some e ∧ e.addr = f.addr ∧ e.wrote = some (t, v) ∧ tr.HappensBefore R A i j ∧
      ∀ (k : Nat) (g : WEvent w), tr[k]? = some g → g.addr = f.addr → g.wrote.isSome → k ≠ i → tr.HappensBefore R A k j → ¬ tr.HappensBefore R A i k := by
  obtain ⟨w1, w2, w3⟩ := hw
  rcases w1 j f t v hj hf with ⟨rfl, hv⟩ | ⟨i, e, hij, hi, ha, he⟩
  · refine .inl ⟨hv, fun i e hi ha hb => ?_⟩
    cases hwr : e.wrote with
    | none => rfl
    | some x =>
      have h1 := w2 i e x.1 x.2 hi hwr
      have h2 := (ho i j e f hb hi hj ha x.1 (.inr ⟨_, hwr⟩)).1 0 v hf
      omega
  · refine .inr ⟨i, e, hi, ha, he, ?_, fun k g hk hga hgw hki hkj hik => ?_⟩
    · rcases hs i e hi ha (by rw [he]; rfl) (by omega) with h | h
      · exact h
      · have := (ho j i f e h hj hi ha.symm t (.inl ⟨_, hf⟩)).2 t v he
        omega
    · obtain ⟨⟨t', y⟩, hgt⟩ := Option.isSome_iff_exists.1 hgw
      have h1 := (ho i k e g hik hi hk (ha.trans hga.symm) t (.inr ⟨_, he⟩)).2 t' y hgt
      have h2 := (ho k j g f hkj hk hj hga t' (.inr ⟨_, hgt⟩)).1 t v hf
      omega

/-- C73: with POSIX references, if each write of a variable happens before or after a read of it (by the order of the programs, and by operations that release and acquire), then the read gives what
was written last before it. -/
theorem c73_latest_posix {s : WSys w} (h : WSys.Reach posixWeak m s) {j : Nat} {f : WEvent w} {t : Nat} {v : BitVec w} (hj : s.trace[j]? = some f) (hf : f.read = some (t, v))
    (hs : ∀ (i : Nat) (e : WEvent w), s.trace[i]? = some e → e.addr = f.addr → e.wrote.isSome → i ≠ j →
      s.trace.HappensBefore WEvent.Releases WEvent.Acquires i j ∨ s.trace.HappensBefore WEvent.Releases WEvent.Acquires j i) :
    (v = m f.addr ∧ ∀ (i : Nat) (e : WEvent w), s.trace[i]? = some e → e.addr = f.addr → s.trace.HappensBefore WEvent.Releases WEvent.Acquires i j → e.wrote = none) ∨
    ∃ (i : Nat) (e : WEvent w), s.trace[i]? = some e ∧ e.addr = f.addr ∧ e.wrote = some (t, v) ∧ s.trace.HappensBefore WEvent.Releases WEvent.Acquires i j ∧
      ∀ (k : Nat) (g : WEvent w), s.trace[k]? = some g → g.addr = f.addr → g.wrote.isSome → k ≠ i → s.trace.HappensBefore WEvent.Releases WEvent.Acquires k j →
        ¬ s.trace.HappensBefore WEvent.Releases WEvent.Acquires i k :=
  latest_write (c73_posix h) h.values.writes hj hf hs

/-- C73, with CUDA and HIP references: the same, where only stores publish, and only to loads.
Missing: the other operations (see C73). -/
theorem c73_latest_cuda_partial {s : WSys w} (h : WSys.Reach cudaWeak m s) {j : Nat} {f : WEvent w} {t : Nat} {v : BitVec w} (hj : s.trace[j]? = some f)
    (hf : f.read = some (t, v))
    (hs : ∀ (i : Nat) (e : WEvent w), s.trace[i]? = some e → e.addr = f.addr → e.wrote.isSome → i ≠ j →
      s.trace.HappensBefore (fun e => e.Releases ∧ e.IsStore) (fun e => e.Acquires ∧ e.IsLoad) i j ∨
      s.trace.HappensBefore (fun e => e.Releases ∧ e.IsStore) (fun e => e.Acquires ∧ e.IsLoad) j i) :
    (v = m f.addr ∧ ∀ (i : Nat) (e : WEvent w), s.trace[i]? = some e → e.addr = f.addr →
      s.trace.HappensBefore (fun e => e.Releases ∧ e.IsStore) (fun e => e.Acquires ∧ e.IsLoad) i j → e.wrote = none) ∨
    ∃ (i : Nat) (e : WEvent w), s.trace[i]? = some e ∧ e.addr = f.addr ∧ e.wrote = some (t, v) ∧
      s.trace.HappensBefore (fun e => e.Releases ∧ e.IsStore) (fun e => e.Acquires ∧ e.IsLoad) i j ∧
      ∀ (k : Nat) (g : WEvent w), s.trace[k]? = some g → g.addr = f.addr → g.wrote.isSome → k ≠ i →
        s.trace.HappensBefore (fun e => e.Releases ∧ e.IsStore) (fun e => e.Acquires ∧ e.IsLoad) k j →
        ¬ s.trace.HappensBefore (fun e => e.Releases ∧ e.IsStore) (fun e => e.Acquires ∧ e.IsLoad) i k :=
  latest_write (c73_cuda_partial h) h.values.writes hj hf hs

theorem message_before {put get : WCall 8} {r u : Option (Nat × BitVec 8)} {R A : WEvent 8 → Prop} {t : Nat} {v : BitVec 8} (hp : R ⟨0, 1, put, r, some (1, 1)⟩)
    (hg : A ⟨1, 1, get, some (1, 1), u⟩) : (message put get r u t v).HappensBefore R A 0 3 := by
  have h1 : (message put get r u t v).HappensBefore R A 0 1 := .program ⟨_, _, rfl, rfl, rfl, by omega⟩
  have h2 : (message put get r u t v).HappensBefore R A 1 2 := .publish ⟨_, _, 1, rfl, hp, rfl, hg, .head, _, _, 1, 1, rfl, rfl, rfl, rfl, rfl⟩
  have h3 : (message put get r u t v).HappensBefore R A 2 3 := .program ⟨_, _, rfl, rfl, rfl, by omega⟩
  exact (h1.trans h2).trans h3

/-- C73 fails with CUDA and HIP references in this form, too: the only write of a variable happens before the read of it, which gives the initial value all the same, if the flag is set
with `exchange`. -/
theorem c73_latest_cuda_exchange : ∃ s, WSys.Reach cudaWeak (fun _ => 0) s ∧
    s.trace = message (.atomic (.exchange 1) none) (.atomic .load none) (some (0, 0)) none 0 0 ∧
    s.trace.HappensBefore WEvent.Releases WEvent.Acquires 0 3 := by
  obtain ⟨s, h1, h2, -⟩ := c73_cuda_exchange
  refine ⟨s, h1, h2, ?_⟩
  rw [h2]
  exact message_before ⟨rfl, .inr (.inr rfl)⟩ ⟨rfl, .inr (.inr rfl)⟩

/-- The hypotheses are met: the only write of variable 0 happens before the read of it. -/
example : ∃ s, WSys.Reach cudaWeak (fun _ => 0) s ∧ s.trace = message (.atomic (.store 1) none) (.atomic .load none) none none 1 7 ∧
    ∀ (i : Nat) (e : WEvent 8), s.trace[i]? = some e → e.addr = 0 → e.wrote.isSome → i ≠ 3 →
      s.trace.HappensBefore (fun e => e.Releases ∧ e.IsStore) (fun e => e.Acquires ∧ e.IsLoad) i 3 ∨
      s.trace.HappensBefore (fun e => e.Releases ∧ e.IsStore) (fun e => e.Acquires ∧ e.IsLoad) 3 i := by
  have r := WSys.Reach.start (I := cudaWeak) (m := fun _ => (0 : BitVec 8))
  have r := r.step (.call _ 0 0 (.write 7) _ rfl rfl)
  have r := r.step (.plainStore _ 0 0 1 (.write 7) _ 7 rfl rfl (by decide) rfl)
  have r := r.step (.call _ 0 1 (.atomic (.store 1) none) _ rfl rfl)
  have r := r.step (.fence _ 0 1 _ _ rfl)
  have r := r.step (.store _ 0 1 1 _ _ _ _ rfl rfl (by decide) rfl)
  have r := r.step (.call _ 1 1 (.atomic .load none) _ rfl rfl)
  have r := r.step (.fence _ 1 1 _ _ rfl)
  have r := r.step (.load _ 1 1 1 _ _ _ _ rfl rfl (by decide) rfl)
  have r := r.step (.leave _ 1 rfl)
  have r := r.step (.call _ 1 0 .read _ rfl rfl)
  have r := r.step (.plainLoad _ 1 0 1 _ _ _ rfl rfl (by decide) rfl)
  refine ⟨_, r, rfl, fun i e hi ha hw hne => .inl ?_⟩
  have h03 := message_before (R := fun e => e.Releases ∧ e.IsStore) (A := fun e => e.Acquires ∧ e.IsLoad) (put := .atomic (.store 1) none) (get := .atomic .load none)
    (r := none) (u := none) (t := 1) (v := 7) ⟨⟨rfl, .inr (.inr rfl)⟩, _, _, rfl⟩ ⟨⟨rfl, .inr (.inr rfl)⟩, _, rfl⟩
  match i, hi, hne with
  | 0, _, _ => exact h03
  | 1, hi, _ => cases hi; cases ha
  | 2, hi, _ => cases hi; cases ha
  | 3, _, hne => exact absurd rfl hne
  | _ + 4, hi, _ => cases hi

end Vecmem.Props
