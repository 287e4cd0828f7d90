import Verif.Lemmas.GpuDevice

/-!
# C48: device selection
-/

namespace Vecmem.Props

open Vecmem

/-- C48: whatever a program does with the library, whichever calls to the runtime fail, and whether it ends normally or with an
exception, the calling thread's current device is what it was before.  For CUDA without any assumption; for HIP if asking for
the current device does not fail. -/
theorem c48_restored (fl : GFlavour) (R : GRuntime) (hfl : fl = .cuda ∨ GRuntime.CanAsk R) (p : GProg) (g : Gpu)
    (hend : (p.run fl R g).1 ≠ .terminate) : (p.run fl R g).2.dev = g.dev := by
  induction p generalizing g with
  | skip => rfl
  | throw => rfl
  | makeResource d =>
    simp only [GProg.run, Gpu.makeResource]
    split
    · rw [getDevice_eq]; rfl
    · rfl
  | allocate k b =>
    simp only [GProg.run, Gpu.allocate] at hend ⊢
    split
    · rfl
    · rename_i d hd
      rw [hd] at hend
      simp only at hend
      split
      · rfl
      · rename_i hb
        rw [if_neg hb] at hend
        exact select_restores hfl hend
  | deallocate k q =>
    simp only [GProg.run, Gpu.deallocate] at hend ⊢
    split
    · rfl
    · rename_i d hd
      rw [hd] at hend
      simp only at hend
      split
      · rfl
      · rename_i hb
        rw [if_neg hb] at hend
        exact select_restores hfl hend
  | makeStream d =>
    simp only [GProg.run, Gpu.makeStream] at hend ⊢
    rw [select_restores (.inl rfl) hend]
    split
    · rw [getDevice_eq]; rfl
    · rfl
  | copy b =>
    simp only [GProg.run, Gpu.copy]
    split
    · rfl
    · exact check_dev (by simp)
  | seq p q ihp ihq =>
    simp only [GProg.run] at hend ⊢
    have := ihp g
    rcases hp : p.run fl R g with ⟨e, g'⟩
    rw [hp] at hend this
    cases e with
    | done => exact (ihq g' hend).trans (this (by simp))
    | exc => exact this (by simp)
    | terminate => exact absurd rfl hend
  | tryCatch p q ihp ihq =>
    simp only [GProg.run] at hend ⊢
    have := ihp g
    rcases hp : p.run fl R g with ⟨e, g'⟩
    rw [hp] at hend this
    cases e with
    | exc => exact (ihq g' hend).trans (this (by simp))
    | done => exact this (by simp)
    | terminate => exact absurd rfl hend
  | onDevice d p ih => exact select_restores hfl hend

/-- C48: the program is not terminated by a destructor, if a device that exists can always be selected. -/
theorem c48_no_terminate (fl : GFlavour) (R : GRuntime) (Exists : Int → Prop) (hs : GRuntime.CanSelect R Exists)
    (hfl : fl = .cuda ∨ GRuntime.CanAsk R) (p : GProg) (g : Gpu) (hg : Exists g.dev) :
    (p.run fl R g).1 ≠ .terminate := by
  have hchk := check_not_terminate R
  induction p generalizing g with
  | skip => simp [GProg.run]
  | throw => simp [GProg.run]
  | makeResource d =>
    simp only [GProg.run, Gpu.makeResource]
    split <;> simp
  | allocate k b =>
    simp only [GProg.run, Gpu.allocate]
    split
    · simp
    · split
      · simp
      · refine select_not_terminate hs hfl hg ?_
        intro _ g' _
        have := hchk (.malloc b) g'
        rcases e : g'.check R (.malloc b) with ⟨e1, g1⟩
        rw [e] at this
        cases e1 <;> simp_all
  | deallocate k q =>
    simp only [GProg.run, Gpu.deallocate]
    split
    · simp
    · split
      · simp
      · exact select_not_terminate hs hfl hg fun _ g' _ => hchk _ g'
  | makeStream d =>
    simp only [GProg.run, Gpu.makeStream]
    refine select_not_terminate hs (.inl rfl) ?_ ?_
    · split
      · rw [getDevice_eq]; exact hg
      · exact hg
    · intro _ g' _
      have := hchk .streamCreate g'
      rcases e : g'.check R .streamCreate with ⟨e1, g1⟩
      rw [e] at this
      cases e1 <;> simp_all
  | copy b =>
    simp only [GProg.run, Gpu.copy]
    split
    · simp
    · exact hchk _ g
  | seq p q ihp ihq =>
    simp only [GProg.run]
    have h1 := ihp g hg
    have h2 := c48_restored fl R hfl p g h1
    rcases hp : p.run fl R g with ⟨e, g'⟩
    rw [hp] at h1 h2
    cases e with
    | done => exact ihq g' (by rw [h2]; exact hg)
    | exc => simp
    | terminate => exact absurd rfl h1
  | tryCatch p q ihp ihq =>
    simp only [GProg.run]
    have h1 := ihp g hg
    have h2 := c48_restored fl R hfl p g h1
    rcases hp : p.run fl R g with ⟨e, g'⟩
    rw [hp] at h1 h2
    cases e with
    | exc => exact ihq g' (by rw [h2]; exact hg)
    | done => simp
    | terminate => exact absurd rfl h1
  | onDevice d p ih => exact select_not_terminate hs hfl hg fun _ g' hg' => ih g' hg'

/-- C48: memory is allocated on the device of the resource, whatever device is selected by the caller, and with the number of
bytes asked for; for 0 bytes nothing is called. -/
theorem c48_allocate (fl : GFlavour) (R : GRuntime) (k bytes : Nat) (g : Gpu) (d : Int) (hk : g.resources[k]? = some d) :
    ∃ new, ((GProg.allocate k bytes).run fl R g).2.trace = g.trace ++ new ∧
      (bytes = 0 → new = []) ∧
      ∀ e ∈ new, (∃ x, e.call = .setDevice x) ∨ e.call = .getDevice ∨ e.call = .malloc bytes ∧ e.dev = d := by
  simp only [GProg.run, Gpu.allocate, hk]
  split
  · exact ⟨[], by simp, by simp, by simp⟩
  · rename_i hb
    obtain ⟨new, h1, h2⟩ := select_trace (fl := fl) (R := R) (d := d) (g := g)
      (body := fun _ g =>
        match g.check R (.malloc bytes) with
        | (.done, g') => (.done, { g' with ptrs := g'.ptrs ++ [R.address g.trace] })
        | (e, g') => (e, g'))
      (P := fun e => (∃ x, e.call = .setDevice x) ∨ e.call = .getDevice ∨ e.call = .malloc bytes ∧ e.dev = d)
      (fun e h => .inr (.inl h)) (fun e x h => .inl ⟨x, h⟩) (by
        intro _ g' hd
        refine ⟨[⟨.malloc bytes, d, R.answer g'.trace (.malloc bytes) d⟩], ?_, by simp⟩
        subst hd
        simp only [Gpu.check, Gpu.call]
        cases R.answer g'.trace (.malloc bytes) g'.dev <;> rfl)
    exact ⟨new, h1, fun h => absurd h hb, h2⟩

/-- C48: memory is given back with the device of the resource selected; nothing is called for a null pointer. -/
theorem c48_deallocate (fl : GFlavour) (R : GRuntime) (k p : Nat) (g : Gpu) (d : Int) (hk : g.resources[k]? = some d) :
    ∃ new, ((GProg.deallocate k p).run fl R g).2.trace = g.trace ++ new ∧
      (p = 0 → new = []) ∧
      ∀ e ∈ new, (∃ x, e.call = .setDevice x) ∨ e.call = .getDevice ∨ e.call = .free p ∧ e.dev = d := by
  simp only [GProg.run, Gpu.deallocate, hk]
  split
  · exact ⟨[], by simp, by simp, by simp⟩
  · rename_i hb
    obtain ⟨new, h1, h2⟩ := select_trace (fl := fl) (R := R) (d := d) (g := g)
      (body := fun _ g => g.check R (.free p))
      (P := fun e => (∃ x, e.call = .setDevice x) ∨ e.call = .getDevice ∨ e.call = .free p ∧ e.dev = d)
      (fun e h => .inr (.inl h)) (fun e x h => .inl ⟨x, h⟩) (by
        intro _ g' hd
        refine ⟨[⟨.free p, d, R.answer g'.trace (.free p) d⟩], ?_, by simp⟩
        subst hd
        simp only [Gpu.check, Gpu.call]
        cases R.answer g'.trace (.free p) g'.dev <;> rfl)
    exact ⟨new, h1, fun h => absurd h hb, h2⟩

/-- C48: if all calls succeed, an allocation calls `cudaMalloc` once and returns what it gives. -/
theorem c48_allocate_returns (fl : GFlavour) (R : GRuntime) (hR : ∀ tr c dev, R.answer tr c dev = true) (k bytes : Nat)
    (hb : bytes ≠ 0) (g : Gpu) (d : Int) (hk : g.resources[k]? = some d) :
    (GProg.allocate k bytes).run fl R g =
      (.done, { g with
        trace := g.trace ++ [⟨.getDevice, g.dev, true⟩, ⟨.setDevice d, g.dev, true⟩, ⟨.malloc bytes, d, true⟩,
          ⟨.setDevice g.dev, d, true⟩]
        ptrs := g.ptrs ++ [R.address (g.trace ++ [⟨.getDevice, g.dev, true⟩, ⟨.setDevice d, g.dev, true⟩])] }) := by
  simp only [GProg.run, Gpu.allocate, hk, if_neg hb]
  simp [select_eq, within_eq, check_eq, leave_eq, hR, Gpu.after]

/-- C48: a resource made without a device keeps the device that was selected at that time. -/
theorem c48_default_device (fl : GFlavour) (R : GRuntime) (hR : GRuntime.CanAsk R) (g : Gpu) :
    ((GProg.makeResource (-1)).run fl R g).2.resources = g.resources ++ [g.dev] ∧
      ∀ d, 0 ≤ d → ((GProg.makeResource d).run fl R g).2.resources = g.resources ++ [d] := by
  refine ⟨?_, fun d hd => ?_⟩
  · simp [GProg.run, Gpu.makeResource, Gpu.getDevice, Gpu.call, hR g.trace g.dev, invalidDevice]
  · have hd : d ≠ invalidDevice := by unfold invalidDevice; omega
    simp [GProg.run, Gpu.makeResource, hd]

/-- C48: a stream is made on the device asked for, but the message about it names the device selected by the caller. -/
theorem c48_stream (R : GRuntime) (hR : ∀ tr c dev, R.answer tr c dev = true) (d : Int) (hd : 0 ≤ d) (g : Gpu) :
    ((GProg.makeStream d).run .cuda R g).1 = .done ∧
      ((GProg.makeStream d).run .cuda R g).2.streams = g.streams ++ [d] ∧
      ((GProg.makeStream d).run .cuda R g).2.messages = g.messages ++ [g.dev] := by
  have hd : d ≠ invalidDevice := by unfold invalidDevice; omega
  simp only [GProg.run, Gpu.makeStream, if_neg hd]
  simp [select_eq, within_eq, check_eq, leave_eq, hR, Gpu.after]

/-- C48: a stream made without a device is on the device that is selected. -/
theorem c48_default_stream (R : GRuntime) (hR : ∀ tr c dev, R.answer tr c dev = true) (g : Gpu) :
    ((GProg.makeStream (-1)).run .cuda R g).1 = .done ∧
      ((GProg.makeStream (-1)).run .cuda R g).2.streams = g.streams ++ [g.dev] ∧
      ((GProg.makeStream (-1)).run .cuda R g).2.dev = g.dev := by
  simp only [GProg.run, Gpu.makeStream, invalidDevice, if_true]
  simp [select_eq, within_eq, check_eq, leave_eq, hR, Gpu.after, Gpu.getDevice, Gpu.call]

/-- C48: a copy selects no device.  It makes one call, on the device that is selected, and throws if this fails; nothing is called for
0 bytes. -/
theorem c48_copy (fl : GFlavour) (R : GRuntime) (bytes : Nat) (g : Gpu) :
    (GProg.copy 0).run fl R g = (.done, g) ∧
      (bytes ≠ 0 → (GProg.copy bytes).run fl R g =
        (if R.answer g.trace (.copy bytes) g.dev then .done else .exc,
          { g with trace := g.trace ++ [⟨.copy bytes, g.dev, R.answer g.trace (.copy bytes) g.dev⟩] })) := by
  refine ⟨rfl, fun hb => ?_⟩
  simp only [GProg.run, Gpu.copy, if_neg hb, check_eq]
  rfl

/-- C48: no error is lost.  If a program that catches no exceptions ends normally, then all calls that it has made to the runtime have
succeeded, except perhaps for those that ask for the current device (see `c48_hip_cannot_ask`). -/
theorem c48_reported (fl : GFlavour) (R : GRuntime) (p : GProg) (hp : p.Plain) (g : Gpu) (hend : (p.run fl R g).1 = .done) :
    ∃ new, (p.run fl R g).2.trace = g.trace ++ new ∧ ∀ e ∈ new, e.ok = true ∨ e.call = .getDevice := by
  show NoFailure g (p.run fl R g).2
  induction p generalizing g with
  | skip => exact .refl g
  | throw => cases hend
  | makeResource d =>
    simp only [GProg.run, Gpu.makeResource]
    split
    · rw [getDevice_eq]; exact NoFailure.after (.inr rfl)
    · exact .refl g
  | allocate k b =>
    simp only [GProg.run, Gpu.allocate] at hend ⊢
    split
    · exact .refl g
    · rename_i d hd
      rw [hd] at hend
      simp only at hend
      split
      · exact .refl g
      · rename_i hb
        rw [if_neg hb] at hend
        refine select_reported (fun _ g' h => ?_) hend
        have := check_reported (R := R) (c := .malloc b) (g := g')
        rcases e : g'.check R (.malloc b) with ⟨e1, g1⟩
        rw [e] at this
        simp only [e] at h
        cases e1 with
        | done => exact this rfl
        | exc => cases h
        | terminate => cases h
  | deallocate k q =>
    simp only [GProg.run, Gpu.deallocate] at hend ⊢
    split
    · exact .refl g
    · rename_i d hd
      rw [hd] at hend
      simp only at hend
      split
      · exact .refl g
      · rename_i hb
        rw [if_neg hb] at hend
        exact select_reported (fun _ g' h => check_reported h) hend
  | makeStream d =>
    simp only [GProg.run, Gpu.makeStream] at hend ⊢
    refine NoFailure.trans (g' := (if d = invalidDevice then g.getDevice R else (d, g)).2) ?_ (select_reported (fun _ g' h => ?_) hend)
    · split
      · rw [getDevice_eq]; exact NoFailure.after (.inr rfl)
      · exact .refl g
    · have := check_reported (R := R) (c := .streamCreate) (g := g')
      rcases e : g'.check R .streamCreate with ⟨e1, g1⟩
      rw [e] at this
      simp only [e] at h
      cases e1 with
      | done => exact this rfl
      | exc => cases h
      | terminate => cases h
  | copy b =>
    simp only [GProg.run, Gpu.copy] at hend ⊢
    split
    · exact .refl g
    · rename_i hb
      rw [if_neg hb] at hend
      exact check_reported hend
  | seq p q ihp ihq =>
    simp only [GProg.run] at hend ⊢
    have h1 := ihp hp.1 g
    rcases e : p.run fl R g with ⟨e1, g'⟩
    rw [e] at hend h1
    cases e1 with
    | done => exact (h1 rfl).trans (ihq hp.2 g' hend)
    | exc => cases hend
    | terminate => cases hend
  | tryCatch p q ihp ihq => exact absurd hp id
  | onDevice d p ih => exact select_reported (fun _ g' h => ih hp g' h) hend

/-! ## examples and witnesses -/

/-- A runtime with the devices 0 and 1, where a call to `cudaMalloc` sometimes fails. -/
def demoRuntime : GRuntime where
  answer tr c _ := match c with
    | .setDevice d => d = 0 || d = 1
    | .malloc _ => tr.length % 7 ≠ 0
    | _ => true
  address tr := 4096 * (tr.length + 1)

theorem demo_runtime_ok : GRuntime.CanAsk demoRuntime ∧ GRuntime.CanSelect demoRuntime (fun d => d = 0 ∨ d = 1) :=
  ⟨fun _ _ => rfl, fun _ d _ => by simp [demoRuntime]⟩

/-- A program with nested scopes, resources for the present device, device 1 and one that does not exist, and exceptions. -/
def demoDevProg : GProg :=
  .seq (.makeResource invalidDevice) (.seq (.makeResource 1) (.seq (.makeResource 7) (.seq
    (.tryCatch (.onDevice 1 (.seq (.allocate 0 64) (.seq (.onDevice 0 (.allocate 1 32)) (.allocate 2 8)))) .skip)
    (.seq (.tryCatch (.allocate 1 16) .skip) (.seq (.deallocate 0 4096) .throw)))))

example :
    demoDevProg.run .cuda demoRuntime ⟨0, [], [], [], [], []⟩ =
      (.exc, ⟨0, (demoDevProg.run .cuda demoRuntime ⟨0, [], [], [], [], []⟩).2.trace, [0, 1, 7], [],
        [24576, 49152, 81920], []⟩) ∧
    (demoDevProg.run .cuda demoRuntime ⟨0, [], [], [], [], []⟩).2.trace.length > 20 := by
  decide +kernel

/-- The hypotheses of `c48_reported` are met. -/
example : let p : GProg := .seq (.makeResource 1) (.onDevice 0 (.seq (.allocate 0 64) (.seq (.copy 64) (.deallocate 0 4096))))
    p.Plain ∧ (p.run .cuda demoRuntime ⟨1, [], [], [], [], []⟩).1 = .done ∧
    (p.run .cuda demoRuntime ⟨1, [], [], [], [], []⟩).2.trace.length = 12 :=
  ⟨⟨trivial, trivial, trivial, trivial⟩, by decide +kernel, by decide +kernel⟩

/-- C48: with HIP, if the current device cannot be asked for, device 0 is selected afterwards, without any exception. -/
theorem c48_hip_cannot_ask :
    ∃ R : GRuntime, ∃ g : Gpu, g.dev = 1 ∧
      ((GProg.allocate 0 8).run .hip R g).1 = .done ∧ ((GProg.allocate 0 8).run .hip R g).2.dev = 0 :=
  ⟨⟨fun _ c _ => decide (c ≠ .getDevice), fun _ => 4096⟩, ⟨1, [], [1], [], [], []⟩, by decide +kernel⟩

/-- C48: if the device selected before cannot be selected again, the program is terminated. -/
theorem c48_terminate :
    ∃ R : GRuntime, ∃ g : Gpu, ((GProg.allocate 0 8).run .cuda R g).1 = .terminate :=
  ⟨⟨fun _ c _ => decide (c ≠ .setDevice 1), fun _ => 4096⟩, ⟨1, [], [0], [], [], []⟩, by decide +kernel⟩

end Vecmem.Props
