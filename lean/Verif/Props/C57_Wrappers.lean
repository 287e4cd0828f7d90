import Verif.Lemmas.Queues

/-!
# C57 — wrappers of CUDA streams and SYCL queues

`WrapSpec` says what every wrapper refers to and whether it owns it.  The theorems compare the wrappers of the library with
it after every program.
-/

namespace Vecmem.Props

open Vecmem

/-- C57 for CUDA: after every program, every wrapper refers to the stream it should refer to.  Streams are destroyed
when, and only when, their last owner is gone, and once only; so owners never refer to a stream that has been
destroyed. -/
theorem c57_streams (ops : List WrapOp) (s : CudaState) (hs : CudaState.init.run ops = some s) :
    let r := WrapSpec.init.run ops
    (∀ w, (s.wr w).map (·.stream) = (r.refs w).map (·.stream)) ∧
    (∀ i, i ∈ s.destroyed ↔ i < r.next ∧ ¬ r.Owned (.own i)) ∧
    s.destroyed.Nodup := by
  intro r
  obtain ⟨ws, hn, hw⟩ := exists_ids ops
  have h := (CudaInv.start hn).run ops hw hs
  have hin : ∀ w c, s.wr w = some c → ∀ m, c.managed = some m → ownersN ws s.wr m ≠ 0 → r.Owned (.own m) := by
    intro w c hc m hm _
    refine ⟨w, ?_⟩
    rw [h.refs, hc, Option.map_some, h.own w c m hc hm, hm]
    rfl
  refine ⟨fun w => ?_, fun i => ?_, h.bal.once⟩
  · rw [h.refs, Option.map_map]; rfl
  · rw [h.bal.destroyed i, h.next]
    have hu := h.bal.uses i
    refine and_congr_right fun hi => ?_
    constructor
    · rintro h0 ⟨w, hr⟩
      rw [h.refs] at hr
      obtain ⟨c, hc, e⟩ := Option.map_eq_some_iff.mp hr
      injection e with e1 e2
      obtain ⟨m, hm⟩ := Option.isSome_iff_exists.mp e2
      have := h.own w c m hc hm
      rw [e1] at this
      injection this with this
      subst this
      by_cases hmem : w ∈ ws
      · have := ownersN_pos hmem (m := i) (wr := s.wr) (by rw [hc, ownsN_some, if_pos hm])
        omega
      · rcases CudaState.run_wr ops hs w (by rw [hc]; simp) with h1 | ⟨op, ho, hi⟩
        · exact absurd rfl h1
        · exact absurd (hw op ho w hi) hmem
    · intro h0
      by_contra hne
      obtain ⟨w, -, e⟩ := ownersN_exists (ws := ws) (wr := s.wr) (m := i) (by omega)
      obtain ⟨c, hc, hm⟩ := Option.bind_eq_some_iff.mp e
      exact h0 (hin w c hc i hm (by omega))

/-- C57 for SYCL, the part about memory: the `sycl::queue` objects that wrappers make are deleted once, and exactly those
are left over that some wrapper owns. -/
theorem c57_queue_memory (ops : List WrapOp) (s : SyclState) (hs : SyclState.init.run ops = some s) :
    (∀ a, a ∈ s.deleted ↔ a < s.nextObj ∧ ¬ ∃ w c, s.wr w = some c ∧ c.managed = some a) ∧
    s.deleted.Nodup ∧
    (∀ w c v d a, s.wr w = some c → c.managed = some a → s.wr v = some d → d.managed = some a → w = v) := by
  have h := QueueMem.start.run ops hs
  refine ⟨fun a => ?_, h.once, h.inj⟩
  rw [h.deleted]
  refine and_congr_right fun _ => ⟨?_, fun hn => ?_⟩
  · rintro h0 ⟨w, c, hc, hm⟩; exact h.alive w c a hc hm h0
  · by_contra ha
    rcases h.owned a ha with h' | h'
    · cases h'
    · exact hn h'

/-- C57 for SYCL, partial: after every program that does not assign a view to a wrapper that owns its queue, every wrapper
gives access to the queue it should refer to, or, if it is a view, to an object that has been deleted; owners give access
to their queues.  Missing: assignments of views to owners; see `c57_queue_false`. -/
theorem c57_queues_partial (ops : List WrapOp) (s : SyclState) (hs : SyclState.init.run ops = some s)
    (hv : WrapSpec.init.NoViewToOwner ops) :
    let r := WrapSpec.init.run ops
    (∀ w, s.wr w = none ↔ r.refs w = none) ∧
    (∀ w x q, r.refs w = some x → s.designates w = some q → q = x.stream) ∧
    (∀ w q, r.refs w = some ⟨q, true⟩ → s.designates w = some q) ∧
    (∀ w i, r.refs w = some ⟨.ext i, false⟩ → s.designates w = some (.ext i)) := by
  intro r
  have hm := QueueMem.start.run ops hs
  have h := QueueRefs.start.run ops QueueMem.start hv hs
  refine ⟨fun w => ?_, fun w x q hx hq => ?_, fun w q hx => ?_, fun w i hx => ?_⟩
  · have h1 := h.ok w
    constructor
    · intro e; rw [e] at h1; exact wrapOk_none h1
    · intro e
      cases hc : s.wr w with
      | none => rfl
      | some c =>
        rw [hc] at h1
        obtain ⟨y, e', -⟩ := wrapOk_some h1
        rw [show (WrapSpec.init.run ops).refs w = none from e] at e'
        cases e'
  · have h1 := h.ok w
    obtain ⟨c, hc, hd⟩ := Option.bind_eq_some_iff.mp hq
    rw [hc, show (WrapSpec.init.run ops).refs w = some x from hx] at h1
    exact h1.2.1 q hd
  · have h1 := h.ok w
    rw [show (WrapSpec.init.run ops).refs w = some _ from hx] at h1
    cases hc : s.wr w with
    | none => rw [hc] at h1; exact absurd h1 id
    | some c =>
      rw [hc] at h1
      obtain ⟨a, ha⟩ := Option.isSome_iff_exists.mp h1.1.symm
      have h2 := hm.alive w c a hc ha
      have h3 := h1.2.2.1 a ha
      cases ho : s.obj a with
      | none => exact absurd ho h2
      | some q' =>
        have h4 : s.deref c.queue = some q' := by rw [h3]; exact ho
        show ((s.wr w).bind fun c => s.deref c.queue) = some q
        rw [hc]
        show s.deref c.queue = some q
        rw [h4, h1.2.1 q' h4]
  · have h1 := h.ok w
    rw [show (WrapSpec.init.run ops).refs w = some _ from hx] at h1
    cases hc : s.wr w with
    | none => rw [hc] at h1; exact absurd h1 id
    | some c =>
      rw [hc] at h1
      show ((s.wr w).bind fun c => s.deref c.queue) = _
      rw [hc]
      show s.deref c.queue = _
      rw [h1.2.2.2 i rfl]
      rfl

/-! ## Concrete programs -/

/-- An owner, a copy of it, a move, an external stream, and the end of two of the owners. -/
def wrapProgram : List WrapOp :=
  [.create 0, .copy 1 0, .move 2 0, .view 3 7, .create 4, .assign 4 1, .moveAssign 1 3, .destroy 2]

/-- The program runs with CUDA wrappers: the second stream lost its only owner in the assignment to wrapper 4; the first
one lives on, owned by wrapper 4 alone, and wrapper 0, which is left over from the move, still refers to it. -/
example : ((CudaState.init.run wrapProgram).map fun s =>
      ((List.range 5).map fun w => (s.wr w).map (·.stream), s.destroyed)) =
    some ([some (.own 0), some (.ext 7), none, some (.ext 7), some (.own 0)], [1]) := by decide +kernel

/-- With SYCL wrappers every owner has an object of its own.  Wrapper 4 has a copy of the first queue; wrapper 0, which is
left over from the move, points to the object that wrapper 2 owned and deleted. -/
example : ((SyclState.init.run wrapProgram).map fun s =>
      ((List.range 5).map s.designates, s.deleted)) =
    some ([none, some (.ext 7), none, some (.ext 7), some (.own 0)], [0, 1, 2]) := by decide +kernel

example : WrapSpec.init.NoViewToOwner wrapProgram := by
  simp [wrapProgram, WrapSpec.NoViewToOwner, WrapSpec.step, WrapSpec.init, setAt]

/-- C57 is false for SYCL: a wrapper that owned queue 0 is assigned a view of the external queue 7, and refers to that
queue; but a copy of the wrapper refers to queue 0. -/
theorem c57_queue_false : ∃ s, SyclState.init.run [.create 0, .view 1 7, .assign 0 1, .copy 2 0] = some s ∧
    s.designates 0 = some (.ext 7) ∧ s.designates 2 = some (.own 0) ∧
    (WrapSpec.init.run [.create 0, .view 1 7, .assign 0 1, .copy 2 0]).refs 2 = some ⟨.ext 7, false⟩ :=
  ⟨_, rfl, by decide +kernel, by decide +kernel, by decide +kernel⟩

/-- Moves have the same problem: the wrapper made by the move refers to queue 0. -/
theorem c57_queue_move_false : ∃ s, SyclState.init.run [.create 0, .view 1 7, .assign 0 1, .move 2 0] = some s ∧
    s.designates 0 = some (.ext 7) ∧ s.designates 2 = some (.own 0) :=
  ⟨_, rfl, by decide +kernel, by decide +kernel⟩

/-- A wrapper that is assigned a view of its own stream destroys that stream: `w = stream_wrapper(w.stream())`. -/
theorem c57_stream_own_view : ∃ s, CudaState.init.run [.create 0, .viewOf 1 0, .assign 0 1] = some s ∧
    (s.wr 0).map (·.stream) = some (.own 0) ∧ s.destroyed = [0] :=
  ⟨_, rfl, by decide +kernel, by decide +kernel⟩

/-- The same with SYCL, if the view is moved: the pointer dangles.  If it is copied, the queue lives on. -/
theorem c57_queue_own_view :
    (∃ s, SyclState.init.run [.create 0, .viewOf 1 0, .moveAssign 0 1] = some s ∧ s.designates 0 = none) ∧
    ∃ s, SyclState.init.run [.create 0, .viewOf 1 0, .assign 0 1] = some s ∧ s.designates 0 = some (.own 0) :=
  ⟨⟨_, rfl, by decide +kernel⟩, _, rfl, by decide +kernel⟩

end Vecmem.Props
