import Verif.Lemmas.Threads
import Verif.Props.C20_Synchronized

/-!
# C60 — threads that share memory through a synchronized resource
-/

namespace Vecmem.Props

open Vecmem Sync

variable {σ : Type} {R : Limits} {G : Nat} {up : MR σ} {u0 : σ} {o : Nat} {s : State σ} {L : List Blk}

/-- **C60.**  Any number of correct threads use one synchronized resource over a well-behaved resource that is not thread
safe.  At every moment of every schedule:
* the blocks that threads hold are non-null, in the address space, as large as asked for, aligned, and no two of them share
  a byte;
* no call ever ran into undefined behaviour: threads were given memory or `bad_alloc`, and blocks were taken back;
* at most one thread is inside upstream. -/
theorem c60_threads (hl : Lawful R G up u0) (h : Threads R up u0 o s L) :
    (L.Pairwise Blk.Disjoint ∧
      ∀ b ∈ L, b.addr ≠ 0 ∧ b.addr + b.size ≤ 2 ^ 64 ∧ (b.align ≤ G → b.align ∣ b.addr)) ∧
    (∀ t, ∀ a ∈ (s.threads t).answers, Answer.Fine a) ∧
    (∀ t t', IsInside s t → IsInside s t' → t = t') := by
  have hi := h.inv hl
  obtain ⟨ts, -, -, hr⟩ := hi.mem
  have hv := hl.live hr
  refine ⟨⟨(List.pairwise_append.1 hv.2).1, fun b hb => ?_⟩, fun t => (hi.each t).fine, ?_⟩
  · have := hv.1 b (List.mem_append_left _ hb)
    exact ⟨this.1, this.2.1, this.2.2.1⟩
  · rintro t t' ⟨u, hu⟩ ⟨u', hu'⟩
    have h1 := hi.excl t (by simp [hu])
    rw [hi.excl t' (by simp [hu'])] at h1
    exact (Option.some.inj h1).symm

/-- When no thread is in a call, upstream is as after a sequential history of correct calls, and knows of exactly the
blocks that threads hold. -/
theorem c60_quiet (hl : Lawful R G up u0) (h : Threads R up u0 o s L) (hq : ∀ t, Between s t) :
    Reach R up u0 s.up L := by
  obtain ⟨ts, -, -, hr⟩ := (h.inv hl).mem
  have : (ts.flatMap fun t => (s.threads t).flight) = [] := by
    rw [List.flatMap_eq_nil_iff]
    intro t _
    simp [Thread.flight, (hq t).1, (hq t).2, flight]
  rwa [this, List.append_nil] at hr

/-- In general some blocks are on their way: those whose release has begun but has not reached upstream, and those that
upstream has given but that have not been returned yet.  Upstream is always as after a sequential history of correct calls. -/
theorem c60_upstream (hl : Lawful R G up u0) (h : Threads R up u0 o s L) :
    ∃ F : List Blk, Reach R up u0 s.up (L ++ F) := by
  obtain ⟨ts, -, -, hr⟩ := (h.inv hl).mem
  exact ⟨_, hr⟩

/-- No deadlock: while some thread is in a call, there is a thread in a call which returns after at most four
steps of its own. -/
theorem c60_progress (hl : Lawful R G up u0) (h : Threads R up u0 o s L) {t : Nat} (ht : ¬ Between s t) :
    ∃ t', ¬ Between s t' ∧ ∃ k ≤ 4, Between (exec up s (List.replicate k t')) t' := by
  have hi := h.inv hl
  have leave : ∀ (s : State σ) t c a, (s.threads t).prog = [(o, c)] → (s.threads t).pc = .leaving a →
      Between (step up s t) t := by
    intro s t c a h1 h2
    simp [Between, step, h1, h2, upd_eq]
  have inside : ∀ (s : State σ) t c u, (s.threads t).prog = [(o, c)] → (s.threads t).pc = .inside u →
      Between (exec up s (List.replicate 2 t)) t := by
    intro s t c u h1 h2
    exact leave (step up s t) t c (up.call u c).1 (by simp [step, h1, h2, upd_eq]) (by simp [step, h1, h2, upd_eq])
  have holding : ∀ (s : State σ) t c, (s.threads t).prog = [(o, c)] → (s.threads t).pc = .holding →
      Between (exec up s (List.replicate 3 t)) t := by
    intro s t c h1 h2
    exact inside (step up s t) t c s.up (by simp [step, h1, h2, upd_eq]) (by simp [step, h1, h2, upd_eq])
  have idle : ∀ (s : State σ) t c, (s.threads t).prog = [(o, c)] → (s.threads t).pc = .idle → s.holder o = none →
      Between (exec up s (List.replicate 4 t)) t := by
    intro s t c h1 h2 h3
    exact holding (step up s t) t c (by simp [step, h1, h2, h3, upd_eq]) (by simp [step, h1, h2, h3, upd_eq])
  have single : ∀ t, (s.threads t).prog ≠ [] → ∃ c, (s.threads t).prog = [(o, c)] := by
    intro t hp
    have hok := hi.each t
    obtain ⟨x, hx⟩ : ∃ x, (s.threads t).prog = [x] := by
      have := hok.one
      match hq : (s.threads t).prog with
      | [] => exact absurd hq hp
      | [x] => exact ⟨x, rfl⟩
      | x :: y :: l => rw [hq] at this; simp at this
    refine ⟨x.2, ?_⟩
    rw [hx, ← hok.obj x (by simp [hx])]
  have done : ∀ t', (s.threads t').pc ≠ .idle →
      ¬ Between s t' ∧ ∃ k ≤ 4, Between (exec up s (List.replicate k t')) t' := by
    intro t' hpc
    obtain ⟨c, hc⟩ := single t' ((hi.each t').busy hpc)
    refine ⟨fun hb => hpc hb.2, ?_⟩
    cases hq : (s.threads t').pc with
    | idle => exact absurd hq hpc
    | holding => exact ⟨3, by omega, holding s t' c hc hq⟩
    | inside u => exact ⟨2, by omega, inside s t' c u hc hq⟩
    | leaving a => exact ⟨1, by omega, leave s t' c a hc hq⟩
  cases hh : s.holder o with
  | some t' => exact ⟨t', done t' (hi.held t' hh)⟩
  | none =>
    have hpc : (s.threads t).pc = .idle := by
      by_contra hc
      have := hi.excl t hc
      rw [hh] at this
      cases this
    obtain ⟨c, hc⟩ := single t fun hp => ht ⟨hp, hpc⟩
    exact ⟨t, ht, 4, Nat.le_refl _, idle s t c hc hpc hh⟩

/-- Three threads on the demo upstream (a bump allocator): thread 0 and thread 1 allocate at the same time, the steps of
their calls alternate; thread 1 then frees what thread 0 was given while thread 2 allocates. -/
example : ∃ s, Threads 16 demoBase demoInit 7 s [⟨4112, 8, 8⟩, ⟨4104, 8, 8⟩] ∧
    (s.threads 1).answers = [.alloc (.ok 4104), .free (.ok ())] ∧ ∀ t, Between s t := by
  have hreq : IsReq 16 8 8 := ⟨by decide, by decide, 3, rfl⟩
  have h0 : Threads 16 demoBase demoInit 7 _ _ := .init
  have h1 := Threads.request 1 8 8 (.request 0 8 8 h0 ⟨rfl, rfl⟩ hreq) ⟨rfl, rfl⟩ hreq
  have h2 := Threads.step 1 <| .step 1 <| .step 1 <| .step 1 <| .step 0 <| .step 1 <| .step 0 <| .step 1 <| .step 0 <|
    .step 1 <| .step 0 h1
  have h3 : Threads 16 demoBase demoInit 7 _ [⟨4096, 8, 8⟩, ⟨4104, 8, 8⟩] := h2.perm (by decide +kernel)
  have h4 := Threads.request 2 8 8 (.release 1 h3 ⟨by decide +kernel, by decide +kernel⟩) ⟨by decide +kernel, by decide +kernel⟩ hreq
  have h5 := Threads.step 2 <| .step 2 <| .step 2 <| .step 2 <| .step 1 <| .step 2 <| .step 1 <| .step 1 <| .step 2 <|
    .step 1 h4
  refine ⟨_, h5.perm (by decide +kernel), by decide +kernel, fun t => ?_⟩
  match t with
  | 0 => exact ⟨by decide +kernel, by decide +kernel⟩
  | 1 => exact ⟨by decide +kernel, by decide +kernel⟩
  | 2 => exact ⟨by decide +kernel, by decide +kernel⟩
  | t + 3 => exact ⟨rfl, rfl⟩

end Vecmem.Props
