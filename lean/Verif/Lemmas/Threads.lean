import Verif.Spec.Threads
import Verif.Lemmas.Resource
import Verif.Lemmas.Tactics
import Mathlib.Data.List.Perm.Basic

namespace Vecmem.Sync

variable {σ : Type} {R : Limits} {G : Nat} {up : MR σ} {u0 : σ} {o : Nat}

theorem upd_eq {β : Type} (f : Nat → β) (i : Nat) (v : β) : upd f i v i = v := by simp [upd]

theorem upd_other {β : Type} (f : Nat → β) {i j : Nat} (v : β) (h : j ≠ i) : upd f i v j = f j := by simp [upd, h]

/-- The block that a thread in this position has given away or not got yet. -/
def flight : List (Nat × Call) → PC σ → List Blk
  | (_, .alloc n a) :: _, .leaving (.alloc (.ok p)) => if n = 0 then [] else [⟨p, n, a⟩]
  | (_, .free _ _ _) :: _, .leaving _ => []
  | (_, .free p n a) :: _, _ => if p = 0 then [] else [⟨p, n, a⟩]
  | _, _ => []

def Thread.flight (th : Thread σ) : List Blk := Sync.flight th.prog th.pc

/-- What holds of a thread in itself. -/
structure ThreadOk (R : Limits) (o : Nat) (th : Thread σ) : Prop where
  obj : ∀ x ∈ th.prog, x.1 = o
  one : th.prog.length ≤ 1
  req : ∀ x ∈ th.prog, ∀ n a, x.2 = .alloc n a → IsReq R n a
  fine : ∀ a ∈ th.answers, Answer.Fine a
  last : ∀ a, th.pc = .leaving a → Answer.Fine a
  busy : th.pc ≠ .idle → th.prog ≠ []

structure TInv (R : Limits) (up : MR σ) (u0 : σ) (o : Nat) (s : State σ) (L : List Blk) : Prop where
  each : ∀ t, ThreadOk R o (s.threads t)
  excl : ∀ t, (s.threads t).pc ≠ .idle → s.holder o = some t
  held : ∀ t, s.holder o = some t → (s.threads t).pc ≠ .idle
  snap : ∀ t u, (s.threads t).pc = .inside u → u = s.up
  mem : ∃ ts : List Nat, ts.Nodup ∧ (∀ t, t ∉ ts → (s.threads t).flight = []) ∧
    Reach R up u0 s.up (L ++ ts.flatMap fun t => (s.threads t).flight)

/-- The threads that matter may be taken to include `t`, in front. -/
theorem TInv.front {s : State σ} {L : List Blk} (h : TInv R up u0 o s L) (t : Nat) :
    ∃ ts : List Nat, (t :: ts).Nodup ∧ (∀ j, j ∉ t :: ts → (s.threads j).flight = []) ∧
      Reach R up u0 s.up (L ++ ((s.threads t).flight ++ ts.flatMap fun j => (s.threads j).flight)) := by
  obtain ⟨ts, hn, ho, hr⟩ := h.mem
  by_cases ht : t ∈ ts
  · have hp := List.perm_cons_erase ht
    refine ⟨ts.erase t, hp.nodup_iff.1 hn, fun j hj => ho j fun hc => hj (hp.mem_iff.1 hc), ?_⟩
    refine hr.perm (List.Perm.append_left _ ?_)
    have := hp.flatMap_right fun j => (s.threads j).flight
    simpa using this
  · refine ⟨ts, List.nodup_cons.2 ⟨ht, hn⟩, fun j hj => ho j fun hc => hj (List.mem_cons_of_mem _ hc), ?_⟩
    rw [ho t ht]
    simpa using hr

/-- What the others have in flight does not change when `t` changes. -/
theorem flatMap_upd (f : Nat → Thread σ) {t : Nat} {ts : List Nat} (h : t ∉ ts) (th : Thread σ) :
    (ts.flatMap fun j => (upd f t th j).flight) = ts.flatMap fun j => (f j).flight := by
  rw [List.flatMap_def, List.flatMap_def]
  congr 1
  apply List.map_congr_left
  intro j hj
  have hne : j ≠ t := fun hc => h (hc ▸ hj)
  rw [upd_other f th hne]

/-- Assemble the invariant after thread `t` has become `th`. -/
theorem TInv.after {s : State σ} {L : List Blk} (h : TInv R up u0 o s L) {t : Nat} {th : Thread σ} {u : σ}
    {holder : Nat → Option Nat} {L' : List Blk} (hth : ThreadOk R o th)
    (hexcl : ∀ j, (upd s.threads t th j).pc ≠ .idle → holder o = some j)
    (hheld : ∀ j, holder o = some j → (upd s.threads t th j).pc ≠ .idle)
    (hsnap : ∀ j v, (upd s.threads t th j).pc = .inside v → v = u)
    (hmem : ∀ F : List Blk, Reach R up u0 s.up (L ++ ((s.threads t).flight ++ F)) →
      Reach R up u0 u (L' ++ (th.flight ++ F))) :
    TInv R up u0 o ⟨u, holder, upd s.threads t th⟩ L' := by
  obtain ⟨ts, hn, ho, hr⟩ := h.front t
  have hn' := List.nodup_cons.1 hn
  refine ⟨fun j => ?_, hexcl, hheld, hsnap, t :: ts, hn, fun j hj => ?_, ?_⟩
  · by_cases hj : j = t
    · subst hj; simp only [upd_eq]; exact hth
    · simp only [upd_other _ _ hj]; exact h.each j
  · have hjt : j ≠ t := fun hc => hj (by simp [hc])
    simp only [upd_other _ _ hjt]
    exact ho j hj
  · simp only [List.flatMap_cons, upd_eq, flatMap_upd s.threads hn'.1]
    exact hmem _ hr

theorem TInv.start : TInv R up u0 o (start u0 fun _ => []) [] := by
  refine ⟨fun t => ⟨?_, ?_, ?_, ?_, ?_, ?_⟩, ?_, ?_, ?_, [], List.nodup_nil, ?_, ?_⟩ <;>
    simp [Sync.start, Thread.flight, flight]
  exact .init

theorem TInv.issue {s : State σ} {L L' : List Blk} (h : TInv R up u0 o s L) {t : Nat} {c : Call} (hb : Between s t)
    (hreq : ∀ n a, c = .alloc n a → IsReq R n a)
    (hL : L.Perm (flight (σ := σ) [(o, c)] .idle ++ L')) : TInv R up u0 o (issue s t o c) L' := by
  have hpc := hb.2
  have same : ∀ j, (upd s.threads t { s.threads t with prog := [(o, c)] } j).pc = (s.threads j).pc := by
    intro j
    by_cases hj : j = t
    · subst hj; simp [upd_eq]
    · simp [upd_other _ _ hj]
  refine h.after (t := t) (th := { s.threads t with prog := [(o, c)] }) (holder := s.holder) (u := s.up) ?_ ?_ ?_ ?_ ?_
  · refine ⟨by simp, by simp, ?_, (h.each t).fine, (h.each t).last, by simp⟩
    intro x hx n a hc
    simp only [List.mem_singleton] at hx
    subst hx
    exact hreq n a hc
  · intro j hj; rw [same] at hj; exact h.excl j hj
  · intro j hj; rw [same]; exact h.held j hj
  · intro j u hu; rw [same] at hu; exact h.snap j u hu
  · intro F hF
    have h1 : (s.threads t).flight = [] := by simp [Thread.flight, hb.1, hpc, flight]
    rw [h1] at hF
    simp only [List.nil_append] at hF
    have h2 : ({ s.threads t with prog := [(o, c)] } : Thread σ).flight = flight (σ := σ) [(o, c)] .idle := by
      simp [Thread.flight, hpc]
    rw [h2]
    refine hF.perm ?_
    refine (List.Perm.append_right F hL).trans ?_
    rw [← List.append_assoc]
    exact List.Perm.append_right F List.perm_append_comm

theorem TInv.step (hl : Lawful R G up u0) {s : State σ} {L : List Blk} (h : TInv R up u0 o s L) (t : Nat) :
    TInv R up u0 o (step up s t) (gained s t ++ L) := by
  have hok := h.each t
  cases hprog : (s.threads t).prog with
  | nil => simpa [Sync.step, hprog, gained] using h
  | cons x rest =>
    obtain ⟨o', c⟩ := x
    have ho : o' = o := hok.obj (o', c) (by simp [hprog])
    subst ho
    have hrest : rest = [] := by
      have := hok.one
      rw [hprog] at this
      simp only [List.length_cons] at this
      exact List.eq_nil_of_length_eq_zero (by omega)
    subst hrest
    have hidle : (s.threads t).pc ≠ .idle → ∀ j, j ≠ t → (s.threads j).pc = .idle := by
      intro ht j hj
      by_contra hc
      have h1 := h.excl t ht
      rw [h.excl j hc] at h1
      exact hj (Option.some.inj h1)
    cases hpc : (s.threads t).pc with
    | idle =>
      have hg : gained s t = [] := by cases c <;> simp [gained, hprog, hpc]
      rw [hg, List.nil_append]
      cases hh : s.holder o' with
      | some j => simpa [Sync.step, hprog, hpc, hh] using h
      | none =>
        have hst : Sync.step up s t = { s with
            holder := upd s.holder o' (some t),
            threads := upd s.threads t { s.threads t with pc := .holding } } := by
          simp [Sync.step, hprog, hpc, hh]
        rw [hst]
        have hall : ∀ j, (s.threads j).pc = .idle := by
          intro j; by_contra hc; have := h.excl j hc; rw [hh] at this; simp at this
        refine h.after ⟨hok.obj, hok.one, hok.req, hok.fine, by simp, by simp [hprog]⟩ ?_ ?_ ?_ ?_
        · intro j hj
          by_cases hjt : j = t
          · subst hjt; exact upd_eq _ _ _
          · rw [upd_other _ _ hjt] at hj; exact absurd (hall j) hj
        · intro j hj
          rw [upd_eq] at hj
          cases hj
          simp [upd_eq]
        · intro j v hv
          by_cases hjt : j = t
          · subst hjt; simp [upd_eq] at hv
          · simp [upd_other _ _ hjt, hall j] at hv
        · intro F hF
          simp only [Thread.flight, hprog, hpc] at hF ⊢
          cases c <;> simpa [flight] using hF
    | holding =>
      have hg : gained s t = [] := by cases c <;> simp [gained, hprog, hpc]
      rw [hg, List.nil_append]
      have hst : Sync.step up s t = { s with
          threads := upd s.threads t { s.threads t with pc := .inside s.up } } := by
        simp [Sync.step, hprog, hpc]
      rw [hst]
      have hid := hidle (by simp [hpc])
      have hown := h.excl t (by simp [hpc])
      refine h.after ⟨hok.obj, hok.one, hok.req, hok.fine, by simp, by simp [hprog]⟩ ?_ ?_ ?_ ?_
      · intro j hj
        by_cases hjt : j = t
        · subst hjt; exact hown
        · rw [upd_other _ _ hjt] at hj; exact absurd (hid j hjt) hj
      · intro j hj
        rw [hown] at hj
        cases hj
        simp [upd_eq]
      · intro j v hv
        by_cases hjt : j = t
        · subst hjt; simp only [upd_eq, PC.inside.injEq] at hv; exact hv.symm
        · simp [upd_other _ _ hjt, hid j hjt] at hv
      · intro F hF
        simp only [Thread.flight, hprog, hpc] at hF ⊢
        cases c <;> simpa [flight] using hF
    | inside u =>
      have hg : gained s t = [] := by cases c <;> simp [gained, hprog, hpc]
      rw [hg, List.nil_append]
      have hst : Sync.step up s t = { s with
          up := (up.call u c).2,
          threads := upd s.threads t { s.threads t with pc := .leaving (up.call u c).1 } } := by
        simp [Sync.step, hprog, hpc]
      rw [hst]
      have hid := hidle (by simp [hpc])
      have hown := h.excl t (by simp [hpc])
      have hu : u = s.up := h.snap t u hpc
      subst hu
      have key : Answer.Fine (up.call s.up c).1 ∧ ∀ F : List Blk,
          Reach R up u0 s.up (L ++ (flight (σ := σ) [(o', c)] (.inside s.up) ++ F)) →
          Reach R up u0 (up.call s.up c).2 (L ++ (flight (σ := σ) [(o', c)] (.leaving (up.call s.up c).1) ++ F)) := by
        obtain ⟨ts, -, -, hr⟩ := h.front t
        have hfl : (s.threads t).flight = flight [(o', c)] (.inside s.up) := by simp [Thread.flight, hprog, hpc]
        rw [hfl] at hr
        cases c with
        | alloc n a =>
          have hreq : IsReq R n a := hok.req (o', .alloc n a) (by simp [hprog]) n a rfl
          simp only [MR.call]
          by_cases hn : n = 0
          · subst hn
            have hz := hl.zero hr hreq
            refine ⟨?_, fun F hF => ?_⟩
            · rcases hz with hz | hz <;> simp [hz, Answer.Fine]
            · have := Reach.zero hF hreq (r := (up.allocate s.up 0 a).1) (s' := (up.allocate s.up 0 a).2) rfl
              rcases hz with hz | hz <;> simpa [hz, flight] using this
          · have hpos : 0 < n := Nat.pos_of_ne_zero hn
            have hgood := hl.alloc hr hreq hpos
            generalize he : up.allocate s.up n a = r at hgood ⊢
            obtain ⟨ans, s'⟩ := r
            simp only at hgood ⊢
            cases ans with
            | ok p =>
              refine ⟨trivial, fun F hF => ?_⟩
              have := Reach.alloc hF hreq hpos he
              simp only [flight, List.nil_append, if_neg hn] at this ⊢
              refine this.perm ?_
              exact List.perm_middle.symm
            | badAlloc =>
              refine ⟨trivial, fun F hF => ?_⟩
              have := Reach.refuse hF hreq hpos he
              simpa [flight] using this
            | _ => exact hgood.elim
        | free p n a =>
          simp only [MR.call]
          by_cases hp : p = 0
          · subst hp
            have hz := hl.null hr (n := n) (a := a)
            refine ⟨by simp [hz, Answer.Fine], fun F hF => ?_⟩
            have := Reach.freeNull hF (n := n) (a := a) (r := (up.deallocate s.up 0 n a).1)
              (s' := (up.deallocate s.up 0 n a).2) rfl
            simpa [flight] using this
          · have hbl : ∀ F : List Blk, (L ++ (flight (σ := σ) [(o', .free p n a)] (.inside s.up) ++ F)).Perm
                (⟨p, n, a⟩ :: (L ++ F)) := by
              intro F
              simp only [flight, if_neg hp]
              exact List.perm_middle
            have hd := hl.dealloc (hr.perm (hbl _)) (b := ⟨p, n, a⟩) (by simp)
            simp only at hd
            refine ⟨by simp [hd, Answer.Fine], fun F hF => ?_⟩
            have := Reach.free (hF.perm (hbl F)) (s' := (up.deallocate s.up p n a).2) (by rw [← hd])
            simpa [flight] using this
      refine h.after ⟨hok.obj, hok.one, hok.req, hok.fine, ?_, by simp [hprog]⟩ ?_ ?_ ?_ ?_
      · intro a ha
        simp only [PC.leaving.injEq] at ha
        exact ha ▸ key.1
      · intro j hj
        by_cases hjt : j = t
        · subst hjt; exact hown
        · rw [upd_other _ _ hjt] at hj; exact absurd (hid j hjt) hj
      · intro j hj
        rw [hown] at hj
        cases hj
        simp [upd_eq]
      · intro j v hv
        by_cases hjt : j = t
        · subst hjt; simp [upd_eq] at hv
        · simp [upd_other _ _ hjt, hid j hjt] at hv
      · intro F hF
        simp only [Thread.flight, hprog, hpc] at hF ⊢
        exact key.2 F hF
    | leaving a =>
      have hst : Sync.step up s t = { s with
          holder := upd s.holder o' none,
          threads := upd s.threads t
            { prog := [], pc := .idle, answers := (s.threads t).answers ++ [a] } } := by
        simp [Sync.step, hprog, hpc]
      rw [hst]
      have hid := hidle (by simp [hpc])
      refine h.after ⟨by simp, by simp, by simp, ?_, by simp, by simp⟩ ?_ ?_ ?_ ?_
      · intro b hb
        rcases List.mem_append.1 hb with hb | hb
        · exact hok.fine b hb
        · simp only [List.mem_singleton] at hb
          exact hb ▸ hok.last a hpc
      · intro j hj
        by_cases hjt : j = t
        · subst hjt; simp [upd_eq] at hj
        · rw [upd_other _ _ hjt] at hj; exact absurd (hid j hjt) hj
      · intro j hj
        simp [upd_eq] at hj
      · intro j v hv
        by_cases hjt : j = t
        · subst hjt; simp [upd_eq] at hv
        · simp [upd_other _ _ hjt, hid j hjt] at hv
      · intro F hF
        have hfl : (s.threads t).flight = gained s t := by
          cases c with
          | alloc n b => cases a with
            | alloc r => cases r <;> simp [Thread.flight, flight, gained, hprog, hpc]
            | free r => simp [Thread.flight, flight, gained, hprog, hpc]
          | free p n b => simp [Thread.flight, flight, gained, hprog, hpc]
        rw [hfl, ← List.append_assoc] at hF
        have : Thread.flight (σ := σ) ⟨[], .idle, (s.threads t).answers ++ [a]⟩ = [] := by simp [Thread.flight, flight]
        rw [this, List.nil_append]
        exact hF.perm (List.Perm.append_right F List.perm_append_comm)

theorem Threads.inv (hl : Lawful R G up u0) {s : State σ} {L : List Blk} (h : Threads R up u0 o s L) :
    TInv R up u0 o s L := by
  induction h with
  | init => exact .start
  | request t n a _ hb hr ih =>
    exact ih.issue hb (fun n' a' hc => by cases hc; exact hr) (by simp [flight])
  | @release s L b t _ hb ih =>
    have hne : b.addr ≠ 0 := by
      obtain ⟨ts, -, -, hr⟩ := ih.mem
      exact ((hl.live hr).1 b (by simp)).1
    exact ih.issue hb (by simp) (by simp [flight, hne])
  | releaseNull t n a _ hb ih => exact ih.issue hb (by simp) (by simp [flight])
  | step t _ ih => exact ih.step hl t
  | perm _ hp ih =>
    refine ⟨ih.each, ih.excl, ih.held, ih.snap, ?_⟩
    obtain ⟨ts, hn, ho, hr⟩ := ih.mem
    exact ⟨ts, hn, ho, hr.perm (List.Perm.append_right _ hp)⟩

end Vecmem.Sync
