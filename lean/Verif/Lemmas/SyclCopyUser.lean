import Verif.Lemmas.SyclCopyJagged

/-! # Users who wait for every event, on a queue that is not in order -/

namespace Vecmem

open Prog

/-- The vectors of every call are apart, if the steps are started in state `s`. -/
def ApartFrom (hs : List HostStep) (s : DState) : Prop :=
  ∀ pre c post l s', hs = pre ++ .call c :: post → (hostProg pre).run s = (.ok l, s') → c.Apart s'.mem

theorem StepsApart.from {hs : List HostStep} {m : Mem} (h : StepsApart hs m) : ApartFrom hs ⟨m, [], 0⟩ := by
  intro pre c post l s' h1 h2
  refine h pre c post s'.mem h1 ?_
  rw [Prog.result, h2]
  rfl

theorem call_locals {c : CopyCall} {s s' : DState} {r : Res Nat} (h : c.prog.run s = (r, s')) (hr : r ≠ .ub) :
    s'.locals.length = s.locals.length := by
  have h1 := (lib_call c s [] .nil (by rw [h]; exact hr)).post
  rw [h] at h1
  obtain ⟨P, h2⟩ := h1
  exact h2.2.1

theorem ssafe_host (hs : List HostStep) : ∀ (s : DState) (B : SBook), B.pend = [] → ((hostProg hs).run s).1 ≠ .ub →
    ApartFrom hs s → SSafe (hostProg hs) (fun r s' B' => (hostProg hs).run s = (r, s') ∧
      s'.locals.length = s.locals.length ∧ B'.pend = []) s B := by
  induction hs with
  | nil => intro s B hB _ _; exact ⟨by simp, rfl, rfl, hB⟩
  | cons h hs ih =>
    intro s B hB hub ha
    cases h with
    | call c =>
      have hc : c.Apart s.mem := ha [] c hs [] s rfl rfl
      apply SSafe.bind
      refine (slib_call hc (run_bind_ub hub) B hB).mono ?_
      rintro r s' B' ⟨r0, h1, h2, h3, h4⟩
      rcases h2 with ⟨e, e0, rfl, rfl, -⟩ | ⟨hne, rfl⟩
      · have hl := call_locals h1 (by simp)
        have hrun : (hostProg (.call c :: hs)).run s = (hostProg hs).run s' := by
          show (c.prog.bind fun e => .wait e (hostProg hs)).run s = _
          rw [run_bind_ok h1]
          rfl
        rw [hrun] at hub
        have := ih s' (B'.after e) (h3 e rfl).after hub (by
          intro pre c' post l s2 g1 g2
          refine ha (.call c :: pre) c' post l s2 (by rw [g1]; rfl) ?_
          show (c.prog.bind fun e => .wait e (hostProg pre)).run s = _
          rw [run_bind_ok h1]
          exact g2)
        show SSafe (hostProg hs) _ s' (B'.after e)
        refine this.mono ?_
        rintro r2 s2 B2 ⟨g1, g2, g3⟩
        exact ⟨by rw [hrun]; exact g1, by rw [g2, hl], g3⟩
      · have herr := run_bind_err (f := fun e => Prog.wait e (hostProg hs)) h1 (fun b => hne b) (fun _ => [])
        have h6 := h4 hne
        cases r0 with
        | ok b => exact absurd rfl (hne b)
        | ub => trivial
        | _ => exact ⟨herr, call_locals h1 (by simp), h6⟩
    | read p n =>
      refine ⟨by simp [hB], ?_⟩
      apply SSafe.bind
      have hub' : ((hostProg hs).run s).1 ≠ .ub := run_bind_ub (p := hostProg hs) hub
      refine (ih s B hB hub' ?_).mono ?_
      · intro pre c' post l s2 g1 g2
        refine ha (.read p n :: pre) c' post ((fun i => if i < n then s.mem (p + i) else 0) :: l) s2 (by rw [g1]; rfl) ?_
        show ((hostProg pre).bind fun l => .ret (.ok (_ :: l))).run s = _
        rw [run_bind_ok g2]
        rfl
      · rintro r s' B' ⟨g1, g2, g3⟩
        have herr := fun hne => run_bind_err (f := fun l => Prog.ret (.ok
          ((fun i => if i < n then s.mem (p + i) else 0) :: l))) g1 hne (fun l => l)
        cases r with
        | ok l =>
          refine ⟨by simp, ?_, g2, g3⟩
          show ((hostProg hs).bind fun l => .ret (.ok (_ :: l))).run s = _
          rw [run_bind_ok g1]
          rfl
        | ub => trivial
        | _ => exact ⟨herr (fun _ => by simp), g2, g3⟩
    | write p n b =>
      refine ⟨by simp [hB], ?_⟩
      refine (ih { s with mem := memPut s.mem p n b 0 } B hB hub ?_).mono fun r s' B' g => ⟨g.1, g.2.1, g.2.2⟩
      intro pre c' post l s2 g1 g2
      exact ha (.write p n b :: pre) c' post l s2 (by rw [g1]; rfl) g2

end Vecmem
