import Verif.Lemmas.Wrappers
import Verif.Lemmas.Tactics
import Verif.Props.C01_C02_Contiguous

/-!
# C16, C17 — conditional, identity and terminal resources
-/

namespace Vecmem.Props

open Vecmem

variable {σ π : Type} {R : Limits} {G : Nat}

/-! ## C17 -/

/-- **C17, identity.**  For every upstream and every list of calls whatsoever, the answers are
upstream's own answers to the non-trivial calls, in order, completed by the conventional answers to
zero-byte requests and null deallocations; and upstream ends in the state the non-trivial calls alone
would have put it in. -/
theorem c17_identity (up : MR σ) (u : σ) (calls : List Call) :
    let direct := up.run u (calls.filter (fun c => !c.isTrivial))
    (identityMR up).run u calls = (weave calls direct.1, direct.2) := by
  induction calls generalizing u with
  | nil => rfl
  | cons c cs ih =>
    cases c with
    | alloc n a =>
      by_cases hn : n = 0
      · subst hn
        simp only [MR.run, MR.call, identityMR, if_true, List.filter_cons, Call.isTrivial,
          beq_self_eq_true, Bool.not_true, Bool.false_eq_true, if_false, weave, Call.trivialAnswer]
        have := ih u
        simp only [identityMR] at this
        rw [this]
        rfl
      · have hb : (n == 0) = false := by simpa using hn
        simp only [MR.run, MR.call, identityMR, hn, if_false, List.filter_cons, Call.isTrivial, hb,
          Bool.not_false, if_true, weave, Bool.false_eq_true]
        have := ih (up.allocate u n a).2
        simp only [identityMR] at this
        rw [this]
        rfl
    | free p n a =>
      by_cases hn : p = 0
      · subst hn
        simp only [MR.run, MR.call, identityMR, if_true, List.filter_cons, Call.isTrivial,
          beq_self_eq_true, Bool.not_true, Bool.false_eq_true, if_false, weave, Call.trivialAnswer]
        have := ih u
        simp only [identityMR] at this
        rw [this]
        rfl
      · have hb : (p == 0) = false := by simpa using hn
        simp only [MR.run, MR.call, identityMR, hn, if_false, List.filter_cons, Call.isTrivial, hb,
          Bool.not_false, if_true, weave, Bool.false_eq_true]
        have := ih (up.deallocate u p n a).2
        simp only [identityMR] at this
        rw [this]
        rfl

/-- An identity resource over a well-behaved upstream is well-behaved. -/
theorem c17_identity_lawful (up : MR σ) (u0 : σ) (h : Lawful R G up u0) :
    Lawful R G (identityMR up) u0 := by
  refine (Lawful.of_inv (fun s L => Reach R up u0 s L) .init ?_ ?_ ?_ ?_ ?_).1
  · intro s L n a hr hq hn
    simp only [identityMR, Nat.pos_iff_ne_zero.1 hn, if_false]
    exact ⟨h.alloc hr hq hn, fun p hp => .alloc hr hq hn (by rw [← hp]),
      fun hb => .refuse hr hq hn (by rw [← hb])⟩
  · intro s L a hr hq; simp only [identityMR, if_true]; exact ⟨Or.inl trivial, hr⟩
  · intro s L b hr
    have hne := ((h.live hr).1 b List.mem_cons_self).1
    have hd := h.dealloc hr List.mem_cons_self
    simp only [identityMR, hne, if_false]
    exact ⟨hd, .free hr (by rw [← hd])⟩
  · intro s L n a hr; simp only [identityMR, if_true]; exact ⟨trivial, hr⟩
  · intro s L L' hr hp; exact .perm hr hp

/-- **C17, terminal.**  For every list of calls, a terminal resource answers `bad_alloc` to every
request and returns normally from every deallocation. -/
theorem c17_terminal (u : σ) (calls : List Call) :
    (terminalMR (σ := σ)).run u calls =
      (calls.map (fun c => match c with
        | .alloc _ _ => .alloc .badAlloc
        | .free _ _ _ => .free (.ok ())), u) := by
  induction calls generalizing u with
  | nil => rfl
  | cons c cs ih => 
    have i1 := congrArg Prod.fst (ih u)
    have i2 := congrArg Prod.snd (ih u)
    cases c <;>
      (refine Prod.ext ?_ ?_
       · simp only [MR.run, MR.call, List.map_cons]
         exact congrArg₂ List.cons rfl i1
       · exact i2)

/-- A terminal resource is well-behaved (it refuses everything). -/
theorem c17_terminal_lawful (u0 : σ) : Lawful R G (terminalMR (σ := σ)) u0 := by
  refine (Lawful.of_inv (fun _ _ => True) trivial ?_ ?_ ?_ ?_ ?_).1 <;>
    simp [terminalMR, GoodAnswer]

/-- C17 at work: the identity resource over the demo upstream. -/
example : (identityMR demoBase).run demoInit [.alloc 0 8, .alloc 100 8, .free 0 1 1, .alloc 7 8] =
    ([.alloc (.ok 0), .alloc (.ok 4096), .free (.ok ()), .alloc (.ok 4200)],
      (⟨2 ^ 62, 4096, 4207⟩, ())) := by decide +kernel

/-! ## C16 -/

/-- What must become of a call to a conditional resource. -/
inductive Verdict where
  | trivial
  | forwarded
  | rejected
deriving DecidableEq, Repr

/-- The verdict on each call: zero-byte requests and null deallocations are trivial, other
deallocations are forwarded, other requests are put to the predicate (which may change its state). -/
def verdicts (pred : π → Nat → Nat → Bool × π) : π → List Call → List (Call × Verdict)
  | _, [] => []
  | q, .alloc n a :: cs =>
    if n = 0 then (.alloc n a, .trivial) :: verdicts pred q cs
    else (.alloc n a, if (pred q n a).1 then .forwarded else .rejected) ::
      verdicts pred (pred q n a).2 cs
  | q, .free p n a :: cs =>
    (.free p n a, if p = 0 then .trivial else .forwarded) :: verdicts pred q cs

/-- The calls that must reach upstream. -/
def reachingUpstream (vs : List (Call × Verdict)) : List Call :=
  (vs.filter (fun v => v.2 = .forwarded)).map (·.1)

/-- The answers the client must get: upstream's to the forwarded calls, `bad_alloc` for rejected ones,
the conventional ones for trivial ones. -/
def mergeAnswers : List (Call × Verdict) → List Answer → List Answer
  | [], _ => []
  | (c, .trivial) :: vs, as => c.trivialAnswer :: mergeAnswers vs as
  | (_, .rejected) :: vs, as => .alloc .badAlloc :: mergeAnswers vs as
  | (_, .forwarded) :: _, [] => []
  | (_, .forwarded) :: vs, a :: as => a :: mergeAnswers vs as

/-- **C16.**  For every predicate (with any internal state), every upstream and every list of calls
whatsoever: upstream is left as if exactly the accepted requests and the deallocations had been made
to it directly, unchanged and in order; the client gets upstream's answers to these and `bad_alloc` for
each rejected request. -/
theorem c16_conditional (pred : π → Nat → Nat → Bool × π) (up : MR σ) (q : π) (u : σ)
    (calls : List Call) :
    let vs := verdicts pred q calls
    let direct := up.run u (reachingUpstream vs)
    ((conditionalMR pred up).run (q, u) calls).1 = mergeAnswers vs direct.1 ∧
    ((conditionalMR pred up).run (q, u) calls).2.2 = direct.2 := by
  induction calls generalizing q u with
  | nil => exact ⟨rfl, rfl⟩
  | cons c cs ih =>
    cases c with
    | alloc n a =>
      by_cases hn : n = 0
      · subst hn
        obtain ⟨i1, i2⟩ := ih q u
        have e : (conditionalMR pred up).allocate (q, u) 0 a = (.ok 0, (q, u)) := by
          simp [conditionalMR, pimpl]
        simp only [MR.run, MR.call, e, verdicts, if_true, reachingUpstream, List.filter_cons,
          reduceCtorEq, decide_false, Bool.false_eq_true, if_false, mergeAnswers,
          Call.trivialAnswer]
        exact ⟨by rw [i1]; rfl, by rw [i2]; rfl⟩
      · cases hp : (pred q n a).1 with
        | true =>
          obtain ⟨i1, i2⟩ := ih (pred q n a).2 (up.allocate u n a).2
          have e : (conditionalMR pred up).allocate (q, u) n a =
              ((up.allocate u n a).1, ((pred q n a).2, (up.allocate u n a).2)) := by
            simp [conditionalMR, pimpl, hn, hp]
          simp only [MR.run, MR.call, e, verdicts, hn, if_false, hp, if_true, reachingUpstream,
            List.filter_cons, decide_true, List.map_cons, mergeAnswers]
          exact ⟨by rw [i1]; rfl, by rw [i2]; rfl⟩
        | false =>
          obtain ⟨i1, i2⟩ := ih (pred q n a).2 u
          have e : (conditionalMR pred up).allocate (q, u) n a =
              (.badAlloc, ((pred q n a).2, u)) := by
            simp [conditionalMR, pimpl, hn, hp]
          simp only [MR.run, MR.call, e, verdicts, hn, if_false, hp, Bool.false_eq_true,
            reachingUpstream, List.filter_cons, reduceCtorEq, decide_false, mergeAnswers]
          exact ⟨by rw [i1]; rfl, by rw [i2]; rfl⟩
    | free p n a =>
      by_cases hp : p = 0
      · subst hp
        obtain ⟨i1, i2⟩ := ih q u
        have e : (conditionalMR pred up).deallocate (q, u) 0 n a = (.ok (), (q, u)) := by
          simp [conditionalMR, pimpl]
        simp only [MR.run, MR.call, e, verdicts, if_true, reachingUpstream, List.filter_cons,
          reduceCtorEq, decide_false, Bool.false_eq_true, if_false, mergeAnswers,
          Call.trivialAnswer]
        exact ⟨by rw [i1]; rfl, by rw [i2]; rfl⟩
      · obtain ⟨i1, i2⟩ := ih q (up.deallocate u p n a).2
        have e : (conditionalMR pred up).deallocate (q, u) p n a =
            ((up.deallocate u p n a).1, (q, (up.deallocate u p n a).2)) := by
          simp [conditionalMR, pimpl, hp]
        simp only [MR.run, MR.call, e, verdicts, hp, if_false, if_true, reachingUpstream,
          List.filter_cons, decide_true, List.map_cons, mergeAnswers]
        exact ⟨by rw [i1]; rfl, by rw [i2]; rfl⟩

/-- C16 at work: a predicate accepting only every other request of at most 1000 bytes. -/
example :
    let pred : Bool → Nat → Nat → Bool × Bool := fun q n _ => (q && decide (n ≤ 1000), !q)
    verdicts pred true [.alloc 10 8, .alloc 10 8, .alloc 2000 8, .free 4096 10 8, .alloc 0 1] =
      [(.alloc 10 8, .forwarded), (.alloc 10 8, .rejected), (.alloc 2000 8, .rejected),
        (.free 4096 10 8, .forwarded), (.alloc 0 1, .trivial)] := by decide

/-- A conditional resource over a well-behaved upstream is well-behaved. -/
theorem c16_conditional_lawful (pred : π → Nat → Nat → Bool × π) (up : MR σ) (q0 : π) (u0 : σ)
    (h : Lawful R G up u0) : Lawful R G (conditionalMR pred up) (q0, u0) := by
  refine (Lawful.of_inv (fun s L => Reach R up u0 s.2 L) .init ?_ ?_ ?_ ?_ ?_).1
  · intro s L n a hr hq hn
    simp only [conditionalMR, pimpl, Nat.pos_iff_ne_zero.1 hn, if_false]
    split
    · exact ⟨h.alloc hr hq hn, fun p hp => .alloc hr hq hn (by rw [← hp]),
        fun hb => .refuse hr hq hn (by rw [← hb])⟩
    · exact ⟨trivial, by simp, fun _ => hr⟩
  · intro s L a hr hq; simp only [conditionalMR, pimpl, if_true]; exact ⟨Or.inl trivial, hr⟩
  · intro s L b hr
    have hne := ((h.live hr).1 b List.mem_cons_self).1
    have hd := h.dealloc hr List.mem_cons_self
    simp only [conditionalMR, pimpl, hne, if_false]
    exact ⟨hd, .free hr (by rw [← hd])⟩
  · intro s L n a hr; simp only [conditionalMR, pimpl, if_true]; exact ⟨trivial, hr⟩
  · intro s L L' hr hp; exact .perm hr hp

end Vecmem.Props
