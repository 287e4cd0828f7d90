import Verif.Lemmas.Handles

/-!
# C56 — moving memory resources
-/

namespace Vecmem.Props

open Vecmem

variable {β σ : Type}

/-- **C56.**  In every state of a correct program that creates, uses, moves (by construction or assignment) and
destroys memory resource objects, which may be built over each other:

* requests to every object that holds a resource are answered well, with respect to all live blocks, or are refused;
  every live block belongs to an object that holds a resource, and can be given back to it — also if it was obtained
  from another object, which has been moved there since; all live blocks are disjoint;
* objects that have been moved from still answer requests for no memory, and accept null;
* constructors succeed or are refused memory; moves, assignments and destructors succeed;
* when all objects have been destroyed, the base resources are left exactly with the blocks that the program obtained
  from them directly: each implementation has been destroyed, and has given back its memory. -/
theorem c56_moves (bases : β → MR σ) (d : Nat → HDecl β) (link : (k : Nat) → (d k).kind.ι → β ⊕ Fin k)
    (P : β ⊕ Nat → Port) (N : Nat) {R : Limits} {G : Nat} {s0 : σ} (hb : GoodBases bases R G (fun b => P (.inl b)) s0)
    (hg : ∀ k, Works (d k).kind (fun i => P ((linked d link k).ref i)) (P (.inr k))) {s : HState σ d}
    {T : List ((β ⊕ Nat) × Blk)} (h : MoveReach bases d link P N s0 s T) :
    (∀ x y, target s.o x = some y →
      (∀ n a, IsReq (P y).R n a → 0 < n → GoodAnswer (P y).G (T.map (·.2)) n a (s.allocate bases d N x n a).1) ∧
      (∀ a, IsReq (P y).R 0 a →
        (s.allocate bases d N x 0 a).1 = .ok 0 ∨ (s.allocate bases d N x 0 a).1 = .badAlloc) ∧
      (∀ b, (x, b) ∈ T → (s.deallocate bases d N x b.addr b.size b.align).1 = .ok ()) ∧
      (∀ n a, (s.deallocate bases d N x 0 n a).1 = .ok ())) ∧
    (∀ e ∈ T, ∃ y, target s.o e.1 = some y) ∧
    (T.map (·.2)).Pairwise Blk.Disjoint ∧
    (∀ h', s.o h' = .movedFrom → (∀ a, s.allocate bases d N (.inr h') 0 a = (.ok 0, s)) ∧
      ∀ n a, s.deallocate bases d N (.inr h') 0 n a = (.ok (), s)) ∧
    (∀ h' k, s.o h' = .noObject → s.w.loc k = none → k < N →
      (∀ i, target s.o ((d k).up i) = some ((linked d link k).ref i)) →
      (s.construct bases d N h' k).1 = .ok () ∨ (s.construct bases d N h' k).1 = .badAlloc) ∧
    (∀ h' f, s.o h' = .noObject → s.o f ≠ .noObject → (s.moveConstruct d h' f).1 = .ok ()) ∧
    (∀ h' f, s.o h' ≠ .noObject → s.o f ≠ .noObject → ¬ InUse s h' → ¬ InUse s f → (∀ b, (.inr h', b) ∉ T) →
      (s.moveAssign bases d N h' f).1 = .ok ()) ∧
    (∀ h', s.o h' ≠ .noObject → ¬ InUse s h' → (∀ b, (.inr h', b) ∉ T) → (s.destruct bases d N h').1 = .ok ()) ∧
    ((∀ h', s.o h' = .noObject) → ∃ T0 : List (β × Blk), T.Perm (T0.map fun e => (.inl e.1, e.2)) ∧
      FReach R bases s0 s.w.base T0) := by
  have hI := h.inv hb hg
  obtain ⟨p1, p2, p3, p4, p5, p6⟩ := c55_programs bases (linked d link) P hb hg hI.prog
  have hT : (T.map (resolve s.o)).map (·.2) = T.map (·.2) := by
    rw [List.map_map]; rfl
  rw [hT] at p1 p3
  refine ⟨?_, hI.tags, p3, ?_, ?_, ?_, ?_, ?_, ?_⟩
  · intro x y hx
    obtain ⟨q1, q2, q3, q4⟩ := p1 y (hI.links.exists hx)
    have hr := hI.links.ref (bases := bases) hx
    unfold HState.allocate HState.deallocate
    rw [hr]
    refine ⟨q1, q2, ?_, q4⟩
    intro b hbT
    exact q3 b (List.mem_map.2 ⟨_, hbT, resolve_mk hx b⟩)
  · intro h' hh
    constructor
    · intro a
      simp [HState.allocate, refMR, hh, movedMR]
    · intro n a
      simp [HState.deallocate, refMR, hh, movedMR]
  · intro h' k h1 h2 h3 hu
    rw [hI.links.construct hu]
    rcases p4 k h2 (fun i => hI.links.exists (hu i)) with ⟨e, _⟩ | ⟨e, _⟩
    · exact .inl e
    · exact .inr e
  · intro h' f h1 h2
    unfold HState.moveConstruct
    split
    · contradiction
    · rfl
  · intro h' f h1 h2 h3 h4 h5
    unfold HState.moveAssign
    split
    · contradiction
    · contradiction
    · by_cases hhf : h' = f
      · rw [if_pos hhf]
      · rw [if_neg hhf]
        obtain ⟨m1, m2, m3, m4, m5⟩ := hI.moved hhf h3 h4 h5
        cases hh : s.o h' with
        | noObject => contradiction
        | movedFrom => rfl
        | holds k =>
          obtain ⟨w', d1, -⟩ := hI.drop hb hg hh h3 h5 m4
          simp only [dropHandle, d1]
  · intro h' h1 h2 h3
    unfold HState.destruct
    cases hh : s.o h' with
    | noObject => contradiction
    | movedFrom => rfl
    | holds k =>
      obtain ⟨w', d1, -⟩ := hI.drop hb hg hh h2 h3 hI.links
      simp only [dropHandle, d1]
  · intro ho
    obtain ⟨T0, t1, t2⟩ := p6 (fun k => by
      cases hk : s.w.loc k with
      | none => rfl
      | some t =>
        obtain ⟨a, ha⟩ := hI.owned (k := k) (by rw [hk]; rfl)
        rw [ho] at ha; cases ha)
    refine ⟨T0, ?_, t2⟩
    have : T.map (resolve s.o) = T := by
      conv => rhs; rw [← List.map_id T]
      refine List.map_congr_left fun e he => ?_
      obtain ⟨y, hy⟩ := hI.tags e he
      cases y with
      | inl b =>
        have := target_inl hy
        simp [resolve, hy, ← this]
      | inr k =>
        obtain ⟨h', -, h2⟩ := target_inr hy
        rw [ho] at h2; cases h2
    rw [this] at t1
    exact t1

/-- **C56.**  After a move, the new object answers every call, in every state of the implementations that can be reached,
exactly as the old object would have done. -/
theorem c56_same_behaviour (bases : β → MR σ) (d : Nat → HDecl β) (link : (k : Nat) → (d k).kind.ι → β ⊕ Fin k)
    (P : β ⊕ Nat → Port) (N : Nat) {R : Limits} {G : Nat} {s0 : σ} (hb : GoodBases bases R G (fun b => P (.inl b)) s0)
    (hg : ∀ k, Works (d k).kind (fun i => P ((linked d link k).ref i)) (P (.inr k))) {s s' : HState σ d}
    {T : List ((β ⊕ Nat) × Blk)} (h : MoveReach bases d link P N s0 s T) (h' f : Nat) (hf : s.o f ≠ .movedFrom)
    (h1 : s.o h' = .noObject) (h2 : s.o f ≠ .noObject) (h3 : ¬ InUse s f) (he : s.moveConstruct d h' f = (.ok (), s')) :
    s'.w = s.w ∧
    (∀ n a, (s'.allocate bases d N (.inr h') n a).1 = (s.allocate bases d N (.inr f) n a).1 ∧
      (s'.allocate bases d N (.inr h') n a).2.w = (s.allocate bases d N (.inr f) n a).2.w) ∧
    (∀ p n a, (s'.deallocate bases d N (.inr h') p n a).1 = (s.deallocate bases d N (.inr f) p n a).1 ∧
      (s'.deallocate bases d N (.inr h') p n a).2.w = (s.deallocate bases d N (.inr f) p n a).2.w) := by
  have hI := h.inv hb hg
  have hI' := (MoveReach.moveConstruct h' f h h1 h2 h3 he).inv hb hg
  have hhf : h' ≠ f := by rintro rfl; exact h2 h1
  have e : s' = ⟨s.w, (s.o.put f .movedFrom).put h' (s.o f)⟩ := by
    unfold HState.moveConstruct at he
    split at he
    · contradiction
    · exact (Prod.mk.inj he).2.symm
  subst e
  cases hh : s.o f with
  | noObject => contradiction
  | movedFrom => contradiction
  | holds k =>
    have r1 := hI.links.ref (bases := bases) (target_holds (β := β) hh)
    have t2 : target (β := β) ((s.o.put f .movedFrom).put h' (.holds k)) (.inr h') = some (.inr k) := by
      simp [target, put_same]
    rw [hh] at hI'
    have r2 := hI'.links.ref (bases := bases) t2
    refine ⟨rfl, fun n a => ?_, fun p n a => ?_⟩
    · unfold HState.allocate
      rw [r1, r2]
      exact ⟨rfl, rfl⟩
    · unfold HState.deallocate
      rw [r1, r2]
      exact ⟨rfl, rfl⟩

/-! ### The hypotheses are met

A contiguous resource (implementation 0), a debugging wrapper (implementation 1) over object 1, and another contiguous
resource (implementation 2). -/

def moveDecl : Nat → HDecl Unit
  | 0 => ⟨.contiguous 4096, fun _ => .inl ()⟩
  | 1 => ⟨.debug, fun _ => .inr 1⟩
  | 2 => ⟨.contiguous 512, fun _ => .inl ()⟩
  | _ + 3 => ⟨.terminal, fun e => nomatch e⟩

def moveLink : (k : Nat) → (moveDecl k).kind.ι → Unit ⊕ Fin k
  | 0 => fun _ => .inl ()
  | 1 => fun _ => .inr 0
  | 2 => fun _ => .inl ()
  | _ + 3 => fun e => nomatch e

def movePort : Unit ⊕ Nat → Port
  | .inl _ => ⟨padLimits, 16, true⟩
  | .inr _ => ⟨padLimits, 16, false⟩

theorem moveDecl_works (k : Nat) :
    Works (moveDecl k).kind (fun i => movePort ((linked moveDecl moveLink k).ref i)) (movePort (.inr k)) := by
  match k with
  | 0 =>
    refine .weaken (.contiguous (R := padLimits) (R' := padLimits) (G := 16) ⟨by decide, by decide, 4, rfl⟩ (by decide))
      (fun _ => ?_) ?_
    all_goals exact ⟨Nat.le_refl _, Nat.le_refl _, Nat.le_refl _, by simp [movePort]⟩
  | 1 => exact .debug
  | 2 =>
    refine .weaken (.contiguous (R := padLimits) (R' := padLimits) (G := 16) ⟨by decide, by decide, 4, rfl⟩ (by decide))
      (fun _ => ?_) ?_
    all_goals exact ⟨Nat.le_refl _, Nat.le_refl _, Nat.le_refl _, by simp [movePort]⟩
  | _ + 3 => exact .terminal

inductive MoveStep
  | construct (h k : Nat)
  | moveConstruct (h f : Nat)
  | moveAssign (h f : Nat)
  | destruct (h : Nat)
  | alloc (x : Unit ⊕ Nat) (n a : Nat)
  | free (x : Unit ⊕ Nat) (b : Blk)

abbrev MoveState := HState (Contig × Unit) moveDecl

def moveStep (s : MoveState) : MoveStep → MoveState
  | .construct h k => (s.construct progBases moveDecl 3 h k).2
  | .moveConstruct h f => (s.moveConstruct moveDecl h f).2
  | .moveAssign h f => (s.moveAssign progBases moveDecl 3 h f).2
  | .destruct h => (s.destruct progBases moveDecl 3 h).2
  | .alloc x n a => (s.allocate progBases moveDecl 3 x n a).2
  | .free x b => (s.deallocate progBases moveDecl 3 x b.addr b.size b.align).2

/-- The state after some steps. -/
def moveAt (l : List MoveStep) : MoveState := l.foldl moveStep ⟨⟨demoInit, fun _ => none⟩, fun _ => .noObject⟩

abbrev DemoMove (l : List MoveStep) (T : List ((Unit ⊕ Nat) × Blk)) : Prop :=
  MoveReach progBases moveDecl moveLink movePort 3 demoInit (moveAt l) T

/-- The only object that a resource refers to is 1, by implementation 1. -/
theorem move_unused (s : MoveState) (h : Nat) (hh : h ≠ 1 ∨ (s.w.loc 1).isNone = true) : ¬ InUse s h := by
  rintro ⟨k, i, hk, hu⟩
  match k, i, hk, hu with
  | 0, _, _, hu => exact absurd hu (by simp [moveDecl])
  | 1, _, hk, hu =>
    have : 1 = h := Sum.inr.inj hu
    rcases hh with hh | hh
    · exact hh this.symm
    · cases e : s.w.loc 1 with
      | none => rw [e] at hk; cases hk
      | some t => rw [e] at hh; cases hh
  | 2, _, _, hu => exact absurd hu (by simp [moveDecl])
  | _ + 3, i, _, _ => exact nomatch i

/-- Object 0 is created and a block obtained from it; it is moved to object 1, over which object 2 is built. … -/
def moveRun1 : List MoveStep := [.construct 0 0, .alloc (.inr 0) 100 8, .moveConstruct 1 0, .construct 2 1,
  .alloc (.inr 2) 50 4]

/-- … The blocks are returned, the one that came from object 0 to object 1; object 2 is destroyed, object 3 created and
assigned to object 1 — which returns the memory of implementation 0 —, and everything destroyed. -/
def moveRun2 : List MoveStep := moveRun1 ++ [.free (.inr 2) ⟨4196, 50, 4⟩, .free (.inr 1) ⟨4096, 100, 8⟩, .destruct 2,
  .construct 3 2, .moveAssign 1 3, .destruct 0, .destruct 3, .destruct 1]

theorem demo_move1 : DemoMove moveRun1 [(.inr 2, ⟨4196, 50, 4⟩), (.inr 1, ⟨4096, 100, 8⟩)] := by
  have h : DemoMove [] [] := .init
  have h : DemoMove [.construct 0 0] [] := .construct (r := .ok ()) 0 0 h rfl rfl (by decide) (fun _ => rfl)
    (Prod.ext (by decide +kernel) rfl)
  have h : DemoMove [.construct 0 0, .alloc (.inr 0) 100 8] [(.inr 0, ⟨4096, 100, 8⟩)] :=
    .alloc (.inr 0) h (y := .inr 0) (by decide +kernel) ⟨by decide, by decide, 3, rfl⟩ (by decide)
      (Prod.ext (by decide +kernel) rfl)
  have h : DemoMove [.construct 0 0, .alloc (.inr 0) 100 8, .moveConstruct 1 0] [(.inr 1, ⟨4096, 100, 8⟩)] :=
    .moveConstruct (r := .ok ()) 1 0 h (by decide +kernel) (by decide +kernel) (move_unused _ _ (.inl (by decide)))
      (Prod.ext (by decide +kernel) rfl)
  have h : DemoMove [.construct 0 0, .alloc (.inr 0) 100 8, .moveConstruct 1 0, .construct 2 1]
      [(.inr 1, ⟨4096, 100, 8⟩)] :=
    .construct (r := .ok ()) 2 1 h (by decide +kernel) (Option.isNone_iff_eq_none.1 (by decide +kernel)) (by decide)
      (fun _ => show target _ (.inr 1) = some (.inr 0) by decide +kernel) (Prod.ext (by decide +kernel) rfl)
  exact .alloc (.inr 2) h (y := .inr 1) (by decide +kernel) ⟨by decide, by decide, 2, rfl⟩ (by decide)
      (Prod.ext (by decide +kernel) rfl)

theorem demo_move2 : DemoMove moveRun2 [] := by
  have h := demo_move1
  have h : DemoMove (moveRun1 ++ [.free (.inr 2) ⟨4196, 50, 4⟩]) [(.inr 1, ⟨4096, 100, 8⟩)] :=
    .free h (Prod.ext (by decide +kernel) rfl)
  have h : DemoMove (moveRun1 ++ [.free (.inr 2) ⟨4196, 50, 4⟩, .free (.inr 1) ⟨4096, 100, 8⟩]) [] :=
    .free h (Prod.ext (by decide +kernel) rfl)
  have h : DemoMove (moveRun1 ++ [.free (.inr 2) ⟨4196, 50, 4⟩, .free (.inr 1) ⟨4096, 100, 8⟩, .destruct 2]) [] :=
    .destruct (r := .ok ()) 2 h (by decide +kernel) (move_unused _ _ (.inl (by decide))) (by simp)
      (Prod.ext (by decide +kernel) rfl)
  have h : DemoMove (moveRun1 ++ [.free (.inr 2) ⟨4196, 50, 4⟩, .free (.inr 1) ⟨4096, 100, 8⟩, .destruct 2,
      .construct 3 2]) [] :=
    .construct (r := .ok ()) 3 2 h (by decide +kernel) (Option.isNone_iff_eq_none.1 (by decide +kernel)) (by decide)
      (fun _ => rfl) (Prod.ext (by decide +kernel) rfl)
  have h : DemoMove (moveRun1 ++ [.free (.inr 2) ⟨4196, 50, 4⟩, .free (.inr 1) ⟨4096, 100, 8⟩, .destruct 2,
      .construct 3 2, .moveAssign 1 3]) [] :=
    .moveAssign (r := .ok ()) 1 3 h (by decide +kernel) (by decide +kernel) (by decide)
      (move_unused _ _ (.inr (by decide +kernel))) (move_unused _ _ (.inl (by decide))) (by simp)
      (Prod.ext (by decide +kernel) rfl)
  have h : DemoMove (moveRun1 ++ [.free (.inr 2) ⟨4196, 50, 4⟩, .free (.inr 1) ⟨4096, 100, 8⟩, .destruct 2,
      .construct 3 2, .moveAssign 1 3, .destruct 0]) [] :=
    .destruct (r := .ok ()) 0 h (by decide +kernel) (move_unused _ _ (.inl (by decide))) (by simp)
      (Prod.ext (by decide +kernel) rfl)
  have h : DemoMove (moveRun1 ++ [.free (.inr 2) ⟨4196, 50, 4⟩, .free (.inr 1) ⟨4096, 100, 8⟩, .destruct 2,
      .construct 3 2, .moveAssign 1 3, .destruct 0, .destruct 3]) [] :=
    .destruct (r := .ok ()) 3 h (by decide +kernel) (move_unused _ _ (.inl (by decide))) (by simp)
      (Prod.ext (by decide +kernel) rfl)
  exact .destruct (r := .ok ()) 1 h (by decide +kernel) (move_unused _ _ (.inr (by decide +kernel))) (by simp)
      (Prod.ext (by decide +kernel) rfl)

/-- The theorem applies: a request to object 2, whose upstream has been moved before. -/
example : GoodAnswer 16 [⟨4196, 50, 4⟩, ⟨4096, 100, 8⟩] 200 16
    ((moveAt moveRun1).allocate progBases moveDecl 3 (.inr 2) 200 16).1 :=
  ((c56_moves progBases moveDecl moveLink movePort 3 progBases_good moveDecl_works demo_move1).1 (.inr 2) (.inr 1)
    (by decide +kernel)).1 200 16 ⟨by decide, by decide, 4, rfl⟩ (by decide)

/-- Why objects in use must not be moved: afterwards a request to object 2 dereferences a null pointer. -/
theorem c56_moved_in_use :
    ((moveAt (moveRun1 ++ [.moveConstruct 5 1])).allocate progBases moveDecl 3 (.inr 2) 200 16).1 = .ub := by
  decide +kernel

/-- Why objects in use must not be destroyed: afterwards a request to object 2 uses an object that does not exist. -/
theorem c56_destroyed_in_use :
    ((moveAt (moveRun1 ++ [.destruct 1])).allocate progBases moveDecl 3 (.inr 2) 200 16).1 = .ub := by
  decide +kernel

end Vecmem.Props
