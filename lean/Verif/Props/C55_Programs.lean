import Verif.Lemmas.World
import Verif.Lemmas.Family
import Verif.Props.C10_C12_Arena
import Verif.Props.C03_C06_Pool

/-!
# C55 — programs with many memory resources
-/

namespace Vecmem.Props

open Vecmem

/-- **C55.**  In every state of a correct program — which creates memory resources over base resources and over
each other, several of them possibly sharing upstreams, uses all of them, and destroys them in any order that
respects their dependencies — :

* requests to any resource are answered well, with respect to the blocks of *all* resources the program holds, or
  are refused; zero-byte requests give null; blocks and null can be given back;
* all live blocks are disjoint;
* creating a resource succeeds or is refused because there is no memory, destroying one succeeds, and no other
  resource comes into being or ceases to exist;
* when all resources have been destroyed, the base resources are left exactly with the blocks that the program
  obtained from them directly: the resources have given back all their memory. -/
theorem c55_programs {β σ : Type} (bases : β → MR σ) (g : (k : Nat) → Decl β k) (P : β ⊕ Nat → Port)
    {R : Limits} {G : Nat} {s0 : σ} (hb : GoodBases bases R G (fun b => P (.inl b)) s0)
    (hg : ∀ k, Works (g k).kind (fun i => P ((g k).ref i)) (P (.inr k))) {w : World σ g}
    {T : List ((β ⊕ Nat) × Blk)} (h : ProgReach bases g P s0 w T) :
    (∀ x, Exists w x →
      (∀ n a, IsReq (P x).R n a → 0 < n →
        GoodAnswer (P x).G (T.map (·.2)) n a ((worldMR bases g x).allocate w n a).1) ∧
      (∀ a, IsReq (P x).R 0 a → ((worldMR bases g x).allocate w 0 a).1 = .ok 0 ∨
        ((worldMR bases g x).allocate w 0 a).1 = .badAlloc) ∧
      (∀ b, (x, b) ∈ T → ((worldMR bases g x).deallocate w b.addr b.size b.align).1 = .ok ()) ∧
      (∀ n a, ((worldMR bases g x).deallocate w 0 n a).1 = .ok ())) ∧
    (∀ e ∈ T, Exists w e.1) ∧
    (T.map (·.2)).Pairwise Blk.Disjoint ∧
    (∀ k, w.loc k = none → (∀ i, Exists w ((g k).ref i)) →
      ((createAt bases g k w).1 = .ok () ∧
        ∀ j, ((createAt bases g k w).2.loc j).isSome = if j = k then true else (w.loc j).isSome) ∨
      ((createAt bases g k w).1 = .badAlloc ∧
        ∀ j, ((createAt bases g k w).2.loc j).isSome = (w.loc j).isSome)) ∧
    (∀ k, (w.loc k).isSome = true → (∀ j, (w.loc j).isSome = true → ∀ i, (g j).ref i ≠ .inr k) →
      (∀ b, (.inr k, b) ∉ T) →
      (destroyAt bases g k w).1 = .ok () ∧
        ∀ j, ((destroyAt bases g k w).2.loc j).isSome = if j = k then false else (w.loc j).isSome) ∧
    ((∀ k, w.loc k = none) → ∃ T0 : List (β × Blk), T.Perm (T0.map fun e => (.inl e.1, e.2)) ∧
      FReach R bases s0 w.base T0) := by
  choose J hJ using fun k => (hg k).spec
  have hS := progSpec (g := g) hb.serves hJ
  have hI := h.inv hS ⟨fun _ => false, 0, by intro k hk; simp at hk, fun _ _ => rfl, rfl, [], .refl _, .init,
    by simp⟩
  refine ⟨?_, hS.tags hI, List.pairwise_map.2 (hS.tidy.disj hI), ?_, ?_, ?_⟩
  · intro x hx
    obtain ⟨I', i1, i2, i3⟩ := hS.mem hI x hx
    refine ⟨?_, ?_, ?_, ?_⟩
    · intro n a hq hn
      rcases i3.alloc i1 hq hn with ⟨p, w', e, h'⟩ | ⟨w', e, h'⟩
      · rw [e]
        have hw := hS.tidy.wf (i2 h').1 _ List.mem_cons_self
        refine ⟨hw.1, hw.2.1, hw.2.2.1, ?_⟩
        intro b hb
        obtain ⟨f, hf, rfl⟩ := List.mem_map.1 hb
        exact (List.pairwise_cons.1 (hS.tidy.disj (i2 h').1)).1 f hf
      · rw [e]; trivial
    · intro a hq
      obtain ⟨r, w', e, hr, _⟩ := i3.zero i1 hq
      rw [e]; exact hr
    · intro b hb
      obtain ⟨T1, T2, rfl⟩ := List.append_of_mem hb
      obtain ⟨I', i1, i2, i3⟩ := hS.mem (hS.tidy.perm hI List.perm_middle) x hx
      obtain ⟨w', e, _⟩ := i3.free i1
      rw [e]
    · intro n a
      obtain ⟨w', e, _⟩ := i3.null n a i1
      rw [e]
  · intro k hk hu
    rcases hS.create hI k hk hu with ⟨w', e, _, h'⟩ | ⟨w', e, _, h'⟩
    · rw [e]; exact .inl ⟨rfl, h'⟩
    · rw [e]; exact .inr ⟨rfl, h'⟩
  · intro k hk hd hT
    obtain ⟨w', e, _, h'⟩ := hS.destroy hI k hk hd hT
    rw [e]; exact ⟨rfl, h'⟩
  · intro hw
    obtain ⟨T0, h1, h2, _⟩ := hI.end hw
    exact ⟨T0, h1, h2⟩

/-- **C55.**  Calls to a resource neither create nor destroy resources. -/
theorem c55_calls_keep {β σ : Type} (bases : β → MR σ) (g : (k : Nat) → Decl β k) (P : β ⊕ Nat → Port)
    {R : Limits} {G : Nat} {s0 : σ} (hb : GoodBases bases R G (fun b => P (.inl b)) s0)
    (hg : ∀ k, Works (g k).kind (fun i => P ((g k).ref i)) (P (.inr k))) {w : World σ g}
    {T : List ((β ⊕ Nat) × Blk)} (h : ProgReach bases g P s0 w T) {x : β ⊕ Nat} (hx : Exists w x) (j : Nat) :
    (∀ n a, IsReq (P x).R n a →
      (((worldMR bases g x).allocate w n a).2.loc j).isSome = (w.loc j).isSome) ∧
    (∀ b, (x, b) ∈ T →
      (((worldMR bases g x).deallocate w b.addr b.size b.align).2.loc j).isSome = (w.loc j).isSome) ∧
    (∀ n a, (((worldMR bases g x).deallocate w 0 n a).2.loc j).isSome = (w.loc j).isSome) := by
  choose J hJ using fun k => (hg k).spec
  have hS := progSpec (g := g) hb.serves hJ
  have hI := h.inv hS ⟨fun _ => false, 0, by intro k hk; simp at hk, fun _ _ => rfl, rfl, [], .refl _, .init,
    by simp⟩
  refine ⟨?_, ?_, fun n a => ?_⟩
  · intro n a hq
    obtain ⟨I', i1, i2, i3⟩ := hS.mem hI x hx
    rcases Nat.eq_zero_or_pos n with rfl | hn
    · obtain ⟨r, w', e, hr, h'⟩ := i3.zero i1 hq
      rw [e]; exact (i2 h').2 j
    · rcases i3.alloc i1 hq hn with ⟨p, w', e, h'⟩ | ⟨w', e, h'⟩
      · rw [e]; exact (i2 h').2 j
      · rw [e]; exact (i2 h').2 j
  · intro b hb
    obtain ⟨T1, T2, rfl⟩ := List.append_of_mem hb
    obtain ⟨I', i1, i2, i3⟩ := hS.mem (hS.tidy.perm hI List.perm_middle) x hx
    obtain ⟨w', e, h'⟩ := i3.free i1
    rw [e]; exact (i2 h').2 j
  · obtain ⟨I', i1, i2, i3⟩ := hS.mem hI x hx
    obtain ⟨w', e, h'⟩ := i3.null n a i1
    rw [e]; exact (i2 h').2 j


/-! ### The hypotheses are met

A program over one base resource: a contiguous resource (0) with a debugging wrapper (1), an identity resource
(2), a coalescing resource (3) over the wrapper and the identity resource; and an arena (4), a pool (5) and a
binary page resource (6) for which the theorem holds as well, and which the runs below do not create. -/

def progBases : Unit → MR (Contig × Unit) := fun _ => padded demoBase

def progDecl : (k : Nat) → Decl Unit k
  | 0 => ⟨.contiguous 4096, fun _ => .inl ()⟩
  | 1 => ⟨.debug, fun _ => .inr 0⟩
  | 2 => ⟨.identity, fun _ => .inl ()⟩
  | 3 => ⟨.coalescing [true, false], fun i => if i then .inr 1 else .inr 2⟩
  | 4 => ⟨.arena 1100 10000, fun _ => .inl ()⟩
  | 5 => ⟨.pool true {}, fun _ => .inl ()⟩
  | 6 => ⟨.binaryPage true, fun _ => .inl ()⟩
  | _ + 7 => ⟨.terminal, fun e => nomatch e⟩

def progPort : Unit ⊕ Nat → Port
  | .inl _ => ⟨padLimits, 16, true⟩
  | .inr 4 => ⟨⟨16, 999⟩, 16, false⟩
  | .inr _ => ⟨padLimits, 16, false⟩

theorem progBases_good : GoodBases progBases padLimits 16 (fun b => progPort (.inl b)) demoInit where
  lawful := FamLawful.same (padded_lawful (demo_lawful ⟨16, 2 ^ 62 + 16⟩) (by decide))
  limits := fun _ => ⟨rfl, rfl⟩
  gapped := by
    intro i _ s T n a p s' hr hq hn he b hb
    exact padded_gapped (demo_lawful ⟨16, 2 ^ 62 + 16⟩) (by decide) _ _ _ _ _ _ hr.same hq hn he b
      (List.mem_map.2 ⟨_, hb, rfl⟩)

theorem progDecl_works (k : Nat) :
    Works (progDecl k).kind (fun i => progPort ((progDecl k).ref i)) (progPort (.inr k)) := by
  match k with
  | 0 =>
    refine .weaken (.contiguous (R := padLimits) (R' := padLimits) (G := 16) ⟨by decide, by decide, 4, rfl⟩ (by decide)) (fun _ => ?_) ?_
    all_goals exact ⟨Nat.le_refl _, Nat.le_refl _, Nat.le_refl _, by simp [progPort]⟩
  | 1 => exact .debug
  | 2 =>
    refine .weaken (.identity (q := ⟨padLimits, 16, false⟩)) (fun _ => ?_) ?_
    all_goals exact ⟨Nat.le_refl _, Nat.le_refl _, Nat.le_refl _, by simp [progPort]⟩
  | 3 =>
    refine .weaken (.coalescing (R := padLimits) (G := 16))
      (fun i => ?_) ?_
    · cases i <;> exact ⟨by decide, by decide, by decide, by decide⟩
    · exact ⟨by decide, by decide, by decide, by decide⟩
  | 4 => exact .arena (R := padLimits) (by decide) (by decide) (by decide) (by decide) (by decide) (by decide) (by decide)
  | 5 =>
    refine .weaken (.pool (R := padLimits) (p := demoPool) (by decide +kernel)
      (pool_default_sound true) (by decide) (by decide) (by decide)) (fun _ => ?_) ?_
    all_goals exact ⟨Nat.le_refl _, Nat.le_refl _, Nat.le_refl _, by simp [progPort]⟩
  | 6 =>
    refine .weaken (.binaryPage (R := padLimits) ⟨by decide, 62, rfl, by decide, by decide⟩)
      (fun _ => ?_) ?_
    all_goals exact ⟨Nat.le_refl _, Nat.le_refl _, Nat.le_refl _, by simp [progPort]⟩
  | _ + 7 => exact .terminal

/-- Steps of a program, for the example. -/
inductive ProgStep
  | create (k : Nat)
  | destroy (k : Nat)
  | alloc (x : Unit ⊕ Nat) (n a : Nat)
  | free (x : Unit ⊕ Nat) (b : Blk)

def progStep (w : World (Contig × Unit) progDecl) : ProgStep → World (Contig × Unit) progDecl
  | .create k => (createAt progBases progDecl k w).2
  | .destroy k => (destroyAt progBases progDecl k w).2
  | .alloc x n a => ((worldMR progBases progDecl x).allocate w n a).2
  | .free x b => ((worldMR progBases progDecl x).deallocate w b.addr b.size b.align).2

/-- The state after some steps. -/
def progAt (l : List ProgStep) : World (Contig × Unit) progDecl := l.foldl progStep ⟨demoInit, fun _ => none⟩

abbrev DemoReach (l : List ProgStep) (T : List ((Unit ⊕ Nat) × Blk)) : Prop :=
  ProgReach progBases progDecl progPort demoInit (progAt l) T

theorem DemoReach.create {l T} (h : DemoReach l T) (k : Nat) (h1 : ((progAt l).loc k).isSome = false)
    (h2 : ∀ i, Exists (progAt l) ((progDecl k).ref i)) : DemoReach (l ++ [.create k]) T := by
  unfold DemoReach progAt
  rw [List.foldl_append]
  exact ProgReach.create k h (by simpa using h1) h2 rfl

/-- The resources built directly over resource `k`. -/
def progUsers : Nat → List Nat
  | 0 => [1]
  | 1 => [3]
  | 2 => [3]
  | _ => []

theorem progUsers_spec (j k : Nat) (i : (progDecl j).kind.ι) (h : (progDecl j).ref i = .inr k) : j ∈ progUsers k := by
  match j, i, h with
  | 0, _, h => exact absurd h (by simp [Decl.ref, progDecl])
  | 1, _, h => obtain rfl : 0 = k := Sum.inr.inj h; decide
  | 2, _, h => exact absurd h (by simp [Decl.ref, progDecl])
  | 3, true, h => obtain rfl : 1 = k := Sum.inr.inj h; decide
  | 3, false, h => obtain rfl : 2 = k := Sum.inr.inj h; decide
  | 4, _, h => exact absurd h (by simp [Decl.ref, progDecl])
  | 5, _, h => exact absurd h (by simp [Decl.ref, progDecl])
  | 6, _, h => exact absurd h (by simp [Decl.ref, progDecl])
  | _ + 7, i, _ => exact nomatch i

theorem DemoReach.destroy {l T} (h : DemoReach l T) (k : Nat) (h1 : ((progAt l).loc k).isSome = true)
    (h2 : (progUsers k).all (fun j => !((progAt l).loc j).isSome) = true)
    (h3 : ∀ e ∈ T, e.1 ≠ .inr k) : DemoReach (l ++ [.destroy k]) T := by
  unfold DemoReach progAt
  rw [List.foldl_append]
  refine ProgReach.destroy k h h1 ?_ (fun b hb => h3 _ hb rfl) rfl
  intro j hj i hi
  have := List.all_eq_true.1 h2 j (progUsers_spec j k i hi)
  change (!((progAt l).loc j).isSome) = true at this
  change ((progAt l).loc j).isSome = true at hj
  rw [hj] at this
  exact Bool.noConfusion this

theorem DemoReach.alloc {l T} (h : DemoReach l T) (x : Unit ⊕ Nat) (n a p : Nat) (h1 : Exists (progAt l) x)
    (h2 : IsReq (progPort x).R n a) (h3 : 0 < n)
    (h4 : ((worldMR progBases progDecl x).allocate (progAt l) n a).1 = .ok p) :
    DemoReach (l ++ [.alloc x n a]) ((x, ⟨p, n, a⟩) :: T) := by
  unfold DemoReach progAt
  rw [List.foldl_append]
  exact ProgReach.alloc x h h1 h2 h3 (Prod.ext h4 rfl)

theorem DemoReach.free {l T x b} (h : DemoReach l ((x, b) :: T))
    (h4 : ((worldMR progBases progDecl x).deallocate (progAt l) b.addr b.size b.align).1 = .ok ()) :
    DemoReach (l ++ [.free x b]) T := by
  unfold DemoReach progAt
  rw [List.foldl_append]
  exact ProgReach.free h (Prod.ext h4 rfl)

/-- The resources are created … -/
def progRun1 : List ProgStep := [.create 0, .create 2, .create 1, .create 3]

/-- … and used; … -/
def progRun2 : List ProgStep := progRun1 ++ [.alloc (.inr 3) 100 8, .alloc (.inl ()) 50 16, .alloc (.inr 2) 3000 8]

/-- … the coalescing resource, the debugging wrapper and the contiguous resource are destroyed, while blocks of the others are
live; … -/
def progRun3 : List ProgStep := progRun2 ++ [.free (.inr 3) ⟨4096, 100, 8⟩, .destroy 3, .destroy 1, .destroy 0]

/-- … and at last all others. -/
def progRun4 : List ProgStep := progRun3 ++ [.free (.inr 2) ⟨8280, 3000, 8⟩, .destroy 2]

theorem demo_run1 : DemoReach progRun1 [] := by
  have h : DemoReach [] [] := .init
  have h := h.create 0 rfl (fun _ => trivial)
  have h := h.create 2 (by decide +kernel) (fun _ => trivial)
  have h := h.create 1 (by decide +kernel) (fun _ => show (Option.isSome _) = true by decide +kernel)
  exact h.create 3 (by decide +kernel) (fun i => by
    cases i
    · exact show (Option.isSome _) = true by decide +kernel
    · exact show (Option.isSome _) = true by decide +kernel)

theorem demo_run2 : DemoReach progRun2 [(.inr 2, ⟨8280, 3000, 8⟩),
    (.inl (), ⟨8208, 50, 16⟩), (.inr 3, ⟨4096, 100, 8⟩)] := by
  have h := demo_run1
  have h := h.alloc (.inr 3) 100 8 4096 (show (Option.isSome _) = true by decide +kernel)
    ⟨by decide, by decide, 3, rfl⟩ (by decide) (by decide +kernel)
  have h := h.alloc (.inl ()) 50 16 8208 trivial ⟨by decide, by decide, 4, rfl⟩ (by decide) (by decide +kernel)
  exact h.alloc (.inr 2) 3000 8 8280 (show (Option.isSome _) = true by decide +kernel)
    ⟨by decide, by decide, 3, rfl⟩ (by decide) (by decide +kernel)

theorem demo_run3 : DemoReach progRun3 [(.inr 2, ⟨8280, 3000, 8⟩),
    (.inl (), ⟨8208, 50, 16⟩)] := by
  have h : DemoReach progRun2 [(.inr 3, ⟨4096, 100, 8⟩), (.inr 2, ⟨8280, 3000, 8⟩),
    (.inl (), ⟨8208, 50, 16⟩)] := ProgReach.perm demo_run2 (by decide)
  have h := h.free (by decide +kernel)
  have h := h.destroy 3 (by decide +kernel) (by decide +kernel) (by simp)
  have h := h.destroy 1 (by decide +kernel) (by decide +kernel) (by simp)
  exact h.destroy 0 (by decide +kernel) (by decide +kernel) (by simp)

theorem demo_run4 : DemoReach progRun4 [(.inl (), ⟨8208, 50, 16⟩)] := by
  have h := demo_run3
  have h := h.free (by decide +kernel)
  exact h.destroy 2 (by decide +kernel) (by decide +kernel) (by simp)

/-- The theorem applies to the program; e.g. a request to the identity resource after the contiguous resource has
been destroyed. -/
example : GoodAnswer 16 [⟨8280, 3000, 8⟩, ⟨8208, 50, 16⟩] 70 4
    ((worldMR progBases progDecl (.inr 2)).allocate (progAt progRun3) 70 4).1 :=
  ((c55_programs progBases progDecl progPort progBases_good progDecl_works demo_run3).1 (.inr 2)
    (show (Option.isSome _) = true by decide +kernel)).1 70 4 ⟨by decide, by decide, 2, rfl⟩ (by decide)

theorem demo_run4_none (k : Nat) : ((progAt progRun4).loc k).isNone = true := by
  match k with
  | 0 => decide +kernel
  | 1 => decide +kernel
  | 2 => decide +kernel
  | 3 => decide +kernel
  | 4 => decide +kernel
  | 5 => decide +kernel
  | 6 => decide +kernel
  | _ + 7 => rfl

/-- At the end the base resource has only the program's own block. -/
example : ∃ T0 : List (Unit × Blk), T0.map (·.2) = [⟨8208, 50, 16⟩] ∧
    FReach padLimits progBases demoInit (progAt progRun4).base T0 := by
  obtain ⟨T0, h1, h2⟩ := (c55_programs progBases progDecl progPort progBases_good progDecl_works demo_run4).2.2.2.2.2
    (fun k => Option.isNone_iff_eq_none.1 (demo_run4_none k))
  refine ⟨T0, List.perm_singleton.1 ?_, h2⟩
  have h := (h1.map Prod.snd).symm
  rw [List.map_map] at h
  exact h

end Vecmem.Props
