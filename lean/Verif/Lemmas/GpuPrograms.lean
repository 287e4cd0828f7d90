import Verif.Lemmas.GpuMemory
import Verif.Spec.World

/-! # Resources over upstreams that throw `runtime_error` -/

namespace Vecmem

variable {σ : Type}

theorem MR.ext' {m m' : MR σ} (h1 : ∀ s n a, m.allocate s n a = m'.allocate s n a)
    (h2 : ∀ s p n a, m.deallocate s p n a = m'.deallocate s p n a) : m = m' := by
  cases m; cases m'
  congr
  · funext s n a; exact h1 s n a
  · funext s p n a; exact h2 s p n a

/-- The answer of a resource with the exception exchanged. -/
def asBad {α : Type} (r : Res α × σ) : Res α × σ := (r.1.runtimeAsBad, r.2)

theorem asBadAlloc_allocate (m : MR σ) (s : σ) (n a : Nat) :
    (asBadAlloc m).allocate s n a = asBad (m.allocate s n a) := rfl

theorem pimpl_asBad {m m' : MR σ} (h : ∀ s n a, m.allocate s n a = asBad (m'.allocate s n a))
    (hd : ∀ s p n a, m.deallocate s p n a = m'.deallocate s p n a) : pimpl m = asBadAlloc (pimpl m') := by
  apply MR.ext'
  · intro s n a
    show (if n = 0 then _ else _) = asBad (if n = 0 then _ else _)
    split
    · rfl
    · exact h s n a
  · intro s p n a
    show (if p = 0 then _ else _) = (if p = 0 then _ else _)
    split
    · rfl
    · exact hd s p n a

theorem via_asBad {S S' : Type} {f : S' → S} {g : S → S'} {m m' : MR S} (h : m = asBadAlloc m') :
    m.via f g = asBadAlloc (m'.via f g) := by
  subst h
  rfl

/-- A kind of resource passes on a `runtime_error` as it passes on a `bad_alloc`, in its constructor and in requests. -/
structure Kind.PassesOn (K : Kind) : Prop where
  mr : ∀ {σ : Type} (ups : K.ι → MR σ), K.mr (fun i => asBadAlloc (ups i)) = asBadAlloc (K.mr ups)
  create : ∀ {σ : Type} (ups : K.ι → MR σ) (s : σ), K.create (fun i => asBadAlloc (ups i)) s = asBad (K.create ups s)
  destroy : ∀ {σ : Type} (ups : K.ι → MR σ) (t : K.τ) (s : σ),
    K.destroy (fun i => asBadAlloc (ups i)) t s = K.destroy ups t s

theorem freeAll_asBad (up : MR σ) (u : σ) (l : List (Nat × Nat × Nat)) :
    Pool.freeAll (asBadAlloc up) u l = Pool.freeAll up u l := by
  induction l generalizing u with
  | nil => rfl
  | cons x l ih =>
    obtain ⟨p, n, a⟩ := x
    simp only [Pool.freeAll, asBadAlloc]
    cases up.deallocate u p n a with
    | mk r u' =>
      cases r with
      | ok x => exact ih u'
      | _ => rfl

theorem pool_fresh_asBad (up : MR σ) (s : Pool × σ) (n a : Nat) :
    Pool.allocateFresh (asBadAlloc up) s n a = asBad (Pool.allocateFresh up s n a) := by
  unfold Pool.allocateFresh
  rw [asBadAlloc_allocate]
  cases up.allocate s.2 n a with
  | mk r u => cases r <;> rfl

theorem takeBlock_asBad (s : Pool × σ) (i : Nat) : Pool.takeBlock s i = asBad (Pool.takeBlock s i) := by
  unfold Pool.takeBlock
  cases s.1.buckets[i]? with
  | none => rfl
  | some b =>
    simp only
    cases b.free.getLast? with
    | none => rfl
    | some p => rfl

theorem addChunk_asBad (dbg : Bool) (o : PoolOpts) (up : MR σ) (s : Pool × σ) (log idx : Nat) (b : Bucket) :
    Pool.addChunk dbg o (asBadAlloc up) s log idx b = asBad (Pool.addChunk dbg o up s log idx b) := by
  unfold Pool.addChunk
  simp only
  split
  · rfl
  · rw [asBadAlloc_allocate]
    cases up.allocate s.2 (IntMath.wrap64 (Pool.chunkBlocks o log b.prev <<< log)) o.alignment with
    | mk r u => cases r <;> rfl

theorem pool_passes (dbg : Bool) (o : PoolOpts) : (Kind.pool dbg o).PassesOn where
  mr := by
    intro σ ups
    apply pimpl_asBad
    · intro s n a
      show Pool.allocate dbg o (asBadAlloc (ups ())) s n a = asBad (Pool.allocate dbg o (ups ()) s n a)
      unfold Pool.allocate
      simp only
      split
      · rfl
      · split
        · unfold Pool.allocateOversized
          split
          · cases Pool.findCached o s.1.cached (max n o.smallest) a with
            | ok it =>
              simp only
              cases s.1.cached[it]? with
              | none => exact pool_fresh_asBad _ _ _ _
              | some d => rfl
            | _ => rfl
          · exact pool_fresh_asBad _ _ _ _
        · unfold Pool.allocatePooled
          cases IntMath.log2Ri (max n o.smallest) with
          | none => rfl
          | some log =>
            simp only
            cases s.1.buckets[IntMath.wrap64 (log + 2 ^ 64 - s.1.smallestLog2)]? with
            | none => rfl
            | some b =>
              simp only
              split
              · rw [addChunk_asBad]
                cases Pool.addChunk dbg o (ups ()) s log (IntMath.wrap64 (log + 2 ^ 64 - s.1.smallestLog2)) b with
                | mk r s' =>
                  cases r with
                  | ok x => exact takeBlock_asBad _ _
                  | _ => rfl
              · exact takeBlock_asBad _ _
    · intro s p n a
      rfl
  create := by
    intro σ ups s
    show (Pool.create o, s) = asBad (Pool.create o, s)
    have : Pool.create o ≠ .runtimeError := by
      unfold Pool.create
      repeat' split
      all_goals simp
    cases h : Pool.create o with
    | runtimeError => exact absurd h this
    | _ => rfl
  destroy := by
    intro σ ups t s
    exact freeAll_asBad _ _ _

theorem take_asBad (s : List Superpage × σ) (goal : Nat) (c : Nat × Nat) :
    BinPage.take s goal c = asBad (BinPage.take s goal c) := by
  unfold BinPage.take
  generalize s.1[c.1]? = x
  cases x with
  | none => rfl
  | some sp =>
    simp only
    generalize BinPage.takePage goal sp c.2 = x
    cases x with
    | none => rfl
    | some x => rfl

theorem pushSuperpage_asBad (l : List Superpage) (u : σ) (y : Option Superpage) :
    BinPage.pushSuperpage l u y = asBad (BinPage.pushSuperpage l u y) := by
  cases y <;> rfl

theorem addSuperpage_asBad (up : MR σ) (s : List Superpage × σ) (m : Nat) :
    BinPage.addSuperpage (asBadAlloc up) s m = asBad (BinPage.addSuperpage up s m) := by
  unfold BinPage.addSuperpage
  rw [asBadAlloc_allocate]
  generalize up.allocate s.2 (2 ^ m) maxAlign = x
  obtain ⟨r, u⟩ := x
  cases r with
  | ok p =>
    simp only [asBad, Res.runtimeAsBad]
    generalize BinPage.newSuperpage m p = z
    exact pushSuperpage_asBad s.1 u z
  | _ => rfl

theorem binFresh_asBad (up : MR σ) (s : List Superpage × σ) (goal : Nat) :
    BinPage.allocateFresh (asBadAlloc up) s goal = asBad (BinPage.allocateFresh up s goal) := by
  simp only [BinPage.allocateFresh, BinPage.allocateUpstream]
  rw [addSuperpage_asBad]
  generalize BinPage.addSuperpage up s (BinPage.superpageLog goal) = x
  obtain ⟨r', u⟩ := x
  cases r' with
  | ok y =>
    simp only [asBad, Res.runtimeAsBad]
    generalize BinPage.findFreePage u.1 goal = z
    cases z with
    | none => rfl
    | some z =>
      cases z with
      | none => rfl
      | some c => exact take_asBad _ _ _
  | _ => rfl

theorem binAllocate_asBad (dbg : Bool) (up : MR σ) (s : List Superpage × σ) (n : Nat) :
    BinPage.allocate dbg (asBadAlloc up) s n = asBad (BinPage.allocate dbg up s n) := by
  unfold BinPage.allocate
  generalize BinPage.roundUp? dbg n = x
  cases x with
  | none => rfl
  | some r =>
    simp only
    generalize BinPage.findFreePage s.1 (max BinPage.minPageSize r) = x
    cases x with
    | none => rfl
    | some x =>
      cases x with
      | some c => exact take_asBad _ _ _
      | none => exact binFresh_asBad _ _ _

theorem binaryPage_passes (dbg : Bool) : (Kind.binaryPage dbg).PassesOn where
  mr := by
    intro σ ups
    apply pimpl_asBad
    · intro s n a
      exact binAllocate_asBad _ _ _ _
    · intro s p n a
      rfl
  create := fun _ _ => rfl
  destroy := by
    intro σ ups t
    show ∀ s, BinPage.destroy _ t s = BinPage.destroy _ t s
    induction t with
    | nil => intro s; rfl
    | cons sp t ih =>
      intro s
      simp only [BinPage.destroy]
      have hd : (asBadAlloc (ups ())).deallocate s sp.mem (2 ^ sp.size) maxAlign =
        (ups ()).deallocate s sp.mem (2 ^ sp.size) maxAlign := rfl
      rw [hd]
      cases (ups ()).deallocate s sp.mem (2 ^ sp.size) maxAlign with
      | mk r u =>
        cases r with
        | ok x => exact ih u
        | _ => rfl

theorem expand_asBad (up : MR σ) (s : Arena × σ) (n : Nat) :
    Arena.expand (asBadAlloc up) s n = asBad (Arena.expand up s n) := by
  unfold Arena.expand
  simp only [asBadAlloc_allocate, asBad]
  cases up.allocate s.2 (Arena.expandSize s.1.superSize n) maxAlign with
  | mk r u => cases r <;> rfl

theorem expandAndFit_asBad (up : MR σ) (s : Arena × σ) (n : Nat) :
    Arena.expandAndFit (asBadAlloc up) s n = asBad (Arena.expandAndFit up s n) := by
  unfold Arena.expandAndFit
  simp only [expand_asBad]
  cases Arena.expand up s n with
  | mk r u =>
    cases r with
    | ok b =>
      simp only [asBad, Res.runtimeAsBad]
      cases Arena.coalesce u.1.free b <;> rfl
    | _ => rfl

theorem arena_passes (initial maximum : Nat) : (Kind.arena initial maximum).PassesOn where
  mr := by
    intro σ ups
    apply pimpl_asBad
    · intro s n a
      show Arena.allocate (asBadAlloc (ups ())) s n = asBad (Arena.allocate (ups ()) s n)
      have hget : ∀ n, Arena.getBlock (asBadAlloc (ups ())) s n = asBad (Arena.getBlock (ups ()) s n) := by
        intro n
        unfold Arena.getBlock
        simp only [expandAndFit_asBad]
        split
        · split <;> rfl
        · rfl
      unfold Arena.allocate
      simp only [hget]
      cases Arena.getBlock (ups ()) s (Arena.alignUp n) with
      | mk r u => cases r <;> rfl
    · intro s p n a
      rfl
  create := by
    intro σ ups s
    show Arena.create (asBadAlloc (ups ())) s initial maximum = asBad (Arena.create (ups ()) s initial maximum)
    unfold Arena.create
    simp only [expand_asBad]
    generalize Arena.expand (ups ()) _ _ = x
    obtain ⟨r, u⟩ := x
    cases r <;> rfl
  destroy := by
    intro σ ups t s
    show Arena.destroy _ _ = Arena.destroy _ _
    unfold Arena.destroy
    cases Arena.releaseAll t.allocated t with
    | mk r A =>
      have hret : ∀ l u, Arena.returnAll (asBadAlloc (ups ())) u l = Arena.returnAll (ups ()) u l := by
        intro l
        induction l with
        | nil => intro u; rfl
        | cons b l ih =>
          intro u
          simp only [Arena.returnAll, asBadAlloc]
          cases (ups ()).deallocate u b.ptr b.size maxAlign with
          | mk r u' =>
            cases r with
            | ok x => exact ih u'
            | _ => rfl
      cases r with
      | ok x => exact hret _ _
      | _ => rfl

theorem contiguous_passes (size : Nat) : (Kind.contiguous size).PassesOn where
  mr := by
    intro σ ups
    apply pimpl_asBad
    · intro s n a
      show (_, _) = asBad (_, _)
      have : (s.1.allocate n a).1 ≠ .runtimeError := by
        unfold Contig.allocate
        split
        · simp
        · split
          · simp
          · simp only
            generalize stdAlign _ _ _ _ = x
            cases x <;> simp
      simp only [asBad]
      cases h : (s.1.allocate n a).1 with
      | runtimeError => exact absurd h this
      | _ => rfl
    · intro s p n a
      rfl
  create := by
    intro σ ups s
    show Contig.create (asBadAlloc (ups ())) s size = asBad (Contig.create (ups ()) s size)
    simp only [Contig.create, asBadAlloc, asBad]
    cases ((ups ()).allocate s size maxAlign).1 <;> rfl
  destroy := fun _ _ _ => rfl

theorem identity_passes : Kind.identity.PassesOn where
  mr := by
    intro σ ups
    apply via_asBad
    apply MR.ext'
    · intro s n a
      show (if n = 0 then _ else _) = asBad (if n = 0 then _ else _)
      split <;> rfl
    · intro s p n a
      rfl
  create := fun _ _ => rfl
  destroy := fun _ _ _ => rfl

theorem debug_passes : Kind.debug.PassesOn where
  mr := by
    intro σ ups
    refine via_asBad (f := fun s => ⟨s.1, s.2⟩) (g := fun d => (d.allocations, d.up))
      (m := debugMR (asBadAlloc (ups ()))) (m' := debugMR (ups ())) ?_
    apply pimpl_asBad
    · intro s n a
      show Debug.allocate (asBadAlloc (ups ())) s n a = asBad (Debug.allocate (ups ()) s n a)
      unfold Debug.allocate
      simp only [asBadAlloc_allocate, asBad]
      split
      · rfl
      · cases (ups ()).allocate s.up n a with
        | mk r u =>
          cases r with
          | ok p =>
            simp only [Res.runtimeAsBad]
            split <;> rfl
          | _ => rfl
    · intro s p n a
      rfl
  create := fun _ _ => rfl
  destroy := fun _ _ _ => rfl

theorem conditional_passes {π : Type} (pred : π → Nat → Nat → Bool × π) (q : π) : (Kind.conditional pred q).PassesOn where
  mr := by
    intro σ ups
    apply pimpl_asBad
    · intro s n a
      simp only [asBadAlloc_allocate, asBad]
      split
      · rfl
      · split <;> rfl
    · intro s p n a
      rfl
  create := fun _ _ => rfl
  destroy := fun _ _ _ => rfl

theorem choice_passes {ι π : Type} (decision : π → Nat → Nat → ι × π) (q : π) : (Kind.choice decision q).PassesOn where
  mr := by
    intro σ ups
    refine via_asBad (f := fun s => ⟨s.1.1, s.1.2, s.2⟩) (g := fun c => ((c.dec, c.allocations), c.up))
      (m := choiceMR decision (fun i => asBadAlloc (ups i))) (m' := choiceMR decision ups) ?_
    apply pimpl_asBad
    · intro s n a
      show Choice.allocate decision (fun i => asBadAlloc (ups i)) s n a = asBad (Choice.allocate decision ups s n a)
      unfold Choice.allocate
      simp only [asBadAlloc_allocate, asBad]
      split
      · rfl
      · cases (ups (decision s.dec n a).1).allocate s.up n a with
        | mk r u => cases r <;> rfl
    · intro s p n a
      rfl
  create := fun _ _ => rfl
  destroy := fun _ _ _ => rfl

theorem terminal_passes : Kind.terminal.PassesOn where
  mr := fun _ => rfl
  create := fun _ _ => rfl
  destroy := fun _ _ _ => rfl

theorem Forwards.passesOn {K : Kind} (h : Forwards K) : K.PassesOn := by
  cases h with
  | pool => exact pool_passes _ _
  | binaryPage => exact binaryPage_passes _
  | arena => exact arena_passes _ _
  | contiguous => exact contiguous_passes _
  | identity => exact identity_passes
  | debug => exact debug_passes
  | conditional => exact conditional_passes _ _
  | choice => exact choice_passes _ _
  | terminal => exact terminal_passes

end Vecmem
