import Verif.Spec.BufferMoves
import Verif.Props.C62_JaggedPipelines

/-!
# Lemmas: variables that hold buffers
-/

namespace Vecmem

variable {σ : Type} {R : Limits} {G : Nat} {ups : Nat → MR σ} {u0 : σ} {c : VarCfg} {s : Vars σ} {q : JReady}

/-! ## Lists of variables -/

theorem lookup_of_mem {β : Type} {l : List (Nat × β)} (hn : (l.map (·.1)).Nodup) {k : Nat} {b : β} (h : (k, b) ∈ l) :
    l.lookup k = some b := by
  induction l with
  | nil => cases h
  | cons e l ih =>
    obtain ⟨k', b'⟩ := e
    rw [List.map_cons, List.nodup_cons] at hn
    rw [List.lookup_cons]
    rcases List.mem_cons.1 h with h | h
    · cases h; simp
    · have : k ≠ k' := by
        intro hk
        exact hn.1 (List.mem_map.2 ⟨(k, b), h, hk⟩)
      rw [beq_eq_false_iff_ne.2 this]
      exact ih hn.2 h

theorem lookup_map_snd {β γ : Type} (f : β → γ) (l : List (Nat × β)) (k : Nat) :
    (l.map fun e => (e.1, f e.2)).lookup k = (l.lookup k).map f := by
  induction l with
  | nil => rfl
  | cons e l ih =>
    rw [List.map_cons, List.lookup_cons, List.lookup_cons, ih]
    split <;> rfl

theorem lookup_filter_snd {β : Type} (f : β → Bool) {l : List (Nat × β)} (hn : (l.map (·.1)).Nodup) (k : Nat) :
    (l.filter fun e => f e.2).lookup k = (l.lookup k).bind fun b => if f b then some b else none := by
  induction l with
  | nil => rfl
  | cons e l ih =>
    obtain ⟨k', b⟩ := e
    rw [List.map_cons, List.nodup_cons] at hn
    rw [List.filter_cons, List.lookup_cons]
    by_cases hk : k = k'
    · subst hk
      simp only [BEq.rfl, Option.bind_some]
      cases hf : f b
      · simp only [Bool.false_eq_true, if_false]
        rw [ih hn.2]
        cases hl : l.lookup k with
        | none => rfl
        | some b' => exact absurd (List.mem_map.2 ⟨_, mem_of_lookup hl, rfl⟩) hn.1
      · simp
    · rw [beq_eq_false_iff_ne.2 hk]
      cases hf : f b
      · simpa using ih hn.2
      · simp only [if_true]
        rw [List.lookup_cons, beq_eq_false_iff_ne.2 hk]
        exact ih hn.2

theorem lookup_putVar {α : Type} (l : List (Nat × α)) (x i : Nat) (v : α) :
    (putVar l x v).lookup i = if i = x then some v else l.lookup i := by
  unfold putVar
  rw [List.lookup_cons, lookup_filter]
  by_cases h : i = x
  · simp [h]
  · simp [h, beq_eq_false_iff_ne.2 h]

theorem nodup_putVar {α : Type} {l : List (Nat × α)} (h : (l.map (·.1)).Nodup) (x : Nat) (v : α) :
    ((putVar l x v).map (·.1)).Nodup := by
  unfold putVar
  rw [List.map_cons, List.nodup_cons]
  refine ⟨?_, h.sublist (List.filter_sublist.map _)⟩
  simp

theorem mem_putVar {α : Type} {l : List (Nat × α)} {x : Nat} {v : α} {e : Nat × α} :
    e ∈ putVar l x v ↔ e = (x, v) ∨ (e ∈ l ∧ e.1 ≠ x) := by
  unfold putVar
  simp [List.mem_filter]

theorem filter_absent {α : Type} {l : List (Nat × α)} {x : Nat} (h : l.lookup x = none) : (l.filter fun e => e.1 != x) = l := by
  apply List.filter_eq_self.2
  intro e he
  have := lookup_none h
  simp only [bne_iff_ne, ne_eq]
  rintro rfl
  exact this (List.mem_map.2 ⟨e, he, rfl⟩)

/-! ## The invariant -/

/-- The resources of buffers, given with functions. -/
def VarCfg.at (c : VarCfg) (vres jres : Nat → Nat) (host : Nat → Option Nat) : JagCfg :=
  { vec := { ty := c.vecTy, res := vres, dflt := c.vecDflt, dbg := c.dbg }
    ty := c.jagTy, res := jres, host, dflt := c.jagDflt }

/-- What is true of a vector buffer. -/
structure VecOk (t : CType) (m : Mem) (ready : Bool) (b : VecBuffer) : Prop where
  ok : BufOk t b
  len : ready = true → b.view.len m ≤ b.view.capacity
  fixed : b.view.sizePtr = 0 → ready = true

/-- What is true of a jagged buffer. -/
structure RowsOk (t : CType) (hasHost : Bool) (m : Mem) (ready : Bool) (b : JagBuffer) : Prop where
  ok : JagOk t hasHost b
  sizes : b.Known ready → ∀ v ∈ b.views, v.len m ≤ v.capacity
  host : DescribedAt m b.hostPtr b.views
  dev : ready = true → DescribedAt m b.ptr b.views

/-- The resource that a jagged buffer was made with. -/
def JagVar.home (v : JagVar) : Nat := if v.outer.mem.ptr = 0 then v.outerHost.res else v.outer.res

/-- What is true of the pointers of a jagged buffer, moved from or not. -/
structure JagVar.Side (v : JagVar) : Prop where
  none : v.views = [] ∨ v.outerHost.mem.ptr = 0 → ∀ o ∈ v.owners, o.mem.ptr = 0
  inner : v.inner.mem.ptr ≠ 0 → v.inner.res = v.home

/-- What holds between the steps of a program. -/
structure VInv (c : VarCfg) (R : Limits) (ups : Nat → MR σ) (u0 : σ) (s : Vars σ) (q : JReady) : Prop where
  reach : FReach R ups u0 s.res s.owned
  vnodup : (s.vecs.map (·.1)).Nodup
  jnodup : (s.jags.map (·.1)).Nodup
  vec : ∀ e ∈ s.vecs, e.2.holds = true → VecOk (c.vecTy e.1) s.mem (q.vec e.1) e.2.buf
  side : ∀ e ∈ s.jags, e.2.Side
  jag : ∀ e ∈ s.jags, e.2.holds = true → RowsOk (c.jagTy e.1) (e.2.outer.mem.ptr != 0) s.mem (q.jag e.1) e.2.buf

/-- The buffers that have not been moved from. -/
def Vars.held (s : Vars σ) : JPipe σ :=
  ⟨⟨s.res, s.mem, (s.vecs.filter fun e => e.2.holds).map fun e => (e.1, e.2.buf)⟩,
    (s.jags.filter fun e => e.2.holds).map fun e => (e.1, e.2.buf)⟩

/-- The functions say where the buffers have their memory from. -/
structure Agrees (s : Vars σ) (vres jres : Nat → Nat) (host : Nat → Option Nat) : Prop where
  vec : ∀ e ∈ s.vecs, e.2.own.mem.ptr ≠ 0 → vres e.1 = e.2.own.res
  inner : ∀ e ∈ s.jags, e.2.inner.mem.ptr ≠ 0 → jres e.1 = e.2.inner.res
  outer : ∀ e ∈ s.jags, e.2.outer.mem.ptr ≠ 0 → jres e.1 = e.2.outer.res
  outerHost : ∀ e ∈ s.jags, e.2.outerHost.mem.ptr ≠ 0 →
    (if (host e.1).isSome then (host e.1).getD 0 else jres e.1) = e.2.outerHost.res
  host : ∀ e ∈ s.jags, e.2.views ≠ [] → e.2.holds = true → (host e.1).isSome = (e.2.outer.mem.ptr != 0)

/-- The resources that the pointers know. -/
theorem VInv.agrees (h : VInv c R ups u0 s q) : ∃ vres jres host, Agrees s vres jres host := by
  refine ⟨fun x => ((s.vecs.lookup x).map fun v => v.own.res).getD 0, fun x => ((s.jags.lookup x).map JagVar.home).getD 0,
    fun x => (s.jags.lookup x).bind fun v => if v.outer.mem.ptr = 0 then none else some v.outerHost.res, ?_, ?_, ?_, ?_, ?_⟩ <;>
    rintro ⟨x, v⟩ he
  · intro _
    rw [lookup_of_mem h.vnodup he]; rfl
  · intro h0
    rw [lookup_of_mem h.jnodup he]; exact ((h.side _ he).inner h0).symm
  · intro h0
    rw [lookup_of_mem h.jnodup he]; exact if_neg h0
  · intro h0
    rw [lookup_of_mem h.jnodup he]
    by_cases h1 : v.outer.mem.ptr = 0
    · simp [h1, JagVar.home]
    · simp [h1]
  · intro _ _
    rw [lookup_of_mem h.jnodup he]
    by_cases h1 : v.outer.mem.ptr = 0 <;> simp [h1]

theorem held_lookup_vec (h : VInv c R ups u0 s q) (x : Nat) :
    s.held.vec.bufs.lookup x = (s.vecs.lookup x).bind fun v => if v.holds then some v.buf else none := by
  simp only [Vars.held]
  rw [lookup_map_snd, lookup_filter_snd _ h.vnodup]
  cases s.vecs.lookup x with
  | none => rfl
  | some v => simp only [Option.bind_some]; split <;> rfl

theorem held_lookup_jag (h : VInv c R ups u0 s q) (x : Nat) :
    s.held.jags.lookup x = (s.jags.lookup x).bind fun v => if v.holds then some v.buf else none := by
  simp only [Vars.held]
  rw [lookup_map_snd, lookup_filter_snd _ h.jnodup]
  cases s.jags.lookup x with
  | none => rfl
  | some v => simp only [Option.bind_some]; split <;> rfl

theorem mem_held_vec {e : Nat × VecBuffer} : e ∈ s.held.vec.bufs ↔ ∃ v, (e.1, v) ∈ s.vecs ∧ v.holds = true ∧ e.2 = v.buf := by
  simp only [Vars.held, List.mem_map, List.mem_filter]
  constructor
  · rintro ⟨⟨x, v⟩, ⟨h1, h2⟩, rfl⟩
    exact ⟨v, h1, h2, rfl⟩
  · rintro ⟨v, h1, h2, h3⟩
    exact ⟨(e.1, v), ⟨h1, h2⟩, by rw [← h3]⟩

theorem mem_held_jag {e : Nat × JagBuffer} : e ∈ s.held.jags ↔ ∃ v, (e.1, v) ∈ s.jags ∧ v.holds = true ∧ e.2 = v.buf := by
  simp only [Vars.held, List.mem_map, List.mem_filter]
  constructor
  · rintro ⟨⟨x, v⟩, ⟨h1, h2⟩, rfl⟩
    exact ⟨v, h1, h2, rfl⟩
  · rintro ⟨v, h1, h2, h3⟩
    exact ⟨(e.1, v), ⟨h1, h2⟩, by rw [← h3]⟩

theorem owned_vecs {vres : Nat → Nat} {jres : Nat → Nat} {host : Nat → Option Nat} (m : Mem) (u : σ) :
    ∀ l : List (Nat × VecVar), (∀ e ∈ l, e.2.own.mem.ptr ≠ 0 → vres e.1 = e.2.own.res) →
    (Pipe.mk u m ((l.filter fun e => e.2.holds).map fun e => (e.1, e.2.buf))).owned (c.at vres jres host).vec =
      l.flatMap fun e => e.2.own.blocks := by
  intro l
  induction l with
  | nil => exact fun _ => rfl
  | cons e l ih =>
    intro h
    have ih := ih fun e he => h e (List.mem_cons_of_mem _ he)
    have he := h e List.mem_cons_self
    rw [List.flatMap_cons, ← ih, List.filter_cons]
    by_cases h0 : e.2.own.mem.ptr = 0
    · have hb : e.2.own.blocks = [] := by simp [Owner.blocks, h0]
      rw [hb]
      split
      · simp [Pipe.owned, VecVar.buf, h0]
      · simp
    · have hh : e.2.holds = true := by simp [VecVar.holds, h0]
      rw [if_pos hh, List.map_cons, Pipe.owned_cons (c := (c.at vres jres host).vec)
        (Pipe.mk u m ((l.filter fun e => e.2.holds).map fun e => (e.1, e.2.buf)))]
      congr 1
      simp [VecBuffer.owns, Owner.blocks, VecVar.buf, h0, UniqueAlloc.blk, VarCfg.at, he h0]

theorem owned_jags {vres : Nat → Nat} {jres : Nat → Nat} {host : Nat → Option Nat} (p : Pipe σ) :
    ∀ l : List (Nat × JagVar), (∀ e ∈ l, e.2.Side) → (∀ e ∈ l, e.2.inner.mem.ptr ≠ 0 → jres e.1 = e.2.inner.res) →
    (∀ e ∈ l, e.2.outer.mem.ptr ≠ 0 → jres e.1 = e.2.outer.res) →
    (∀ e ∈ l, e.2.outerHost.mem.ptr ≠ 0 →
      (if (host e.1).isSome then (host e.1).getD 0 else jres e.1) = e.2.outerHost.res) →
    ((JPipe.mk p ((l.filter fun e => e.2.holds).map fun e => (e.1, e.2.buf))).owned (c.at vres jres host)).Perm
      (l.flatMap fun e => e.2.owners.flatMap Owner.blocks) := by
  intro l
  induction l with
  | nil => exact fun _ _ _ _ => .refl _
  | cons e l ih =>
    intro h1 h2 h3 h4
    have ih := ih (fun e he => h1 e (List.mem_cons_of_mem _ he)) (fun e he => h2 e (List.mem_cons_of_mem _ he))
      (fun e he => h3 e (List.mem_cons_of_mem _ he)) (fun e he => h4 e (List.mem_cons_of_mem _ he))
    have e1 := h1 e List.mem_cons_self
    have e2 := h2 e List.mem_cons_self
    have e3 := h3 e List.mem_cons_self
    have e4 := h4 e List.mem_cons_self
    rw [List.flatMap_cons, List.filter_cons]
    by_cases hh : e.2.holds = true
    · rw [if_pos hh, List.map_cons]
      have hc : (JPipe.mk p ((e.1, e.2.buf) :: (l.filter fun e => e.2.holds).map fun e => (e.1, e.2.buf))).owned (c.at vres jres host) =
          e.2.buf.blocks ((c.at vres jres host).source e.1) ((c.at vres jres host).hasHost e.1) ++
            (JPipe.mk p ((l.filter fun e => e.2.holds).map fun e => (e.1, e.2.buf))).owned (c.at vres jres host) := by
        simp [JPipe.owned_eq]
      rw [hc]
      refine List.Perm.append ?_ ih
      rw [JagBuffer.blocks_eq]
      have hrev : heldBy [((c.at vres jres host).source e.1 false, e.2.buf.inner),
          ((c.at vres jres host).source e.1 ((c.at vres jres host).hasHost e.1), e.2.buf.outerHost),
          ((c.at vres jres host).source e.1 false, e.2.buf.outer)] =
          e.2.inner.blocks ++ (e.2.outerHost.blocks ++ e.2.outer.blocks) := by
        have hone : ∀ (i : Nat) (o : Owner) (ms : List (Nat × UniqueAlloc)), (o.mem.ptr ≠ 0 → i = o.res) →
            heldBy ((i, o.mem) :: ms) = o.blocks ++ heldBy ms := by
          intro i o ms hi
          rw [heldBy_cons]
          by_cases z : o.mem.ptr = 0
          · simp [Owner.blocks, z]
          · simp [Owner.blocks, z, UniqueAlloc.blk, hi z]
        show heldBy [(jres e.1, e.2.inner.mem), ((if (host e.1).isSome then (host e.1).getD 0 else jres e.1), e.2.outerHost.mem),
          (jres e.1, e.2.outer.mem)] = _
        rw [hone _ e.2.inner _ e2, hone _ e.2.outerHost _ e4, hone _ e.2.outer _ e3]
        simp [heldBy]
      rw [hrev]
      show List.Perm _ (e.2.outer.blocks ++ (e.2.outerHost.blocks ++ (e.2.inner.blocks ++ [])))
      rw [List.append_nil]
      refine List.perm_append_comm.trans ?_
      rw [List.append_assoc, ← List.append_assoc e.2.outer.blocks]
      rw [← List.append_assoc]
      exact List.perm_append_comm.append_right _
    · rw [if_neg hh]
      have hnull : e.2.owners.flatMap Owner.blocks = [] := by
        simp only [JagVar.holds, Bool.or_eq_true, List.isEmpty_iff, bne_iff_ne, ne_eq, not_or, Decidable.not_not] at hh
        have := e1.none (.inr hh.2)
        rw [List.flatMap_eq_nil_iff]
        intro o ho
        simp [Owner.blocks, this o ho]
      rw [hnull]
      exact ih

section
variable {vres : Nat → Nat} {jres : Nat → Nat} {host : Nat → Option Nat}

theorem Vars.owned_perm (hs : ∀ e ∈ s.jags, e.2.Side) (ha : Agrees s vres jres host) :
    (s.held.vec.owned (c.at vres jres host).vec ++ s.held.owned (c.at vres jres host)).Perm s.owned := by
  unfold Vars.held Vars.owned
  rw [owned_vecs (jres := jres) (host := host) s.mem s.res s.vecs ha.vec]
  exact (owned_jags _ s.jags hs ha.inner ha.outer ha.outerHost).append_left _

theorem rowsOk_host {t : CType} {h h' : Bool} {m : Mem} {r : Bool} {b : JagBuffer} (hr : RowsOk t h m r b)
    (hh : b.views ≠ [] → h = h') (he : b.views = [] → b.ptr = b.hostPtr) : RowsOk t h' m r b := by
  obtain ⟨o, s, a, d⟩ := hr
  by_cases hv : b.views = []
  · refine ⟨⟨o.placed, o.rows, o.uniform, o.host, fun hc => absurd hv hc, fun _ => he hv, o.space, o.small⟩, s, a, d⟩
  · rw [← hh hv]
    exact ⟨o, s, a, d⟩

theorem VInv.to (h : VInv c R ups u0 s q) (ha : Agrees s vres jres host) : JInv (c.at vres jres host) R ups u0 s.held q where
  vec := ⟨h.reach.perm (Vars.owned_perm h.side ha).symm, by
      simp only [Vars.held, List.map_map]
      exact h.vnodup.sublist (List.filter_sublist.map _),
    fun e he => by obtain ⟨v, h1, h2, h3⟩ := mem_held_vec.1 he; rw [h3]; exact (h.vec _ h1 h2).ok,
    fun e he => by obtain ⟨v, h1, h2, h3⟩ := mem_held_vec.1 he; rw [h3]; exact (h.vec _ h1 h2).len,
    fun e he => by obtain ⟨v, h1, h2, h3⟩ := mem_held_vec.1 he; rw [h3]; exact (h.vec _ h1 h2).fixed⟩
  nodup := by
    simp only [Vars.held, List.map_map]
    exact h.jnodup.sublist (List.filter_sublist.map _)
  bufs := fun e he => by
    obtain ⟨v, h1, h2, h3⟩ := mem_held_jag.1 he
    rw [h3]
    refine (rowsOk_host (h.jag _ h1 h2) (fun hv => (ha.host _ h1 hv h2).symm) fun hv => (h.jag _ h1 h2).ok.same ?_).ok
    simp [(h.side _ h1).none (.inl hv) v.outer (by simp [JagVar.owners])]
  sizes := fun e he => by obtain ⟨v, h1, h2, h3⟩ := mem_held_jag.1 he; rw [h3]; exact (h.jag _ h1 h2).sizes
  host := fun e he => by obtain ⟨v, h1, h2, h3⟩ := mem_held_jag.1 he; rw [h3]; exact (h.jag _ h1 h2).host
  dev := fun e he => by obtain ⟨v, h1, h2, h3⟩ := mem_held_jag.1 he; rw [h3]; exact (h.jag _ h1 h2).dev

theorem VInv.of (h : JInv (c.at vres jres host) R ups u0 s.held q) (ha : Agrees s vres jres host) (h1 : (s.vecs.map (·.1)).Nodup)
    (h2 : (s.jags.map (·.1)).Nodup) (h3 : ∀ e ∈ s.jags, e.2.Side) (h4 : ∀ e ∈ s.jags, e.2.views = [] → e.2.ptr = e.2.hostPtr) :
    VInv c R ups u0 s q where
  reach := h.vec.reach.perm (Vars.owned_perm h3 ha)
  vnodup := h1
  jnodup := h2
  vec := fun e he hh => by
    have hm : ((e.1, e.2.buf) : Nat × VecBuffer) ∈ s.held.vec.bufs := mem_held_vec.2 ⟨e.2, he, hh, rfl⟩
    exact ⟨h.vec.bufs _ hm, h.vec.len _ hm, h.vec.fixed _ hm⟩
  side := h3
  jag := fun e he hh => by
    have hm : ((e.1, e.2.buf) : Nat × JagBuffer) ∈ s.held.jags := mem_held_jag.2 ⟨e.2, he, hh, rfl⟩
    exact rowsOk_host ⟨h.bufs _ hm, h.sizes _ hm, h.host _ hm, h.dev _ hm⟩ (fun hv => ha.host e he hv hh) (h4 e he)

theorem VInv.same_ptr (h : VInv c R ups u0 s q) : ∀ e ∈ s.jags, e.2.views = [] → e.2.ptr = e.2.hostPtr := by
  intro e he hv
  refine (h.jag e he (by simp [JagVar.holds, hv])).ok.same ?_
  simp [(h.side _ he).none (.inl hv) e.2.outer (by simp [JagVar.owners])]

theorem VInv.store_eq (h : VInv c R ups u0 s q) (ha : Agrees s vres jres host) :
    s.held.store (c.at vres jres host) q = (s.store c q).bufs := by
  simp only [JPipe.store, Vars.store, JStore.mk.injEq]
  constructor
  · funext x
    unfold Pipe.store
    rw [held_lookup_vec h]
    cases s.vecs.lookup x with
    | none => rfl
    | some v =>
      simp only [Option.bind_some]
      by_cases hh : v.holds = true
      · rw [if_pos hh, if_pos hh]; rfl
      · rw [if_neg hh, if_neg hh]; rfl
  · funext x
    rw [held_lookup_jag h]
    cases hv : s.jags.lookup x with
    | none => rfl
    | some v =>
      simp only [Option.bind_some]
      split
      · rename_i hh
        have hm := mem_of_lookup hv
        have : (v.views.isEmpty || !(c.at vres jres host).hasHost x || q.jag x) = (v.outer.mem.ptr == 0 || q.jag x) := by
          by_cases hn : v.views = []
          · have := (h.side _ hm).none (.inl hn) v.outer (by simp [JagVar.owners])
            simp [hn, this]
          · have := ha.host _ hm hn hh
            simp only [JagCfg.hasHost, VarCfg.at, this]
            rw [List.isEmpty_eq_false_iff.2 hn]
            simp [bne]
        simp only [Option.map_some, Option.some.injEq, JBuf.mk.injEq]
        exact ⟨rfl, rfl, rfl, this⟩
      · rfl

theorem VInv.outside (h : VInv c R ups u0 s q) (ha : Agrees s vres jres host) {a n : Nat} (ho : s.Outside a n) :
    s.held.Outside (c.at vres jres host) a n := by
  have hp := Vars.owned_perm (c := c) h.side ha
  constructor
  · intro e he h0
    refine ho (vres e.1, ⟨e.2.mem.ptr, e.2.mem.size, maxAlign⟩) (hp.mem_iff.1 (List.mem_append_left _ ?_))
    unfold Pipe.owned
    exact List.mem_map.2 ⟨e, List.mem_filter.2 ⟨he, by simpa using h0⟩, rfl⟩
  · exact fun e he => ho e (hp.mem_iff.1 (List.mem_append_right _ he))

end

end Vecmem
