import Verif.Spec.Handles
import Verif.Props.C55_Programs
import Verif.Lemmas.Tactics

namespace Vecmem

section

variable {β σ : Type} {bases : β → MR σ} {d : Nat → HDecl β} {link : (k : Nat) → (d k).kind.ι → β ⊕ Fin k}

/-- The objects and references match the upstreams that the implementations were made with. -/
structure Linked (link : (k : Nat) → (d k).kind.ι → β ⊕ Fin k) (N : Nat) (o : Handles) (w : HWorld σ d) : Prop where
  alive : ∀ {h k}, o h = .holds k → (w.loc k).isSome = true
  small : ∀ {k}, (w.loc k).isSome = true → k < N
  up : ∀ {k}, (w.loc k).isSome = true → ∀ i, target o ((d k).up i) = some ((linked d link k).ref i)

theorem target_inr {o : Handles} {x : β ⊕ Nat} {k : Nat} (h : target o x = some (.inr k)) :
    ∃ h', x = .inr h' ∧ o h' = .holds k := by
  cases x with
  | inl b => simp [target] at h
  | inr h' =>
    simp only [target] at h
    split at h
    · rename_i e
      refine ⟨h', rfl, ?_⟩
      rw [e]; simpa using h
    · simp at h

theorem target_inl {o : Handles} {x : β ⊕ Nat} {b : β} (h : target o x = some (.inl b)) : x = .inl b := by
  cases x with
  | inl b' => simpa [target] using h
  | inr h' =>
    simp only [target] at h
    split at h <;> simp at h

theorem target_holds {o : Handles} {h k : Nat} (e : o h = .holds k) : target (β := β) o (.inr h) = some (.inr k) := by
  simp [target, e]

theorem Linked.impl {N : Nat} {o : Handles} {w : HWorld σ d} (hl : Linked link N o w) (k : Nat) :
    (w.loc k).isSome = true → ∀ n, k < n → implMR bases d o n k = nodeMR bases (linked d link) k := by
  induction k using Nat.strongRecOn with
  | _ k ih =>
    intro hk n hn
    obtain ⟨n, rfl⟩ := Nat.exists_eq_succ_of_ne_zero (by omega : n ≠ 0)
    rw [nodeMR_eq, implMR]
    refine congrArg (onSlot k) (congrArg _ ?_)
    funext i
    have h1 := hl.up hk i
    unfold upstreams
    cases hr : (linked d link k).ref i with
    | inl b =>
      rw [hr] at h1
      rw [target_inl h1]
      rfl
    | inr j =>
      rw [hr] at h1
      obtain ⟨h', h2, h3⟩ := target_inr h1
      rw [h2]
      simp only [h3]
      exact ih j (ref_lt hr) (hl.alive h3) n (by have := ref_lt hr; omega)

theorem Linked.ref {N : Nat} {o : Handles} {w : HWorld σ d} (hl : Linked link N o w) {x y : β ⊕ Nat}
    (h : target o x = some y) : refMR bases d N o x = worldMR bases (linked d link) y := by
  cases y with
  | inl b => rw [target_inl h]; rfl
  | inr j =>
    obtain ⟨h', rfl, h3⟩ := target_inr h
    simp only [refMR, h3, worldMR]
    exact hl.impl j (hl.alive h3) N (hl.small (hl.alive h3))

theorem Linked.exists {N : Nat} {o : Handles} {w : HWorld σ d} (hl : Linked link N o w) {x y : β ⊕ Nat}
    (h : target o x = some y) : Exists (g := linked d link) w y := by
  cases y with
  | inl b => trivial
  | inr j =>
    obtain ⟨h', rfl, h3⟩ := target_inr h
    exact hl.alive h3

theorem Linked.destroy {N : Nat} {o : Handles} {w : HWorld σ d} (hl : Linked link N o w) {k : Nat}
    (hk : (w.loc k).isSome = true) : destroyImpl bases d N o k w = destroyAt bases (linked d link) k w := by
  unfold destroyImpl destroyAt
  have : (fun i => refMR bases d N o ((d k).up i)) = upstreams bases (linked d link) k := by
    funext i
    exact hl.ref (hl.up hk i)
  rw [this]
  rcases hw : w.loc k with _ | t
  · rfl
  · rfl

theorem Linked.construct {N : Nat} {s : HState σ d} (hl : Linked link N s.o s.w) {h k : Nat}
    (hu : ∀ i, target s.o ((d k).up i) = some ((linked d link k).ref i)) :
    s.construct bases d N h k = ((createAt bases (linked d link) k s.w).1, ⟨(createAt bases (linked d link) k s.w).2,
      if (createAt bases (linked d link) k s.w).1 = .ok () then s.o.put h (.holds k) else s.o⟩) := by
  have : (fun i => refMR bases d N s.o ((d k).up i)) = upstreams bases (linked d link) k := by
    funext i
    exact hl.ref (hu i)
  unfold HState.construct createAt
  rw [this]
  rcases e : (d k).kind.create (upstreams bases (linked d link) k) s.w with ⟨r, w'⟩
  cases r <;> simp [Res.map]

/-- The tag of a block, in terms of implementations. -/
def resolve (o : Handles) (e : (β ⊕ Nat) × Blk) : (β ⊕ Nat) × Blk := ((target o e.1).getD e.1, e.2)

/-- The invariant of programs that move resources: they are programs on the implementations. -/
structure MoveInv (bases : β → MR σ) (link : (k : Nat) → (d k).kind.ι → β ⊕ Fin k) (P : β ⊕ Nat → Port) (N : Nat) (s0 : σ)
    (s : HState σ d) (T : List ((β ⊕ Nat) × Blk)) : Prop where
  prog : ProgReach bases (linked d link) P s0 s.w (T.map (resolve s.o))
  tags : ∀ e ∈ T, ∃ y, target s.o e.1 = some y
  inj : ∀ {h h' k}, s.o h = .holds k → s.o h' = .holds k → h = h'
  owned : ∀ {k}, (s.w.loc k).isSome = true → ∃ h, s.o h = .holds k
  links : Linked link N s.o s.w

theorem Linked.of_same {N : Nat} {o : Handles} {w w' : HWorld σ d} (hl : Linked link N o w)
    (h : ∀ j, (w'.loc j).isSome = (w.loc j).isSome) : Linked link N o w' where
  alive := fun e => by rw [h]; exact hl.alive e
  small := fun e => hl.small (by rw [← h]; exact e)
  up := fun e => hl.up (by rw [← h]; exact e)

theorem put_same (o : Handles) (h : Nat) (x : Handle) : o.put h x h = x := if_pos rfl

theorem put_ne (o : Handles) {h h' : Nat} (x : Handle) (e : h' ≠ h) : o.put h x h' = o h' := if_neg e

theorem target_put {o : Handles} {h : Nat} {v : Handle} {x : β ⊕ Nat} (e : x ≠ .inr h) :
    target (o.put h v) x = target o x := by
  cases x with
  | inl b => rfl
  | inr h' =>
    have e' : h' ≠ h := fun e' => e (congrArg _ e')
    simp only [target, put_ne o v e']

theorem resolve_put {o : Handles} {h : Nat} {v : Handle} {T : List ((β ⊕ Nat) × Blk)} (e : ∀ b, (.inr h, b) ∉ T) :
    T.map (resolve (o.put h v)) = T.map (resolve o) := by
  refine List.map_congr_left fun t ht => ?_
  unfold resolve
  rw [target_put]
  intro e'
  exact e t.2 (by rw [← e']; exact ht)

/-- Moving the blocks together with the object. -/
theorem resolve_move {o : Handles} {h f : Nat} (hhf : h ≠ f) {T : List ((β ⊕ Nat) × Blk)} (e : ∀ b, (.inr h, b) ∉ T)
    (ht : ∀ e ∈ T, ∃ y, target o e.1 = some y) :
    (moveBlocks h f T).map (resolve ((o.put f .movedFrom).put h (o f))) = T.map (resolve o) := by
  unfold moveBlocks
  rw [List.map_map]
  refine List.map_congr_left fun t htm => ?_
  obtain ⟨x, b⟩ := t
  obtain ⟨y, hy⟩ := ht _ htm
  replace hy : target o x = some y := hy
  cases x with
  | inl c => rfl
  | inr h' =>
    have h1 : h' ≠ h := fun e' => e b (by rw [← e']; exact htm)
    by_cases h2 : h' = f
    · subst h2
      have : target (β := β) ((o.put h' .movedFrom).put h (o h')) (.inr h) = target o (.inr h') := by
        simp [target, put_same]
      simp [resolve, this, hy]
    · have : target (β := β) ((o.put f .movedFrom).put h (o f)) (.inr h') = target o (.inr h') := by
        rw [target_put (by simpa using h1), target_put (by simpa using h2)]
      simp [h2, resolve, this]

theorem mem_moveBlocks {h f : Nat} {T : List ((β ⊕ Nat) × Blk)} {e : (β ⊕ Nat) × Blk} (he : e ∈ moveBlocks h f T) :
    e ∈ T ∧ e.1 ≠ .inr f ∨ (.inr f, e.2) ∈ T ∧ e.1 = .inr h := by
  obtain ⟨⟨x, b⟩, ht, rfl⟩ := List.mem_map.1 he
  cases x with
  | inl c => exact .inl ⟨ht, by simp⟩
  | inr h' =>
    by_cases h2 : h' = f
    · subst h2; right; simpa using ht
    · left; simpa [h2] using ht

/-- A step of the objects only, or of the implementations only. -/
theorem MoveInv.call {P : β ⊕ Nat → Port} {N : Nat} {s0 : σ} {s : HState σ d} {T T' : List ((β ⊕ Nat) × Blk)} {w' : HWorld σ d}
    (hI : MoveInv bases link P N s0 s T) (h : ProgReach bases (linked d link) P s0 w' (T'.map (resolve s.o)))
    (hw : ∀ j, (w'.loc j).isSome = (s.w.loc j).isSome) (ht : ∀ e ∈ T', ∃ y, target s.o e.1 = some y) :
    MoveInv bases link P N s0 ⟨w', s.o⟩ T' where
  prog := h
  tags := ht
  inj := hI.inj
  owned := fun e => hI.owned (by rw [← hw]; exact e)
  links := hI.links.of_same hw

theorem MoveInv.not_used {P : β ⊕ Nat → Port} {N : Nat} {s0 : σ} {s : HState σ d} {T : List ((β ⊕ Nat) × Blk)} {h : Nat}
    (hI : MoveInv bases link P N s0 s T) (hh : s.o h = .noObject) : ¬ InUse s h := by
  rintro ⟨k, i, hk, hu⟩
  have := hI.links.up hk i
  rw [hu] at this
  simp [target, hh] at this

theorem MoveInv.no_blocks {P : β ⊕ Nat → Port} {N : Nat} {s0 : σ} {s : HState σ d} {T : List ((β ⊕ Nat) × Blk)} {h : Nat}
    (hI : MoveInv bases link P N s0 s T) (hh : ∀ k, s.o h ≠ .holds k) (b : Blk) : (.inr h, b) ∉ T := by
  intro hb
  obtain ⟨y, hy⟩ := hI.tags _ hb
  simp only [target, hh, reduceCtorEq] at hy

theorem moved_eq {o : Handles} {h f h' : Nat} (hhf : h ≠ f) :
    ((o.put f .movedFrom).put h (o f)) h' = if h' = h then o f else if h' = f then .movedFrom else o h' := by
  by_cases h1 : h' = h
  · rw [h1, put_same, if_pos rfl]
  · rw [put_ne _ _ h1, if_neg h1]
    by_cases h2 : h' = f
    · rw [h2, put_same, if_pos rfl]
    · rw [put_ne _ _ h2, if_neg h2]

/-- What a move does to the objects. -/
theorem MoveInv.moved {P : β ⊕ Nat → Port} {N : Nat} {s0 : σ} {s : HState σ d} {T : List ((β ⊕ Nat) × Blk)} {h f : Nat}
    (hI : MoveInv bases link P N s0 s T) (hhf : h ≠ f) (hu : ¬ InUse s h) (hf : ¬ InUse s f) (hb : ∀ b, (.inr h, b) ∉ T) :
    let o' := (s.o.put f .movedFrom).put h (s.o f)
    (moveBlocks h f T).map (resolve o') = T.map (resolve s.o) ∧
    (∀ e ∈ moveBlocks h f T, ∃ y, target o' e.1 = some y) ∧
    (∀ {a b k}, o' a = .holds k → o' b = .holds k → a = b) ∧
    Linked link N o' s.w ∧
    ∀ k, (∃ a, o' a = .holds k) ↔ (∃ a, a ≠ h ∧ s.o a = .holds k) := by
  intro o'
  have ho' : ∀ a, o' a = if a = h then s.o f else if a = f then .movedFrom else s.o a := fun a => moved_eq hhf
  have ht : ∀ x : β ⊕ Nat, x ≠ .inr h → x ≠ .inr f → target o' x = target s.o x := by
    intro x h1 h2
    rw [target_put h1, target_put h2]
  have hback : ∀ {a k}, o' a = .holds k → ∃ a', s.o a' = .holds k ∧ a' ≠ h ∧ (a = h ∧ a' = f ∨ a ≠ h ∧ a ≠ f ∧ a' = a) := by
    intro a k e
    rw [ho'] at e
    by_cases h1 : a = h
    · rw [if_pos h1] at e; exact ⟨f, e, hhf.symm, .inl ⟨h1, rfl⟩⟩
    · rw [if_neg h1] at e
      by_cases h2 : a = f
      · rw [if_pos h2] at e; simp at e
      · rw [if_neg h2] at e; exact ⟨a, e, h1, .inr ⟨h1, h2, rfl⟩⟩
  refine ⟨resolve_move hhf hb hI.tags, ?_, ?_, ⟨?_, hI.links.small, ?_⟩, ?_⟩
  · intro e he
    rcases mem_moveBlocks he with ⟨h1, h2⟩ | ⟨h1, h2⟩
    · obtain ⟨y, hy⟩ := hI.tags e h1
      refine ⟨y, ?_⟩
      rw [ht _ (fun e' => hb e.2 (by rw [← e']; exact h1)) h2]
      exact hy
    · obtain ⟨y, hy⟩ := hI.tags _ h1
      refine ⟨y, ?_⟩
      rw [h2]
      rw [← hy]
      simp [target, ho']
  · intro a b k h1 h2
    obtain ⟨a', e1, _, c1⟩ := hback h1
    obtain ⟨b', e2, _, c2⟩ := hback h2
    have := hI.inj e1 e2
    omega
  · intro a k e
    obtain ⟨a', e1, _⟩ := hback e
    exact hI.links.alive e1
  · intro k hk i
    rw [ht]
    · exact hI.links.up hk i
    · exact fun e => hu ⟨k, i, hk, e⟩
    · exact fun e => hf ⟨k, i, hk, e⟩
  · intro k
    constructor
    · rintro ⟨a, e⟩
      obtain ⟨a', e1, e2, _⟩ := hback e
      exact ⟨a', e2, e1⟩
    · rintro ⟨a, h1, e⟩
      by_cases h2 : a = f
      · exact ⟨h, by rw [ho', if_pos rfl, ← h2]; exact e⟩
      · exact ⟨a, by rw [ho', if_neg h1, if_neg h2]; exact e⟩

/-- Nothing is built over an implementation that an unused object holds. -/
theorem MoveInv.top {P : β ⊕ Nat → Port} {N : Nat} {s0 : σ} {s : HState σ d} {T : List ((β ⊕ Nat) × Blk)} {h k : Nat}
    (hI : MoveInv bases link P N s0 s T) (hh : s.o h = .holds k) (hu : ¬ InUse s h) :
    ∀ j, (s.w.loc j).isSome = true → ∀ i, (linked d link j).ref i ≠ .inr k := by
  intro j hj i hr
  have := hI.links.up hj i
  rw [hr] at this
  obtain ⟨h', h1, h2⟩ := target_inr this
  rw [hI.inj h2 hh] at h1
  exact hu ⟨j, i, hj, h1⟩

theorem MoveInv.free_blocks {P : β ⊕ Nat → Port} {N : Nat} {s0 : σ} {s : HState σ d} {T : List ((β ⊕ Nat) × Blk)} {h k : Nat}
    (hI : MoveInv bases link P N s0 s T) (hh : s.o h = .holds k) (hb : ∀ b, (.inr h, b) ∉ T) (b : Blk) :
    (.inr k, b) ∉ T.map (resolve s.o) := by
  intro hm
  obtain ⟨e, he, h1⟩ := List.mem_map.1 hm
  obtain ⟨y, hy⟩ := hI.tags e he
  have h2 : y = .inr k ∧ e.2 = b := by simpa [resolve, hy] using h1
  rw [h2.1] at hy
  obtain ⟨h', h3, h4⟩ := target_inr hy
  rw [hI.inj h4 hh] at h3
  exact hb e.2 (by rw [← h3]; exact he)

/-- Deleting the implementation of an unused object without live blocks. -/
theorem MoveInv.drop {P : β ⊕ Nat → Port} {N : Nat} {R : Limits} {G : Nat} {s0 : σ} {s : HState σ d}
    {T : List ((β ⊕ Nat) × Blk)} {h k : Nat} (hb : GoodBases bases R G (fun b => P (.inl b)) s0)
    (hg : ∀ k, Works (d k).kind (fun i => P ((linked d link k).ref i)) (P (.inr k)))
    (hI : MoveInv bases link P N s0 s T) (hh : s.o h = .holds k) (hu : ¬ InUse s h) (hT : ∀ b, (.inr h, b) ∉ T)
    {o' : Handles} (hl : Linked link N o' s.w) :
    ∃ w', destroyImpl bases d N o' k s.w = (.ok (), w') ∧
      ProgReach bases (linked d link) P s0 w' (T.map (resolve s.o)) ∧
      ∀ j, (w'.loc j).isSome = if j = k then false else (s.w.loc j).isSome := by
  have hk := hI.links.alive hh
  obtain ⟨e1, e2⟩ := (Props.c55_programs bases (linked d link) P hb hg hI.prog).2.2.2.2.1 k hk (hI.top hh hu)
    (hI.free_blocks hh hT)
  refine ⟨(destroyAt bases (linked d link) k s.w).2, ?_, ?_, e2⟩
  · rw [hl.destroy hk]
    exact Prod.ext e1 rfl
  · exact .destroy k hI.prog hk (hI.top hh hu) (hI.free_blocks hh hT) rfl

theorem MoveInv.step_call {P : β ⊕ Nat → Port} {N : Nat} {R : Limits} {G : Nat} {s0 : σ} {s : HState σ d}
    {T : List ((β ⊕ Nat) × Blk)} (hb : GoodBases bases R G (fun b => P (.inl b)) s0)
    (hg : ∀ k, Works (d k).kind (fun i => P ((linked d link k).ref i)) (P (.inr k)))
    (hI : MoveInv bases link P N s0 s T) {x y : β ⊕ Nat} (hx : target s.o x = some y) :
    (∀ n a r s', IsReq (P y).R n a → s.allocate bases d N x n a = (r, s') →
      s' = ⟨s'.w, s.o⟩ ∧ (worldMR bases (linked d link) y).allocate s.w n a = (r, s'.w) ∧
        ∀ j, (s'.w.loc j).isSome = (s.w.loc j).isSome) ∧
    (∀ b r s', (y, b) ∈ T.map (resolve s.o) → s.deallocate bases d N x b.addr b.size b.align = (r, s') →
      s' = ⟨s'.w, s.o⟩ ∧ (worldMR bases (linked d link) y).deallocate s.w b.addr b.size b.align = (r, s'.w) ∧
        ∀ j, (s'.w.loc j).isSome = (s.w.loc j).isSome) ∧
    (∀ n a r s', s.deallocate bases d N x 0 n a = (r, s') →
      s' = ⟨s'.w, s.o⟩ ∧ (worldMR bases (linked d link) y).deallocate s.w 0 n a = (r, s'.w) ∧
        ∀ j, (s'.w.loc j).isSome = (s.w.loc j).isSome) := by
  have hr := hI.links.ref (bases := bases) hx
  have hk := fun j => Props.c55_calls_keep bases (linked d link) P hb hg hI.prog (hI.links.exists hx) j
  refine ⟨?_, ?_, ?_⟩
  · intro n a r s' hq he
    unfold HState.allocate at he
    rw [hr] at he
    obtain ⟨rfl, rfl⟩ := Prod.mk.inj he
    exact ⟨rfl, rfl, fun j => (hk j).1 n a hq⟩
  · intro b r s' hm he
    unfold HState.deallocate at he
    rw [hr] at he
    obtain ⟨rfl, rfl⟩ := Prod.mk.inj he
    exact ⟨rfl, rfl, fun j => (hk j).2.1 b hm⟩
  · intro n a r s' he
    unfold HState.deallocate at he
    rw [hr] at he
    obtain ⟨rfl, rfl⟩ := Prod.mk.inj he
    exact ⟨rfl, rfl, fun j => (hk j).2.2 n a⟩

theorem resolve_mk {o : Handles} {x y : β ⊕ Nat} (h : target o x = some y) (b : Blk) : resolve o (x, b) = (y, b) := by
  simp [resolve, h]

theorem MoveReach.inv {P : β ⊕ Nat → Port} {N : Nat} {R : Limits} {G : Nat} {s0 : σ} {s : HState σ d}
    {T : List ((β ⊕ Nat) × Blk)} (hb : GoodBases bases R G (fun b => P (.inl b)) s0)
    (hg : ∀ k, Works (d k).kind (fun i => P ((linked d link k).ref i)) (P (.inr k)))
    (h : MoveReach bases d link P N s0 s T) : MoveInv bases link P N s0 s T := by
  induction h with
  | init => exact ⟨.init, by simp, by simp, by simp, ⟨by simp, by simp, by simp⟩⟩
  | @construct s s' T r h k _ ho hk hN hu he ih =>
    have hnew : ∀ b, (.inr h, b) ∉ T := ih.no_blocks (by simp [ho])
    rw [ih.links.construct hu] at he
    have hex : ∀ i, Exists (g := linked d link) s.w ((linked d link k).ref i) := fun i => ih.links.exists (hu i)
    rcases (Props.c55_programs bases (linked d link) P hb hg ih.prog).2.2.2.1 k hk hex with ⟨e1, e2⟩ | ⟨e1, e2⟩
    · rw [if_pos e1] at he
      obtain ⟨rfl, rfl⟩ := Prod.mk.inj he
      have hup : ∀ x : β ⊕ Nat, (∃ y, target s.o x = some y) → target (s.o.put h (.holds k)) x = target s.o x := by
        rintro x ⟨y, hy⟩
        refine target_put ?_
        rintro rfl
        simp [target, ho] at hy
      refine ⟨?_, ?_, ?_, ?_, ⟨?_, ?_, ?_⟩⟩
      · rw [resolve_put hnew]
        exact .create k ih.prog hk hex rfl
      · intro e he
        obtain ⟨y, hy⟩ := ih.tags e he
        exact ⟨y, by rw [← hy]; exact hup _ ⟨y, hy⟩⟩
      · intro a b j h1 h2
        replace h1 : s.o.put h (.holds k) a = .holds j := h1
        replace h2 : s.o.put h (.holds k) b = .holds j := h2
        by_cases ha : a = h <;> by_cases hb' : b = h
        · omega
        · rw [ha, put_same] at h1
          rw [put_ne _ _ hb'] at h2
          cases h1
          have := ih.links.alive h2
          simp [hk] at this
        · rw [hb', put_same] at h2
          rw [put_ne _ _ ha] at h1
          cases h2
          have := ih.links.alive h1
          simp [hk] at this
        · rw [put_ne _ _ ha] at h1
          rw [put_ne _ _ hb'] at h2
          exact ih.inj h1 h2
      · intro j hj
        replace hj : ((createAt bases (linked d link) k s.w).2.loc j).isSome = true := hj
        rw [e2] at hj
        by_cases hjk : j = k
        · exact ⟨h, by rw [hjk]; exact put_same _ _ _⟩
        · rw [if_neg hjk] at hj
          obtain ⟨a, ha⟩ := ih.owned hj
          refine ⟨a, ?_⟩
          show s.o.put h (.holds k) a = .holds j
          rw [put_ne]
          · exact ha
          · rintro rfl; rw [ho] at ha; cases ha
      · intro a j hj
        replace hj : s.o.put h (.holds k) a = .holds j := hj
        show ((createAt bases (linked d link) k s.w).2.loc j).isSome = true
        rw [e2]
        by_cases hjk : j = k
        · rw [if_pos hjk]
        · rw [if_neg hjk]
          by_cases ha : a = h
          · rw [ha, put_same] at hj; cases hj; exact absurd rfl hjk
          · rw [put_ne _ _ ha] at hj; exact ih.links.alive hj
      · intro j hj
        replace hj : ((createAt bases (linked d link) k s.w).2.loc j).isSome = true := hj
        rw [e2] at hj
        by_cases hjk : j = k
        · rw [hjk]; exact hN
        · rw [if_neg hjk] at hj; exact ih.links.small hj
      · intro j hj i
        replace hj : ((createAt bases (linked d link) k s.w).2.loc j).isSome = true := hj
        rw [e2] at hj
        by_cases hjk : j = k
        · subst hjk
          exact (hup _ ⟨_, hu i⟩).trans (hu i)
        · rw [if_neg hjk] at hj
          exact (hup _ ⟨_, ih.links.up hj i⟩).trans (ih.links.up hj i)
    · rw [if_neg (by rw [e1]; simp)] at he
      obtain ⟨rfl, rfl⟩ := Prod.mk.inj he
      exact ih.call (.create k ih.prog hk hex rfl) e2 ih.tags
  | @moveConstruct s s' T r h f _ ho hf hu he ih =>
    have hhf : h ≠ f := by rintro rfl; exact hf ho
    have e : s' = ⟨s.w, (s.o.put f .movedFrom).put h (s.o f)⟩ := by
      unfold HState.moveConstruct at he
      split at he
      · contradiction
      · exact (Prod.mk.inj he).2.symm
    obtain ⟨m1, m2, m3, m4, m5⟩ := ih.moved hhf (ih.not_used ho) hu (ih.no_blocks (by simp [ho]))
    subst e
    refine ⟨?_, m2, m3, ?_, m4⟩
    · rw [m1]; exact ih.prog
    · intro k hk
      obtain ⟨a, ha⟩ := ih.owned hk
      exact (m5 k).2 ⟨a, (by rintro rfl; rw [ho] at ha; cases ha), ha⟩
  | @moveAssign s s' T r h f _ ho hf hhf hu1 hu2 hT he ih =>
    obtain ⟨m1, m2, m3, m4, m5⟩ := ih.moved hhf hu1 hu2 hT
    have e : s.moveAssign bases d N h f = ((dropHandle bases d N ((s.o.put f .movedFrom).put h (s.o f)) (s.o h) s.w).1,
        ⟨(dropHandle bases d N ((s.o.put f .movedFrom).put h (s.o f)) (s.o h) s.w).2,
          (s.o.put f .movedFrom).put h (s.o f)⟩) := by
      unfold HState.moveAssign
      split
      · contradiction
      · contradiction
      · rw [if_neg hhf]
    rw [e] at he
    obtain ⟨rfl, rfl⟩ := Prod.mk.inj he
    cases hh : s.o h with
    | noObject => exact absurd hh ho
    | movedFrom =>
      refine ⟨?_, m2, m3, ?_, m4⟩
      · rw [m1]; exact ih.prog
      · intro k hk
        obtain ⟨a, ha⟩ := ih.owned hk
        exact (m5 k).2 ⟨a, (by rintro rfl; rw [hh] at ha; cases ha), ha⟩
    | holds k =>
      obtain ⟨w', d1, d2, d3⟩ := ih.drop hb hg hh hu1 hT m4
      simp only [dropHandle, d1]
      refine ⟨?_, m2, m3, ?_, ⟨?_, ?_, ?_⟩⟩
      · rw [m1]; exact d2
      · intro j hj
        replace hj : (w'.loc j).isSome = true := hj
        rw [d3] at hj
        by_cases hjk : j = k
        · simp [hjk] at hj
        · rw [if_neg hjk] at hj
          obtain ⟨a, ha⟩ := ih.owned hj
          exact (m5 j).2 ⟨a, (by rintro rfl; rw [hh] at ha; cases ha; exact hjk rfl), ha⟩
      · intro a j hj
        show (w'.loc j).isSome = true
        rw [d3, if_neg]
        · exact m4.alive hj
        · rintro rfl
          obtain ⟨a', h1, h2⟩ := (m5 j).1 ⟨a, hj⟩
          exact h1 (ih.inj h2 hh)
      · intro j hj
        replace hj : (w'.loc j).isSome = true := hj
        rw [d3] at hj
        refine m4.small (k := j) ?_
        by_contra hc
        simp [hc] at hj
      · intro j hj
        replace hj : (w'.loc j).isSome = true := hj
        rw [d3] at hj
        refine m4.up (k := j) ?_
        by_contra hc
        simp [hc] at hj
  | @selfAssign s s' T r h _ ho he ih =>
    have e : s' = s := by
      unfold HState.moveAssign at he
      split at he
      · contradiction
      · contradiction
      · rw [if_pos rfl] at he; exact (Prod.mk.inj he).2.symm
    rw [e]; exact ih
  | @destruct s s' T r h _ ho hu hT he ih =>
    unfold HState.destruct at he
    obtain ⟨rfl, rfl⟩ := Prod.mk.inj he
    have hput : ∀ x : β ⊕ Nat, x ≠ .inr h → target (s.o.put h .noObject) x = target s.o x := fun x hx => target_put hx
    have htags : ∀ e ∈ T, ∃ y, target (s.o.put h .noObject) e.1 = some y := by
      intro e he
      obtain ⟨y, hy⟩ := ih.tags e he
      exact ⟨y, by rw [hput _ (fun e' => hT e.2 (by rw [← e']; exact he))]; exact hy⟩
    have hback : ∀ {a k}, s.o.put h .noObject a = .holds k → s.o a = .holds k ∧ a ≠ h := by
      intro a k e
      by_cases ha : a = h
      · rw [ha, put_same] at e; cases e
      · rw [put_ne _ _ ha] at e; exact ⟨e, ha⟩
    have hup : ∀ {k}, (s.w.loc k).isSome = true → ∀ i, target (s.o.put h .noObject) ((d k).up i) =
        some ((linked d link k).ref i) := by
      intro k hk i
      rw [hput _ (fun e => hu ⟨k, i, hk, e⟩)]
      exact ih.links.up hk i
    cases hh : s.o h with
    | noObject => exact absurd hh ho
    | movedFrom =>
      refine ⟨?_, htags, fun h1 h2 => ih.inj (hback h1).1 (hback h2).1, ?_, ⟨fun e => ih.links.alive (hback e).1,
        ih.links.small, hup⟩⟩
      · rw [resolve_put hT]; exact ih.prog
      · intro k hk
        obtain ⟨a, ha⟩ := ih.owned hk
        refine ⟨a, (put_ne _ _ ?_).trans ha⟩
        rintro rfl; rw [hh] at ha; cases ha
    | holds k =>
      obtain ⟨w', d1, d2, d3⟩ := ih.drop hb hg hh hu hT ih.links
      simp only [dropHandle, d1]
      have hal : ∀ j, (w'.loc j).isSome = true → (s.w.loc j).isSome = true ∧ j ≠ k := by
        intro j hj
        rw [d3] at hj
        by_cases hjk : j = k
        · simp [hjk] at hj
        · rw [if_neg hjk] at hj; exact ⟨hj, hjk⟩
      refine ⟨?_, htags, fun h1 h2 => ih.inj (hback h1).1 (hback h2).1, ?_, ⟨?_, ?_, ?_⟩⟩
      · rw [resolve_put hT]; exact d2
      · intro j hj
        obtain ⟨a, ha⟩ := ih.owned (hal j hj).1
        refine ⟨a, (put_ne _ _ ?_).trans ha⟩
        rintro rfl; rw [hh] at ha; cases ha; exact (hal k hj).2 rfl
      · intro a j e
        show (w'.loc j).isSome = true
        rw [d3, if_neg]
        · exact ih.links.alive (hback e).1
        · rintro rfl
          exact (hback e).2 (ih.inj (hback e).1 hh)
      · intro j hj; exact ih.links.small (hal j hj).1
      · intro j hj; exact hup (hal j hj).1
  | @alloc s s' T n a p y x _ hx hq hn he ih =>
    obtain ⟨e1, e2, e3⟩ := (ih.step_call hb hg hx).1 _ _ _ _ hq he
    rw [e1]
    refine ih.call ?_ e3 ?_
    · rw [List.map_cons, resolve_mk hx]
      exact .alloc y ih.prog (ih.links.exists hx) hq hn e2
    · intro e hm
      rcases List.mem_cons.1 hm with rfl | hm
      · exact ⟨y, hx⟩
      · exact ih.tags e hm
  | @refuse s s' T n a y x _ hx hq hn he ih =>
    obtain ⟨e1, e2, e3⟩ := (ih.step_call hb hg hx).1 _ _ _ _ hq he
    rw [e1]
    exact ih.call (.refuse y ih.prog (ih.links.exists hx) hq hn e2) e3 ih.tags
  | @zero s s' T a r y x _ hx hq he ih =>
    obtain ⟨e1, e2, e3⟩ := (ih.step_call hb hg hx).1 _ _ _ _ hq he
    rw [e1]
    exact ih.call (.zero y ih.prog (ih.links.exists hx) hq e2) e3 ih.tags
  | @free s s' T b x _ he ih =>
    obtain ⟨y, hx⟩ := ih.tags _ List.mem_cons_self
    replace hx : target s.o x = some y := hx
    have hm : (y, b) ∈ ((x, b) :: T).map (resolve s.o) := by
      rw [List.map_cons, resolve_mk hx]; exact List.mem_cons_self
    obtain ⟨e1, e2, e3⟩ := (ih.step_call hb hg hx).2.1 _ _ _ hm he
    rw [e1]
    refine ih.call (.free (x := y) (b := b) ?_ e2) e3 (fun e he => ih.tags e (List.mem_cons_of_mem _ he))
    have := ih.prog
    rw [List.map_cons, resolve_mk hx] at this
    exact this
  | @freeNull s s' T n a r y x _ hx he ih =>
    obtain ⟨e1, e2, e3⟩ := (ih.step_call hb hg hx).2.2 _ _ _ _ he
    rw [e1]
    exact ih.call (.freeNull y ih.prog (ih.links.exists hx) e2) e3 ih.tags
  | perm _ hp ih =>
    exact ⟨.perm ih.prog (hp.map _), fun e he => ih.tags e (hp.mem_iff.2 he), ih.inj, ih.owned, ih.links⟩

end

end Vecmem
