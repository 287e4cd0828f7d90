import Verif.Lemmas.Wrappers
import Verif.Lemmas.Tactics
import Verif.Model.Monitor
import Verif.Props.C01_C02_Contiguous

/-!
# C18 — the instrumenting resource

To make the order of hook and upstream calls observable, hooks and upstream run in a world extended by a
trace: every hook invocation and every upstream call (with its answer) is appended to it.  The hooks and
upstream are otherwise arbitrary functions on the world `ω`.
-/

namespace Vecmem.Props

open Vecmem

variable {ω σ η : Type} {R : Limits} {G : Nat}

/-- What can be observed: the `i`-th registered hook of a kind being called, or an upstream call. -/
inductive Obs where
  | pre (i n a : Nat)
  | post (i n a p : Nat)
  | preFree (i p n a : Nat)
  | up (c : Call) (r : Answer)
deriving DecidableEq, Repr

/-- Upstream, leaving a trace. -/
def tracedUp (up : MR ω) : MR (ω × List Obs) where
  allocate w n a := let r := up.allocate w.1 n a
    (r.1, (r.2, w.2 ++ [.up (.alloc n a) (.alloc r.1)]))
  deallocate w p n a := let r := up.deallocate w.1 p n a
    (r.1, (r.2, w.2 ++ [.up (.free p n a) (.free r.1)]))

/-- The state of an instrumenting resource after registering the given hooks in the given order, each
hook made to leave a trace. -/
def withHooks (pre : List (ω → Nat → Nat → ω)) (post : List (ω → Nat → Nat → Nat → ω))
    (preFree : List (ω → Nat → Nat → Nat → ω)) (w : ω) : Instr (ω × List Obs) :=
  let s0 : Instr (ω × List Obs) := ⟨[], [], [], [], (w, [])⟩
  let s1 := (pre.mapIdx fun i f => fun (w : ω × List Obs) n a =>
    (f w.1 n a, w.2 ++ [Obs.pre i n a])).foldl Instr.addPreAlloc s0
  let s2 := (post.mapIdx fun i f => fun (w : ω × List Obs) n a p =>
    (f w.1 n a p, w.2 ++ [Obs.post i n a p])).foldl Instr.addPostAlloc s1
  (preFree.mapIdx fun i f => fun (w : ω × List Obs) p n a =>
    (f w.1 p n a, w.2 ++ [Obs.preFree i p n a])).foldl Instr.addPreDealloc s2

/-- The pointer reported for an allocation attempt: null if it failed with `bad_alloc`, nothing is
reported for other exceptions. -/
def reportedPtr : Answer → Option Nat
  | .alloc (.ok p) => some p
  | .alloc .badAlloc => some 0
  | _ => none

/-- What must be observed for one call which upstream answers by `r`, with `k` pre-allocation, `m`
post-allocation and `d` pre-deallocation hooks. -/
def expectedTrace (k m d : Nat) (c : Call) (r : Answer) : List Obs :=
  if c.isTrivial then []
  else match c with
  | .alloc n a => (List.range k).map (fun i => .pre i n a) ++ [.up c r] ++
      (match reportedPtr r with
        | some p => (List.range m).map (fun i => .post i n a p)
        | none => [])
  | .free p n a => (List.range d).map (fun i => .preFree i p n a) ++ [.up c r]

/-- The event that must be recorded for one call. -/
def expectedEvents (c : Call) (r : Answer) : List MemEvent :=
  if c.isTrivial then []
  else match c with
  | .alloc n a => (match reportedPtr r with
      | some p => [⟨true, n, a, p⟩]
      | none => [])
  | .free p n a => (match r with
      | .free (.ok ()) => [⟨false, n, a, p⟩]
      | _ => [])

/-- What the client must get: upstream's answer (a null answer to a non-zero request is turned into
`bad_alloc`). -/
def clientAnswer (c : Call) (r : Answer) : Answer :=
  if c.isTrivial then c.trivialAnswer
  else if r = .alloc (.ok 0) then .alloc .badAlloc else r

private theorem foldl_addPre (l : List (ω → Nat → Nat → ω)) (s : Instr ω) :
    l.foldl Instr.addPreAlloc s = { s with preAlloc := s.preAlloc ++ l } := by
  induction l generalizing s with
  | nil => simp
  | cons f l ih => simp [ih, Instr.addPreAlloc]

private theorem foldl_addPost (l : List (ω → Nat → Nat → Nat → ω)) (s : Instr ω) :
    l.foldl Instr.addPostAlloc s = { s with postAlloc := s.postAlloc ++ l } := by
  induction l generalizing s with
  | nil => simp
  | cons f l ih => simp [ih, Instr.addPostAlloc]

private theorem foldl_addPreFree (l : List (ω → Nat → Nat → Nat → ω)) (s : Instr ω) :
    l.foldl Instr.addPreDealloc s = { s with preDealloc := s.preDealloc ++ l } := by
  induction l generalizing s with
  | nil => simp
  | cons f l ih => simp [ih, Instr.addPreDealloc]

/-- Running traced hooks appends their indices in order. -/
private theorem foldl_traced {F : Type} (app : F → ω → ω) (mk : Nat → Obs) :
    ∀ (l : List F) (j : Nat) (w : ω × List Obs),
      ∃ w', (l.mapIdx fun i f => fun (w : ω × List Obs) => (app f w.1, w.2 ++ [mk (j + i)])).foldl
        (fun w g => g w) w = (w', w.2 ++ (List.range l.length).map (fun i => mk (j + i))) := by
  intro l
  induction l with
  | nil => intro j w; exact ⟨w.1, by simp⟩
  | cons f l ih =>
    intro j w
    obtain ⟨w', h⟩ := ih (j + 1) (app f w.1, w.2 ++ [mk j])
    refine ⟨w', ?_⟩
    simp only [List.mapIdx_cons, List.foldl_cons, Nat.add_zero]
    simp only [Nat.add_assoc j 1, Nat.add_comm 1] at h
    rw [h]
    simp only [List.length_cons, List.range_succ_eq_map, List.map_cons, List.map_map, Nat.add_zero,
      List.append_assoc, List.cons_append, List.nil_append]
    refine congrArg (Prod.mk w') (congrArg _ (congrArg _ (List.map_congr_left ?_)))
    intro i _
    rfl

/-- **C18.**  For arbitrary hooks registered in any order, any upstream and any list of calls
whatsoever there are upstream answers `rs`, one per call, such that
* the client gets these answers (`clientAnswer`),
* what is observed is, call after call: the pre-hooks in registration order, the upstream call with its
  answer, the post-hooks in registration order with the pointer obtained (null on `bad_alloc`),
* the recorded events are one per non-zero allocation attempt and per non-null deallocation, in order. -/
theorem c18_instrumenting (pre : List (ω → Nat → Nat → ω)) (post : List (ω → Nat → Nat → Nat → ω))
    (preFree : List (ω → Nat → Nat → Nat → ω)) (up : MR ω) (w : ω) (calls : List Call) :
    let r := (instrumentingMR (tracedUp up)).run (withHooks pre post preFree w) calls
    ∃ rs : List Answer, rs.length = calls.length ∧
      r.1 = List.zipWith clientAnswer calls rs ∧
      r.2.world.2 = (List.zipWith
        (expectedTrace pre.length post.length preFree.length) calls rs).flatten ∧
      r.2.events = (List.zipWith expectedEvents calls rs).flatten := by
  intro r
  -- generalise over the state
  have main : ∀ (calls : List Call) (s : Instr (ω × List Obs)),
      s.preAlloc = (pre.mapIdx fun i f => fun (w : ω × List Obs) n a =>
        (f w.1 n a, w.2 ++ [Obs.pre i n a])) →
      s.postAlloc = (post.mapIdx fun i f => fun (w : ω × List Obs) n a p =>
        (f w.1 n a p, w.2 ++ [Obs.post i n a p])) →
      s.preDealloc = (preFree.mapIdx fun i f => fun (w : ω × List Obs) p n a =>
        (f w.1 p n a, w.2 ++ [Obs.preFree i p n a])) →
      ∃ rs : List Answer, rs.length = calls.length ∧
        ((instrumentingMR (tracedUp up)).run s calls).1 = List.zipWith clientAnswer calls rs ∧
        ((instrumentingMR (tracedUp up)).run s calls).2.world.2 = s.world.2 ++ (List.zipWith
          (expectedTrace pre.length post.length preFree.length) calls rs).flatten ∧
        ((instrumentingMR (tracedUp up)).run s calls).2.events = s.events ++
          (List.zipWith expectedEvents calls rs).flatten := by
    intro calls
    induction calls with
    | nil => intro s _ _ _; exact ⟨[], rfl, rfl, by simp [MR.run], by simp [MR.run]⟩
    | cons c cs ih =>
      intro s h1 h2 h3
      cases c with
      | alloc n a =>
        by_cases hn : n = 0
        · subst hn
          obtain ⟨rs, i1, i2, i3, i4⟩ := ih s h1 h2 h3
          have e : (instrumentingMR (tracedUp up)).allocate s 0 a = (.ok 0, s) := by
            simp [instrumentingMR, pimpl]
          refine ⟨.alloc (.ok 0) :: rs, by simp [i1], ?_, ?_, ?_⟩
          · simp [MR.run, MR.call, e, i2, clientAnswer, Call.isTrivial, Call.trivialAnswer]
          · simp [MR.run, MR.call, e, i3, expectedTrace, Call.isTrivial]
          · simp [MR.run, MR.call, e, i4, expectedEvents, Call.isTrivial]
        · obtain ⟨w1, hw1⟩ := foldl_traced (fun (f : ω → Nat → Nat → ω) w => f w n a)
            (fun i => Obs.pre i n a) pre 0 s.world
          have hpre : s.preAlloc.foldl (fun w f => f w n a) s.world =
              (w1, s.world.2 ++ (List.range pre.length).map (fun i => Obs.pre i n a)) := by
            rw [h1]
            simp only [Nat.zero_add] at hw1
            rw [← hw1, List.mapIdx_eq_zipIdx_map, List.mapIdx_eq_zipIdx_map, List.foldl_map,
              List.foldl_map]
          have hpost : ∀ (w : ω × List Obs) (p : Nat), ∃ w2,
              s.postAlloc.foldl (fun w f => f w n a p) w =
              (w2, w.2 ++ (List.range post.length).map (fun i => Obs.post i n a p)) := by
            intro w p
            obtain ⟨w2, hw2⟩ := foldl_traced (fun (f : ω → Nat → Nat → Nat → ω) w => f w n a p)
              (fun i => Obs.post i n a p) post 0 w
            refine ⟨w2, ?_⟩
            rw [h2]
            simp only [Nat.zero_add] at hw2
            rw [← hw2, List.mapIdx_eq_zipIdx_map, List.mapIdx_eq_zipIdx_map, List.foldl_map,
              List.foldl_map]
          have ht : Call.isTrivial (.alloc n a) = false := by simp [Call.isTrivial, hn]
          have key : ∃ s', s' = ((instrumentingMR (tracedUp up)).allocate s n a).2 ∧
              .alloc ((instrumentingMR (tracedUp up)).allocate s n a).1 =
                clientAnswer (.alloc n a) (.alloc (up.allocate w1 n a).1) ∧
              s'.preAlloc = s.preAlloc ∧ s'.postAlloc = s.postAlloc ∧ s'.preDealloc = s.preDealloc ∧
              s'.world.2 = s.world.2 ++ expectedTrace pre.length post.length preFree.length
                (.alloc n a) (.alloc (up.allocate w1 n a).1) ∧
              s'.events = s.events ++ expectedEvents (.alloc n a)
                (.alloc (up.allocate w1 n a).1) := by
            simp only [instrumentingMR, pimpl, hn, if_false, Instr.allocate, hpre, tracedUp]
            cases hx : (up.allocate w1 n a).1 with
            | ok p =>
              obtain ⟨w2, hw2⟩ := hpost ((up.allocate w1 n a).2,
                s.world.2 ++ (List.range pre.length).map (fun i => Obs.pre i n a) ++
                [.up (.alloc n a) (.alloc (.ok p))]) p
              simp only [Instr.finish, hw2]
              by_cases hp : p = 0
              · subst hp
                refine ⟨_, rfl, ?_, rfl, rfl, rfl, ?_, ?_⟩
                · simp [clientAnswer, ht]
                · simp [expectedTrace, ht, reportedPtr]
                · simp [expectedEvents, ht, reportedPtr]
              · simp only [hp, if_false]
                refine ⟨_, rfl, ?_, rfl, rfl, rfl, ?_, ?_⟩
                · simp [hp, clientAnswer, ht]
                · simp [expectedTrace, ht, reportedPtr]
                · simp [expectedEvents, ht, reportedPtr]
            | badAlloc =>
              obtain ⟨w2, hw2⟩ := hpost ((up.allocate w1 n a).2,
                s.world.2 ++ (List.range pre.length).map (fun i => Obs.pre i n a) ++
                [.up (.alloc n a) (.alloc .badAlloc)]) 0
              simp only [Instr.finish, hw2]
              refine ⟨_, rfl, ?_, rfl, rfl, rfl, ?_, ?_⟩
              · simp [clientAnswer, ht]
              · simp [expectedTrace, ht, reportedPtr]
              · simp [expectedEvents, ht, reportedPtr]
            | _ =>
              refine ⟨_, rfl, ?_, rfl, rfl, rfl, ?_, ?_⟩
              · simp [clientAnswer, ht]
              · simp [expectedTrace, ht, reportedPtr]
              · simp [expectedEvents, ht, reportedPtr]
          obtain ⟨s', k0, k1, k2, k3, k4, k5, k6⟩ := key
          obtain ⟨rs, i1, i2, i3, i4⟩ := ih s' (by rw [k2, h1]) (by rw [k3, h2]) (by rw [k4, h3])
          refine ⟨.alloc (up.allocate w1 n a).1 :: rs, by simp [i1], ?_, ?_, ?_⟩
          · simp only [MR.run, MR.call, ← k0, i2, List.zipWith_cons_cons, k1]
          · simp only [MR.run, MR.call, ← k0, i3, k5, List.zipWith_cons_cons, List.flatten_cons,
              List.append_assoc]
          · simp only [MR.run, MR.call, ← k0, i4, k6, List.zipWith_cons_cons, List.flatten_cons,
              List.append_assoc]
      | free p n a =>
        by_cases hn : p = 0
        · subst hn
          obtain ⟨rs, i1, i2, i3, i4⟩ := ih s h1 h2 h3
          have e : (instrumentingMR (tracedUp up)).deallocate s 0 n a = (.ok (), s) := by
            simp [instrumentingMR, pimpl]
          refine ⟨.free (.ok ()) :: rs, by simp [i1], ?_, ?_, ?_⟩
          · simp [MR.run, MR.call, e, i2, clientAnswer, Call.isTrivial, Call.trivialAnswer]
          · simp [MR.run, MR.call, e, i3, expectedTrace, Call.isTrivial]
          · simp [MR.run, MR.call, e, i4, expectedEvents, Call.isTrivial]
        · obtain ⟨w1, hw1⟩ := foldl_traced (fun (f : ω → Nat → Nat → Nat → ω) w => f w p n a)
            (fun i => Obs.preFree i p n a) preFree 0 s.world
          have hpre : s.preDealloc.foldl (fun w f => f w p n a) s.world =
              (w1, s.world.2 ++ (List.range preFree.length).map (fun i => Obs.preFree i p n a)) := by
            rw [h3]
            simp only [Nat.zero_add] at hw1
            rw [← hw1, List.mapIdx_eq_zipIdx_map, List.mapIdx_eq_zipIdx_map, List.foldl_map,
              List.foldl_map]
          have ht : Call.isTrivial (.free p n a) = false := by simp [Call.isTrivial, hn]
          have key : ∃ s', s' = ((instrumentingMR (tracedUp up)).deallocate s p n a).2 ∧
              ((instrumentingMR (tracedUp up)).deallocate s p n a).1 = (up.deallocate w1 p n a).1 ∧
              s'.preAlloc = s.preAlloc ∧ s'.postAlloc = s.postAlloc ∧ s'.preDealloc = s.preDealloc ∧
              s'.world.2 = s.world.2 ++ expectedTrace pre.length post.length preFree.length
                (.free p n a) (.free (up.deallocate w1 p n a).1) ∧
              s'.events = s.events ++ expectedEvents (.free p n a)
                (.free (up.deallocate w1 p n a).1) := by
            simp only [instrumentingMR, pimpl, hn, if_false, Instr.deallocate, hpre, tracedUp]
            cases hx : (up.deallocate w1 p n a).1 with
            | ok u =>
              refine ⟨_, rfl, rfl, rfl, rfl, rfl, ?_, ?_⟩
              · simp [expectedTrace, ht]
              · simp [expectedEvents, ht]
            | _ =>
              refine ⟨_, rfl, rfl, rfl, rfl, rfl, ?_, ?_⟩
              · simp [expectedTrace, ht]
              · simp [expectedEvents, ht]
          obtain ⟨s', k0, k1, k2, k3, k4, k5, k6⟩ := key
          obtain ⟨rs, i1, i2, i3, i4⟩ := ih s' (by rw [k2, h1]) (by rw [k3, h2]) (by rw [k4, h3])
          refine ⟨.free (up.deallocate w1 p n a).1 :: rs, by simp [i1], ?_, ?_, ?_⟩
          · simp only [MR.run, MR.call, ← k0, i2, List.zipWith_cons_cons, k1]
            simp [clientAnswer, ht]
          · simp only [MR.run, MR.call, ← k0, i3, k5, List.zipWith_cons_cons, List.flatten_cons,
              List.append_assoc]
          · simp only [MR.run, MR.call, ← k0, i4, k6, List.zipWith_cons_cons, List.flatten_cons,
              List.append_assoc]
  have h0 : withHooks pre post preFree w = ⟨[],
      (pre.mapIdx fun i f => fun (w : ω × List Obs) n a => (f w.1 n a, w.2 ++ [Obs.pre i n a])),
      (post.mapIdx fun i f => fun (w : ω × List Obs) n a p =>
        (f w.1 n a p, w.2 ++ [Obs.post i n a p])),
      (preFree.mapIdx fun i f => fun (w : ω × List Obs) p n a =>
        (f w.1 p n a, w.2 ++ [Obs.preFree i p n a])), (w, [])⟩ := by
    simp [withHooks, foldl_addPre, foldl_addPost, foldl_addPreFree]
  obtain ⟨rs, i1, i2, i3, i4⟩ := main calls (withHooks pre post preFree w) (by rw [h0])
    (by rw [h0]) (by rw [h0])
  refine ⟨rs, i1, i2, ?_, ?_⟩
  · rw [i3, h0]; simp
  · rw [i4, h0]; simp

/-- C18 at work: one pre-hook, two post-hooks; a served request, a refused one, a deallocation. -/
example :
    let r := (instrumentingMR (tracedUp demoBase)).run
      (withHooks [fun w _ _ => w] [fun w _ _ _ => w, fun w _ _ _ => w] [] demoInit)
      [.alloc 8 8, .alloc (2 ^ 63) 8, .alloc 0 1, .free 4096 8 8]
    r.1 = [.alloc (.ok 4096), .alloc .badAlloc, .alloc (.ok 0), .free (.ok ())] ∧
    r.2.events = [⟨true, 8, 8, 4096⟩, ⟨true, 2 ^ 63, 8, 0⟩, ⟨false, 8, 8, 4096⟩] ∧
    r.2.world.2 = [.pre 0 8 8, .up (.alloc 8 8) (.alloc (.ok 4096)), .post 0 8 8 4096,
      .post 1 8 8 4096, .pre 0 (2 ^ 63) 8, .up (.alloc (2 ^ 63) 8) (.alloc .badAlloc),
      .post 0 (2 ^ 63) 8 0, .post 1 (2 ^ 63) 8 0,
      .up (.free 4096 8 8) (.free (.ok ()))] := by decide +kernel

/-- Hooks that do not touch upstream's state. -/
structure Detached (s : Instr (σ × η)) : Prop where
  pre : ∀ f ∈ s.preAlloc, ∀ w n a, (f w n a).1 = w.1
  post : ∀ f ∈ s.postAlloc, ∀ w n a p, (f w n a p).1 = w.1
  preFree : ∀ f ∈ s.preDealloc, ∀ w p n a, (f w p n a).1 = w.1

private theorem foldl_fst {F : Type} (app : F → σ × η → σ × η) :
    ∀ (l : List F), (∀ f ∈ l, ∀ w, (app f w).1 = w.1) → ∀ w, (l.foldl (fun w f => app f w) w).1 = w.1 := by
  intro l
  induction l with
  | nil => intros; rfl
  | cons f l ih =>
    intro h w
    simp only [List.foldl_cons]
    rw [ih (fun g hg => h g (List.mem_cons_of_mem _ hg)), h f List.mem_cons_self]

/-- With hooks that do not touch upstream, an instrumenting resource over a well-behaved upstream is
well-behaved, and upstream is in the state correct direct use would have put it in. -/
theorem c18_instrumenting_lawful (up : MR σ) (u0 : σ) (h : Lawful R G up u0) (s0 : Instr (σ × η))
    (hd : Detached s0) (hu : s0.world.1 = u0) :
    Lawful R G (instrumentingMR (liftFst up)) s0 ∧
    ∀ s L, Reach R (instrumentingMR (liftFst up)) s0 s L → Reach R up u0 s.world.1 L ∧ Detached s := by
  refine Lawful.of_inv (fun (s : Instr (σ × η)) L => Reach R up u0 s.world.1 L ∧ Detached s)
    ?_ ?_ ?_ ?_ ?_ ?_
  · rw [hu]; exact ⟨.init, hd⟩
  · rintro s L n a ⟨hr, hD⟩ hq hn
    have h1 : (s.preAlloc.foldl (fun w f => f w n a) s.world).1 = s.world.1 :=
      foldl_fst (fun f w => f w n a) _ (fun f hf w => hD.pre f hf w n a) _
    have h2 : ∀ (w : σ × η) p, (s.postAlloc.foldl (fun w f => f w n a p) w).1 = w.1 := fun w p =>
      foldl_fst (fun f w => f w n a p) _ (fun f hf w => hD.post f hf w n a p) _
    have hg := h.alloc hr hq hn
    simp only [instrumentingMR, pimpl, Nat.pos_iff_ne_zero.1 hn, if_false, Instr.allocate, liftFst, h1]
    rcases hg.cases with ⟨p, hp⟩ | hp
    · rw [hp] at hg
      simp only [hp, Instr.finish, hg.1, if_false]
      refine ⟨hg, ?_, by simp⟩
      rintro q ⟨⟩
      refine ⟨?_, hD.pre, hD.post, hD.preFree⟩
      simp only [h2]
      exact .alloc hr hq hn (by rw [← hp])
    · simp only [hp, Instr.finish, if_true]
      refine ⟨trivial, by simp, fun _ => ⟨?_, hD.pre, hD.post, hD.preFree⟩⟩
      simp only [h2]
      exact .refuse hr hq hn (by rw [← hp])
  · rintro s L a hI hq
    have : (instrumentingMR (liftFst (η := η) up)).allocate s 0 a = (.ok 0, s) := by
      simp [instrumentingMR, pimpl]
    rw [this]; exact ⟨Or.inl rfl, hI⟩
  · rintro s L b ⟨hr, hD⟩
    have hne := ((h.live hr).1 b List.mem_cons_self).1
    have hd := h.dealloc hr List.mem_cons_self
    have h1 : (s.preDealloc.foldl (fun w f => f w b.addr b.size b.align) s.world).1 = s.world.1 :=
      foldl_fst (fun f w => f w b.addr b.size b.align) _ (fun f hf w => hD.preFree f hf w _ _ _) _
    simp only [instrumentingMR, pimpl, hne, if_false, Instr.deallocate, liftFst, h1, hd]
    exact ⟨trivial, .free hr (by rw [← hd]), hD.pre, hD.post, hD.preFree⟩
  · rintro s L n a hI
    have : (instrumentingMR (liftFst (η := η) up)).deallocate s 0 n a = (.ok (), s) := by
      simp [instrumentingMR, pimpl]
    rw [this]; exact ⟨rfl, hI⟩
  · rintro s L L' hI hp; exact ⟨.perm hI.1 hp, hI.2⟩

end Vecmem.Props
