import Verif.Spec.WeakLoops
import Verif.Model.WeakLoops
import Verif.Lemmas.WeakCounters
import Verif.Lemmas.WeakProgress
import Mathlib.Data.List.Perm.Basic

/-!
# Loops with `compare_exchange_strong`
-/

namespace Vecmem

variable {w : Nat} {I : WImpl w} {m : AMem w} {progs : Nat → WProg w} {s : WRun w}

/-! ## the newest value -/

/-- The newest value of a variable. -/
def WSys.Latest (s : WSys w) (a : Nat) (x : BitVec w) : Prop := ∃ t y, s.mem a t = some y ∧ y.val = x ∧ ∀ u, t < u → s.mem a u = none

theorem WSys.Top.latest {s : WSys w} {T : Front} (h : s.Top T) {a : Nat} {x : BitVec w} (hx : s.Latest a x) : ∃ y, s.mem a (T a) = some y ∧ y.val = x := by
  obtain ⟨t, y, h1, h2, h3⟩ := hx
  have : t = T a := by
    refine Nat.le_antisymm (h.pos h1) (Nat.le_of_not_lt fun hlt => ?_)
    have := h.newest a
    rw [h3 _ hlt] at this
    cases this
  exact ⟨y, this ▸ h1, h2⟩

theorem WRun.Reach.latest (h : WRun.Reach I m progs s) (a : Nat) : ∃ x, s.sys.Latest a x := by
  obtain ⟨T, hT⟩ := h.sys.top
  obtain ⟨y, hy⟩ := Option.isSome_iff_exists.1 (hT.newest a)
  exact ⟨y.val, T a, y, hy, rfl, hT.none a⟩

/-- A thread can read the newest value. -/
theorem WRun.Reach.load_latest (h : WRun.Reach I m progs s) {i a : Nat} {c : WCall w} {next : Option (BitVec w) → WProg w} {code : WCode w} (hp : s.prog i = .act a c next)
    (hc : I c = some code) (hl : (∃ acq, code.acc = .load acq) ∨ code.acc = .plainLoad) {x : BitVec w} (hx : s.sys.Latest a x) :
    ∃ s', Relation.ReflTransGen (WRun.Step I) s s' ∧ s'.prog = WSys.set s.prog i (next (some x)) ∧ s'.sys.Latest a x ∧
      ∃ t, s'.sys.trace = s.sys.trace ++ [⟨i, a, c, some (t, x), none⟩] := by
  obtain ⟨s1, h1, h2, h3, h4, h5⟩ := h.approach_mem hp hc
  have hr := h.steps h1
  rw [← h2] at hp ⊢
  obtain ⟨T, hT⟩ := hr.sys.top
  have hx' : s1.sys.Latest a x := by unfold WSys.Latest; rw [h4]; exact hx
  obtain ⟨y, hy, rfl⟩ := hT.latest hx'
  have hcur := hT.cur i a
  rcases hl with ⟨acq, hl⟩ | hl
  · exact ⟨_, .tail h1 (.access s1 _ _ next (.load _ i a (T a) c code acq y h3 hl hcur hy) rfl hp), rfl, hx', T a, by rw [← h5]; rfl⟩
  · exact ⟨_, .tail h1 (.access s1 _ _ next (.plainLoad _ i a (T a) c code y h3 hl hcur hy) rfl hp), rfl, hx', T a, by rw [← h5]; rfl⟩

/-- A thread can change the newest value. -/
theorem WRun.Reach.update_latest (h : WRun.Reach I m progs s) {i a : Nat} {c : WCall w} {next : Option (BitVec w) → WProg w} {code : WCode w} (hp : s.prog i = .act a c next)
    (hc : I c = some code) {f : BitVec w → Option (BitVec w)} {q1 q2 q3 : Bool} (hl : code.acc = .update f q1 q2 q3) {x d : BitVec w} (hx : s.sys.Latest a x) (hf : f x = some d) :
    ∃ s', Relation.ReflTransGen (WRun.Step I) s s' ∧ s'.prog = WSys.set s.prog i (next (some x)) ∧ s'.sys.Latest a d ∧
      ∃ t, s'.sys.trace = s.sys.trace ++ [⟨i, a, c, some (t, x), some (t + 1, d)⟩] := by
  obtain ⟨s1, h1, h2, h3, h4, h5⟩ := h.approach_mem hp hc
  have hr := h.steps h1
  rw [← h2] at hp ⊢
  obtain ⟨T, hT⟩ := hr.sys.top
  have hx' : s1.sys.Latest a x := by unfold WSys.Latest; rw [h4]; exact hx
  obtain ⟨y, hy, rfl⟩ := hT.latest hx'
  exact ⟨_, .tail h1 (.access s1 _ _ next (.update _ i a (T a) c code f q1 q2 q3 y d h3 hl (hT.cur i a) hy hf (hT.none a _ (by omega))) rfl hp), rfl,
    ⟨T a + 1, _, if_pos ⟨rfl, rfl⟩, rfl, fun u hu => by
      simp only [WSys.updateAt, WSys.put]
      rw [if_neg (by omega)]
      exact hT.none a u (by omega)⟩, T a, by rw [← h5]; rfl⟩

theorem load_code (hI : I = posixWeak ∨ I = cudaWeak ∨ I = syclWeak ∨ I = syclBuiltinWeak) :
    ∃ code, I (.atomic .load none) = some code ∧ ((∃ acq, code.acc = .load acq) ∨ code.acc = .plainLoad) := by
  rcases hI with rfl | rfl | rfl | rfl
  · exact ⟨_, rfl, .inl ⟨_, rfl⟩⟩
  · exact ⟨_, rfl, .inl ⟨_, rfl⟩⟩
  · exact ⟨_, rfl, .inl ⟨_, rfl⟩⟩
  · exact ⟨_, rfl, .inl ⟨_, rfl⟩⟩

theorem read_code (hI : I = posixWeak ∨ I = cudaWeak ∨ I = syclWeak ∨ I = syclBuiltinWeak) :
    ∃ code, I .read = some code ∧ ((∃ acq, code.acc = .load acq) ∨ code.acc = .plainLoad) := by
  rcases hI with rfl | rfl | rfl | rfl <;> exact ⟨_, rfl, .inr rfl⟩

theorem compare_code (hI : I = posixWeak ∨ I = cudaWeak ∨ I = syclWeak ∨ I = syclBuiltinWeak) (x d : BitVec w) :
    ∃ code f q1 q2 q3, I (.atomic (.compareExchange x d) none) = some code ∧ code.acc = .update f q1 q2 q3 ∧ f x = some d := by
  rcases hI with rfl | rfl | rfl | rfl <;> exact ⟨_, _, _, _, _, rfl, rfl, by simp⟩

theorem set_set (f : Nat → WProg w) (i : Nat) (x y : WProg w) : WSys.set (WSys.set f i x) i y = WSys.set f i y := by
  funext j
  unfold WSys.set
  split <;> rfl

/-- A thread can come to its end without giving up. -/
theorem loop_finish (hI : I = posixWeak ∨ I = cudaWeak ∨ I = syclWeak ∨ I = syclBuiltinWeak) {i n : Nat} (p : LoopProg w) : ∀ {s : WRun w}, WRun.Reach I m progs s → s.prog i = p.code (n + 1) →
    ∃ s', Relation.ReflTransGen (WRun.Step I) s s' ∧ s'.prog = WSys.set s.prog i .done := by
  induction p with
  | done =>
    intro s h hp
    refine ⟨s, .refl, ?_⟩
    funext j
    unfold WSys.set
    split
    · next hj => rw [hj, hp]; rfl
    · rfl
  | read a next ih =>
    intro s h hp
    obtain ⟨x, hx⟩ := h.latest a
    obtain ⟨code, c1, c2⟩ := read_code hI
    obtain ⟨s1, h1, h2, -, -⟩ := h.load_latest hp c1 c2 hx
    obtain ⟨s2, h3, h4⟩ := ih x (h.steps h1) (by rw [h2, WSys.set_same]; rfl)
    exact ⟨s2, h1.trans h3, by rw [h4, h2, set_set]⟩
  | update a f next ih =>
    intro s h hp
    obtain ⟨x, hx⟩ := h.latest a
    obtain ⟨code, c1, c2⟩ := load_code hI
    obtain ⟨s1, h1, h2, h3, -⟩ := h.load_latest hp c1 c2 hx
    obtain ⟨code', g, q1, q2, q3, d1, d2, d3⟩ := compare_code hI x (f x)
    obtain ⟨s2, h4, h5, -, -⟩ := (h.steps h1).update_latest (i := i) (a := a) (by rw [h2, WSys.set_same]; rfl) d1 d2 h3 d3
    obtain ⟨s3, h6, h7⟩ := ih ((h.steps h1).steps h4) (by rw [h5, WSys.set_same]; exact if_pos rfl)
    exact ⟨s3, (h1.trans h4).trans h6, by rw [h7, h5, set_set, h2, set_set]⟩

/-! ## what the threads have done -/

variable {input : Nat → Bool}

theorem try_onlyReads {a : Nat} (ha : input a = false) (f : BitVec w → BitVec w) {next : WProg w} (hn : next.OnlyReads input) : ∀ n, (tryUpdate a f next n).OnlyReads input
  | 0 => trivial
  | n + 1 => by
    refine ⟨fun h => absurd (ha.symm.trans h) (by decide), fun r => ⟨fun h => absurd (ha.symm.trans h) (by decide), fun r' => ?_⟩⟩
    dsimp only
    split
    · exact hn
    · exact try_onlyReads ha f hn n

theorem loop_onlyReads {n : Nat} {p : LoopProg w} (h : p.Loops input) : (p.code n).OnlyReads input := by
  induction p with
  | done => trivial
  | read a next ih => exact ⟨fun _ => rfl, fun r => ih _ (h.2 _)⟩
  | update a f next ih => exact try_onlyReads h.1 f (ih h.2) n

/-- A call in such a program. -/
def Loopy (c : WCall w) : Prop := c = .read ∨ c = .atomic .load none ∨ ∃ x d, c = .atomic (.compareExchange x d) none

theorem try_loopy {a : Nat} {f : BitVec w → BitVec w} {next : WProg w} (hn : ∀ {h q}, next.after h = some q → ∀ x ∈ h, Loopy x.1.call) : ∀ (n : Nat) {h : List (WEvent w × Nat)} {q : WProg w},
    (tryUpdate a f next n).after h = some q → ∀ x ∈ h, Loopy x.1.call
  | _, [], _, _ => fun x hx => by cases hx
  | 0, _ :: _, _, ha => by simp [tryUpdate, WProg.after] at ha
  | n + 1, x :: h, q, ha => by
    simp only [tryUpdate, WProg.after] at ha
    split at ha
    · next h1 =>
      intro y hy
      rcases List.mem_cons.1 hy with rfl | hy
      · exact .inr (.inl h1.2)
      cases h with
      | nil => cases hy
      | cons x2 h =>
        simp only [WProg.after] at ha
        split at ha
        · next h2 =>
          rcases List.mem_cons.1 hy with rfl | hy
          · exact .inr (.inr ⟨_, _, h2.2⟩)
          split at ha
          · exact hn ha y hy
          · exact try_loopy hn n ha y hy
        · cases ha
    · cases ha

theorem loop_loopy {n : Nat} (p : LoopProg w) : ∀ {h : List (WEvent w × Nat)} {q : WProg w}, (p.code n).after h = some q → ∀ x ∈ h, Loopy x.1.call := by
  induction p with
  | done =>
    intro h q ha
    cases h with
    | nil => intro x hx; cases hx
    | cons y h => cases ha
  | read a next ih =>
    intro h q ha
    cases h with
    | nil => intro x hx; cases hx
    | cons y h =>
      simp only [LoopProg.code, WProg.after] at ha
      split at ha
      · next h1 =>
        intro x hx
        rcases List.mem_cons.1 hx with rfl | hx
        · exact .inl h1.2
        · exact ih _ ha x hx
      · cases ha
  | update a f next ih => intro h q ha; exact try_loopy ih n ha

/-- The access has made the change. -/
def Made (e : WEvent w) (u : Nat × (BitVec w → BitVec w)) : Prop := e.addr = u.1 ∧ ∃ t v, e.read = some (t, v) ∧ e.effect v = u.2 v

/-- What the accesses of a thread have changed. -/
def wrotes (h : List (WEvent w × Nat)) : List (WEvent w) := (h.map (·.1)).filter (·.wrote.isSome)

theorem try_made {a : Nat} {f : BitVec w → BitVec w} {next : WProg w} {us : List (Nat × (BitVec w → BitVec w))} : ∀ (n : Nat) {h : List (WEvent w × Nat)},
    (∀ x ∈ h, x.1.Correct) → (∀ h', h' <:+ h → next.after h' = some .done → List.Forall₂ Made (wrotes h') us) → (tryUpdate a f next n).after h = some .done →
    List.Forall₂ Made (wrotes h) ((a, f) :: us)
  | 0, [], _, _, ha => by cases ha
  | n + 1, [], _, _, ha => by cases ha
  | 0, _ :: _, _, _, ha => by simp [tryUpdate, WProg.after] at ha
  | n + 1, [x], _, _, ha => by
    simp only [tryUpdate, WProg.after] at ha
    split at ha <;> cases ha
  | n + 1, x :: y :: h, hc, hn, ha => by
    simp only [tryUpdate, WProg.after] at ha
    split at ha
    · next h1 =>
      split at ha
      · next h2 =>
        have cx := hc x List.mem_cons_self
        have cy := hc y (List.mem_cons_of_mem _ List.mem_cons_self)
        unfold WEvent.Correct at cx cy
        rw [h1.2] at cx
        rw [h2.2] at cy
        obtain ⟨⟨t1, v1⟩, r1⟩ := Option.isSome_iff_exists.1 cx.1
        obtain ⟨t2, v2, r2, w2⟩ := cy
        rw [r1] at w2
        simp only [Option.map_some, Option.getD_some] at w2
        rw [r1, r2] at ha
        simp only [Option.map_some, Option.some.injEq] at ha
        by_cases hv : v2 = v1
        · rw [if_pos hv] at ha w2
          have e1 : wrotes (x :: y :: h) = y.1 :: wrotes h := by simp [wrotes, cx.2, w2]
          rw [e1]
          refine .cons ⟨h2.1, t2, v2, r2, ?_⟩ (hn h ⟨[x, y], rfl⟩ ha)
          unfold WEvent.effect
          rw [h2.2, r1]
          simp [AOp.spec, hv]
        · rw [if_neg hv] at ha w2
          have e1 : wrotes (x :: y :: h) = wrotes h := by simp [wrotes, cx.2, w2]
          rw [e1]
          exact try_made n (fun z hz => hc z (List.mem_cons_of_mem _ (List.mem_cons_of_mem _ hz))) (fun h' hh' => hn h' (hh'.trans ⟨[x, y], rfl⟩)) ha
      · cases ha
    · cases ha

theorem loop_made {n : Nat} {p : LoopProg w} : ∀ {h : List (WEvent w × Nat)}, p.Loops input → (p.code n).after h = some .done → (∀ x ∈ h, x.1.Correct) →
    (∀ x ∈ h, input x.1.addr = true → ∃ t, x.1.read = some (t, m x.1.addr)) → List.Forall₂ Made (wrotes h) (p.updates m) := by
  induction p with
  | done =>
    intro h _ ha _ _
    cases h with
    | nil => exact .nil
    | cons y h => cases ha
  | read a next ih =>
    intro h hp ha hc hr
    cases h with
    | nil => cases ha
    | cons y h =>
      simp only [LoopProg.code, WProg.after] at ha
      split at ha
      · next h1 =>
        obtain ⟨t, ht⟩ := hr y List.mem_cons_self (by rw [h1.1]; exact hp.1)
        have cy := hc y List.mem_cons_self
        unfold WEvent.Correct at cy
        rw [h1.2] at cy
        rw [ht, h1.1] at ha
        have e1 : wrotes (y :: h) = wrotes h := by simp [wrotes, cy.2]
        rw [e1]
        exact ih _ (hp.2 _) ha (fun z hz => hc z (List.mem_cons_of_mem _ hz)) fun z hz => hr z (List.mem_cons_of_mem _ hz)
      · cases ha
  | update a f next ih =>
    intro h hp ha hc hr
    exact try_made n hc (fun h' hh' ha' => ih hp.2 ha' (fun z hz => hc z (hh'.subset hz)) fun z hz => hr z (hh'.subset hz)) ha

/-- Changes that are made one after the other, each of the value that it finds. -/
theorem result_applied {a : Nat} : ∀ {tr : WTrace w} {us : List (Nat × (BitVec w → BitVec w))} {v0 : BitVec w}, List.Forall₂ Made (tr.filter (·.wrote.isSome)) us →
    (∀ q e t v, tr[q]? = some e → e.addr = a → e.wrote.isSome → e.read = some (t, v) → v = WTrace.result a (tr.take q) v0) → tr.result a v0 = applied a us v0
  | [], _, _, h, _ => by cases h; rfl
  | e :: tr, us, v0, h, hr => by
    by_cases hw : e.wrote.isSome = true
    · rw [List.filter_cons_of_pos (by simpa using hw)] at h
      cases h with
      | @cons _ u _ us h1 h2 =>
        obtain ⟨m1, t, v, m2, m3⟩ := h1
        by_cases ha : e.addr = a
        · have hv : v = v0 := hr 0 e t v rfl ha hw m2
          subst hv
          have hd : (decide (e.addr = a) && e.wrote.isSome) = true := by simp [ha, hw]
          have hstep : ∀ l : WTrace w, WTrace.result a (e :: l) v = WTrace.result a l (u.2 v) := fun l => by
            unfold WTrace.result WTrace.changesOf
            rw [List.filter_cons, if_pos hd, List.foldl_cons, m3]
          rw [hstep, result_applied h2 (v0 := u.2 v) fun q e' t' v' q1 q2 q3 q4 => by
            have := hr (q + 1) e' t' v' q1 q2 q3 q4
            rwa [List.take_succ_cons, hstep] at this]
          unfold applied
          rw [List.filter_cons_of_pos (by simp [← m1, ha]), List.foldl_cons]
        · have hd : ¬ (decide (e.addr = a) && e.wrote.isSome) = true := by simp [ha]
          have hstep : ∀ l : WTrace w, WTrace.result a (e :: l) v0 = WTrace.result a l v0 := fun l => by
            unfold WTrace.result WTrace.changesOf
            rw [List.filter_cons, if_neg hd]
          rw [hstep, result_applied h2 (v0 := v0) fun q e' t' v' q1 q2 q3 q4 => by
            have := hr (q + 1) e' t' v' q1 q2 q3 q4
            rwa [List.take_succ_cons, hstep] at this]
          unfold applied
          rw [List.filter_cons_of_neg (by simp [← m1, ha])]
    · rw [List.filter_cons_of_neg (by simpa using hw)] at h
      have hd : ¬ (decide (e.addr = a) && e.wrote.isSome) = true := by simp [hw]
      have hstep : ∀ l : WTrace w, WTrace.result a (e :: l) v0 = WTrace.result a l v0 := fun l => by
        unfold WTrace.result WTrace.changesOf
        rw [List.filter_cons, if_neg hd]
      rw [hstep]
      exact result_applied h fun q e' t' v' q1 q2 q3 q4 => by
        have := hr (q + 1) e' t' v' q1 q2 q3 q4
        rwa [List.take_succ_cons, hstep] at this

theorem forall₂_flatMap {α β γ : Type} {R : α → β → Prop} {f : γ → List α} {g : γ → List β} : ∀ {l : List γ}, (∀ x ∈ l, List.Forall₂ R (f x) (g x)) → List.Forall₂ R (l.flatMap f) (l.flatMap g)
  | [], _ => .nil
  | x :: l, h => by
    rw [List.flatMap_cons, List.flatMap_cons]
    exact List.rel_append (h x List.mem_cons_self) (forall₂_flatMap fun y hy => h y (List.mem_cons_of_mem _ hy))

end Vecmem
