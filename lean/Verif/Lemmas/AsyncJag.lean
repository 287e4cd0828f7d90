import Verif.Lemmas.AsyncEdmFoot
import Verif.Lemmas.AsyncEdmKernels
import Verif.Lemmas.AsyncProgram
import Verif.Spec.AsyncJag
import Verif.Props.C62_JaggedPipelines

/-! # Lemmas for C67: the steps of a program with vector buffers and jagged buffers on a stream -/

namespace Vecmem

open IntMath Props Prog

variable {σ : Type} {R : Limits} {G : Nat} {ups : Nat → MR σ} {u0 : σ} {c : JagCfg} {p : JPipe σ} {q : JReady} {β γ : Type}

/-! ## Programs that return only certain values -/

/-- The program returns only values in `T`. -/
def Gives (T : β → Prop) : Prog β → Prop
  | .ret r => ∀ b, r = .ok b → T b
  | .issue _ k => Gives T k
  | .event k => ∀ e, Gives T (k e)
  | .wait _ k => Gives T k
  | .new _ k => ∀ s, Gives T (k s)
  | .read _ k => ∀ b, Gives T (k b)
  | .drop k => Gives T k
  | .load _ _ k => ∀ b, Gives T (k b)
  | .poke _ _ _ k => Gives T k

theorem Gives.bind {T : γ → Prop} {f : β → Prog γ} (hf : ∀ b, Gives T (f b)) : ∀ (p : Prog β), Gives T (p.bind f) := by
  intro p
  induction p with
  | ret r =>
    cases r with
    | ok b => exact hf b
    | _ => intro b h; cases h
  | issue _ _ ih => exact ih
  | event _ ih => exact fun e => ih e
  | wait _ _ ih => exact ih
  | new _ _ ih => exact fun e => ih e
  | read _ _ ih => exact fun e => ih e
  | drop _ ih => exact ih
  | load _ _ _ ih => exact fun e => ih e
  | poke _ _ _ _ ih => exact ih

theorem Gives.thenDrop {T : β → Prop} {p : Prog β} (h : Gives T p) : Gives T p.thenDrop := by
  induction p with
  | ret r => exact h
  | issue _ _ ih => exact ih h
  | event _ ih => exact fun e => ih e (h e)
  | wait _ _ ih => exact ih h
  | new _ _ ih => exact fun e => ih e (h e)
  | read _ _ ih => exact fun e => ih e (h e)
  | drop _ ih => exact ih h
  | load _ _ _ ih => exact fun e => ih e (h e)
  | poke _ _ _ _ ih => exact ih h

theorem Gives.scope {T : β → Prop} {l : Local} {p : Nat → Prog β} (h : ∀ i, Gives T (p i)) : Gives T (Prog.scope l p) :=
  fun i => (h i).thenDrop

theorem Gives.run {T : β → Prop} {p : Prog β} (h : Gives T p) : ∀ {s t : DState} {b : β}, p.run s = (.ok b, t) → T b := by
  induction p with
  | ret r =>
    intro s t b hr
    cases hr
    exact h b rfl
  | issue op k ih =>
    intro s t b hr
    simp only [Prog.run] at hr
    split at hr
    · exact ih h hr
    · cases hr
  | event k ih => exact fun hr => ih _ (h _) hr
  | wait _ k ih => exact fun hr => ih h hr
  | new l k ih => exact fun hr => ih _ (h _) hr
  | read s k ih =>
    intro s t b hr
    simp only [Prog.run] at hr
    split at hr
    · exact ih _ (h _) hr
    · cases hr
  | drop k ih => exact fun hr => ih h hr
  | load a n k ih => exact fun hr => ih _ (h _) hr
  | poke a n b k ih => exact fun hr => ih h hr

theorem gives_copyViewJag {dbg : Bool} {t : Nat} {v w : JagView} (h : v.views ≠ []) : Gives (· = true) (copyViewJag dbg t v w) := by
  unfold copyViewJag
  simp only
  split
  · intro b hb; cases hb
  · rw [if_neg (by simpa using h)]
    refine Gives.bind (fun sizes => Gives.scope fun s => Gives.bind (fun e => Gives.bind (fun _ => ?_) _) _) _
    intro b hb
    cases hb
    rfl

theorem endsEvent_gives {T : β → Prop} {f : β → Prog Nat} (hf : ∀ b, T b → EndsEvent (f b)) :
    ∀ {p : Prog β}, Gives T p → EndsEvent (p.bind f) := by
  intro p
  induction p with
  | ret r =>
    intro h
    cases r with
    | ok b => exact hf b (h b rfl)
    | _ => intro s e s' hr; cases hr
  | issue op k ih =>
    intro h s e s' hr
    simp only [Prog.bind, run] at hr
    split at hr
    · exact ih h _ _ _ hr
    · cases hr
  | event k ih => exact fun h s e s' hr => ih _ (h _) s e s' hr
  | wait e k ih => exact fun h s e s' hr => ih h s e s' hr
  | new l k ih => exact fun h s e s' hr => ih _ (h _) _ e s' hr
  | read i k ih =>
    intro h s e s' hr
    simp only [Prog.bind, run] at hr
    split at hr
    · exact ih _ (h _) _ _ _ hr
    · cases hr
  | drop k ih => exact fun h s e s' hr => ih h _ e s' hr
  | load p n k ih => exact fun h s e s' hr => ih _ (h _) s e s' hr
  | poke p n b k ih => exact fun h s e s' hr => ih h _ e s' hr

theorem endsEvent_copyJag {dbg : Bool} {t : Nat} {v w : JagView} (h : v.views ≠ []) : EndsEvent (copyJag dbg t v w) :=
  endsEvent_gives (fun b hb => by subst hb; exact endsEvent_retEvent) (gives_copyViewJag h)

theorem endsEvent_copyJagToStd {dbg : Bool} {t : Nat} {v : JagView} {resize : List Nat → List Nat} (h : v.views ≠ []) :
    EndsEvent (copyJagToStd dbg t v resize) := endsEvent_bind fun _ => endsEvent_copyJag h

theorem endsEvent_issue {op : COp} {f : Prog Nat} (h : EndsEvent f) : EndsEvent (.issue op f) := by
  intro s e s' hr
  simp only [run] at hr
  split at hr
  · exact h _ _ _ hr
  · cases hr

theorem endsEvent_setupJag {j : JagView} (h : j.views ≠ []) : EndsEvent (setupJag j) := by
  unfold setupJag
  split
  · rename_i h'; exact absurd h' h
  · simp only
    have : EndsEvent (if j.ptr = j.hostPtr then retEvent else .issue (.copy (wrap64 (j.views.length * viewSize)) j.hostPtr j.ptr) retEvent) := by
      split
      · exact endsEvent_retEvent
      · exact endsEvent_issue endsEvent_retEvent
    split
    · exact endsEvent_issue this
    · exact this

theorem endsEvent_memsetJag {t : Nat} {j : JagView} {value : UInt8} (h : ∃ v ∈ j.views, v.capacity ≠ 0 ∧ v.ptr ≠ 0) :
    EndsEvent (memsetJag t j value) := by
  have h1 : ∀ (n : Nat) (vs : List View), (∃ v ∈ vs, v.capacity ≠ 0 ∧ v.ptr ≠ 0) → EndsEvent (memsetFirst n value vs) := by
    intro n vs
    induction vs with
    | nil => rintro ⟨v, hv, -⟩; cases hv
    | cons v vs ih =>
      rintro ⟨w, hw, hc⟩
      unfold memsetFirst
      split
      · exact endsEvent_issue endsEvent_retEvent
      · rename_i hn
        rcases List.mem_cons.1 hw with rfl | hw
        · exact absurd hc hn
        · exact ih ⟨w, hw, hc⟩
  have h2 : ∀ vs : List View, EndsEvent (memsetEach t value vs) := by
    intro vs
    induction vs with
    | nil => exact endsEvent_retEvent
    | cons v vs ih => exact endsEvent_issue ih
  unfold memsetJag
  split
  · intro s e s' hr; cases hr
  · split
    · exact h1 _ _ h
    · exact h2 _

/-! ## The calls for jagged vectors do the same at any point of a program -/

theorem same_setupJag (j : JagView) : Same AnyNumber (setupJag j) (setupJag j) := by
  unfold setupJag
  split
  · exact same_retNoEvent
  · simp only
    split <;> split <;> first
      | exact same_retEvent
      | exact .issue same_retEvent
      | exact .issue (.issue same_retEvent)

theorem same_copyJag (dbg : Bool) (t : Nat) (v w : JagView) : Same AnyNumber (copyJag dbg t v w) (copyJag dbg t v w) := by
  refine (same_copyViewJag dbg t v w).bind ?_
  rintro b _ rfl
  cases b
  · exact same_retNoEvent
  · exact same_retEvent

theorem same_copyJagToStd (dbg : Bool) (t : Nat) (v : JagView) (resize : List Nat → List Nat) :
    Same AnyNumber (copyJagToStd dbg t v resize) (copyJagToStd dbg t v resize) := by
  refine (same_getSizes v.views).bind ?_
  rintro n _ rfl
  exact same_copyJag _ _ _ _

/-! ## Memory -/

variable {RR WW : Nat → Prop}

theorem foot_copyJag {dbg : Bool} {t : Nat} {v w : JagView} {m : Mem} {L : List Local} {d : Nat} (hs : JagValid m t v.views)
    (hd : WordsAdjacent w.views) (hv : ∀ x, JagHas t v.views x → RR x) (hw : ∀ x, JagHas t w.views x → WW x) :
    Foot RR WW (copyJag dbg t v w) ⟨m, L, d⟩ :=
  Foot.bind (foot_copyViewJag hs hd hv hw) fun b _ _ => by cases b <;> trivial

theorem foot_setupJag {t : Nat} {j : JagView} {s : DState} (hu : (∀ v ∈ j.views, v.sizePtr = 0) ∨ ∀ v ∈ j.views, v.sizePtr ≠ 0)
    (hw : WordsAdjacent j.views) (h1 : ∀ x, JagHas t j.views x → WW x)
    (h2 : ∀ x, j.hostPtr ≤ x → x < j.hostPtr + j.views.length * viewSize → RR x)
    (h3 : ∀ x, j.ptr ≤ x → x < j.ptr + j.views.length * viewSize → WW x) : Foot RR WW (setupJag j) s := by
  unfold setupJag
  split
  · trivial
  · rename_i v vs hv
    have hle := wrap64_le (j.views.length * viewSize)
    have hrest : ∀ s, Foot RR WW (if j.ptr = j.hostPtr then retEvent
        else .issue (.copy (wrap64 (j.views.length * viewSize)) j.hostPtr j.ptr) retEvent) s := by
      intro s
      split
      · trivial
      · exact foot_copy (fun x a b => h2 x a (by omega)) (fun x a b => h3 x a (by omega)) fun _ => trivial
    simp only
    split
    · rename_i hz
      refine foot_memset (fun x a b => ?_) fun _ => hrest _
      have hle' := wrap64_le (4 * j.views.length)
      have hall : ∀ w ∈ j.views, w.sizePtr ≠ 0 := by
        rcases hu with hu | hu
        · exact absurd (hu v (by rw [hv]; exact List.mem_cons_self)) hz
        · exact hu
      rcases hw with hw | ⟨h, h0, hw⟩
      · exact absurd (hw v (by rw [hv]; exact List.mem_cons_self)) hz
      · have hv0 := hw 0 v (by rw [hv]; rfl)
        have hi : (x - h) / 4 < j.views.length := by omega
        have hg := List.getElem?_eq_getElem hi
        have hmem := List.getElem_mem hi
        have := hw _ _ hg
        exact h1 x ⟨_, hmem, .inr ⟨hall _ hmem, by omega, by omega⟩⟩
    · exact hrest _

theorem foot_copyJagToStd {dbg : Bool} {t : Nat} {v : JagView} {ats : List Nat} {m : Mem} {L : List Local} {d : Nat}
    (hs : JagValid m t v.views) (hv : ∀ x, JagHas t v.views x → RR x)
    (hw : ∀ (i a : Nat) (w : View), v.views[i]? = some w → ats[i]? = some a → ∀ x, a ≤ x → x < a + w.len m * t → WW x) :
    Foot RR WW (copyJagToStd dbg t v fun _ => ats) ⟨m, L, d⟩ := by
  unfold copyJagToStd
  refine (foot_getSizes hs.words (fun w hw x hx => hv x ⟨w, hw, .inr hx⟩) _).bind fun ns s hrun => ?_
  obtain ⟨d', e⟩ := getSizes_does hs L d
  rw [e] at hrun
  cases hrun
  have hget : ∀ w ∈ List.zipWith (fun n p => (⟨n % 2 ^ 32, 0, p⟩ : View)) (v.views.map (·.len m)) ats,
      ∃ (i a : Nat) (y : View), v.views[i]? = some y ∧ ats[i]? = some a ∧ w = ⟨y.len m % 2 ^ 32, 0, a⟩ := by
    intro w hw
    obtain ⟨i, hi⟩ := List.mem_iff_getElem?.1 hw
    rw [List.getElem?_zipWith, List.getElem?_map] at hi
    cases hy : v.views[i]? with
    | none => rw [hy] at hi; simp at hi
    | some y =>
      cases ha : ats[i]? with
      | none => rw [hy, ha] at hi; simp at hi
      | some a =>
        rw [hy, ha] at hi
        simp only [Option.map_some, Option.some.injEq] at hi
        exact ⟨i, a, y, hy, ha, hi.symm⟩
  refine foot_copyJag hs (.inl fun w hw => ?_) hv fun x hx => ?_
  · obtain ⟨i, a, y, -, -, rfl⟩ := hget w hw
    rfl
  · obtain ⟨w, hwm, hx⟩ := hx
    obtain ⟨i, a, y, hy, ha, rfl⟩ := hget w hwm
    rcases hx with ⟨x1, x2⟩ | hx
    · have := Nat.mul_le_mul_right t (Nat.mod_le (y.len m) (2 ^ 32))
      simp only at x1 x2
      exact hw i a y hy ha x x1 (by omega)
    · exact absurd rfl hx.1

/-- What a call does when it is not the first. -/
theorem run_of_any {f : Prog Nat} {m m' : Mem} {r : Res Unit} (hs : Same AnyNumber f f) (hl : Lib f EventOk) (hr : f.result m = (r, m'))
    (hu : r ≠ .ub) (d : Nat) : ∃ x d', f.run ⟨m, [], d⟩ = (x, ⟨m', [], d'⟩) ∧ x.map (fun _ => ()) = r := by
  obtain ⟨h1, h2, -⟩ := hs.run m [] 0 d
  simp only [Prog.result, Prod.mk.injEq] at hr
  obtain ⟨r1, r2⟩ := hr
  rw [r2] at h2
  have hmap : (f.run ⟨m, [], d⟩).1.map (fun _ => ()) = r := by
    rw [← r1]
    rcases h1 with ⟨b, b', e1, e2, -⟩ | ⟨e1, e2⟩
    · rw [e1, e2]; rfl
    · rw [e1]
  have hub : (f.run ⟨m, [], d⟩).1 ≠ .ub := fun hc => hu (by rw [← hmap, hc]; rfl)
  cases hrun : f.run ⟨m, [], d⟩ with
  | mk x t =>
    rw [hrun] at h2 hub hmap
    obtain ⟨P', -, h3, -⟩ := (hl ⟨m, [], d⟩ [] .nil (by rw [hrun]; exact hub)).post
    rw [hrun] at h3
    obtain ⟨mt, Lt, dt⟩ := t
    have hL : Lt = [] := List.length_eq_zero_iff.1 h3
    simp only at h2
    subst h2
    subst hL
    exact ⟨x, dt, rfl, hmap⟩

/-! ## Steps -/

/-- What is to be shown of a step. -/
def JPlanOk (c : JagCfg) (R : Limits) (ups : Nat → MR σ) (u0 : σ) (p : JPipe σ) (q : JReady) (op : JagOp) : Prop :=
  PlanOk (jagSys c R ups) (jagPlan c ups) (fun s => ⟨s.1.vec.res, s.1.vec.bufs, s.1.jags⟩) (fun s => JInv c R ups u0 s.1 s.2) (p, q) op

theorem JagCopyStep.defined {S S' : JStore} {k : Nat} {new : List (List Elem)} {r : Res JagOut} (h : JagCopyStep c S k new r S') : r ≠ .ub := by
  cases h <;> simp

theorem JagStep.defined {S S' : JStore} {op : JagOp} {r : Res JagOut} (h : JagStep c S op r S') : r ≠ .ub := by
  have hm : ∀ {r : Res PipeOut}, r ≠ .ub → r.map JagOut.vec ≠ .ub := by
    intro r hr hc
    cases r <;> first | exact hr rfl | cases hc
  cases h with
  | vec op h => exact hm (pipeStep_defined h)
  | copy _ _ _ hc => exact hc.defined
  | upload _ _ _ hc => exact hc.defined
  | vecKernel _ _ _ _ _ _ h => exact hm (pipeStep_defined h)
  | vecSingle _ _ _ _ _ h => exact hm (pipeStep_defined h)
  | _ => simp

theorem map_self (r : Res Unit) : (r.map fun _ => ()) = r := by cases r <;> rfl

/-- A call of a function of `vecmem::copy`, after the host has written `ws`. -/
theorem jplan_call {op : JagOp} {f : Prog Nat} {ws : List (Nat × Nat × Mem)} {Rd Wr : Nat → Prop} (hs : JStepOk c R ups u0 p q op)
    (he1 : ((p.exec c ups op).1.map fun _ => ()) = (f.result (pokeMem p.vec.mem ws)).1)
    (he2 : (p.exec c ups op).2 = { p with vec := { p.vec with mem := (f.result (pokeMem p.vec.mem ws)).2 } })
    (hp : jagPlan c ups ⟨p.vec.res, p.vec.bufs, p.jags⟩ op = (⟨p.vec.res, p.vec.bufs, p.jags⟩, pokes ws f)) (h1 : Same AnyNumber f f)
    (h2 : Lib f EventOk) (h3 : EventQuiet f)
    (h4 : op.Works (p.store c q) → EndsEvent f ∧ ∃ o, (p.exec c ups op).1 = .ok o)
    (h5 : ∀ d, Foot Rd Wr f ⟨pokeMem p.vec.mem ws, [], d⟩) (h6 : ∀ x, Rd x ∨ Wr x → op.Uses c p q x)
    (h7 : ∀ x, PokeHas ws x → op.Pokes c ups p x) : JPlanOk c R ups u0 p q op := by
  have hdef := hs.2.defined
  have hub : (f.result (pokeMem p.vec.mem ws)).1 ≠ .ub := by
    rw [← he1]
    exact map_unit_ne hdef
  refine ⟨hs.1, hdef, ?_, ?_, ?_⟩
  · simp only [jagSys, hp, he2]
  · intro d P hP hb
    simp only [jagSys, hp, he1, he2]
    refine safe_pokes (fun o ho x hx => hb o ho x (h7 x hx)) ?_
    exact call_safe_at h2 h3 (run_of_any h1 h2 rfl hub d) hub (fun o ho x hx => h6 x ((h5 d).pend (P := []) (by simp) o ho x hx)) P hP
  · intro hw d x s' hr
    simp only [jagSys, hp, run_pokes] at hr
    obtain ⟨g1, o, g2⟩ := h4 hw
    obtain ⟨y, d', e1, e2⟩ := run_of_any h1 h2 rfl hub d
    rw [hr] at e1
    cases e1
    replace e2 : x.map (fun _ => ()) = (f.result (pokeMem p.vec.mem ws)).1 := e2
    rw [← he1, g2] at e2
    cases x with
    | ok e => exact .inr (by rw [g1 _ _ _ hr])
    | _ => cases e2

theorem Rows.of {k : Nat} {b : JagBuffer} (hb : p.jags.lookup k = some b) {x : Nat} (h : JagHas (c.ty k).size b.views x) : p.Rows c k x :=
  ⟨b, hb, h⟩

theorem lift_onMem (p : JPipe σ) (f : Prog Nat) (m : Mem) :
    ((p.lift (Pipe.onMem { p.vec with mem := m } f)).1.map fun _ => ()) = (f.result m).1 ∧
    (p.lift (Pipe.onMem { p.vec with mem := m } f)).2 = { p with vec := { p.vec with mem := (f.result m).2 } } := by
  unfold JPipe.lift Pipe.onMem
  simp only [Res.map_map, map_self]
  exact ⟨trivial, trivial⟩

theorem jplan_setup (h : JInv c R ups u0 p q) {k : Nat} (hs : JStepOk c R ups u0 p q (.setup k)) {out : Nat → Nat → Prop}
    (hf : (JagOp.setup k).Fits c R out (p.store c q)) : JPlanOk c R ups u0 p q (.setup k) := by
  obtain ⟨v, hv⟩ := hf
  obtain ⟨b, hb⟩ := JPipe.jag_exists hv
  have hm := mem_of_lookup hb
  have hok : JagOk (c.ty k) (c.hasHost k) b := h.bufs _ hm
  have hex : p.exec c ups (.setup k) = p.lift (Pipe.onMem { p.vec with mem := p.vec.mem } (setupJag b.view)) := by
    simp only [JPipe.exec, hb]
  refine jplan_call (f := setupJag b.view) (ws := []) (Rd := fun x => p.HostViews k x) (Wr := fun x => p.Rows c k x ∨ p.Views k x) hs ?_ ?_ ?_
    (same_setupJag _) (lib_setupJag _) (ends_setupJag _).quiet ?_ ?_ ?_ ?_
  · rw [hex]; exact (lift_onMem p _ _).1
  · rw [hex]; exact (lift_onMem p _ _).2
  · simp only [jagPlan, hb]; rfl
  · rintro ⟨b', h1, h2⟩
    rw [JPipe.jag_some hb] at h1
    cases h1
    refine ⟨endsEvent_setupJag fun hc => h2 (by rw [show b.views = [] from hc]; rfl), ?_⟩
    have hst := hs.2
    generalize (p.exec c ups (.setup k)).1 = r at hst ⊢
    generalize (p.exec c ups (.setup k)).2.store c _ = S' at hst
    cases hst <;> exact ⟨_, rfl⟩
  · intro d
    exact foot_setupJag (t := (c.ty k).size) hok.uniform hok.placed.words (fun x hx => .inl ⟨b, hb, hx⟩)
      (fun x a1 a2 => ⟨b, hb, a1, a2⟩) (fun x a1 a2 => .inr ⟨b, hb, a1, a2⟩)
  · rintro x (hx | hx | hx)
    · exact .inr (.inr hx)
    · exact .inl hx
    · exact .inr (.inl hx)
  · rintro x ⟨w, hw, -⟩
    cases hw

theorem jplan_memset (h : JInv c R ups u0 p q) {k : Nat} {value : UInt8} (hs : JStepOk c R ups u0 p q (.memset k value))
    {out : Nat → Nat → Prop} (hf : (JagOp.memset k value).Fits c R out (p.store c q)) : JPlanOk c R ups u0 p q (.memset k value) := by
  obtain ⟨v, hv, -⟩ := hf
  obtain ⟨b, hb⟩ := JPipe.jag_exists hv
  have hm := mem_of_lookup hb
  have hok : JagOk (c.ty k) (c.hasHost k) b := h.bufs _ hm
  have hex : p.exec c ups (.memset k value) = p.lift (Pipe.onMem { p.vec with mem := p.vec.mem } (memsetJag (c.ty k).size b.view value)) := by
    simp only [JPipe.exec, hb]
  refine jplan_call (f := memsetJag (c.ty k).size b.view value) (ws := []) (Rd := fun _ => False) (Wr := fun x => p.Rows c k x) hs ?_ ?_ ?_
    (same_memsetJag _ _ _) (lib_memsetJag _ _ _) (ends_memsetJag _ _ _).quiet ?_ ?_ ?_ ?_
  · rw [hex]; exact (lift_onMem p _ _).1
  · rw [hex]; exact (lift_onMem p _ _).2
  · simp only [jagPlan, hb]; rfl
  · rintro ⟨b', h1, cap, h2, h3⟩
    rw [JPipe.jag_some hb] at h1
    cases h1
    obtain ⟨w, hw, rfl⟩ := List.mem_map.1 h2
    refine ⟨endsEvent_memsetJag ⟨w, hw, h3, (hok.placed.placed w hw).ptr h3⟩, ?_⟩
    have hst := hs.2
    generalize (p.exec c ups (.memset k value)).1 = r at hst ⊢
    generalize (p.exec c ups (.memset k value)).2.store c _ = S' at hst
    cases hst
    exact ⟨_, rfl⟩
  · intro d
    exact foot_memsetJag (fun w hw x hx => ⟨b, hb, w, hw, .inl hx⟩) fun w hw => (hok.placed.placed w hw).ptr
  · rintro x (hx | hx)
    · exact hx.elim
    · exact hx
  · rintro x ⟨w, hw, -⟩
    cases hw

theorem JagCopyStep.isOk {S S' : JStore} {k : Nat} {new : List (List Elem)} {r : Res JagOut} (h : JagCopyStep c S k new r S')
    {caps : List Nat} {r' d : Bool} {old : List (List Elem)} (hk : S.Has k caps r' d old) (hn : RowsFitIn caps new) : ∃ o, r = .ok o := by
  cases h with
  | fits _ _ _ => exact ⟨_, rfl⟩
  | nothing _ _ => exact ⟨_, rfl⟩
  | refused h1 _ h2 =>
    unfold JStore.Has at hk h1
    rw [hk] at h1
    cases h1
    exact absurd hn h2

theorem jplan_copy (h : JInv c R ups u0 p q) {i j : Nat} (hs : JStepOk c R ups u0 p q (.copy i j)) {out : Nat → Nat → Prop}
    (hf : (JagOp.copy i j).Fits c R out (p.store c q)) : JPlanOk c R ups u0 p q (.copy i j) := by
  obtain ⟨hij, hty, caps, r, d, rows, caps', r', d', rows', h1, h2⟩ := hf
  obtain ⟨a, a1, a2, a3, a4, a5, a6, a7, a8⟩ := h.has h1
  obtain ⟨b, b1, b2, b3, b4, b5, b6, b7, b8⟩ := h.has h2
  have hex : p.exec c ups (.copy i j) =
      p.lift (Pipe.onMem { p.vec with mem := p.vec.mem } (copyJag c.vec.dbg (c.ty i).size a.view b.view)) := by
    simp only [JPipe.exec, a1, b1]
  refine jplan_call (f := copyJag c.vec.dbg (c.ty i).size a.view b.view) (ws := []) (Rd := fun x => p.Rows c i x)
    (Wr := fun x => p.Rows c j x) hs ?_ ?_ ?_ (same_copyJag _ _ _ _) (lib_copyJag _ _ _ _) (eventQuiet_copyJag _ _ _ _) ?_ ?_ (fun x hx => hx) ?_
  · rw [hex]; exact (lift_onMem p _ _).1
  · rw [hex]; exact (lift_onMem p _ _).2
  · simp only [jagPlan, a1, b1]; rfl
  · rintro ⟨_, _, _, rows1, caps2, r2, d2, _, g1, g2, g3, g4⟩
    have hrows : rows1 = rows := by
      unfold JStore.Has at h1 g1
      rw [h1] at g1
      cases g1
      rfl
    subst hrows
    refine ⟨endsEvent_copyJag fun hc => g3 ?_, ?_⟩
    · rw [← a7, show a.views = [] from hc]
      rfl
    · have hst := hs.2
      generalize (p.exec c ups (.copy i j)).1 = r at hst ⊢
      generalize (p.exec c ups (.copy i j)).2.store c _ = S' at hst
      cases hst with
      | copy _ _ k1 k2 =>
        unfold JStore.Has at h1 k1
        rw [h1] at k1
        cases k1
        exact k2.isOk g2 g4
  · intro d
    exact foot_copyJag a8 b8.words (fun x hx => ⟨a, a1, hx⟩) (fun x hx => ⟨b, b1, hty ▸ hx⟩)
  · rintro x ⟨w, hw, -⟩
    cases hw

theorem jplan_upload (h : JInv c R ups u0 p q) {ats : List Nat} {rows : List (List Elem)} {k : Nat}
    (hs : JStepOk c R ups u0 p q (.upload ats rows k)) {out : Nat → Nat → Prop}
    (hf : (JagOp.upload ats rows k).Fits c R out (p.store c q)) : JPlanOk c R ups u0 p q (.upload ats rows k) := by
  obtain ⟨f1, f2, f3, caps, r, d, old, f4⟩ := hf
  obtain ⟨b, b1, b2, b3, b4, b5, b6, b7, b8⟩ := h.has f4
  have hex : p.exec c ups (.upload ats rows k) = p.lift (Pipe.onMem { p.vec with mem := pokeMem p.vec.mem (rowPokes (c.ty k).size ats rows) }
      (copyJag c.vec.dbg (c.ty k).size ⟨JPipe.hostRows rows ats, 0, 0⟩ b.view)) := by
    simp only [JPipe.exec, b1, pokeMem_rows]
  refine jplan_call (f := copyJag c.vec.dbg (c.ty k).size ⟨JPipe.hostRows rows ats, 0, 0⟩ b.view)
    (ws := rowPokes (c.ty k).size ats rows) (Rd := fun x => InRows (c.ty k).size ats rows x) (Wr := fun x => p.Rows c k x) hs ?_ ?_ ?_
    (same_copyJag _ _ _ _) (lib_copyJag _ _ _ _) (eventQuiet_copyJag _ _ _ _) ?_ ?_ (fun x hx => hx) ?_
  · rw [hex]; exact (lift_onMem p _ _).1
  · rw [hex]; exact (lift_onMem p _ _).2
  · simp only [jagPlan, b1]
  · rintro ⟨caps2, r2, d2, _, g1, g2, g3⟩
    refine ⟨endsEvent_copyJag fun hc => g2 ?_, ?_⟩
    · rw [← List.length_eq_zero_iff, ← hostRows_length f1.1]
      exact List.length_eq_zero_iff.2 hc
    · have hst := hs.2
      generalize (p.exec c ups (.upload ats rows k)).1 = r at hst ⊢
      generalize (p.exec c ups (.upload ats rows k)).2.store c _ = S' at hst
      cases hst with
      | upload _ _ _ k2 => exact k2.isOk g1 g3
  · intro d
    exact foot_copyJag (hostRows_valid _ f1 f2 fun l hl => (f3 l hl).1) b8.words (fun x hx => hostRows_has hx) (fun x hx => ⟨b, b1, hx⟩)
  · exact fun x hx => rowPokes_has hx

theorem jplan_download (h : JInv c R ups u0 p q) {k : Nat} {ats : List Nat} (hs : JStepOk c R ups u0 p q (.download k ats))
    {out : Nat → Nat → Prop} (hf : (JagOp.download k ats).Fits c R out (p.store c q)) : JPlanOk c R ups u0 p q (.download k ats) := by
  obtain ⟨caps, r, d, rows, h1, ho⟩ := hf
  obtain ⟨b, b1, b2, b3, b4, b5, b6, b7, b8⟩ := h.has h1
  refine jplan_call (f := copyJagToStd c.vec.dbg (c.ty k).size b.view fun _ => ats) (ws := []) (Rd := fun x => p.Rows c k x)
    (Wr := fun x => InRows (c.ty k).size ats rows x) hs ?_ ?_ ?_ (same_copyJagToStd _ _ _ _) (lib_copyJagToStd _ _ _ _)
    (eventQuiet_call (.toStdJag _ _ _ _)) ?_ ?_ ?_ ?_
  · simp only [JPipe.exec, b1, (Props.c39_get_sizes p.vec.mem _ b.views b8).1, Res.map_map, map_self]
    rfl
  · simp only [JPipe.exec, b1, (Props.c39_get_sizes p.vec.mem _ b.views b8).1]
    rfl
  · simp only [jagPlan, b1]; rfl
  · rintro ⟨_, _, _, rows1, g1, g3⟩
    have hrows : rows1 = rows := by
      unfold JStore.Has at h1 g1
      rw [h1] at g1
      cases g1
      rfl
    subst hrows
    refine ⟨endsEvent_copyJagToStd fun hc => g3 ?_, ?_⟩
    · rw [← b7, show b.views = [] from hc]
      rfl
    · have hst := hs.2
      generalize (p.exec c ups (.download k ats)).1 = r at hst ⊢
      generalize (p.exec c ups (.download k ats)).2.store c _ = S' at hst
      cases hst
      exact ⟨_, rfl⟩
  · intro d
    refine foot_copyJagToStd b8 (fun x hx => ⟨b, b1, hx⟩) fun i a w hw ha x x1 x2 => ⟨i, a, w.elems p.vec.mem (c.ty k).size, ha, ?_, x1, ?_⟩
    · rw [← b7, List.getElem?_map]
      exact congrArg (Option.map _) hw
    · rw [elems_length]
      exact x2
  · rintro x (hx | hx)
    · exact .inl hx
    · exact .inr ⟨caps, r, d, rows, h1, hx⟩
  · rintro x ⟨w, hw, -⟩
    cases hw

/-! ## Constructors and destructors -/

theorem ret_map {F : Nat → Prop} {β : Type} {r : Res β} (hr : r ≠ .ub) {m : Mem} {d : Nat} {P : List COp} (hP : Slotted P 0) :
    Safe (.ret (r.map fun _ => 0)) (CallPost F (r.map fun _ => ()) m P) ⟨m, [], d⟩ P := by
  have := ret_safe (F := F) (r := r.map fun _ => 0) (m := m) (d := d) (P := P)
    (by intro hc; apply hr; cases r <;> first | rfl | cases hc)
    (by intro e he; cases r <;> cases he <;> rfl) hP
  rw [Res.map_map] at this
  exact this

theorem jplan_create {k : Nat} {caps : List Nat} {r : Bool} (hs : JStepOk c R ups u0 p q (.create k caps r)) :
    JPlanOk c R ups u0 p q (.create k caps r) := by
  rcases hcr : JagBuffer.create (fun h => ups (c.source k h)) p.vec.res (c.ty k) caps (c.hasHost k) r with ⟨e, u⟩
  have hdef := hs.2.defined
  cases e with
  | ok b =>
    refine ⟨hs.1, hdef, ?_, ?_, fun hw => hw.elim⟩
    · simp only [jagSys, jagPlan, JPipe.exec, hcr]
    · intro d P hP hb
      simp only [jagSys, jagPlan, JPipe.exec, hcr]
      refine safe_pokes (fun o ho x hx => hb o ho x ?_) ?_
      · refine ⟨b, ?_, viewPokes_has hx⟩
        simp [JPipe.exec, hcr]
      · rw [pokeMem_views]
        exact ret_safe (r := .ok 0) (by simp) (fun e he => by cases he; rfl) hP
  | ub =>
    simp only [JPipe.exec, hcr] at hdef
    exact absurd rfl hdef
  | _ =>
    refine ⟨hs.1, hdef, ?_, ?_, fun hw => hw.elim⟩
    · simp only [jagSys, jagPlan, JPipe.exec, hcr]
    · intro d P hP hb
      simp only [jagSys, jagPlan, JPipe.exec, hcr]
      exact ret_safe (by simp [Res.map]) (fun e he => by cases he) hP

theorem jplan_destroy {k : Nat} (hs : JStepOk c R ups u0 p q (.destroy k)) {out : Nat → Nat → Prop}
    (hf : (JagOp.destroy k).Fits c R out (p.store c q)) : JPlanOk c R ups u0 p q (.destroy k) := by
  obtain ⟨v, hv⟩ := hf
  obtain ⟨b, hb⟩ := JPipe.jag_exists hv
  have hdef := hs.2.defined
  refine ⟨hs.1, hdef, ?_, ?_, fun hw => hw.elim⟩
  · simp only [jagSys, jagPlan, JPipe.exec, hb]
  · intro d P hP _
    simp only [jagSys, jagPlan, JPipe.exec, hb] at hdef ⊢
    generalize b.destroy (fun h => ups (c.source k h)) (c.hasHost k) p.vec.res = x at *
    rw [Res.map_map]
    refine ret_map (fun hc => hdef ?_) hP
    rw [hc]
    rfl

theorem jplan_vecCreate {k capacity : Nat} {r : Bool} (hs : JStepOk c R ups u0 p q (.vec (.create k capacity r))) :
    JPlanOk c R ups u0 p q (.vec (.create k capacity r)) := by
  rcases hcr : VecBuffer.create (ups (c.vec.res k)) p.vec.res (c.vec.ty k) capacity r with ⟨e, u⟩
  have hdef := hs.2.defined
  cases e with
  | ok b =>
    refine ⟨hs.1, hdef, ?_, ?_, fun hw => hw.elim⟩
    · simp only [jagSys, jagPlan, JPipe.exec, JPipe.lift, Pipe.exec, hcr]
    · intro d P hP hb
      simp only [jagSys, jagPlan, JPipe.exec, JPipe.lift, Pipe.exec, hcr]
      exact ret_safe (r := .ok 0) (by simp) (fun e he => by cases he; rfl) hP
  | ub =>
    simp only [JPipe.exec, JPipe.lift, Pipe.exec, hcr] at hdef
    exact absurd rfl hdef
  | _ =>
    refine ⟨hs.1, hdef, ?_, ?_, fun hw => hw.elim⟩
    · simp only [jagSys, jagPlan, JPipe.exec, JPipe.lift, Pipe.exec, hcr]
    · intro d P hP hb
      simp only [jagSys, jagPlan, JPipe.exec, JPipe.lift, Pipe.exec, hcr]
      exact ret_safe (by simp [Res.map]) (fun e he => by cases he) hP

theorem jplan_vecDestroy {k : Nat} (hs : JStepOk c R ups u0 p q (.vec (.destroy k))) {out : Nat → Nat → Prop}
    (hf : (JagOp.vec (.destroy k)).Fits c R out (p.store c q)) : JPlanOk c R ups u0 p q (.vec (.destroy k)) := by
  obtain ⟨v, hv⟩ := hf
  obtain ⟨b, hb⟩ := Pipe.store_exists (p := p.vec) hv
  have hdef := hs.2.defined
  refine ⟨hs.1, hdef, ?_, ?_, fun hw => hw.elim⟩
  · simp only [jagSys, jagPlan, JPipe.exec, JPipe.lift, Pipe.exec, hb]
  · intro d P hP _
    simp only [jagSys, jagPlan, JPipe.exec, JPipe.lift, Pipe.exec, hb] at hdef ⊢
    generalize b.destroy (ups (c.vec.res k)) p.vec.res = x at *
    rw [Res.map_map, Res.map_map]
    refine ret_map (fun hc => hdef ?_) hP
    rw [hc]
    rfl

/-- Steps on vector buffers. -/
theorem jplan_vec (hl : FamLawful R G ups u0) (hc : c.Wf) (h : JInv c R ups u0 p q) {op : PipeOp} (hs : JStepOk c R ups u0 p q (.vec op))
    (hf : (JagOp.vec op).Fits c R (p.Outside c) (p.store c q)) : JPlanOk c R ups u0 p q (.vec op) := by
  by_cases ho : op.OnStream
  · have hp : jagPlan c ups ⟨p.vec.res, p.vec.bufs, p.jags⟩ (.vec op) =
        (⟨p.vec.res, p.vec.bufs, p.jags⟩, streamStep c.vec ups p.vec.res p.vec.bufs op) := by
      cases op <;> first | exact ho.elim | rfl
    have hst := Props.pipe_step hl hc.1 h.vec (op := op) hf
    have hstream : ∀ (d : Nat) (P : List COp), Slotted P 0 →
        (∀ o ∈ P, ∀ x, (JagOp.vec op).Pokes c ups p x → ¬ (o.Reads x ∨ o.Writes x)) → StreamOk c.vec ups p.vec op d P := by
      intro d P hP hb
      refine stream_step h.vec ho hf hst hP ?_ d
      rintro ⟨at_, l, k, rfl⟩
      exact hb
    refine ⟨hs.1, hs.2.defined, ?_, ?_, ?_⟩
    · obtain ⟨-, g1, g2⟩ := hstream 0 [] .nil (by simp)
      simp only [jagSys, hp, JPipe.exec, JPipe.lift, g1, g2]
    · intro d P hP hb
      obtain ⟨g1, -⟩ := hstream d P hP hb
      simp only [jagSys, hp, JPipe.exec, JPipe.lift, Res.map_map]
      exact g1
    · intro hw d x s' hr
      simp only [jagSys, hp] at hr
      exact works_event h.vec hw d hr
  · cases op with
    | create => exact jplan_vecCreate hs
    | destroy => exact jplan_vecDestroy hs hf
    | _ => exact absurd trivial ho

/-! ## Kernels -/

theorem rowBytes_iff {k x : Nat} : rowBytes c p.jags k x = true ↔ p.Rows c k x := by
  unfold rowBytes JPipe.Rows JagHas
  cases p.jags.lookup k with
  | none => simp
  | some b => simp [View.footprint_iff]

theorem viewBytes_iff {k x : Nat} : viewBytes p.jags k x = true ↔ p.Views k x := by
  unfold viewBytes JPipe.Views
  cases p.jags.lookup k with
  | none => simp
  | some b => simp

theorem inputBytes_iff {ins jins : List Nat} {x : Nat} :
    inputBytes c (⟨p.vec.res, p.vec.bufs, p.jags⟩ : JagHost σ) ins jins x = true ↔ p.Inputs c ins jins x := by
  unfold inputBytes JPipe.Inputs
  simp only [Bool.or_eq_true, List.any_eq_true, rowBytes_iff, viewBytes_iff, bufBytes_iff]

/-- The state with another memory. -/
def JPipe.withMem (p : JPipe σ) (m : Mem) : JPipe σ := { p with vec := { p.vec with mem := m } }

/-- Kernels find the rows of a buffer, and what is in them, also in another memory with the same bytes in the buffer. -/
theorem JInv.near (h : JInv c R ups u0 p q) {k : Nat} {caps : List Nat} {r : Bool} {rows : List (List Elem)}
    (hk : (p.store c q).Has k caps r true rows) {m' : Mem} (hr : ∀ x, p.Rows c k x → m' x = p.vec.mem x)
    (hv : ∀ x, p.Views k x → m' x = p.vec.mem x) :
    ∃ b, p.jags.lookup k = some b ∧ DescribedAt p.vec.mem b.ptr b.views ∧ DescribedAt m' b.ptr b.views ∧
      (b.views.map fun v => v.elems m' (c.ty k).size) = rows ∧ (∀ v ∈ b.views, v.Valid m' (c.ty k).size) ∧
      ∀ v ∈ b.views, v.device c.vec.dbg (c.dflt k) (c.ty k).size m' = v.device c.vec.dbg (c.dflt k) (c.ty k).size p.vec.mem := by
  obtain ⟨b, b1, b2, b3, b4, b5, b6, b7, b8⟩ := h.has hk
  have hd := h.described b2 b6
  have hrow : ∀ v ∈ b.views, ∀ x, v.Has (c.ty k).size x → m' x = p.vec.mem x := fun v hv x hx => hr x ⟨b, b1, v, hv, hx⟩
  refine ⟨b, b1, hd, described_congr hd fun y hy => hv _ ⟨b, b1, by omega, by omega⟩, ?_, ?_, ?_⟩
  · rw [← b7]
    exact List.map_congr_left fun v hv => elems_congr (b8.sizes v hv) (hrow v hv)
  · intro v hv
    refine ⟨b8.placed v hv, ?_⟩
    rw [len_of_word (m := p.vec.mem) fun x hx => hrow v hv x (.inr hx)]
    exact b8.sizes v hv
  · exact fun v hv => device_congr (hrow v hv)

theorem JInv.reads_near (h : JInv c R ups u0 p q) {m' : Mem} : ∀ {jins : List Nat} {js : List (List (List Elem))}, (p.store c q).HasAll jins js →
    (∀ i ∈ jins, ∀ x, p.Rows c i x ∨ p.Views i x → m' x = p.vec.mem x) → (p.withMem m').reads c jins = .ok js := by
  intro jins
  induction jins with
  | nil =>
    intro ls hh _
    cases ls with
    | nil => rfl
    | cons l ls => exact hh.elim
  | cons i is ih =>
    intro ls hh hn
    cases ls with
    | nil => exact hh.elim
    | cons l ls =>
      obtain ⟨⟨caps, r, h1⟩, h2⟩ := hh
      obtain ⟨b, b1, -, b3, b4, b5, -⟩ := h.near h1 (m' := m') (fun x hx => hn i List.mem_cons_self x (.inl hx))
        (fun x hx => hn i List.mem_cons_self x (.inr hx))
      have hd := deviceRows_alike b3
      have b1' : (p.withMem m').jags.lookup i = some b := b1
      unfold JPipe.reads
      rw [b1']
      simp only
      rw [show (p.withMem m').vec.mem = m' from rfl, readRows_ok i m' hd.1 hd.2 b5, ih h2 fun k hk => hn k (List.mem_cons_of_mem _ hk), b4]
      rfl

/-- What is to be shown of a kernel that writes the memory `W`. -/
structure Local67 (c : JagCfg) (ups : Nat → MR σ) (p : JPipe σ) (W : Nat → Prop) (m' : Mem) (op : JagOp) : Prop where
  res : ((p.withMem m').exec c ups op).1 = (p.exec c ups op).1
  same : ∀ x, W x → ((p.withMem m').exec c ups op).2.vec.mem x = (p.exec c ups op).2.vec.mem x
  other : ∀ x, ¬ W x → (p.exec c ups op).2.vec.mem x = p.vec.mem x
  host : (p.exec c ups op).2 = p.withMem (p.exec c ups op).2.vec.mem

theorem row_congr (h : JInv c R ups u0 p q) {ins jins : List Nat} {k : Nat} {op : JagOp} {m' : Mem}
    (hop : (∃ f sched, op = .kernel ins jins k f sched) ∨ ∃ f, op = .single ins jins k f)
    {js : List (List (List Elem))} (hj : (p.store c q).HasAll jins js) {caps : List Nat} {r : Bool} {rows : List (List Elem)}
    (hk : (p.store c q).Has k caps r true rows) (h1 : ∀ x, p.Inputs c ins jins x → m' x = p.vec.mem x)
    (h2 : ∀ x, p.Rows c k x ∨ p.Views k x → m' x = p.vec.mem x) : Local67 c ups p (p.Rows c k) m' op := by
  obtain ⟨b, b1, b2, b3, -, -, b6⟩ := h.near hk (m' := m') (fun x hx => h2 x (.inl hx)) (fun x hx => h2 x (.inr hx))
  have hr1 : Pipe.reads c.vec (p.withMem m').vec ins = p.vec.reads c.vec ins :=
    reads_congr fun i hi x hx => h1 x (.inl ⟨i, hi, hx⟩)
  have hr2 := h.reads_near (m' := m') hj fun i hi x hx => h1 x (.inr ⟨i, hi, hx⟩)
  have hd : (p.withMem m').devices c k b = p.devices c k b := by
    show (b.deviceRows m').map (fun v => v.device c.vec.dbg (c.dflt k) (c.ty k).size m') = (b.deviceRows p.vec.mem).map _
    rw [devices_eq b3, devices_eq b2]
    exact List.map_congr_left b6
  have b1' : (p.withMem m').jags.lookup k = some b := b1
  have hst : ∀ ss, (p.leave c k b ss).vec.mem = storeRows (c.ty k).size p.vec.mem b.views ss := fun ss => by
    have := deviceRows_alike b2
    simp only [JPipe.leave]
    rw [storeRows_alike (c.ty k).size this.1 this.2]
  have hst' : ∀ ss, ((p.withMem m').leave c k b ss).vec.mem = storeRows (c.ty k).size m' b.views ss := fun ss => by
    have := deviceRows_alike b3
    simp only [JPipe.leave]
    rw [show (p.withMem m').vec.mem = m' from rfl, storeRows_alike (c.ty k).size this.1 this.2]
  rcases hop with ⟨f, sched, rfl⟩ | ⟨f, rfl⟩ <;>
  · constructor
    · simp only [JPipe.exec, b1, b1', hr1, hr2, h.reads hj, hd]
      cases p.vec.reads c.vec ins <;> rfl
    · intro x hx
      simp only [JPipe.exec, b1, b1', hr1, hr2, h.reads hj, hd]
      have hmx := h2 x (.inl hx)
      cases p.vec.reads c.vec ins with
      | ok ls =>
        simp only [hst, hst']
        exact storeRows_twin hmx
      | _ => exact hmx
    · intro x hx
      simp only [JPipe.exec, b1, h.reads hj]
      cases p.vec.reads c.vec ins with
      | ok ls =>
        simp only [hst]
        exact storeRows_other fun hc => hx ⟨b, b1, hc⟩
      | _ => rfl
    · simp only [JPipe.exec, b1, h.reads hj]
      cases p.vec.reads c.vec ins <;> rfl

theorem vec_congr (h : JInv c R ups u0 p q) {ins jins : List Nat} {k : Nat} {op : JagOp} {m' : Mem}
    (hop : (∃ f sched, op = .vecKernel ins jins k f sched) ∨ ∃ f, op = .vecSingle ins jins k f)
    {js : List (List (List Elem))} (hj : (p.store c q).HasAll jins js) (h1 : ∀ x, p.Inputs c ins jins x → m' x = p.vec.mem x)
    (h2 : ∀ x, p.vec.Bytes c.vec k x → m' x = p.vec.mem x) : Local67 c ups p (p.vec.Bytes c.vec k) m' op := by
  have hr2 := h.reads_near (m' := m') hj fun i hi x hx => h1 x (.inr ⟨i, hi, hx⟩)
  have hex : ∃ vop : PipeOp, ((∃ f sched, vop = .kernel ins k f sched) ∨ ∃ f, vop = .single ins k f) ∧
      p.exec c ups op = p.lift (p.vec.exec c.vec ups vop) ∧
      (p.withMem m').exec c ups op = (p.withMem m').lift (Pipe.exec c.vec ups { p.vec with mem := m' } vop) := by
    rcases hop with ⟨f, sched, rfl⟩ | ⟨f, rfl⟩
    · refine ⟨.kernel ins k (fun ls => f ls js) sched, .inl ⟨_, _, rfl⟩, ?_, ?_⟩
      · simp only [JPipe.exec, h.reads hj]
      · simp only [JPipe.exec, hr2]
        rfl
    · refine ⟨.single ins k (fun ls => f ls js), .inr ⟨_, rfl⟩, ?_, ?_⟩
      · simp only [JPipe.exec, h.reads hj]
      · simp only [JPipe.exec, hr2]
        rfl
  obtain ⟨vop, hv, e1, e2⟩ := hex
  obtain ⟨k1, k2, k3, k4, k5⟩ := kernel_congr (ups := ups) (m' := m') hv (fun i hi x hx => h1 x (.inl ⟨i, hi, hx⟩)) h2
  constructor
  · rw [e1, e2]
    simp only [JPipe.lift, k1]
  · rw [e1, e2]
    exact k2
  · rw [e1]
    exact k3
  · rw [e1]
    simp only [JPipe.lift, JPipe.withMem]
    congr 1
    cases hp : (p.vec.exec c.vec ups vop).2
    rw [hp] at k4 k5
    simp only at k4 k5 ⊢
    rw [k4, k5]

theorem jplan_kernel {op : JagOp} {rd wr : Nat → Bool} {W : Nat → Prop} (hs : JStepOk c R ups u0 p q op) (hok : ∃ o, (p.exec c ups op).1 = .ok o)
    (hp : jagPlan c ups ⟨p.vec.res, p.vec.bufs, p.jags⟩ op = (⟨p.vec.res, p.vec.bufs, p.jags⟩,
      .issue (.kernel rd wr (jagMem c ups ⟨p.vec.res, p.vec.bufs, p.jags⟩ op)) retEvent)) (hw : ∀ x, wr x = true ↔ W x)
    (hl : ∀ m' : Mem, (∀ x, rd x = true ∨ wr x = true → m' x = p.vec.mem x) → Local67 c ups p W m' op)
    (hu : ∀ x, rd x = true ∨ wr x = true → op.Uses c p q x) : JPlanOk c R ups u0 p q op := by
  obtain ⟨o, hok⟩ := hok
  have hloc := hl (kernelMem p.vec.mem rd wr) fun x hx => by
    unfold kernelMem
    rw [if_pos (by simpa using hx)]
  refine ⟨hs.1, hs.2.defined, ?_, ?_, ?_⟩
  · simp only [jagSys, hp]
    rw [hloc.host]
    rfl
  · intro d P hP _
    simp only [jagSys, hp, hok, Res.map]
    refine kernel_safe (mk := ((p.withMem (kernelMem p.vec.mem rd wr)).exec c ups op).2.vec.mem) ?_ (fun x hx => hloc.same x ((hw x).1 hx))
      (fun x hx => hloc.other x fun hc => by rw [(hw x).2 hc] at hx; cases hx) hu hP
    unfold jagMem
    have hres := hloc.res
    rw [hok] at hres
    show (match (p.withMem (kernelMem p.vec.mem rd wr)).exec c ups op with | (.ok _, p) => some p.vec.mem | _ => none) = _
    generalize (p.withMem (kernelMem p.vec.mem rd wr)).exec c ups op = z at hres ⊢
    obtain ⟨z1, z2⟩ := z
    cases hres
    rfl
  · intro _ d x s' hx
    simp only [jagSys, hp, run] at hx
    split at hx
    · cases hx
      exact .inr rfl
    · cases hx
      exact .inl rfl

theorem rows_uses {ins jins : List Nat} {k x : Nat} (hx : (inputBytes c (⟨p.vec.res, p.vec.bufs, p.jags⟩ : JagHost σ) ins jins x ||
    viewBytes p.jags k x) = true ∨ rowBytes c p.jags k x = true) : p.Inputs c ins jins x ∨ p.Views k x ∨ p.Rows c k x := by
  rcases hx with hx | hx
  · rcases Bool.or_eq_true_iff.1 hx with hx | hx
    · exact .inl (inputBytes_iff.1 hx)
    · exact .inr (.inl (viewBytes_iff.1 hx))
  · exact .inr (.inr (rowBytes_iff.1 hx))

theorem rows_bytes {ins jins : List Nat} {k x : Nat} (hx : p.Inputs c ins jins x ∨ p.Views k x ∨ p.Rows c k x) :
    (inputBytes c (⟨p.vec.res, p.vec.bufs, p.jags⟩ : JagHost σ) ins jins x || viewBytes p.jags k x) = true ∨ rowBytes c p.jags k x = true := by
  rcases hx with hx | hx | hx
  · exact .inl (Bool.or_eq_true_iff.2 (.inl (inputBytes_iff.2 hx)))
  · exact .inl (Bool.or_eq_true_iff.2 (.inr (viewBytes_iff.2 hx)))
  · exact .inr (rowBytes_iff.2 hx)

/-- Every step. -/
theorem jplan (hl : FamLawful R G ups u0) (hc : c.Wf) (h : JInv c R ups u0 p q) {op : JagOp}
    (hf : op.Fits c R (p.Outside c) (p.store c q)) : JPlanOk c R ups u0 p q op := by
  have hs := jag_step hl hc h hf
  cases op with
  | vec op => exact jplan_vec hl hc h hs hf
  | create => exact jplan_create hs
  | destroy => exact jplan_destroy hs hf
  | setup => exact jplan_setup h hs hf
  | memset => exact jplan_memset h hs hf
  | copy => exact jplan_copy h hs hf
  | upload => exact jplan_upload h hs hf
  | download => exact jplan_download h hs hf
  | kernel ins jins k f sched =>
    obtain ⟨-, ls, js, caps, rows, f1, f2, f3, -⟩ := hf
    refine jplan_kernel hs ?_ rfl (fun x => rowBytes_iff) (fun m' hm => row_congr h (.inl ⟨f, sched, rfl⟩) f2 f3
      (fun x hx => hm x (rows_bytes (.inl hx))) (fun x hx => hm x (rows_bytes (.inr hx.symm)))) (fun x hx => rows_uses hx)
    have hst := hs.2
    generalize (p.exec c ups (.kernel ins jins k f sched)).1 = r at hst ⊢
    generalize (p.exec c ups (.kernel ins jins k f sched)).2.store c _ = S' at hst
    cases hst
    exact ⟨_, rfl⟩
  | single ins jins k f =>
    obtain ⟨-, ls, js, caps, r, rows, f1, f2, f3, -⟩ := hf
    refine jplan_kernel hs ?_ rfl (fun x => rowBytes_iff) (fun m' hm => row_congr h (.inr ⟨f, rfl⟩) f2 f3
      (fun x hx => hm x (rows_bytes (.inl hx))) (fun x hx => hm x (rows_bytes (.inr hx.symm)))) (fun x hx => rows_uses hx)
    have hst := hs.2
    generalize (p.exec c ups (.single ins jins k f)).1 = r at hst ⊢
    generalize (p.exec c ups (.single ins jins k f)).2.store c _ = S' at hst
    cases hst
    exact ⟨_, rfl⟩
  | vecKernel ins jins k f sched =>
    obtain ⟨js, f2, -⟩ := hf
    refine jplan_kernel hs ?_ rfl (fun x => bufBytes_iff) (fun m' hm => vec_congr h (.inl ⟨f, sched, rfl⟩) f2
      (fun x hx => hm x (.inl (inputBytes_iff.2 hx))) (fun x hx => hm x (.inr (bufBytes_iff.2 hx))))
      (fun x hx => hx.imp inputBytes_iff.1 bufBytes_iff.1)
    have hst := hs.2
    generalize (p.exec c ups (.vecKernel ins jins k f sched)).1 = r at hst ⊢
    generalize (p.exec c ups (.vecKernel ins jins k f sched)).2.store c _ = S' at hst
    cases hst with
    | vecKernel _ _ _ _ _ _ h => cases h; exact ⟨_, rfl⟩
  | vecSingle ins jins k f =>
    obtain ⟨js, f2, -⟩ := hf
    refine jplan_kernel hs ?_ rfl (fun x => bufBytes_iff) (fun m' hm => vec_congr h (.inr ⟨f, rfl⟩) f2
      (fun x hx => hm x (.inl (inputBytes_iff.2 hx))) (fun x hx => hm x (.inr (bufBytes_iff.2 hx))))
      (fun x hx => hx.imp inputBytes_iff.1 bufBytes_iff.1)
    have hst := hs.2
    generalize (p.exec c ups (.vecSingle ins jins k f)).1 = r at hst ⊢
    generalize (p.exec c ups (.vecSingle ins jins k f)).2.store c _ = S' at hst
    cases hst with
    | vecSingle _ _ _ _ _ h => cases h; exact ⟨_, rfl⟩

end Vecmem
