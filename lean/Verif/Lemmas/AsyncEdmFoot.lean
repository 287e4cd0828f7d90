import Verif.Lemmas.AsyncSim
import Verif.Lemmas.EdmPipelineRaces
import Verif.Lemmas.EdmPipelineAppend
import Verif.Lemmas.EdmPipelineKernels

/-! # Lemmas about the memory that `vecmem::copy` uses for containers -/

namespace Vecmem

open Prog IntMath Props

variable {β γ : Type} {R W : Nat → Prop}

/-! ## Calls that succeed -/

/-- The event of the call is one of the stream, and created at its end. -/
def EndsEvent (f : Prog Nat) : Prop := ∀ s e s', f.run s = (.ok e, s') → e = s'.done

theorem endsEvent_bind {p : Prog β} {f : β → Prog Nat} (h : ∀ b, EndsEvent (f b)) : EndsEvent (p.bind f) := by
  induction p with
  | ret r =>
    cases r with
    | ok b => exact h b
    | _ => intro s e s' hr; cases hr
  | issue op k ih =>
    intro s e s' hr
    simp only [Prog.bind, run] at hr
    split at hr
    · exact ih _ _ _ hr
    · cases hr
  | event k ih => exact fun s e s' hr => ih _ s e s' hr
  | wait e k ih => exact fun s e s' hr => ih s e s' hr
  | new l k ih => exact fun s e s' hr => ih _ _ e s' hr
  | read i k ih =>
    intro s e s' hr
    simp only [Prog.bind, run] at hr
    split at hr
    · exact ih _ _ _ _ hr
    · cases hr
  | drop k ih => exact fun s e s' hr => ih _ e s' hr
  | load p n k ih => exact fun s e s' hr => ih _ s e s' hr
  | poke p n b k ih => exact fun s e s' hr => ih _ e s' hr

theorem endsEvent_retEvent : EndsEvent retEvent := by
  intro s e s' h
  cases h
  rfl

theorem endsEvent_setupEdm {dbg : Bool} {e : EdmView} (h : e.capacity ≠ 0) : EndsEvent (setupEdm dbg e) := by
  unfold setupEdm
  rw [if_neg h]
  exact endsEvent_bind fun _ => endsEvent_bind fun _ => endsEvent_retEvent

theorem endsEvent_memsetEdm {S : Schema} {e : EdmView} {value : UInt8} : EndsEvent (memsetEdm S e value) :=
  endsEvent_bind fun _ => endsEvent_retEvent

theorem endsEvent_copyEdm {dbg : Bool} {S : Schema} {src dst : EdmView} (h : oneBlock src dst = false ∨ src.payload.capacity ≠ 0) :
    EndsEvent (copyEdm dbg S src dst) := by
  unfold copyEdm
  split
  · rename_i h1
    rw [h1] at h
    rw [if_neg (by simpa using h)]
    exact endsEvent_bind fun _ => endsEvent_bind fun _ => endsEvent_retEvent
  · exact endsEvent_bind fun _ => endsEvent_retEvent

theorem endsEvent_copyEdmFromHost {dbg : Bool} {S : Schema} {sizes addrs : List (List Nat)} {dst : EdmView} :
    EndsEvent (copyEdmFromHost dbg S sizes addrs dst) := by
  intro s e s' h
  unfold copyEdmFromHost at h
  cases hd : hostData S sizes addrs with
  | ok src =>
    rw [hd, run_bind_ok (p := .ret (.ok src)) rfl] at h
    refine endsEvent_copyEdm (.inl ?_) s e s' h
    unfold hostData at hd
    cases hn : getHostSize (List.zipWith Var.outerSize S sizes) 0 false with
    | ok n => rw [hn] at hd; cases hd; simp [oneBlock]
    | _ => rw [hn] at hd; cases hd
  | _ => rw [hd] at h; cases h

theorem endsEvent_copyEdmToHost {dbg : Bool} {S : Schema} {src : EdmView} {place : List (List Nat) → List (List Nat)} :
    EndsEvent (copyEdmToHost dbg S src place) := by
  refine endsEvent_bind fun sizes => ?_
  intro s e s' h
  cases hd : hostData S sizes (place sizes) with
  | ok dst =>
    rw [hd, run_bind_ok (p := .ret (.ok dst)) rfl] at h
    refine endsEvent_copyEdm (.inl ?_) s e s' h
    unfold hostData at hd
    cases hn : getHostSize (List.zipWith Var.outerSize S sizes) 0 false with
    | ok n => rw [hn] at hd; cases hd; simp [oneBlock]
    | _ => rw [hn] at hd; cases hd
  | _ => rw [hd] at h; cases h

/-- What a call does when it is not the first. -/
theorem run_of_result {f : Prog Nat} {m m' : Mem} (hs : Same AnyNumber f f) (hl : Lib f EventOk) (hr : f.result m = (.ok (), m')) (d : Nat) :
    ∃ e d', f.run ⟨m, [], d⟩ = (.ok e, ⟨m', [], d'⟩) := by
  obtain ⟨h1, h2, -⟩ := hs.run m [] 0 d
  simp only [Prog.result, Prod.mk.injEq] at hr
  obtain ⟨r1, r2⟩ := hr
  rw [r2] at h2
  have hub : (f.run ⟨m, [], d⟩).1 ≠ .ub := by
    rcases h1 with ⟨b, b', -, e2, -⟩ | ⟨e1, e2⟩
    · rw [e2]; simp
    · intro hc
      rw [e1, hc] at r1
      cases r1
  cases hrun : f.run ⟨m, [], d⟩ with
  | mk r t =>
    rw [hrun] at h1 h2 hub
    obtain ⟨P', -, h3, -⟩ := (hl ⟨m, [], d⟩ [] .nil (by rw [hrun]; exact hub)).post
    rw [hrun] at h3
    obtain ⟨mt, Lt, dt⟩ := t
    have hL : Lt = [] := List.length_eq_zero_iff.1 h3
    simp only at h2
    subst h2
    subst hL
    rcases h1 with ⟨b, b', -, e2, -⟩ | ⟨e1, e2⟩
    · simp only at e2
      exact ⟨b', dt, by rw [e2]⟩
    · exfalso
      rw [e1] at r1
      simp only at r1 e1
      cases hr : r with
      | ok b => exact e2 b (by rw [e1, hr])
      | _ => rw [hr] at r1; cases r1

/-- A call that succeeds, in a stream. -/
theorem call_plan {f : Prog Nat} {m m' : Mem} {F : Nat → Prop} (hs : Same AnyNumber f f) (hl : Lib f EventOk)
    (hr : f.result m = (.ok (), m')) (he : EndsEvent f ∨ f = retNoEvent) (hf : ∀ d, Foot R W f ⟨m, [], d⟩)
    (hF : ∀ x, R x ∨ W x → F x) (d : Nat) (P : List COp) (hP : Slotted P 0) :
    Safe f (CallPost F (.ok ()) m' P) ⟨m, [], d⟩ P := by
  obtain ⟨e, d', h1⟩ := run_of_result hs hl hr d
  refine call_safe_ok hl ⟨.ok e, d', h1, rfl⟩ ?_ ?_ P hP
  · intro e' s' hrun
    rcases he with he | rfl
    · exact .inl (he _ _ _ hrun)
    · exact .inr rfl
  · intro op ho
    exact fun x hx => hF x ((hf d).pend (P := []) (by simp) op ho x hx)

theorem call_works {f : Prog Nat} {m m' : Mem} (hs : Same AnyNumber f f) (hl : Lib f EventOk)
    (hr : f.result m = (.ok (), m')) (he : EndsEvent f) (d : Nat) (x : Res Nat) (s' : DState) (h : f.run ⟨m, [], d⟩ = (x, s')) :
    x = .ub ∨ x = .ok s'.done := by
  obtain ⟨e, d', h1⟩ := run_of_result hs hl hr d
  have h2 := he _ _ _ h1
  rw [h1] at h
  cases h
  exact .inr (by rw [h2])

/-! ## Memory -/

theorem foot_assertion {dbg c : Bool} {k : Prog β} {s : DState} (h : Foot R W k s) : Foot R W (assertion dbg c k) s := by
  unfold assertion
  split
  · trivial
  · exact h

theorem foot_discard {p : Prog Nat} {s : DState} (h : Foot R W p s) : Foot R W (p.bind (discard false)) s := h.bind fun _ _ _ => trivial

theorem foot_setupEdm {dbg : Bool} {e : EdmView} {m : Mem} {L : List Local} {d : Nat}
    (h1 : e.layout.ptr ≠ e.hostLayout.ptr → e.hostLayout.sizePtr = 0 ∧ e.layout.sizePtr = 0 ∧ (∀ x, e.hostLayout.bytes.At x → R x) ∧
      ∀ x, e.layout.bytes.At x → W x) (h2 : ∀ x, e.size.bytes.At x → W x) : Foot R W (setupEdm dbg e) ⟨m, L, d⟩ := by
  unfold setupEdm
  split
  · trivial
  · refine Foot.bind ?_ fun _ s _ => Foot.bind ?_ fun _ _ _ => trivial
    · unfold setupLayout
      split
      · rename_i hne
        obtain ⟨g1, g2, g3, g4⟩ := h1 hne
        refine foot_assertion (Foot.bind (foot_copyView (by simp [View.len, g1]) ?_ ?_) fun _ _ _ => foot_assertion trivial)
        · rintro x (hx | hx)
          · exact g3 x ⟨hx.1, by have := hx.2; simp only [View.bytes]; omega⟩
          · exact absurd g1 hx.1
        · rintro x (hx | hx)
          · exact g4 x ⟨hx.1, by have := hx.2; simp only [View.bytes]; omega⟩
          · exact absurd g2 hx.1
      · trivial
    · unfold setupSizes
      split
      · exact foot_assertion (foot_memset (fun x a b => h2 x ⟨a, b⟩) fun _ => trivial)
      · trivial

theorem foot_memsetVars (value : UInt8) : ∀ {S : Schema} {xs : List VarView} {s : DState}, VarsPlaced S xs →
    (∀ x, VarsHave S xs x → W x) → Foot R W (memsetVars value S xs) s := by
  intro S
  induction S with
  | nil => intro xs s _ _; unfold memsetVars; trivial
  | cons v S ih =>
    intro xs s hp hW
    cases xs with
    | nil => unfold memsetVars; trivial
    | cons x xs =>
      unfold memsetVars
      obtain ⟨-, -, hpl⟩ := hp.each 0 v x rfl rfl
      have hx : ∀ r ∈ x.rows, ∀ a, r.HasPayload v.type.size a → W a := fun r hr a ha =>
        hW a ⟨0, v, x, rfl, rfl, .inl ⟨r, hr, ha⟩⟩
      refine Foot.bind ?_ fun _ _ _ => ih hp.tail fun a ha => hW a (varsHave_cons.2 (.inr ha))
      cases x with
      | scalar p =>
        refine foot_memset (fun y h1 h2 => hx ⟨1, 0, p⟩ (by simp [VarView.rows]) y ⟨h1, by simpa using h2⟩) fun _ => trivial
      | vector w => exact foot_discard (foot_memsetVec fun y hy => hx w (by simp [VarView.rows]) y hy)
      | jagged j => exact foot_discard (foot_memsetJag (fun w hw y hy => hx w hw y hy) fun w hw => (hpl.placed w hw).ptr)

theorem foot_memsetEdm {S : Schema} {e : EdmView} {value : UInt8} {s : DState} (hp : VarsPlaced S e.vars)
    (hW : ∀ x, EdmHas S e x → W x) : Foot R W (memsetEdm S e value) s := by
  unfold memsetEdm
  refine Foot.bind ?_ fun _ _ _ => trivial
  split
  · refine foot_discard (foot_memsetVec fun x hx => hW x (.inr (.inl ⟨hx.1, ?_⟩)))
    have := hx.2
    simp only [View.bytes]
    omega
  · exact foot_memsetVars value hp fun x hx => hW x (.inl hx)

theorem foot_copyVar {dbg : Bool} {t : Nat} {x y : VarView} {m : Mem} {L : List Local} {d : Nat} (hs : JagValid m t x.rows)
    (hd : WordsAdjacent y.rows) (hx : ∀ a, x.Has t a → R a) (hy : ∀ a, y.Has t a → W a) : Foot R W (copyVar dbg t x y) ⟨m, L, d⟩ := by
  simp only [VarView.has_iff] at hx hy
  cases x <;> cases y <;> simp only [copyVar]
  · rename_i p q
    refine foot_copy (fun a h1 h2 => hx a ⟨⟨1, 0, p⟩, by simp [VarView.rows], .inl ⟨h1, by simpa using h2⟩⟩)
      (fun a h1 h2 => hy a ⟨⟨1, 0, q⟩, by simp [VarView.rows], .inl ⟨h1, by simpa using h2⟩⟩) fun _ => trivial
  · trivial
  · trivial
  · trivial
  · rename_i v w
    exact Foot.bind (foot_copyView (hs.sizes v (by simp [VarView.rows])) (fun a ha => hx a ⟨v, by simp [VarView.rows], ha⟩)
      fun a ha => hy a ⟨w, by simp [VarView.rows], ha⟩) fun _ _ _ => trivial
  · trivial
  · trivial
  · trivial
  · exact Foot.bind (foot_copyViewJag hs hd hx hy) fun _ _ _ => trivial

theorem Foot.memEq {p : Prog β} {m : Mem} {L : List Local} {d : Nat} {b : β} {t : DState} (h : Foot R W p ⟨m, L, d⟩)
    (hr : p.run ⟨m, L, d⟩ = (.ok b, t)) (hRW : ∀ x, R x → ¬ W x) : ∀ x, R x → t.mem x = m x := by
  intro x hx
  have := h.mem (hRW x hx)
  rw [hr] at this
  exact this

theorem foot_copyVars {dbg : Bool} (hRW : ∀ x, R x → ¬ W x) : ∀ {S : Schema} {xs ys : List VarView} {m : Mem} {L : List Local} {d : Nat},
    VarsValid m S xs → VarsPlaced S ys → (∀ a, VarsHave S xs a → R a) → (∀ a, VarsHave S ys a → W a) →
    Foot R W (copyVars dbg S xs ys) ⟨m, L, d⟩ := by
  intro S
  induction S with
  | nil => intro xs ys m L d _ _ _ _; unfold copyVars; trivial
  | cons v S ih =>
    intro xs ys m L d hs hp hR hW
    cases xs with
    | nil => unfold copyVars; trivial
    | cons x xs =>
      cases ys with
      | nil => unfold copyVars; trivial
      | cons y ys =>
        unfold copyVars
        have hx := hs.head
        have hy := hp.each 0 v y rfl rfl
        have h1 : Foot R W (copyVar dbg v.type.size x y) ⟨m, L, d⟩ := foot_copyVar hx.2.2 hy.2.2.words
          (fun a ha => hR a (varsHave_cons.2 (.inl ha))) (fun a ha => hW a (varsHave_cons.2 (.inl ha)))
        refine h1.bind fun b t ht => ?_
        obtain ⟨mt, Lt, dt⟩ := t
        have hm := h1.memEq ht hRW
        exact ih (hs.tail.congr fun a ha => hm a (hR a (varsHave_cons.2 (.inr ha)))) hp.tail
          (fun a ha => hR a (varsHave_cons.2 (.inr ha))) (fun a ha => hW a (varsHave_cons.2 (.inr ha)))

theorem foot_copyJagSizes : ∀ {xs ys : List VarView} {s : DState}, (∀ x ∈ xs, WordsAdjacent x.rows) → (∀ y ∈ ys, WordsAdjacent y.rows) →
    (∀ x ∈ xs, ∀ a, x.HasWord a → R a) → (∀ y ∈ ys, ∀ a, y.HasWord a → W a) → Foot R W (copyJagSizes xs ys) s := by
  intro xs
  induction xs with
  | nil => intros; unfold copyJagSizes; trivial
  | cons x xs ih =>
    intro ys s h1 h2 h3 h4
    cases ys with
    | nil => unfold copyJagSizes; trivial
    | cons y ys =>
      unfold copyJagSizes
      refine Foot.bind ?_ fun _ _ _ => ih (fun x hx => h1 x (List.mem_cons_of_mem _ hx)) (fun x hx => h2 x (List.mem_cons_of_mem _ hx))
        (fun x hx => h3 x (List.mem_cons_of_mem _ hx)) (fun x hx => h4 x (List.mem_cons_of_mem _ hx))
      split
      · rename_i j k
        refine (foot_getSizes (h1 _ List.mem_cons_self) (fun u hu a ha => h3 _ List.mem_cons_self a ⟨u, hu, ha⟩) _).bind fun _ _ _ => ?_
        exact foot_setSizesAndWait (h2 _ List.mem_cons_self) (fun u hu a ha => h4 _ List.mem_cons_self a ⟨u, hu, ha⟩) _
      · trivial

/-- Views of blocks of bytes have no size words. -/
structure Plain (S : Schema) (e : EdmView) : Prop where
  size : e.size.sizePtr = 0
  payload : e.payload.sizePtr = 0
  word : e.size.ptr ≠ 0 → S.hasJagged = false → e.size.capacity = 4

theorem bytes_has {v : View} (h : v.sizePtr = 0) {x : Nat} (hx : v.Has 1 x) : v.bytes.At x := by
  rcases hx with hx | hx
  · refine ⟨hx.1, ?_⟩
    have := hx.2
    simp only [View.bytes]
    omega
  · exact absurd h hx.1

theorem varsPlaced_words {S : Schema} {xs : List VarView} (h : VarsPlaced S xs) : ∀ x ∈ xs, WordsAdjacent x.rows := by
  intro x hx
  obtain ⟨i, hi⟩ := List.mem_iff_getElem?.1 hx
  have hlt : i < S.length := by rw [← h.count]; exact (List.getElem?_eq_some_iff.1 hi).1
  exact (h.each i _ x (List.getElem?_eq_getElem hlt) hi).2.2.words

theorem varsPlaced_word {S : Schema} {xs : List VarView} (h : VarsPlaced S xs) : ∀ x ∈ xs, ∀ a, x.HasWord a → VarsHave S xs a := by
  intro x hx a ha
  obtain ⟨i, hi⟩ := List.mem_iff_getElem?.1 hx
  have hlt : i < S.length := by rw [← h.count]; exact (List.getElem?_eq_some_iff.1 hi).1
  exact ⟨i, _, x, List.getElem?_eq_getElem hlt, hi, .inr ha⟩

theorem foot_copyEdmSizes {S : Schema} {src dst : EdmView} {m : Mem} {L : List Local} {d : Nat} (hsp : Plain S src) (hdp : Plain S dst)
    (hs : VarsPlaced S src.vars) (hd : VarsPlaced S dst.vars) (hR : ∀ a, EdmHas S src a → R a) (hW : ∀ a, EdmHas S dst a → W a) :
    Foot R W (copyEdmSizes S src dst) ⟨m, L, d⟩ := by
  unfold copyEdmSizes
  split
  · rename_i h0
    split
    · split
      · trivial
      · exact Foot.bind (foot_copyView (by simp [View.len, hsp.size]) (fun x hx => hR x (.inr (.inr (bytes_has hsp.size hx))))
          fun x hx => hW x (.inr (.inr (bytes_has hdp.size hx)))) fun _ _ _ => trivial
    · unfold copySizes
      split
      · exact foot_copyJagSizes (varsPlaced_words hs) (varsPlaced_words hd) (fun x hx a ha => hR a (.inl (varsPlaced_word hs x hx a ha)))
          (fun x hx a ha => hW a (.inl (varsPlaced_word hd x hx a ha)))
      · rename_i hj
        refine Foot.scope fun t ht => ⟨fun x hx => hx.elim, fun x hx => hW x (.inr (.inr ⟨hx.1, ?_⟩)), trivial⟩
        simp only [View.bytes]
        rw [hdp.word h0 (by simpa using hj)]
        exact hx.2
  · trivial

theorem foot_copyEdm {dbg : Bool} {S : Schema} {src dst : EdmView} {m : Mem} {L : List Local} {d : Nat} (hRW : ∀ x, R x → ¬ W x)
    (hsp : Plain S src) (hdp : Plain S dst) (hs : VarsValid m S src.vars) (hd : VarsPlaced S dst.vars)
    (hR : ∀ a, EdmHas S src a → R a) (hW : ∀ a, EdmHas S dst a → W a) : Foot R W (copyEdm dbg S src dst) ⟨m, L, d⟩ := by
  unfold copyEdm
  split
  · split
    · trivial
    · refine Foot.bind (foot_copyView (by simp [View.len, hsp.payload]) (fun x hx => hR x (.inr (.inl (bytes_has hsp.payload hx))))
        fun x hx => hW x (.inr (.inl (bytes_has hdp.payload hx)))) fun _ t _ => ?_
      obtain ⟨mt, Lt, dt⟩ := t
      exact Foot.bind (foot_copyEdmSizes hsp hdp hs.toVarsPlaced hd hR hW) fun _ _ _ => trivial
  · exact Foot.bind (foot_copyVars hRW hs hd (fun a ha => hR a (.inl ha)) fun a ha => hW a (.inl ha)) fun _ _ _ => trivial

theorem foot_hostSizesVars : ∀ {xs : List VarView} {s : DState}, (∀ x ∈ xs, WordsAdjacent x.rows) →
    (∀ x ∈ xs, ∀ a, x.HasWord a → R a) → Foot R W (hostSizesVars xs) s := by
  intro xs
  induction xs with
  | nil => intros; trivial
  | cons x xs ih =>
    intro s h1 h2
    unfold hostSizesVars
    refine Foot.bind ?_ fun _ _ _ => Foot.bind (ih (fun x hx => h1 x (List.mem_cons_of_mem _ hx))
      (fun x hx => h2 x (List.mem_cons_of_mem _ hx))) fun _ _ _ => trivial
    have h3 : ∀ u ∈ x.rows, ∀ a, u.HasWord a → R a := fun u hu a ha => h2 x List.mem_cons_self a ⟨u, hu, ha⟩
    cases x with
    | scalar p => trivial
    | vector v => exact Foot.bind (foot_getSize (h3 v (by simp [VarView.rows])) _) fun _ _ _ => trivial
    | jagged j => exact foot_getSizes (h1 _ List.mem_cons_self) h3 _

theorem foot_hostSizes {dbg : Bool} {S : Schema} {src : EdmView} {s : DState} (hsp : Plain S src) (hs : VarsPlaced S src.vars)
    (hR : ∀ a, EdmHas S src a → R a) : Foot R W (hostSizes dbg S src) s := by
  unfold hostSizes
  split
  · exact foot_hostSizesVars (varsPlaced_words hs) fun x hx a ha => hR a (.inl (varsPlaced_word hs x hx a ha))
  · rename_i hj
    refine Foot.bind ?_ fun _ _ _ => trivial
    unfold getSizeEdm
    split
    · trivial
    · split
      · trivial
      · rename_i h0
        refine foot_assertion (Foot.scope fun t ht => ⟨fun x hx => .inl (hR x (.inr (.inr ⟨hx.1, ?_⟩))), fun x hx => hx.elim,
          fun l hl => trivial⟩)
        simp only [View.bytes]
        rw [hsp.word h0 (by simpa using hj)]
        exact hx.2

theorem hostData_plain {S : Schema} {sizes addrs : List (List Nat)} {e : EdmView} (h : hostData S sizes addrs = .ok e) :
    Plain S e ∧ e.vars = hostVars S sizes addrs ∧ ∀ a, EdmHas S e a → VarsHave S (hostVars S sizes addrs) a := by
  unfold hostData at h
  cases hn : getHostSize (List.zipWith Var.outerSize S sizes) 0 false with
  | ok n =>
    rw [hn] at h
    cases h
    refine ⟨⟨rfl, rfl, fun h => absurd rfl h⟩, rfl, ?_⟩
    rintro a (h | h | h)
    · exact h
    · simp [View.bytes, Blk.At] at h
    · simp [View.bytes, Blk.At] at h
  | _ => rw [hn] at h; cases h

theorem foot_copyEdmFromHost {dbg : Bool} {S : Schema} {sizes addrs : List (List Nat)} {dst : EdmView} {m : Mem} {L : List Local} {d : Nat}
    (hRW : ∀ x, R x → ¬ W x) (hdp : Plain S dst) (hs : VarsValid m S (hostVars S sizes addrs)) (hd : VarsPlaced S dst.vars)
    (hR : ∀ a, VarsHave S (hostVars S sizes addrs) a → R a) (hW : ∀ a, EdmHas S dst a → W a) :
    Foot R W (copyEdmFromHost dbg S sizes addrs dst) ⟨m, L, d⟩ := by
  unfold copyEdmFromHost
  refine Foot.bind (p := .ret _) trivial fun e t ht => ?_
  simp only [run, Prod.mk.injEq] at ht
  obtain ⟨h1, rfl⟩ := ht
  obtain ⟨g1, g2, g3⟩ := hostData_plain h1
  exact foot_copyEdm hRW g1 hdp (by rw [g2]; exact hs) hd (fun a ha => hR a (g3 a ha)) hW

theorem foot_copyEdmToHost {dbg : Bool} {S : Schema} {src : EdmView} {addrs : List (List Nat)} {m : Mem} {L : List Local} {d : Nat}
    (hRW : ∀ x, R x → ¬ W x) (hsp : Plain S src) (hs : VarsValid m S src.vars) (h1 : OneSize S src)
    (hd : VarsPlaced S (hostVars S (rowSizes m src.vars) addrs))
    (hR : ∀ a, EdmHas S src a → R a) (hW : ∀ a, VarsHave S (hostVars S (rowSizes m src.vars) addrs) a → W a) :
    Foot R W (copyEdmToHost dbg S src fun _ => addrs) ⟨m, L, d⟩ := by
  unfold copyEdmToHost
  refine (foot_hostSizes hsp hs.toVarsPlaced hR).bind fun ns t ht => ?_
  obtain ⟨d', e⟩ := hostSizes_does (dbg := dbg) hs h1 L d
  rw [e] at ht
  cases ht
  refine Foot.bind (p := .ret _) trivial fun e t ht => ?_
  simp only [run, Prod.mk.injEq] at ht
  obtain ⟨h1, rfl⟩ := ht
  obtain ⟨g1, g2, g3⟩ := hostData_plain h1
  exact foot_copyEdm hRW hsp g1 hs (by rw [g2]; exact hd) hR (fun a ha => hW a (g3 a ha))

end Vecmem
