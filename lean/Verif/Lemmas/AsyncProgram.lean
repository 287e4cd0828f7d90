import Verif.Lemmas.AsyncPipeline
import Verif.Spec.AsyncProgram
import Verif.Model.JagPipeline
import Verif.Props.C41_AsyncCopy

/-! # Lemmas about programs on a stream, for whatever steps -/

namespace Vecmem

open Prog IntMath Props

variable {β γ : Type}

/-! ## The host's writes -/

/-- The memory after writes of the host. -/
def pokeMem (m : Mem) : List (Nat × Nat × Mem) → Mem
  | [] => m
  | (a, n, b) :: ws => pokeMem (memPut m a n b 0) ws

/-- The byte is written. -/
def PokeHas (ws : List (Nat × Nat × Mem)) (x : Nat) : Prop := ∃ w ∈ ws, w.1 ≤ x ∧ x < w.1 + w.2.1

theorem pokeMem_append (ws ws' : List (Nat × Nat × Mem)) (m : Mem) : pokeMem m (ws ++ ws') = pokeMem (pokeMem m ws) ws' := by
  induction ws generalizing m with
  | nil => rfl
  | cons w ws ih => exact ih _

theorem safe_pokes {Q : Res β → DState → List COp → Prop} {k : Prog β} {L : List Local} {d : Nat} {P : List COp} :
    ∀ {ws : List (Nat × Nat × Mem)} {m : Mem}, (∀ op ∈ P, ∀ x, PokeHas ws x → ¬ (op.Reads x ∨ op.Writes x)) →
      Safe k Q ⟨pokeMem m ws, L, d⟩ P → Safe (pokes ws k) Q ⟨m, L, d⟩ P := by
  intro ws
  induction ws with
  | nil => exact fun _ h => h
  | cons w ws ih =>
    intro m hf h
    obtain ⟨a, n, b⟩ := w
    exact ⟨fun op ho x hx => hf op ho x ⟨_, List.mem_cons_self, hx⟩,
      ih (fun op ho x hx => hf op ho x (by obtain ⟨w, hw, hx⟩ := hx; exact ⟨w, List.mem_cons_of_mem _ hw, hx⟩)) h⟩

theorem run_pokes {k : Prog β} {L : List Local} {d : Nat} : ∀ (ws : List (Nat × Nat × Mem)) (m : Mem),
    (pokes ws k).run ⟨m, L, d⟩ = k.run ⟨pokeMem m ws, L, d⟩ := by
  intro ws
  induction ws with
  | nil => exact fun _ => rfl
  | cons w ws ih =>
    intro m
    obtain ⟨a, n, b⟩ := w
    exact ih _

theorem memPut_le (m : Mem) (a k v : Nat) : memPut m a k (fun i => UInt8.ofNat (v / 256 ^ i)) 0 = writeLE m a k v := by
  funext x
  simp only [memPut, writeLE, Nat.zero_add]

theorem pokeMem_views (m : Mem) (p : Nat) (vs : List View) : pokeMem m (viewPokes p vs) = writeViews m p vs := by
  induction vs generalizing m p with
  | nil => rfl
  | cons v vs ih =>
    simp only [viewPokes, pokeMem, writeViews, memPut_le]
    exact ih _ _

theorem memPut_elems (t : Nat) (m : Mem) (a : Nat) (l : List Elem) :
    memPut m a (l.length * t) (fun i => (l.getD (i / t) []).getD (i % t) 0) 0 = Pipe.putElems t m a l := by
  funext x
  simp only [memPut, Pipe.putElems, Nat.zero_add]

theorem pokeMem_rows (t : Nat) : ∀ (m : Mem) (as : List Nat) (ls : List (List Elem)),
    pokeMem m (rowPokes t as ls) = JPipe.putRows t m as ls := by
  intro m as
  induction as generalizing m with
  | nil => exact fun _ => rfl
  | cons a as ih =>
    intro ls
    cases ls with
    | nil => rfl
    | cons l ls =>
      simp only [rowPokes, elemPokes, pokeMem, JPipe.putRows, memPut_elems]
      exact ih _ _

theorem viewPokes_has {p : Nat} {vs : List View} {x : Nat} (h : PokeHas (viewPokes p vs) x) :
    p ≤ x ∧ x < p + vs.length * viewSize := by
  induction vs generalizing p with
  | nil => obtain ⟨w, hw, -⟩ := h; cases hw
  | cons v vs ih =>
    have hv : viewSize = 24 := rfl
    have hl : (v :: vs).length * viewSize = vs.length * viewSize + 24 := by simp [Nat.add_mul, hv]
    obtain ⟨w, hw, h1, h2⟩ := h
    simp only [viewPokes, List.mem_cons] at hw
    rcases hw with rfl | rfl | rfl | hw
    · simp only at h1 h2; omega
    · simp only at h1 h2; omega
    · simp only at h1 h2; omega
    · have := ih ⟨w, hw, h1, h2⟩
      omega

theorem rowPokes_has {t : Nat} {as : List Nat} {ls : List (List Elem)} {x : Nat} (h : PokeHas (rowPokes t as ls) x) :
    ∃ (r a : Nat) (l : List Elem), as[r]? = some a ∧ ls[r]? = some l ∧ a ≤ x ∧ x < a + l.length * t := by
  induction as generalizing ls with
  | nil => obtain ⟨w, hw, -⟩ := h; cases hw
  | cons a as ih =>
    cases ls with
    | nil => obtain ⟨w, hw, -⟩ := h; cases hw
    | cons l ls =>
      obtain ⟨w, hw, h1, h2⟩ := h
      simp only [rowPokes, List.mem_cons] at hw
      rcases hw with rfl | hw
      · exact ⟨0, a, l, rfl, rfl, h1, h2⟩
      · obtain ⟨r, a', l', k1, k2, k3⟩ := ih ⟨w, hw, h1, h2⟩
        exact ⟨r + 1, a', l', by simpa using k1, by simpa using k2, k3⟩

theorem pokeHas_append {ws ws' : List (Nat × Nat × Mem)} {x : Nat} (h : PokeHas (ws ++ ws') x) : PokeHas ws x ∨ PokeHas ws' x := by
  obtain ⟨w, hw, h⟩ := h
  rcases List.mem_append.1 hw with hw | hw
  · exact .inl ⟨w, hw, h⟩
  · exact .inr ⟨w, hw, h⟩

/-! ## Calls -/

/-- A call that does not throw, in this state; compare `call_safe`. -/
theorem call_safe_ok {f : Prog Nat} {m m' : Mem} {F : Nat → Prop} (hl : Lib f EventOk) {d : Nat}
    (ha : ∃ x d', f.run ⟨m, [], d⟩ = (x, ⟨m', [], d'⟩) ∧ x.map (fun _ => ()) = .ok ())
    (hq : ∀ e s', f.run ⟨m, [], d⟩ = (.ok e, s') → e = s'.done ∨ pendAfter f ⟨m, [], d⟩ [] = [])
    (hF : ∀ op ∈ pendAfter f ⟨m, [], d⟩ [], op.Within F) (P : List COp)
    (hP : Slotted P 0) : Safe f (CallPost F (.ok ()) m' P) ⟨m, [], d⟩ P := by
  obtain ⟨x, d', hrun, hx⟩ := ha
  cases x with
  | ok e =>
    have h1 := (hl ⟨m, [], d⟩ P hP (by rw [hrun]; simp)).withRun.withPend
    have hq' := hq e _ hrun
    refine h1.mono ?_
    rintro x' s' P' ⟨⟨⟨g1, g2, g3⟩, g4⟩, g5⟩
    rw [hrun] at g4
    simp only [Prod.mk.injEq] at g4
    obtain ⟨rfl, rfl⟩ := g4
    subst g5
    refine ⟨hx, rfl, rfl, g1, fun op ho => ?_, fun hne => absurd rfl (hne e), ?_⟩
    · rcases pend_new f _ P ho with h | h
      · exact .inl h
      · exact .inr (hF op h)
    · rintro e' he
      cases he
      refine ⟨g3 e rfl, fun op ho => ?_⟩
      rcases hq' with h0 | h0
      · rw [h0] at ho
        simp at ho
      · rcases pend_new f _ P (List.mem_of_mem_drop ho) with h | h
        · exact h
        · rw [h0] at h
          cases h
  | _ => simp [Res.map] at hx

/-- A step without operations. -/
theorem ret_safe {F : Nat → Prop} {r : Res Nat} (hr : r ≠ .ub) (he : ∀ e, r = .ok e → e = 0) {m : Mem} {d : Nat} {P : List COp}
    (hP : Slotted P 0) : Safe (.ret r) (CallPost F (r.map fun _ => ()) m P) ⟨m, [], d⟩ P := by
  refine ⟨hr, rfl, rfl, rfl, hP, fun op ho => .inl ho, fun _ op ho => ho, ?_⟩
  intro e h
  cases he e h
  exact ⟨Nat.zero_le _, fun op ho => List.mem_of_mem_drop ho⟩

/-- A kernel: `f` may depend on the memory it reads or writes, and changes only what it writes. -/
theorem kernel_safe {rd wr : Nat → Bool} {f : Mem → Option Mem} {m m' mk : Mem} {F : Nat → Prop}
    (hf : f (kernelMem m rd wr) = some mk) (h1 : ∀ x, wr x = true → mk x = m' x) (h2 : ∀ x, wr x = false → m' x = m x)
    (hF : ∀ x, rd x = true ∨ wr x = true → F x) {d : Nat} {P : List COp} (hP : Slotted P 0) :
    Safe (.issue (.kernel rd wr f) retEvent) (CallPost F (.ok ()) m' P) ⟨m, [], d⟩ P := by
  refine ⟨⟨m', [], d + 1⟩, ?_, by simp, ?_⟩
  · simp only [COp.exec, hf, Option.map_some, Option.some.injEq, DState.mk.injEq, and_true]
    funext x
    split
    · rename_i hx
      exact h1 x hx
    · rename_i hx
      exact (h2 x (by simpa using hx)).symm
  · refine ⟨rfl, rfl, rfl, hP.append (.one fun i hi => hi.elim), fun o ho => ?_, fun hne => absurd rfl (hne _), ?_⟩
    · rcases List.mem_append.1 ho with h | h
      · exact .inl h
      · rw [List.mem_singleton.1 h]
        refine .inr ?_
        rintro x ((hx | hx) | hx)
        · exact hF x (.inl hx)
        · exact hF x (.inr hx)
        · exact hF x (.inr hx)
    · rintro e he
      cases he
      exact ⟨Nat.le_refl _, fun o ho => by simp at ho⟩

/-! ## Whole programs -/

variable {S Op Out A : Type}

/-- What is to be shown of a step. -/
structure PlanOk (Y : StreamSys S Op Out) (plan : A → Op → A × Prog Nat) (host : S → A) (Inv : S → Prop) (p : S) (op : Op) : Prop where
  inv : Inv (Y.exec p op).2
  defined : (Y.exec p op).1 ≠ .ub
  next : (plan (host p) op).1 = host (Y.exec p op).2
  safe : ∀ (d : Nat) (P : List COp), Slotted P 0 → (∀ o ∈ P, ∀ x, Y.Pokes p op x → ¬ (o.Reads x ∨ o.Writes x)) →
    Safe (plan (host p) op).2 (CallPost (Y.Uses p op) ((Y.exec p op).1.map fun _ => ()) (Y.mem (Y.exec p op).2) P) ⟨Y.mem p, [], d⟩ P
  works : Y.Works p op → ∀ (d : Nat) x s', (plan (host p) op).2.run ⟨Y.mem p, [], d⟩ = (x, s') → x = .ub ∨ x = .ok s'.done

/-- What is known after a call, as `CallPost`; but if `L`, then something may be pending after an exception. -/
structure LeavePost (L : Prop) (F : Nat → Prop) (r : Res Unit) (m' : Mem) (P : List COp) (x : Res Nat) (s' : DState) (P' : List COp) :
    Prop where
  res : x.map (fun _ => ()) = r
  mem : s'.mem = m'
  locals : s'.locals = []
  slots : Slotted P' 0
  own : ∀ op ∈ P', op ∈ P ∨ op.Within F
  exc : (∀ e, x ≠ .ok e) → ¬ L → ∀ op ∈ P', op ∈ P
  event : ∀ e, x = .ok e → ¬ L ∧ e ≤ s'.done ∧ ∀ op ∈ P'.drop (P'.length - (s'.done - e)), op ∈ P

theorem CallPost.leaves {L : Prop} {F : Nat → Prop} {r : Res Unit} {m' : Mem} {P : List COp} {x : Res Nat} {s' : DState} {P' : List COp}
    (hL : ¬ L) (h : CallPost F r m' P x s' P') : LeavePost L F r m' P x s' P' :=
  ⟨h.res, h.mem, h.locals, h.slots, h.own, fun he _ => h.exc he, fun e he => ⟨hL, h.event e he⟩⟩

/-- What is to be shown of a step that may leave operations behind. -/
structure PlanLeaves (Y : StreamSys S Op Out) (plan : A → Op → A × Prog Nat) (host : S → A) (Inv : S → Prop) (p : S) (op : Op) : Prop where
  inv : Inv (Y.exec p op).2
  defined : (Y.exec p op).1 ≠ .ub
  next : (plan (host p) op).1 = host (Y.exec p op).2
  safe : ∀ (d : Nat) (P : List COp), Slotted P 0 → (∀ o ∈ P, ∀ x, Y.Pokes p op x → ¬ (o.Reads x ∨ o.Writes x)) →
    Safe (plan (host p) op).2 (LeavePost (Y.Leaves p op) (Y.Uses p op) ((Y.exec p op).1.map fun _ => ()) (Y.mem (Y.exec p op).2) P)
      ⟨Y.mem p, [], d⟩ P
  works : Y.Works p op → ∀ (d : Nat) x s', (plan (host p) op).2.run ⟨Y.mem p, [], d⟩ = (x, s') → x = .ub ∨ x = .ok s'.done

theorem PlanOk.leaves {Y : StreamSys S Op Out} {plan : A → Op → A × Prog Nat} {host : S → A} {Inv : S → Prop} {p : S} {op : Op}
    (h : PlanOk Y plan host Inv p op) (hL : ¬ Y.Leaves p op) : PlanLeaves Y plan host Inv p op :=
  ⟨h.inv, h.defined, h.next, fun d P hP hb => (h.safe d P hP hb).mono fun _ _ _ hq => hq.leaves hL, h.works⟩

/-- The invariant of the host: what is pending uses busy memory only. -/
theorem host_safe {Y : StreamSys S Op Out} {plan : A → Op → A × Prog Nat} {host : S → A} {Inv : S → Prop}
    (hstep : ∀ p op, Inv p → Y.May p op → PlanLeaves Y plan host Inv p op) :
    ∀ (ops : List (HostAct Op)) (p : S) (busy : Nat → Prop) (out : List (Res (List UInt8))) (d : Nat) (P : List COp), Inv p →
    Y.Fits p busy ops → Slotted P 0 → (∀ op ∈ P, op.Within busy) →
    Safe (hostStream plan ops (host p) out) (fun r s' P' => P' = [] ∧ s'.locals = [] ∧ s'.mem = Y.mem (Y.run p ops).2 ∧
      r = .ok (out ++ (Y.run p ops).1, host (Y.run p ops).2)) ⟨Y.mem p, [], d⟩ P := by
  intro ops
  induction ops with
  | nil =>
    intro p busy out d P _ _ _ _
    rw [hostStream]
    exact safe_sync ⟨by simp, rfl, rfl, rfl, by simp [StreamSys.run]⟩
  | cons o ops ih =>
    intro p busy out d P hinv hf hP hb
    cases o with
    | sync =>
      rw [hostStream]
      refine safe_sync ((ih p _ (out ++ [.ok []]) d [] hinv hf .nil (by simp)).mono ?_)
      rintro r s' P' ⟨h1, h2, h3, h4⟩
      exact ⟨h1, h2, h3, by rw [h4]; simp [StreamSys.run]⟩
    | look a n =>
      rw [hostStream]
      have hbytes : (List.range n).map (fun i => if i < n then Y.mem p (a + i) else 0) = bytesAt (Y.mem p) a n := by
        unfold bytesAt
        apply List.map_congr_left
        intro i hi
        rw [if_pos (List.mem_range.1 hi)]
      refine ⟨fun op ho x hx hw => hf.1 x hx.1 hx.2 (hb op ho x (.inr hw)), ?_⟩
      refine (ih p busy _ d P hinv hf.2 hP hb).mono ?_
      rintro r s' P' ⟨h1, h2, h3, h4⟩
      refine ⟨h1, h2, h3, ?_⟩
      rw [h4]
      simp [StreamSys.run, hbytes]
    | step op w =>
      obtain ⟨hf1, hf2, hf3⟩ := hf
      obtain ⟨hi, hub, hnext, hsafe, hworks⟩ := hstep p op hinv hf1
      have h1 := hsafe d P hP fun o ho x hx hrw => hf2 x hx (hb o ho x hrw)
      rw [hostStream, hnext]
      apply Safe.attempt
      refine h1.withRun.mono ?_
      rintro x ⟨m', L', d'⟩ P' ⟨⟨g1, g2, g3, g4, g5, g6, g7⟩, grun⟩
      have gev := fun hw => hworks hw d _ _ grun
      simp only at g2 g3 gev
      subst g3
      have hcont : ∀ P2, Slotted P2 0 → (∀ o ∈ P2, o.Within fun x => busy x ∧ ¬ (w = true ∧ Y.Works p op) ∨
            (w = false ∨ Y.Leaves p op) ∧ Y.Uses p op x) →
          Safe (hostStream plan ops (host (Y.exec p op).2) (out ++ [(Y.exec p op).1.map fun _ => []])) (fun r s' P' => P' = [] ∧
            s'.locals = [] ∧ s'.mem = Y.mem (Y.run p (.step op w :: ops)).2 ∧
            r = .ok (out ++ (Y.run p (.step op w :: ops)).1, host (Y.run p (.step op w :: ops)).2)) ⟨m', [], d'⟩ P2 := by
        intro P2 hP2 hb2
        have := ih (Y.exec p op).2 _ (out ++ [(Y.exec p op).1.map fun _ => []]) d' P2 hi hf3 hP2 hb2
        rw [← g2] at this
        refine this.mono ?_
        rintro r s' P'' ⟨k1, k2, k3, k4⟩
        exact ⟨k1, k2, k3, by rw [k4]; simp [StreamSys.run]⟩
      have hres : ((Y.exec p op).1.map fun _ => ([] : List UInt8)) = x.map fun _ => [] := by
        have := congrArg (fun r : Res Unit => r.map fun _ => ([] : List UInt8)) g1
        simp only [Res.map_map] at this
        exact this.symm
      rw [hres] at hcont
      have hxub : x ≠ .ub := by
        rintro rfl
        exact map_unit_ne hub g1.symm
      cases x with
      | ok e =>
        obtain ⟨-, e1, e2⟩ := g7 e rfl
        cases w with
        | true =>
          refine ⟨e1, hcont _ g4.drop fun o ho => ?_⟩
          by_cases hw : Y.Works p op
          · rcases gev hw with h | h
            · cases h
            · cases h
              simp at ho
          · exact within_mono (fun x hx => .inl ⟨hx, fun h => hw h.2⟩) (hb o (e2 o ho))
        | false =>
          refine hcont _ g4 fun o ho => ?_
          rcases g5 o ho with h | h
          · exact within_mono (fun x hx => .inl ⟨hx, by simp⟩) (hb o h)
          · exact within_mono (fun x hx => .inr ⟨.inl rfl, hx⟩) h
      | ub => exact absurd rfl hxub
      | _ =>
        refine hcont _ g4 fun o ho => ?_
        have hnw : ¬ (w = true ∧ Y.Works p op) := fun hw => by rcases gev hw.2 with h | h <;> cases h
        by_cases hL : Y.Leaves p op
        · rcases g5 o ho with h | h
          · exact within_mono (fun x hx => .inl ⟨hx, hnw⟩) (hb o h)
          · exact within_mono (fun x hx => .inr ⟨.inr hL, hx⟩) h
        · exact within_mono (fun x hx => .inl ⟨hx, hnw⟩) (hb o (g6 (by simp) hL o ho))

/-- Everything about a program on a stream, from what is known of its steps. -/
theorem host_stream {Y : StreamSys S Op Out} {plan : A → Op → A × Prog Nat} {host : S → A} {Inv : S → Prop}
    (hstep : ∀ p op, Inv p → Y.May p op → PlanLeaves Y plan host Inv p op) {p : S} (hinv : Inv p) {ops : List (HostAct Op)}
    (hf : Y.Fits p (fun _ => False) ops) {d : AConf _} (h : ASteps (AConf.start (hostStream plan ops (host p) []) (Y.mem p)) d) :
    ¬ Race d ∧ ¬ Undefined d ∧ ((∃ r, d.prog = .ret r ∧ d.queue = []) ∨ ∃ d', AStep d d') ∧
    ∀ r, d.prog = .ret r → d.queue = [] ∧ ∃ rs p', Y.run p ops = (rs, p') ∧ r = .ok (rs, host p') ∧ d.st.mem = Y.mem p' := by
  have hsafe := host_safe hstep ops p (fun _ => False) [] 0 [] hinv hf .nil (by simp)
  obtain ⟨s, P, h1, h2⟩ := AInv.steps (c := AConf.start (hostStream plan ops (host p) []) (Y.mem p)) ⟨hsafe, List.suffix_rfl, rfl⟩ h
  obtain ⟨g1, g2, g3⟩ := h1.fine
  refine ⟨g1, g2, ?_, ?_⟩
  · rcases g3 with ⟨⟨r, hr⟩, hq⟩ | hd
    · exact .inl ⟨r, hr, hq⟩
    · exact .inr hd
  · intro r hr
    have h3 := h1.safe
    rw [hr] at h3
    obtain ⟨-, k1, k2, k3, k4⟩ := h3
    have hq : d.queue = [] := by
      have := h1.suffix
      rw [k1] at this
      exact List.suffix_nil.1 this
    have hx := h1.exec
    rw [hq] at hx
    simp only [execAll, Option.some.injEq] at hx
    refine ⟨hq, _, _, rfl, ?_, ?_⟩
    · rw [k4]; simp
    · rw [hx, k3]

/-- Every execution ends. -/
theorem host_terminates (k : Prog β) (m : Mem) : ¬ ∃ f : Nat → AConf β, f 0 = AConf.start k m ∧ ∀ i, AStep (f i) (f (i + 1)) := by
  rintro ⟨f, h0, hf⟩
  have : ∀ c, Acc (fun d c => AStep c d) c → ∀ i, f i ≠ c := by
    intro c hc
    induction hc with
    | intro c _ ih =>
      rintro i rfl
      exact ih (f (i + 1)) (hf i) (i + 1) rfl
  exact this _ (acc_conf _ _ _) 0 h0

/-- The invariant of the program whose steps are complete when they return. -/
theorem host_inv {Y : StreamSys S Op Out} {Inv : S → Prop} (hstep : ∀ p op, Inv p → Y.May p op → Inv (Y.exec p op).2) :
    ∀ (ops : List (HostAct Op)) (p : S) (busy : Nat → Prop), Inv p → Y.Fits p busy ops → Inv (Y.run p ops).2 := by
  intro ops
  induction ops with
  | nil => exact fun p busy h _ => h
  | cons o ops ih =>
    intro p busy h hf
    cases o with
    | sync => exact ih p _ h hf
    | look a n => exact ih p busy h hf.2
    | step op w => exact ih _ _ (hstep p op h hf.1) hf.2.2

theorem StreamSys.run_append (Y : StreamSys S Op Out) : ∀ (ops ops' : List (HostAct Op)) (p : S),
    Y.run p (ops ++ ops') = ((Y.run p ops).1 ++ (Y.run (Y.run p ops).2 ops').1, (Y.run (Y.run p ops).2 ops').2) := by
  intro ops
  induction ops with
  | nil => exact fun _ _ => rfl
  | cons o ops ih =>
    intro ops' p
    cases o <;> simp only [List.cons_append, StreamSys.run, ih]

theorem StreamSys.fits_append {Y : StreamSys S Op Out} : ∀ {ops ops' : List (HostAct Op)} {p : S} {busy : Nat → Prop},
    Y.Fits p busy (ops ++ ops') → ∃ busy', Y.Fits p busy ops ∧ Y.Fits (Y.run p ops).2 busy' ops' := by
  intro ops
  induction ops with
  | nil => exact fun h => ⟨_, trivial, h⟩
  | cons o ops ih =>
    intro ops' p busy h
    cases o with
    | sync => obtain ⟨b, h1, h2⟩ := ih h; exact ⟨b, h1, h2⟩
    | look a n => obtain ⟨b, h1, h2⟩ := ih h.2; exact ⟨b, ⟨h.1, h1⟩, h2⟩
    | step op w => obtain ⟨b, h1, h2⟩ := ih h.2.2; exact ⟨b, ⟨h.1, h.2.1, h1⟩, h2⟩

end Vecmem
