import Verif.Spec.AsyncPipeline
import Verif.Lemmas.AsyncCopyUser
import Verif.Lemmas.PipelineSteps

/-! # Lemmas for C64: programs on a stream -/

namespace Vecmem

open IntMath Prog

variable {β γ : Type}

/-! ## catching exceptions -/

theorem Safe.attempt {Q : Res γ → DState → List COp → Prop} {p : Prog β} {f : Res β → Prog γ} {s : DState} {P : List COp}
    (h : Safe p (fun r s' P' => Safe (f r) Q s' P') s P) : Safe (p.attempt f) Q s P := by
  induction p generalizing s P with
  | ret r =>
    cases r with
    | ub => exact absurd rfl h.1
    | _ => exact h.2
  | issue op k ih => obtain ⟨t, h1, h2⟩ := h; exact ⟨t, h1, ih h2⟩
  | event k ih => exact ih _ h
  | wait e k ih => exact ⟨h.1, ih h.2⟩
  | new l k ih => exact ⟨h.1, ih _ h.2⟩
  | read i k ih => obtain ⟨l, h1, h2, h3⟩ := h; exact ⟨l, h1, h2, ih _ h3⟩
  | drop k ih => exact ⟨h.1, ih h.2⟩
  | load p n k ih => exact ⟨h.1, ih _ h.2⟩
  | poke p n b k ih => exact ⟨h.1, ih h.2⟩

/-! ## what is pending after a call -/

/-- What is pending after a program was pending before, or is its own. -/
theorem pend_own (p : Prog β) : ∀ (s : DState) (P O : List COp), ∀ op ∈ pendAfter p s (P ++ O), op ∈ P ∨ op ∈ pendAfter p s O := by
  induction p with
  | ret r => exact fun s P O op h => List.mem_append.1 h
  | issue o k ih =>
    intro s P O op h
    simp only [pendAfter] at h ⊢
    cases hx : o.exec s with
    | none => rw [hx] at h; exact List.mem_append.1 h
    | some t =>
      rw [hx] at h
      rw [show P ++ O ++ [o] = P ++ (O ++ [o]) by simp] at h
      exact ih t P (O ++ [o]) op h
  | event k ih => exact fun s P O op h => ih _ s P O op h
  | wait e k ih =>
    intro s P O op h
    simp only [pendAfter] at h ⊢
    by_cases hk : s.done - e ≤ O.length
    · have : (P ++ O).drop ((P ++ O).length - (s.done - e)) = O.drop (O.length - (s.done - e)) := by
        rw [List.length_append, List.drop_append, List.drop_eq_nil_of_le (by omega), List.nil_append]
        congr 1
        omega
      rw [this] at h
      exact .inr h
    · have h1 : O.length - (s.done - e) = 0 := by omega
      rw [h1, List.drop_zero]
      rw [List.drop_append] at h
      have h2 : (P ++ O).length - (s.done - e) - P.length = 0 := by rw [List.length_append]; omega
      rw [h2, List.drop_zero] at h
      rcases ih s _ _ op h with h | h
      · exact .inl (List.mem_of_mem_drop h)
      · exact .inr h
  | new l k ih => exact fun s P O op h => ih _ _ P O op h
  | read i k ih =>
    intro s P O op h
    simp only [pendAfter] at h ⊢
    cases hx : s.locals[i]? with
    | none => rw [hx] at h; exact List.mem_append.1 h
    | some l => rw [hx] at h; exact ih _ s P O op h
  | drop k ih => exact fun s P O op h => ih _ P O op h
  | load p n k ih => exact fun s P O op h => ih _ _ P O op h
  | poke p n b k ih => exact fun s P O op h => ih _ P O op h

theorem pend_new (p : Prog β) (s : DState) (P : List COp) {op : COp} (h : op ∈ pendAfter p s P) : op ∈ P ∨ op ∈ pendAfter p s [] := by
  have := pend_own p s P [] op
  rw [List.append_nil] at this
  exact this h

/-- The operation uses no other memory. -/
def COp.Within (F : Nat → Prop) (op : COp) : Prop := ∀ x, op.Reads x ∨ op.Writes x → F x

/-- What is known after a call that has result `r` and leaves the memory `m'`: what is pending is what was pending before, or
uses the memory in `F`; after an exception, or once its event was waited for, nothing of it is pending. -/
structure CallPost (F : Nat → Prop) (r : Res Unit) (m' : Mem) (P : List COp) (x : Res Nat) (s' : DState) (P' : List COp) : Prop where
  res : x.map (fun _ => ()) = r
  mem : s'.mem = m'
  locals : s'.locals = []
  slots : Slotted P' 0
  own : ∀ op ∈ P', op ∈ P ∨ op.Within F
  exc : (∀ e, x ≠ .ok e) → ∀ op ∈ P', op ∈ P
  event : ∀ e, x = .ok e → e ≤ s'.done ∧ ∀ op ∈ P'.drop (P'.length - (s'.done - e)), op ∈ P

theorem call_safe_at {f : Prog Nat} {m m' : Mem} {r : Res Unit} {F : Nat → Prop} (hl : Lib f EventOk) (hq : EventQuiet f) {d : Nat}
    (ha : ∃ x d', f.run ⟨m, [], d⟩ = (x, ⟨m', [], d'⟩) ∧ x.map (fun _ => ()) = r) (hr : r ≠ .ub) (hF : ∀ op ∈ pendAfter f ⟨m, [], d⟩ [], op.Within F) (P : List COp)
    (hP : Slotted P 0) : Safe f (CallPost F r m' P) ⟨m, [], d⟩ P := by
  obtain ⟨x, d', hrun, hx⟩ := ha
  have hub : (f.run ⟨m, [], d⟩).1 ≠ .ub := by
    rw [hrun]
    rintro rfl
    exact hr hx.symm
  have h1 := (hl ⟨m, [], d⟩ P hP hub).withRun.withPend
  have hq' := hq ⟨m, [], d⟩ hub
  rw [hrun] at hq'
  refine h1.mono ?_
  rintro x' s' P' ⟨⟨⟨g1, g2, g3⟩, g4⟩, g5⟩
  rw [hrun] at g4
  simp only [Prod.mk.injEq] at g4
  obtain ⟨rfl, rfl⟩ := g4
  subst g5
  refine ⟨hx, rfl, rfl, g1, fun op ho => ?_, fun hne op ho => ?_, ?_⟩
  · rcases pend_new f _ P ho with h | h
    · exact .inl h
    · exact .inr (hF op h)
  · rcases pend_new f _ P ho with h | h
    · exact h
    · have h0 : pendAfter f ⟨m, [], d⟩ [] = [] := by
        cases x with
        | ok e => exact absurd rfl (hne e)
        | _ => exact hq'
      rw [h0] at h
      cases h
  · rintro e rfl
    refine ⟨g3 e rfl, fun op ho => ?_⟩
    rcases hq' with h0 | h0
    · rw [h0] at ho
      simp at ho
    · rcases pend_new f _ P (List.mem_of_mem_drop ho) with h | h
      · exact h
      · rw [h0] at h
        cases h

theorem call_safe {f : Prog Nat} {m m' : Mem} {r : Res Unit} {F : Nat → Prop} (hl : Lib f EventOk) (hq : EventQuiet f)
    (ha : f.Acts m r m') (hr : r ≠ .ub) (d : Nat) (hF : ∀ op ∈ pendAfter f ⟨m, [], d⟩ [], op.Within F) (P : List COp)
    (hP : Slotted P 0) : Safe f (CallPost F r m' P) ⟨m, [], d⟩ P := call_safe_at hl hq (ha [] d) hr hF P hP

/-! ## what calls do, and what they leave pending -/

theorem copyVec_acts (t : Nat) (v w : View) (m : Mem) : ∃ r m', (copyVec t v w).Acts m r m' := by
  have hg := getSize_does v m
  unfold copyVec copyView
  by_cases h0 : v.len m = 0
  · exact ⟨.ok (), m, fun L d => by
      obtain ⟨d', e⟩ := hg L d
      refine ⟨.ok 0, d', ?_, rfl⟩
      rw [bind_assoc, run_bind_ok e]
      simp only [if_pos h0]
      rfl⟩
  by_cases h1 : w.capacity < v.len m
  · exact ⟨.lengthError, m, fun L d => by
      obtain ⟨d', e⟩ := hg L d
      refine ⟨.lengthError, d', ?_, rfl⟩
      rw [bind_assoc, run_bind_ok e]
      simp only [if_neg h0, if_pos h1]
      rfl⟩
  generalize hm1 : (if w.sizePtr = 0 then m else writeLE m w.sizePtr 4 (v.len m)) = m1
  by_cases h2 : overlap (wrap64 (v.len m * t)) v.ptr w.ptr
  · refine ⟨.ub, m1, fun L d => ?_⟩
    obtain ⟨d', e⟩ := hg L d
    obtain ⟨d2, e2⟩ := putSize_does (v.len m) w m L d'
    refine ⟨.ub, d2, ?_, rfl⟩
    rw [bind_assoc, run_bind_ok e]
    simp only [if_neg h0, if_neg h1]
    rw [bind_assoc, run_bind_ok e2, hm1]
    simp only [Prog.bind, run, COp.exec, if_pos h2]
  · refine ⟨.ok (), memCopy m1 w.ptr v.ptr (wrap64 (v.len m * t)), fun L d => ?_⟩
    obtain ⟨d', e⟩ := hg L d
    obtain ⟨d2, e2⟩ := putSize_does (v.len m) w m L d'
    refine ⟨.ok (d2 + 1), d2 + 1, ?_, rfl⟩
    rw [bind_assoc, run_bind_ok e]
    simp only [if_neg h0, if_neg h1]
    rw [bind_assoc, run_bind_ok e2, hm1]
    simp only [Prog.bind, run, COp.exec, if_neg h2]
    rfl

theorem copyToStd_acts (t : Nat) (v : View) (a : Nat) (m : Mem) : ∃ r m', (copyToStd t v fun _ => a).Acts m r m' := by
  have hg := getSize_does v m
  unfold copyToStd
  by_cases h2 : overlap (wrap64 (v.len m * t)) v.ptr a
  · refine ⟨.ub, m, fun L d => ?_⟩
    obtain ⟨d', e⟩ := hg L d
    refine ⟨.ub, d', ?_, rfl⟩
    rw [run_bind_ok e]
    simp only [run, COp.exec, if_pos h2]
  · refine ⟨.ok (), memCopy m a v.ptr (wrap64 (v.len m * t)), fun L d => ?_⟩
    obtain ⟨d', e⟩ := hg L d
    refine ⟨.ok (d' + 1), d' + 1, ?_, rfl⟩
    rw [run_bind_ok e]
    simp only [run, COp.exec, if_neg h2]
    rfl

theorem setupVec_acts (v : View) (m : Mem) : ∃ m', (setupVec v).Acts m (.ok ()) m' := by
  unfold setupVec
  split
  · exact ⟨m, fun L d => ⟨.ok 0, d, rfl, rfl⟩⟩
  · exact ⟨memFill m v.sizePtr 0 4, fun L d => ⟨.ok (d + 1), d + 1, rfl, rfl⟩⟩

theorem memsetVec_acts' (t : Nat) (v : View) (x : UInt8) (m : Mem) : ∃ m', (memsetVec t v x).Acts m (.ok ()) m' := by
  unfold memsetVec
  split
  · exact ⟨m, fun L d => ⟨.ok 0, d, rfl, rfl⟩⟩
  · exact ⟨memFill m v.ptr x (wrap64 (v.capacity * t)), fun L d => ⟨.ok (d + 1), d + 1, rfl, rfl⟩⟩

theorem wrap64_le (n : Nat) : wrap64 n ≤ n := Nat.mod_le _ _

theorem setupVec_pend (v : View) (t : Nat) (s : DState) : ∀ op ∈ pendAfter (setupVec v) s [], op.Within (v.Has t) := by
  unfold setupVec
  split
  · exact fun op h => nomatch h
  · rename_i hz
    intro op h
    simp only [pendAfter, COp.exec, Prog.retEvent, List.nil_append, List.mem_singleton] at h
    subst h
    rintro x (h | h)
    · exact h.elim
    · exact .inr ⟨fun h0 => hz (.inl h0), h⟩

theorem memsetVec_pend (v : View) (t : Nat) (b : UInt8) (s : DState) : ∀ op ∈ pendAfter (memsetVec t v b) s [], op.Within (v.Has t) := by
  unfold memsetVec
  split
  · exact fun op h => nomatch h
  · intro op h
    simp only [pendAfter, COp.exec, Prog.retEvent, List.nil_append, List.mem_singleton] at h
    subst h
    rintro x (h | h)
    · exact h.elim
    · have := wrap64_le (v.capacity * t)
      exact .inl ⟨h.1, by have := h.2; omega⟩

theorem copyVec_pend {v w : View} {t : Nat} {m : Mem} (hv : v.len m ≤ v.capacity) (d : Nat) :
    ∀ op ∈ pendAfter (copyVec t v w) ⟨m, [], d⟩ [], op.Within (fun x => v.Has t x ∨ w.Has t x) := by
  obtain ⟨d', e⟩ := getSize_does v m [] d
  have hq := quiet_getSize v ⟨m, [], d⟩ (by rw [e]; simp)
  unfold copyVec copyView
  rw [bind_assoc, pend_bind_ok e, hq]
  intro op h
  split at h
  · cases h
  · rename_i h0
    split at h
    · cases h
    · rename_i h1
      obtain ⟨d2, e2⟩ := putSize_does (v.len m) w m [] d'
      have hq2 := quiet_putSize (v.len m) w ⟨m, [], d'⟩ (by rw [e2]; simp)
      rw [bind_assoc, pend_bind_ok e2, hq2] at h
      simp only [Prog.bind, pendAfter] at h
      split at h
      · simp only [if_true, Prog.retEvent, pendAfter, List.nil_append, List.mem_singleton] at h
        subst h
        have hw := wrap64_le (v.len m * t)
        rintro x (h | h)
        · have : v.len m * t ≤ v.capacity * t := Nat.mul_le_mul_right _ hv
          exact .inl (.inl ⟨h.1, by have := h.2; omega⟩)
        · have : v.len m * t ≤ w.capacity * t := Nat.mul_le_mul_right _ (by omega)
          exact .inr (.inl ⟨h.1, by have := h.2; omega⟩)
      · cases h

theorem copyToStd_pend {v : View} {t a : Nat} {m : Mem} (hv : v.len m ≤ v.capacity) (d : Nat) :
    ∀ op ∈ pendAfter (copyToStd t v fun _ => a) ⟨m, [], d⟩ [],
      op.Within (fun x => v.Has t x ∨ (a ≤ x ∧ x < a + v.len m * t)) := by
  obtain ⟨d', e⟩ := getSize_does v m [] d
  have hq := quiet_getSize v ⟨m, [], d⟩ (by rw [e]; simp)
  unfold copyToStd
  rw [pend_bind_ok e, hq]
  intro op h
  simp only [pendAfter] at h
  split at h
  · simp only [Prog.retEvent, pendAfter, List.nil_append, List.mem_singleton] at h
    subst h
    have hw := wrap64_le (v.len m * t)
    rintro x (h | h)
    · have : v.len m * t ≤ v.capacity * t := Nat.mul_le_mul_right _ hv
      exact .inl (.inl ⟨h.1, by have := h.2; omega⟩)
    · exact .inr ⟨h.1, by have := h.2; omega⟩
  · cases h

/-! ## kernels -/

variable {σ : Type} {R : Limits} {G : Nat} {ups : Nat → MR σ} {u0 : σ} {c : PipeCfg} {p : Pipe σ} {ready : Nat → Bool}

theorem View.footprint_iff {t : Nat} {v : View} {x : Nat} : v.footprint t x = true ↔ v.Has t x := by
  simp only [View.footprint, View.Has, View.HasPayload, View.HasWord, Bool.or_eq_true, Bool.and_eq_true, decide_eq_true_eq,
    bne_iff_ne, and_assoc]

theorem bufBytes_iff {k x : Nat} : bufBytes c p.bufs k x = true ↔ p.Bytes c k x := by
  unfold bufBytes Pipe.Bytes
  cases p.bufs.lookup k with
  | none => simp
  | some b => simp [View.footprint_iff]

theorem device_congr {dbg : Bool} {dflt : Elem} {t : Nat} {m m' : Mem} {v : View} (h : ∀ x, v.Has t x → m' x = m x) :
    v.device dbg dflt t m' = v.device dbg dflt t m := by
  unfold View.device
  congr 1
  · split
    · rfl
    · rename_i hz
      exact readLE_congr fun x h1 h2 => h x (.inr ⟨hz, h1, h2⟩)
  · funext i
    split
    · rename_i hi
      congr 1
      refine bytesAt_congr fun q hq => h _ (.inl ⟨by omega, ?_⟩)
      have : (i + 1) * t ≤ v.capacity * t := Nat.mul_le_mul_right t hi
      rw [Nat.succ_mul] at this
      omega
    · rfl

theorem reads_congr {m' : Mem} : ∀ {ins : List Nat}, (∀ i ∈ ins, ∀ x, p.Bytes c i x → m' x = p.mem x) →
    Pipe.reads c { p with mem := m' } ins = p.reads c ins := by
  intro ins
  induction ins with
  | nil => exact fun _ => rfl
  | cons i is ih =>
    intro h
    unfold Pipe.reads
    simp only
    cases hb : p.bufs.lookup i with
    | none => rfl
    | some b =>
      simp only [Pipe.device]
      rw [device_congr fun x hx => h i List.mem_cons_self x ⟨b, hb, hx⟩, ih fun j hj => h j (List.mem_cons_of_mem _ hj)]

/-- What a kernel computes depends on the memory it uses only. -/
theorem kernel_congr {ins : List Nat} {k : Nat} {op : PipeOp} {m' : Mem}
    (hop : (∃ f sched, op = .kernel ins k f sched) ∨ ∃ f, op = .single ins k f)
    (h1 : ∀ i ∈ ins, ∀ x, p.Bytes c i x → m' x = p.mem x) (h2 : ∀ x, p.Bytes c k x → m' x = p.mem x) :
    (Pipe.exec c ups { p with mem := m' } op).1 = (p.exec c ups op).1 ∧
    (∀ x, p.Bytes c k x → (Pipe.exec c ups { p with mem := m' } op).2.mem x = (p.exec c ups op).2.mem x) ∧
    (∀ x, ¬ p.Bytes c k x → (p.exec c ups op).2.mem x = p.mem x) ∧
    (p.exec c ups op).2.res = p.res ∧ (p.exec c ups op).2.bufs = p.bufs := by
  have hr := reads_congr (c := c) h1
  rcases hop with ⟨f, sched, rfl⟩ | ⟨f, rfl⟩ <;>
  · simp only [Pipe.exec]
    cases hb : p.bufs.lookup k with
    | none =>
      refine ⟨rfl, ?_, fun _ _ => rfl, rfl, rfl⟩
      rintro x ⟨b, h3, -⟩
      rw [hb] at h3
      cases h3
    | some b =>
      have hd : Pipe.device c { p with mem := m' } k b = p.device c k b :=
        device_congr fun x hx => h2 x ⟨b, hb, hx⟩
      simp only [hr, hd]
      cases p.reads c ins with
      | ok ls =>
        simp only
        refine ⟨trivial, ?_, ?_, trivial, trivial⟩
        · rintro x ⟨b', h3, hx⟩
          rw [hb] at h3
          cases h3
          unfold View.storeDevice
          split
          · rfl
          · rename_i hp
            split
            · exact h2 x ⟨b, hb, hx⟩
            · rename_i hz
              rcases hx with hx | hx
              · exact absurd hx hp
              · unfold writeLE
                rw [if_pos hx.2, if_pos hx.2]
        · intro x hx
          exact storeDevice_other fun hh => hx ⟨b, hb, hh⟩
      | _ => exact ⟨rfl, fun x hx => h2 x hx, fun _ _ => rfl, rfl, rfl⟩

/-! ## steps -/

theorem pipeStep_defined {S S' : Store} {op : PipeOp} {r : Res PipeOut} (h : PipeStep c S op r S') : r ≠ .ub := by
  cases h with
  | copy _ _ _ hc => cases hc <;> simp
  | upload _ _ _ hc => cases hc <;> simp
  | _ => simp

theorem map_unit_ne {β : Type} {r : Res β} (h : r ≠ .ub) : (r.map fun _ => ()) ≠ .ub := by
  cases r with
  | ub => exact absurd rfl h
  | _ => simp [Res.map]

theorem Res.map_map {β γ δ : Type} (r : Res β) (f : β → γ) (g : γ → δ) : (r.map f).map g = r.map fun x => g (f x) := by
  cases r <;> rfl

theorem within_mono {F F' : Nat → Prop} (h : ∀ x, F x → F' x) {op : COp} (ho : op.Within F) : op.Within F' :=
  fun x hx => h x (ho x hx)

/-- What is to be shown of a step that needs the stream. -/
def StreamOk (c : PipeCfg) (ups : Nat → MR σ) (p : Pipe σ) (op : PipeOp) (d : Nat) (P : List COp) : Prop :=
  Safe (streamStep c ups p.res p.bufs op)
    (CallPost (fun x => op.Uses c p x) ((p.exec c ups op).1.map fun _ => ()) (p.exec c ups op).2.mem P) ⟨p.mem, [], d⟩ P ∧
  (p.exec c ups op).2.res = p.res ∧ (p.exec c ups op).2.bufs = p.bufs

theorem onMem_acts {q : Prog Nat} {r : Res Unit} {m' : Mem} (h : q.Acts p.mem r m') :
    p.onMem q = (r.map fun _ => .unit, { p with mem := m' }) := by
  unfold Pipe.onMem
  rw [h.result]

theorem stream_setup {k d : Nat} {P : List COp} {b : VecBuffer} (hb : p.bufs.lookup k = some b) (hP : Slotted P 0) :
    StreamOk c ups p (.setup k) d P := by
  obtain ⟨m', ha⟩ := setupVec_acts b.view p.mem
  unfold StreamOk
  simp only [streamStep, Pipe.exec, hb, onMem_acts ha, Res.map, and_self, and_true]
  refine call_safe (lib_setupVec _) (ends_setupVec _).quiet ha (by simp) d (fun op ho => ?_) P hP
  exact within_mono (fun x hx => .inr ⟨b, hb, hx⟩) (setupVec_pend b.view (c.ty k).size _ op ho)

theorem stream_memset {k d : Nat} {value : UInt8} {P : List COp} {b : VecBuffer} (hb : p.bufs.lookup k = some b)
    (hP : Slotted P 0) : StreamOk c ups p (.memset k value) d P := by
  obtain ⟨m', ha⟩ := memsetVec_acts' (c.ty k).size b.view value p.mem
  unfold StreamOk
  simp only [streamStep, Pipe.exec, hb, onMem_acts ha, Res.map, and_self, and_true]
  refine call_safe (lib_memsetVec _ _ _) (ends_memsetVec _ _ _).quiet ha (by simp) d (fun op ho => ?_) P hP
  exact within_mono (fun x hx => .inr ⟨b, hb, hx⟩) (memsetVec_pend b.view (c.ty k).size value _ op ho)

theorem stream_copy {i j d : Nat} {P : List COp} {a b : VecBuffer} (ha : p.bufs.lookup i = some a) (hb : p.bufs.lookup j = some b)
    (hty : (c.ty i).size = (c.ty j).size) (hlen : a.view.len p.mem ≤ a.view.capacity) (hub : (p.exec c ups (.copy i j)).1 ≠ .ub)
    (hP : Slotted P 0) : StreamOk c ups p (.copy i j) d P := by
  obtain ⟨r, m', hact⟩ := copyVec_acts (c.ty i).size a.view b.view p.mem
  have hub' := map_unit_ne hub
  unfold StreamOk
  simp only [streamStep, Pipe.exec, ha, hb, onMem_acts hact, Res.map_map, and_self, and_true] at hub' ⊢
  rw [show (r.map fun _ => ()) = r by cases r <;> rfl] at hub' ⊢
  refine call_safe (lib_copyVec _ _ _) (eventQuiet_call (.copy _ _ _)) hact hub' d (fun op ho => ?_) P hP
  refine within_mono (fun x hx => .inr ?_) (copyVec_pend hlen d op ho)
  rcases hx with hx | hx
  · exact .inl ⟨a, ha, hx⟩
  · exact .inr ⟨b, hb, hty ▸ hx⟩

theorem stream_upload {at_ k d : Nat} {l : List Elem} {P : List COp} {b : VecBuffer} (hb : p.bufs.lookup k = some b)
    (hub : (p.exec c ups (.upload at_ l k)).1 ≠ .ub) (hP : Slotted P 0)
    (hfree : ∀ op ∈ P, ∀ x, at_ ≤ x ∧ x < at_ + l.length * (c.ty k).size → ¬ (op.Reads x ∨ op.Writes x)) :
    StreamOk c ups p (.upload at_ l k) d P := by
  have hput : memPut p.mem at_ (l.length * (c.ty k).size)
      (fun i => (l.getD (i / (c.ty k).size) []).getD (i % (c.ty k).size) 0) 0 = Pipe.putElems (c.ty k).size p.mem at_ l := by
    funext x
    simp only [memPut, Pipe.putElems, Nat.zero_add]
  obtain ⟨r, m', hact⟩ := copyVec_acts (c.ty k).size ⟨l.length, 0, at_⟩ b.view (Pipe.putElems (c.ty k).size p.mem at_ l)
  have hub' := map_unit_ne hub
  have hon : Pipe.onMem { p with mem := Pipe.putElems (c.ty k).size p.mem at_ l } (copyVec (c.ty k).size ⟨l.length, 0, at_⟩ b.view) =
      (r.map fun _ => .unit, { p with mem := m' }) := onMem_acts hact
  unfold StreamOk
  simp only [streamStep, Pipe.exec, hb, hon, Res.map_map, and_self, and_true] at hub' ⊢
  rw [show (r.map fun _ => ()) = r by cases r <;> rfl] at hub' ⊢
  refine ⟨hfree, ?_⟩
  show Safe _ _ ⟨memPut p.mem at_ _ _ 0, [], d⟩ P
  rw [hput]
  refine call_safe (lib_copyVec _ _ _) (eventQuiet_call (.copy _ _ _)) hact hub' d (fun op ho => ?_) P hP
  refine within_mono (fun x hx => ?_) (copyVec_pend (by simp [View.len]) d op ho)
  rcases hx with hx | hx
  · rcases hx with hx | hx
    · exact .inl hx
    · exact absurd rfl hx.1
  · exact .inr ⟨b, hb, hx⟩

theorem stream_download {k at_ d : Nat} {P : List COp} {b : VecBuffer} (hb : p.bufs.lookup k = some b)
    (hlen : b.view.len p.mem ≤ b.view.capacity) (hub : (p.exec c ups (.download k at_)).1 ≠ .ub)
    (hP : Slotted P 0) : StreamOk c ups p (.download k at_) d P := by
  obtain ⟨r, m', hact⟩ := copyToStd_acts (c.ty k).size b.view at_ p.mem
  have hub' := map_unit_ne hub
  unfold StreamOk
  simp only [streamStep, Pipe.exec, hb, (getSize_does b.view p.mem).value.1, hact.result, Res.map_map, and_self, and_true] at hub' ⊢
  rw [show (r.map fun _ => ()) = r by cases r <;> rfl] at hub' ⊢
  refine call_safe (lib_copyToStd _ _ _) (eventQuiet_call (.toStd _ _ _)) hact hub' d (fun op ho => ?_) P hP
  refine within_mono (fun x hx => ?_) (copyToStd_pend hlen d op ho)
  rcases hx with hx | hx
  · exact .inr ⟨b, hb, hx⟩
  · exact .inl ⟨b, hb, hx⟩

theorem stream_kernel {ins : List Nat} {k d : Nat} {op : PipeOp} {P : List COp}
    (hop : (∃ f sched, op = .kernel ins k f sched) ∨ ∃ f, op = .single ins k f)
    (hok : ∃ x, (p.exec c ups op).1 = .ok x) (hP : Slotted P 0) : StreamOk c ups p op d P := by
  obtain ⟨out, hok⟩ := hok
  generalize hm : kernelMem p.mem (fun x => ins.any (bufBytes c p.bufs · x)) (bufBytes c p.bufs k) = m
  have h1 : ∀ i ∈ ins, ∀ x, p.Bytes c i x → m x = p.mem x := by
    intro i hi x hx
    rw [← hm]
    simp only [kernelMem]
    rw [if_pos]
    rw [Bool.or_eq_true]
    exact .inl (List.any_eq_true.2 ⟨i, hi, bufBytes_iff.2 hx⟩)
  have h2 : ∀ x, p.Bytes c k x → m x = p.mem x := by
    intro x hx
    rw [← hm]
    simp only [kernelMem]
    rw [if_pos]
    rw [Bool.or_eq_true]
    exact .inr (bufBytes_iff.2 hx)
  obtain ⟨k1, k2, k3, k4, k5⟩ := kernel_congr (ups := ups) hop h1 h2
  have hstep : stepMem c ups p.res p.bufs op m = some (Pipe.exec c ups { p with mem := m } op).2.mem := by
    unfold stepMem
    rw [hok] at k1
    generalize Pipe.exec c ups { p with mem := m } op = e at k1
    obtain ⟨e1, e2⟩ := e
    cases k1
    rfl
  have hprog : streamStep c ups p.res p.bufs op =
      .issue (.kernel (fun x => ins.any (bufBytes c p.bufs · x)) (bufBytes c p.bufs k) (stepMem c ups p.res p.bufs op)) retEvent := by
    rcases hop with ⟨f, sched, rfl⟩ | ⟨f, rfl⟩ <;> rfl
  have huse : ∀ x, ((∃ i ∈ ins, p.Bytes c i x) ∨ p.Bytes c k x) → op.Uses c p x := by
    rcases hop with ⟨f, sched, rfl⟩ | ⟨f, rfl⟩ <;> exact fun x hx => .inr hx
  refine ⟨?_, k4, k5⟩
  rw [hprog, hok]
  have hw : COp.Within (fun x => op.Uses c p x)
      (.kernel (fun x => ins.any (bufBytes c p.bufs · x)) (bufBytes c p.bufs k) (stepMem c ups p.res p.bufs op)) := by
    have key : ∀ x, ins.any (bufBytes c p.bufs · x) = true → ∃ i ∈ ins, p.Bytes c i x := fun x hx => by
      obtain ⟨i, hi, h⟩ := List.any_eq_true.1 hx
      exact ⟨i, hi, bufBytes_iff.1 h⟩
    rintro x ((hx | hx) | hx)
    · exact huse x (.inl (key x hx))
    · exact huse x (.inr (bufBytes_iff.1 hx))
    · exact huse x (.inr (bufBytes_iff.1 hx))
  refine ⟨⟨(p.exec c ups op).2.mem, [], d + 1⟩, ?_, by simp, ?_⟩
  · simp only [COp.exec, hm, hstep, Option.map_some, Option.some.injEq, DState.mk.injEq, and_true]
    funext x
    split
    · rename_i hx
      exact k2 x (bufBytes_iff.1 hx)
    · rename_i hx
      exact (k3 x fun h => hx (bufBytes_iff.2 h)).symm
  · refine ⟨rfl, rfl, rfl, hP.append (.one fun i hi => hi.elim), fun o ho => ?_, fun hne => absurd rfl (hne _), ?_⟩
    · rcases List.mem_append.1 ho with h | h
      · exact .inl h
      · rw [List.mem_singleton.1 h]
        exact .inr hw
    · rintro e he
      cases he
      exact ⟨Nat.le_refl _, fun o ho => by simp at ho⟩

/-- A step that needs the stream. -/
def PipeOp.OnStream : PipeOp → Prop
  | .create .. => False
  | .destroy _ => False
  | _ => True

theorem stream_step {T : List (Nat × Blk)} {outside : Nat → Nat → Prop} (h : PipeInv c R ups u0 T p ready) {op : PipeOp} (ho : op.OnStream)
    (hf : op.Fits c R outside (p.store c ready)) (hs : StepOk c R ups u0 T p ready op) {P : List COp} (hP : Slotted P 0)
    (hfree : (∃ at_ l k, op = .upload at_ l k) → ∀ o ∈ P, ∀ x, op.Array c p x → ¬ (o.Reads x ∨ o.Writes x)) (d : Nat) :
    StreamOk c ups p op d P := by
  have hub := pipeStep_defined hs.2.1
  cases op with
  | create => exact ho.elim
  | destroy => exact ho.elim
  | setup k =>
    obtain ⟨v, hv⟩ := hf
    obtain ⟨b, hb⟩ := Pipe.store_exists hv
    exact stream_setup hb hP
  | memset k value =>
    obtain ⟨v, hv⟩ := hf
    obtain ⟨b, hb⟩ := Pipe.store_exists hv
    exact stream_memset hb hP
  | copy i j =>
    obtain ⟨hij, hty, cap, r, l, cap', r', l', h1, h2⟩ := hf
    obtain ⟨a, a1, a2, a3, a4, a5, a6, a7, a8⟩ := h.has h1
    obtain ⟨b, b1, -⟩ := h.has h2
    exact stream_copy a1 b1 hty a7.len hub hP
  | upload at_ l k =>
    obtain ⟨f1, f2, f3, f4, cap, r, l', f5⟩ := hf
    obtain ⟨b, b1, -⟩ := h.has f5
    exact stream_upload b1 hub hP (hfree ⟨at_, l, k, rfl⟩)
  | download k at_ =>
    obtain ⟨cap, r, l, h1, -⟩ := hf
    obtain ⟨b, b1, b2, b3, b4, b5, b6, b7, b8⟩ := h.has h1
    exact stream_download b1 b7.len hub hP
  | kernel ins k f sched =>
    refine stream_kernel (.inl ⟨f, sched, rfl⟩) ?_ hP
    have hps := hs.2.1
    generalize (p.exec c ups (.kernel ins k f sched)).1 = x at hps ⊢
    generalize (p.exec c ups (.kernel ins k f sched)).2.store c _ = S' at hps
    cases hps
    exact ⟨_, rfl⟩
  | single ins k f =>
    refine stream_kernel (.inr ⟨f, rfl⟩) ?_ hP
    have hps := hs.2.1
    generalize (p.exec c ups (.single ins k f)).1 = x at hps ⊢
    generalize (p.exec c ups (.single ins k f)).2.store c _ = S' at hps
    cases hps
    exact ⟨_, rfl⟩

/-! ## events -/

theorem copyVec_records {t : Nat} {v w : View} {m : Mem} (h0 : v.len m ≠ 0) (h1 : v.len m ≤ w.capacity) (d : Nat) {x : Res Nat} {s' : DState}
    (h : (copyVec t v w).run ⟨m, [], d⟩ = (x, s')) : x = .ub ∨ x = .ok s'.done := by
  obtain ⟨d', e⟩ := getSize_does v m [] d
  unfold copyVec copyView at h
  rw [bind_assoc, run_bind_ok e] at h
  simp only [if_neg h0, if_neg (Nat.not_lt.2 h1)] at h
  obtain ⟨d2, e2⟩ := putSize_does (v.len m) w m [] d'
  rw [bind_assoc, run_bind_ok e2] at h
  simp only [Prog.bind, run] at h
  split at h
  · cases h
    exact .inr rfl
  · cases h
    exact .inl rfl

/-- The event of a step that has something to do is recorded after all its operations. -/
theorem works_event {T : List (Nat × Blk)} (hi : PipeInv c R ups u0 T p ready) {op : PipeOp} (hw : op.Works (p.store c ready)) (d : Nat) {x : Res Nat}
    {s' : DState} (h : (streamStep c ups p.res p.bufs op).run ⟨p.mem, [], d⟩ = (x, s')) : x = .ub ∨ x = .ok s'.done := by
  cases op with
  | create => exact hw.elim
  | destroy => exact hw.elim
  | setup k =>
    obtain ⟨cap, vals, hk, hc⟩ := hw
    obtain ⟨b, hb⟩ := Pipe.store_exists hk
    simp only [Pipe.store, hb, Option.map_some, Option.some.injEq, VBuf.mk.injEq] at hk
    obtain ⟨h1, h2, -⟩ := hk
    simp only [streamStep, hb] at h
    rw [setupVec, if_neg] at h
    · cases h
      exact .inr rfl
    · rintro (h0 | h0)
      · rw [h0] at h2
        cases h2
      · exact hc (h1 ▸ h0)
  | memset k value =>
    obtain ⟨cap, r, vals, hk, hc⟩ := hw
    obtain ⟨b, hb⟩ := Pipe.store_exists hk
    simp only [Pipe.store, hb, Option.map_some, Option.some.injEq, VBuf.mk.injEq] at hk
    obtain ⟨h1, -⟩ := hk
    simp only [streamStep, hb] at h
    rw [memsetVec, if_neg (h1 ▸ hc)] at h
    cases h
    exact .inr rfl
  | copy i j =>
    obtain ⟨cap, r, l, cap', r', l', g1, g2, g3, g4⟩ := hw
    obtain ⟨a, a1, a2, a3, a4, a5, a6, a7, a8⟩ := hi.has g1
    obtain ⟨b, b1, -, -, b4, -⟩ := hi.has g2
    simp only [streamStep, a1, b1] at h
    refine copyVec_records ?_ (by rw [a8, b4]; exact g4) d h
    rw [a8]
    exact fun h0 => g3 (List.length_eq_zero_iff.1 h0)
  | upload at_ l k =>
    obtain ⟨cap, r, l', g2, g3, g4⟩ := hw
    obtain ⟨b, b1, -, -, b4, -⟩ := hi.has g2
    simp only [streamStep, b1, run] at h
    refine copyVec_records (v := ⟨l.length, 0, at_⟩) ?_ ?_ d h
    · simpa [View.len] using g3
    · rw [b4]
      simpa [View.len] using g4
  | download k at_ =>
    simp only [streamStep] at h
    split at h
    · cases h
      exact .inl rfl
    · rename_i b hb
      obtain ⟨d', e⟩ := getSize_does b.view p.mem [] d
      unfold copyToStd at h
      rw [run_bind_ok e] at h
      simp only [run] at h
      split at h
      · cases h
        exact .inr rfl
      · cases h
        exact .inl rfl
  | kernel ins k f sched =>
    simp only [streamStep, run] at h
    split at h
    · cases h
      exact .inr rfl
    · cases h
      exact .inl rfl
  | single ins k f =>
    simp only [streamStep, run] at h
    split at h
    · cases h
      exact .inr rfl
    · cases h
      exact .inl rfl

end Vecmem
