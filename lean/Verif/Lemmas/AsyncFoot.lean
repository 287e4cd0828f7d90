import Verif.Lemmas.AsyncProgram
import Verif.Lemmas.CopyJagged

/-! # Lemmas about the memory that the functions of `vecmem::copy` use -/

namespace Vecmem

open Prog IntMath

variable {β γ : Type} {R W : Nat → Prop}

/-- When the program runs, its operations read only memory in `R` or `W`, and write only memory in `W`. -/
def Foot (R W : Nat → Prop) : Prog β → DState → Prop
  | .ret _, _ => True
  | .issue op k, s => ∀ t, op.exec s = some t → (∀ x, op.Reads x → R x ∨ W x) ∧ (∀ x, op.Writes x → W x) ∧ Foot R W k t
  | .event k, s => Foot R W (k s.done) s
  | .wait _ k, s => Foot R W k s
  | .new l k, s => Foot R W (k s.locals.length) { s with locals := s.locals ++ [l] }
  | .read i k, s => ∀ l, s.locals[i]? = some l → Foot R W (k l.bytes) s
  | .drop k, s => Foot R W k { s with locals := s.locals.dropLast }
  | .load p n k, s => Foot R W (k fun i => if i < n then s.mem (p + i) else 0) s
  | .poke p n b k, s => (∀ x, p ≤ x → x < p + n → W x) ∧ Foot R W k { s with mem := memPut s.mem p n b 0 }

theorem Foot.bind {p : Prog β} {f : β → Prog γ} {s : DState} (h : Foot R W p s)
    (hf : ∀ b t, p.run s = (.ok b, t) → Foot R W (f b) t) : Foot R W (p.bind f) s := by
  induction p generalizing s with
  | ret r =>
    cases r with
    | ok b => exact hf b s rfl
    | _ => trivial
  | issue op k ih =>
    intro t ht
    obtain ⟨h1, h2, h3⟩ := h t ht
    exact ⟨h1, h2, ih h3 fun b u hu => hf b u (by simp only [run, ht]; exact hu)⟩
  | event k ih => exact ih _ h hf
  | wait e k ih => exact ih h hf
  | new l k ih => exact ih _ h hf
  | read i k ih =>
    intro l hl
    exact ih _ (h l hl) fun b u hu => hf b u (by simp only [run, hl]; exact hu)
  | drop k ih => exact ih h hf
  | load p n k ih => exact ih _ h hf
  | poke p n b k ih => exact ⟨h.1, ih h.2 hf⟩

theorem Foot.thenDrop {p : Prog β} {s : DState} (h : Foot R W p s) : Foot R W p.thenDrop s := by
  induction p generalizing s with
  | ret r => trivial
  | issue op k ih =>
    intro t ht
    obtain ⟨h1, h2, h3⟩ := h t ht
    exact ⟨h1, h2, ih h3⟩
  | event k ih => exact ih _ h
  | wait e k ih => exact ih h
  | new l k ih => exact ih _ h
  | read i k ih => exact fun l hl => ih _ (h l hl)
  | drop k ih => exact ih h
  | load p n k ih => exact ih _ h
  | poke p n b k ih => exact ⟨h.1, ih h.2⟩

theorem Foot.scope {body : Nat → Prog β} {l : Local} {s : DState}
    (h : Foot R W (body s.locals.length) { s with locals := s.locals ++ [l] }) : Foot R W (Prog.scope l body) s :=
  Foot.thenDrop h

theorem Foot.sync {k : Prog β} {s : DState} (h : Foot R W k s) : Foot R W (Prog.sync k) s := h

/-- An operation changes only memory that it writes. -/
theorem exec_other {op : COp} {s t : DState} (h : op.exec s = some t) {x : Nat} (hx : ¬ op.Writes x) : t.mem x = s.mem x := by
  cases op with
  | copy n src dst =>
    simp only [COp.exec] at h
    split at h
    · cases h
    · cases h
      simp only [memCopy]
      exact if_neg hx
  | memset n dst v =>
    simp only [COp.exec, Option.some.injEq] at h
    subst h
    simp only [memFill]
    exact if_neg hx
  | fetch slot off n src =>
    simp only [COp.exec] at h
    split at h
    · split at h
      · cases h; rfl
      · cases h
    · cases h
  | store slot off n dst =>
    simp only [COp.exec] at h
    split at h
    · split at h
      · cases h
        simp only [memPut]
        exact if_neg hx
      · cases h
    · cases h
  | kernel rd wr f =>
    simp only [COp.exec] at h
    obtain ⟨m, -, rfl⟩ := Option.map_eq_some_iff.1 h
    simp only
    exact if_neg hx

/-- Other memory does not change. -/
theorem Foot.mem {p : Prog β} {s : DState} (h : Foot R W p s) {x : Nat} (hx : ¬ W x) : (p.run s).2.mem x = s.mem x := by
  induction p generalizing s with
  | ret r => rfl
  | issue op k ih =>
    simp only [run]
    cases hop : op.exec s with
    | none => rfl
    | some t =>
      obtain ⟨-, h2, h3⟩ := h t hop
      simp only
      rw [ih h3, exec_other hop fun hw => hx (h2 x hw)]
  | event k ih => exact ih _ h
  | wait e k ih => exact ih h
  | new l k ih => exact ih _ h
  | read i k ih =>
    simp only [run]
    cases hl : s.locals[i]? with
    | none => rfl
    | some l => exact ih _ (h l hl)
  | drop k ih => exact ih h
  | load p n k ih => exact ih _ h
  | poke p n b k ih =>
    simp only [run]
    rw [ih h.2]
    simp only [memPut]
    rw [if_neg fun hc => hx (h.1 x hc.1 hc.2)]

/-- What is pending uses only this memory. -/
theorem Foot.pend {p : Prog β} {s : DState} (h : Foot R W p s) {P : List COp} (hP : ∀ op ∈ P, op.Within fun x => R x ∨ W x) :
    ∀ op ∈ pendAfter p s P, op.Within fun x => R x ∨ W x := by
  induction p generalizing s P with
  | ret r => exact hP
  | issue op k ih =>
    simp only [pendAfter]
    cases hop : op.exec s with
    | none => exact hP
    | some t =>
      obtain ⟨h1, h2, h3⟩ := h t hop
      refine ih h3 fun o ho => ?_
      rcases List.mem_append.1 ho with ho | ho
      · exact hP o ho
      · rw [List.mem_singleton.1 ho]
        rintro x (hx | hx)
        · exact h1 x hx
        · exact .inr (h2 x hx)
  | event k ih => exact ih _ h hP
  | wait e k ih => exact ih h fun o ho => hP o (List.mem_of_mem_drop ho)
  | new l k ih => exact ih _ h hP
  | read i k ih =>
    simp only [pendAfter]
    cases hl : s.locals[i]? with
    | none => exact hP
    | some l => exact ih _ (h l hl) hP
  | drop k ih => exact ih h hP
  | load p n k ih => exact ih _ h hP
  | poke p n b k ih => exact ih h.2 hP

/-! ## Vectors -/

theorem foot_retEvent {s : DState} : Foot R W retEvent s := trivial

theorem foot_retNoEvent {s : DState} : Foot R W retNoEvent s := trivial

theorem foot_copy {n src dst : Nat} {k : Prog β} {s : DState} (h1 : ∀ x, src ≤ x → x < src + n → R x) (h2 : ∀ x, dst ≤ x → x < dst + n → W x)
    (hk : ∀ d, Foot R W k ⟨memCopy s.mem dst src n, s.locals, d⟩) : Foot R W (.issue (.copy n src dst) k) s := by
  intro t ht
  simp only [COp.exec] at ht
  split at ht
  · cases ht
  · cases ht
    exact ⟨fun x hx => .inl (h1 x hx.1 hx.2), fun x hx => h2 x hx.1 hx.2, hk _⟩

theorem foot_memset {n dst : Nat} {v : UInt8} {k : Prog β} {s : DState} (h2 : ∀ x, dst ≤ x → x < dst + n → W x)
    (hk : ∀ d, Foot R W k ⟨memFill s.mem dst v n, s.locals, d⟩) : Foot R W (.issue (.memset n dst v) k) s := by
  intro t ht
  simp only [COp.exec, Option.some.injEq] at ht
  subst ht
  exact ⟨fun x hx => hx.elim, fun x hx => h2 x hx.1 hx.2, hk _⟩

theorem foot_getSize {v : View} (h : ∀ x, v.HasWord x → R x) (s : DState) : Foot R W (getSize v) s := by
  unfold getSize
  split
  · trivial
  · rename_i h0
    refine Foot.scope fun t ht => ⟨fun x hx => .inl (h x ⟨h0, hx⟩), fun x hx => hx.elim, ?_⟩
    exact fun l hl => trivial

theorem foot_putSize {n : Nat} {v : View} (h : ∀ x, v.HasWord x → W x) (s : DState) : Foot R W (putSize n v) s := by
  unfold putSize
  split
  · trivial
  · rename_i h0
    exact Foot.scope fun t ht => ⟨fun x hx => hx.elim, fun x hx => h x ⟨h0, hx⟩, trivial⟩

theorem foot_copyView {t : Nat} {v w : View} {m : Mem} {L : List Local} {d : Nat} (hlen : v.len m ≤ v.capacity)
    (hv : ∀ x, v.Has t x → R x) (hw : ∀ x, w.Has t x → W x) : Foot R W (copyView t v w) ⟨m, L, d⟩ := by
  unfold copyView
  refine (foot_getSize (fun x hx => hv x (.inr hx)) _).bind fun n u hu => ?_
  obtain ⟨d', e⟩ := getSize_does v m L d
  rw [e] at hu
  cases hu
  split
  · trivial
  · split
    · trivial
    · rename_i h1 h2
      refine (foot_putSize (fun x hx => hw x (.inr hx)) _).bind fun n u hu => ?_
      have hle : ∀ c, v.len m ≤ c → wrap64 (v.len m * t) ≤ c * t := fun c hc =>
        Nat.le_trans (wrap64_le _) (Nat.mul_le_mul_right t hc)
      refine foot_copy (fun x h3 h4 => hv x (.inl ⟨h3, ?_⟩)) (fun x h3 h4 => hw x (.inl ⟨h3, ?_⟩)) fun _ => trivial
      · have := hle v.capacity hlen; omega
      · have := hle w.capacity (by omega); omega

theorem foot_memsetVec {t : Nat} {v : View} {x : UInt8} {s : DState} (hv : ∀ x, v.HasPayload t x → W x) :
    Foot R W (memsetVec t v x) s := by
  unfold memsetVec
  split
  · trivial
  · refine foot_memset (fun y h1 h2 => hv y ⟨h1, ?_⟩) fun _ => trivial
    have := wrap64_le (v.capacity * t)
    omega

/-! ## Jagged vectors -/

/-- A contiguous array of vectors has no gaps. -/
theorem contiguous_has {t : Nat} : ∀ {vs : List View} {v : View} {x : Nat}, isContiguous t (v :: vs) = true → v.ptr ≤ x →
    x < v.ptr + ((v :: vs).map (·.capacity)).sum * t → ∃ u ∈ v :: vs, u.HasPayload t x := by
  intro vs
  induction vs with
  | nil =>
    intro v x _ h1 h2
    exact ⟨v, List.mem_cons_self, h1, by simpa using h2⟩
  | cons w vs ih =>
    intro v x hc h1 h2
    simp only [isContiguous, Bool.and_eq_true, beq_iff_eq] at hc
    by_cases h3 : x < v.ptr + v.capacity * t
    · exact ⟨v, List.mem_cons_self, h1, h3⟩
    · rw [List.map_cons, List.sum_cons, Nat.add_mul] at h2
      obtain ⟨u, hu, hx⟩ := ih (v := w) (x := x) hc.2 (by omega) (by omega)
      exact ⟨u, List.mem_cons_of_mem _ hu, hx⟩

theorem contiguous_tail {t : Nat} {v : View} {vs : List View} (h : isContiguous t (v :: vs) = true) : isContiguous t vs = true := by
  cases vs with
  | nil => rfl
  | cons w vs =>
    simp only [isContiguous, Bool.and_eq_true] at h
    exact h.2

theorem foot_memsetFirst {t n : Nat} {x : UInt8} {s : DState} : ∀ {vs : List View}, isContiguous t vs = true →
    n ≤ (vs.map (·.capacity)).sum * t → (∀ v ∈ vs, ∀ x, v.HasPayload t x → W x) → (∀ v ∈ vs, v.capacity ≠ 0 → v.ptr ≠ 0) →
    Foot R W (memsetFirst n x vs) s := by
  intro vs
  induction vs with
  | nil => intros; trivial
  | cons v vs ih =>
    intro hc hn hv hp
    unfold memsetFirst
    split
    · refine foot_memset (fun y h1 h2 => ?_) fun _ => trivial
      obtain ⟨u, hu, hx⟩ := contiguous_has (x := y) hc h1 (by omega)
      exact hv u hu y hx
    · rename_i h0
      have hz : v.capacity = 0 := by
        by_contra hne
        exact h0 ⟨hne, hp v List.mem_cons_self hne⟩
      refine ih (contiguous_tail hc) ?_ (fun u hu => hv u (List.mem_cons_of_mem _ hu)) fun u hu => hp u (List.mem_cons_of_mem _ hu)
      simpa [hz] using hn

theorem foot_memsetEach {t : Nat} {x : UInt8} : ∀ {vs : List View} {s : DState}, (∀ v ∈ vs, ∀ x, v.HasPayload t x → W x) →
    Foot R W (memsetEach t x vs) s := by
  intro vs
  induction vs with
  | nil => intros; trivial
  | cons v vs ih =>
    intro s hv
    unfold memsetEach
    refine foot_memset (fun y h1 h2 => hv v List.mem_cons_self y ⟨h1, ?_⟩) fun _ => ih fun u hu => hv u (List.mem_cons_of_mem _ hu)
    have := wrap64_le (v.capacity * t)
    omega

theorem wrap_sum_le (n t : Nat) : wrap64 (wrap64 n * t) ≤ n * t :=
  Nat.le_trans (wrap64_le _) (Nat.mul_le_mul_right t (wrap64_le n))

theorem foot_memsetJag {t : Nat} {j : JagView} {x : UInt8} {s : DState} (hv : ∀ v ∈ j.views, ∀ x, v.HasPayload t x → W x)
    (hp : ∀ v ∈ j.views, v.capacity ≠ 0 → v.ptr ≠ 0) : Foot R W (memsetJag t j x) s := by
  unfold memsetJag
  split
  · trivial
  · split
    · rename_i h
      exact foot_memsetFirst h (wrap_sum_le _ _) hv hp
    · exact foot_memsetEach hv

/-- Where adjacent size words are. -/
theorem words_has {vs : List View} (h : WordsAdjacent vs) {i : Nat} {v : View} (hi : vs[i]? = some v) (h0 : v.sizePtr ≠ 0) {x : Nat}
    (h1 : v.sizePtr ≤ x) (h2 : x < v.sizePtr + 4 * (vs.length - i)) : ∃ u ∈ vs, u.HasWord x := by
  rcases h with h | ⟨a, ha, h⟩
  · exact absurd (h v (List.mem_of_getElem? hi)) h0
  · have hv := h i v hi
    have hlt : i + (x - v.sizePtr) / 4 < vs.length := by
      have := (List.getElem?_eq_some_iff.1 hi).1
      omega
    have hu := h _ _ (List.getElem?_eq_getElem hlt)
    refine ⟨_, List.getElem_mem hlt, by omega, ?_, ?_⟩ <;> rw [hu] <;> omega

theorem foot_getSizes {vs : List View} (h : WordsAdjacent vs) (hv : ∀ v ∈ vs, ∀ x, v.HasWord x → R x) (s : DState) :
    Foot R W (getSizes vs) s := by
  unfold getSizes
  apply Foot.scope
  split
  · rename_i i hi
    obtain ⟨hlt, h1, -⟩ := List.findIdx?_eq_some_iff_getElem.1 hi
    simp only [decide_eq_true_eq] at h1
    intro t ht
    refine ⟨fun x hx => .inl ?_, fun x hx => hx.elim, fun l hl => trivial⟩
    have hget : vs.getD i ⟨0, 0, 0⟩ = vs[i] := by simp [List.getD, List.getElem?_eq_getElem hlt]
    obtain ⟨h2, h3⟩ := hx
    rw [hget] at h2 h3
    obtain ⟨u, hu, hx⟩ := words_has h (List.getElem?_eq_getElem hlt) h1.2 h2 (by
      have := wrap64_le (4 * (vs.length - i))
      omega)
    exact hv u hu x hx
  · trivial

theorem checkSizes_le : ∀ {vs : List View} {ns : List Nat} {p b : Bool}, checkSizes p vs ns = .ok b →
    ∀ (i : Nat) (v : View) (n : Nat), vs[i]? = some v → ns[i]? = some n → n ≤ v.capacity := by
  intro vs
  induction vs with
  | nil => intro ns p b _ i v n h; simp at h
  | cons w vs ih =>
    intro ns p b h i v n hv hn
    cases ns with
    | nil => simp at hn
    | cons k ns =>
      unfold checkSizes at h
      split at h
      · cases h
      · rename_i h1
        cases i with
        | zero =>
          simp only [List.getElem?_cons_zero, Option.some.injEq] at hv hn
          subst hv
          subst hn
          omega
        | succ i =>
          simp only [List.getElem?_cons_succ] at hv hn
          split at h
          · exact ih h i v n hv hn
          · split at h
            · exact ih h i v n hv hn
            · cases h

theorem checkSizes_words : ∀ {vs : List View} {ns : List Nat} {p : Bool}, checkSizes p vs ns = .ok true → vs.length = ns.length →
    p = true ∧ ∀ v ∈ vs, v.sizePtr ≠ 0 := by
  intro vs
  induction vs with
  | nil =>
    intro ns p h _
    cases ns with
    | nil => simp only [checkSizes, Res.ok.injEq] at h; exact ⟨h, by simp⟩
    | cons => simp at *
  | cons w vs ih =>
    intro ns p h hl
    cases ns with
    | nil => simp at hl
    | cons k ns =>
      simp only [List.length_cons, Nat.add_right_cancel_iff] at hl
      unfold checkSizes at h
      split at h
      · cases h
      · split at h
        · exact absurd (ih h hl).1 (by simp)
        · rename_i h0
          split at h
          · rename_i hp
            refine ⟨hp, ?_⟩
            intro v hv
            rcases List.mem_cons.1 hv with rfl | hv
            · exact h0
            · exact (ih h hl).2 v hv
          · cases h

theorem foot_setSizes {slot : Nat} {ns : List Nat} {vs : List View} (h : WordsAdjacent vs) (hv : ∀ v ∈ vs, ∀ x, v.HasWord x → W x)
    (s : DState) : Foot R W (setSizes slot ns vs) s := by
  unfold setSizes
  split
  · trivial
  · split
    · trivial
    · rename_i h1 h2
      refine Foot.bind (p := .ret _) trivial fun b t hb => ?_
      cases b with
      | false => trivial
      | true =>
        simp only [run, Prod.mk.injEq] at hb
        rw [if_pos rfl]
        have hw := (checkSizes_words hb.1 (by omega)).2
        cases vs with
        | nil => simp at h1 h2; exact absurd h2 h1
        | cons v vs =>
          intro t ht
          refine ⟨fun x hx => hx.elim, fun x hx => ?_, trivial⟩
          obtain ⟨h3, h4⟩ := hx
          simp only [List.getD_cons_zero] at h3 h4
          obtain ⟨u, hu, hx⟩ := words_has (i := 0) h rfl (hw v List.mem_cons_self) h3 (by
            have := wrap64_le (4 * ns.length)
            omega)
          exact hv u hu x hx

theorem setSizes_le {slot : Nat} {ns : List Nat} {vs : List View} {s t : DState} {e : Nat} (h : (setSizes slot ns vs).run s = (.ok e, t)) :
    ∀ (i : Nat) (v : View) (n : Nat), vs[i]? = some v → ns[i]? = some n → n ≤ v.capacity := by
  unfold setSizes at h
  split at h
  · rename_i h1
    intro i v n hv
    rw [List.length_eq_zero_iff.1 h1.2] at hv
    simp at hv
  · split at h
    · cases h
    · cases hc : checkSizes true vs ns with
      | ok b => exact checkSizes_le hc
      | _ => rw [hc] at h; simp [Prog.bind, run] at h

theorem foot_setSizesAndWait {ns : List Nat} {vs : List View} (h : WordsAdjacent vs) (hv : ∀ v ∈ vs, ∀ x, v.HasWord x → W x)
    (s : DState) : Foot R W (setSizesAndWait ns vs) s :=
  Foot.scope ((foot_setSizes h hv _).bind fun _ _ _ => trivial)

theorem foot_copyViews {dbg : Bool} {t : Nat} : ∀ {ns : List Nat} {vs ws : List View} {s : DState},
    (∀ (i : Nat) (v : View) (n : Nat), vs[i]? = some v → ns[i]? = some n → n ≤ v.capacity ∧ ∀ x, v.HasPayload t x → R x) →
    (∀ (i : Nat) (w : View) (n : Nat), ws[i]? = some w → ns[i]? = some n → n ≤ w.capacity ∧ ∀ x, w.HasPayload t x → W x) →
    Foot R W (copyViews dbg t ns vs ws) s := by
  intro ns
  induction ns with
  | nil => intros; trivial
  | cons n ns ih =>
    intro vs ws s h1 h2
    cases vs with
    | nil => trivial
    | cons v vs =>
      cases ws with
      | nil => trivial
      | cons w ws =>
        have hrec : ∀ s, Foot R W (copyViews dbg t ns vs ws) s := fun s =>
          ih (fun i v n a b => h1 (i + 1) v n (by simpa using a) (by simpa using b))
            (fun i v n a b => h2 (i + 1) v n (by simpa using a) (by simpa using b))
        unfold copyViews
        split
        · exact hrec s
        · split
          · trivial
          · obtain ⟨k1, k2⟩ := h1 0 v n rfl rfl
            obtain ⟨k3, k4⟩ := h2 0 w n rfl rfl
            have hle : ∀ c, n ≤ c → wrap64 (n * t) ≤ c * t := fun c hc => Nat.le_trans (wrap64_le _) (Nat.mul_le_mul_right t hc)
            refine foot_copy (fun x h3 h4 => k2 x ⟨h3, ?_⟩) (fun x h3 h4 => k4 x ⟨h3, ?_⟩) fun _ => hrec _
            · have := hle _ k1; omega
            · have := hle _ k3; omega

theorem foot_copyFirst {dbg : Bool} {t total : Nat} : ∀ {vs ws : List View} {s : DState},
    isContiguous t vs = true → isContiguous t (ws.take vs.length) = true → vs.map (·.capacity) = (ws.take vs.length).map (·.capacity) →
    total ≤ (vs.map (·.capacity)).sum * t → (∀ v ∈ vs, ∀ x, v.HasPayload t x → R x) → (∀ w ∈ ws, ∀ x, w.HasPayload t x → W x) →
    Foot R W (copyFirst dbg total (vs.map (·.capacity)) vs ws) s := by
  intro vs
  induction vs with
  | nil => intros; trivial
  | cons v vs ih =>
    intro ws s c1 c2 hc ht hv hw
    cases ws with
    | nil => trivial
    | cons w ws =>
      simp only [List.length_cons, List.take_succ_cons, List.map_cons, List.cons.injEq] at c2 hc
      unfold copyFirst
      simp only [List.map_cons]
      split
      · rename_i h0
        refine ih (contiguous_tail c1) (contiguous_tail c2) hc.2 ?_ (fun u hu => hv u (List.mem_cons_of_mem _ hu))
          fun u hu => hw u (List.mem_cons_of_mem _ hu)
        simpa [h0] using ht
      · split
        · trivial
        · refine foot_copy (fun x h3 h4 => ?_) (fun x h3 h4 => ?_) fun _ => trivial
          · obtain ⟨u, hu, hx⟩ := contiguous_has (x := x) c1 h3 (by omega)
            exact hv u hu x hx
          · obtain ⟨u, hu, hx⟩ := contiguous_has (x := x) c2 h3 (by
              simp only [List.map_cons, ← hc.2, ← hc.1] at ht ⊢
              omega)
            refine hw u ?_ x hx
            rcases List.mem_cons.1 hu with rfl | hu
            · exact List.mem_cons_self
            · exact List.mem_cons_of_mem _ (List.mem_of_mem_take hu)

theorem foot_copyViewJag {dbg : Bool} {t : Nat} {v w : JagView} {m : Mem} {L : List Local} {d : Nat} (hs : JagValid m t v.views)
    (hd : WordsAdjacent w.views) (hv : ∀ x, JagHas t v.views x → R x) (hw : ∀ x, JagHas t w.views x → W x) :
    Foot R W (copyViewJag dbg t v w) ⟨m, L, d⟩ := by
  have hv' : ∀ u ∈ v.views, ∀ x, u.HasPayload t x → R x := fun u hu x hx => hv x ⟨u, hu, .inl hx⟩
  have hw' : ∀ u ∈ w.views, ∀ x, u.HasPayload t x → W x := fun u hu x hx => hw x ⟨u, hu, .inl hx⟩
  unfold copyViewJag
  simp only
  split
  · trivial
  · split
    · trivial
    · refine (foot_getSizes hs.words (fun u hu x hx => hv x ⟨u, hu, .inr hx⟩) _).bind fun ns u hu => ?_
      obtain ⟨d', e⟩ := getSizes_does hs L d
      rw [e] at hu
      cases hu
      refine Foot.scope ((foot_setSizes hd (fun u hu x hx => hw x ⟨u, hu, .inr hx⟩) _).bind fun e u hu => ?_)
      have hle := setSizes_le hu
      refine Foot.bind ?_ fun _ _ _ => trivial
      split
      · rename_i h
        simp only [Bool.and_eq_true, beq_iff_eq] at h
        exact foot_copyFirst h.1.1 h.1.2 h.2 (wrap_sum_le _ _) hv' hw'
      · refine foot_copyViews (fun i u n h1 h2 => ⟨?_, hv' u (List.mem_of_getElem? h1)⟩)
          (fun i u n h1 h2 => ⟨hle i u n h1 h2, hw' u (List.mem_of_getElem? h1)⟩)
        rw [List.getElem?_map, h1] at h2
        cases h2
        exact hs.sizes u (List.mem_of_getElem? h1)

end Vecmem
