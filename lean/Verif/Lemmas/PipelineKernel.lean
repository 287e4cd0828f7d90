import Verif.Spec.Pipeline
import Verif.Lemmas.CopyJagged
import Verif.Props.C29_C31_DeviceVector

/-! # Lemmas for C59: kernels -/

namespace Vecmem

variable {α : Type}

/-! ## Values in the cells -/

/-- Every value that is in a cell, or may get into one by itself, satisfies `P`. -/
structure DV.All (P : α → Prop) (s : DV α) : Prop where
  dflt : P s.dflt
  junk : ∀ i, P (s.junk i)
  mem : ∀ i v, s.mem i = some v → P v

/-- The value of an argument from outside satisfies `P`. -/
def Arg.All (P : α → Prop) : Arg α → Prop
  | .val v => P v
  | .elem _ => True

namespace DV

variable {P : α → Prop}

theorem All.size {s : DV α} (h : s.All P) (n : Nat) : { s with sizeWord := n }.All P := ⟨h.1, h.2, h.3⟩

theorem All.put {s : DV α} (h : s.All P) (pos : Nat) {c : Option α} (hc : ∀ v, c = some v → P v) : (s.put pos c).All P := by
  refine ⟨h.1, h.2, fun i v hv => ?_⟩
  simp only [DV.put] at hv
  split at hv
  · exact hc v hv
  · exact h.3 i v hv

theorem All.read {s : DV α} (h : s.All P) {a : Arg α} (ha : a.All P) {v : α} (hv : s.read a = some v) : P v := by
  cases a with
  | val w => cases Option.some.inj hv; exact ha
  | elem k => exact h.3 k v hv

theorem All.construct {s : DV α} (h : s.All P) (pos : Nat) {a : Arg α} (ha : a.All P) : (s.construct pos a).2.All P := by
  unfold DV.construct
  split
  · exact h
  · split
    · exact h
    · rename_i v hv
      exact h.put pos fun w hw => Option.some.inj hw ▸ h.read ha hv

theorem All.destruct {s : DV α} (h : s.All P) (pos : Nat) : (s.destruct pos).2.All P := by
  unfold DV.destruct
  split
  · exact h
  · split
    · exact h
    · split
      · exact h
      · exact h.put pos (by simp)

theorem All.constructs (n : Nat) : ∀ {s : DV α}, s.All P → ∀ (pos : Nat) {a : Arg α}, a.All P → (s.constructs pos a n).2.All P := by
  induction n with
  | zero => exact fun h _ _ _ => h
  | succ n ih =>
    intro s h pos a ha
    have := h.construct (pos % 2 ^ 32) ha
    unfold DV.constructs
    split
    · rename_i s' e
      rw [e] at this
      exact ih this _ ha
    · exact this

theorem All.destructs (n : Nat) : ∀ {s : DV α}, s.All P → ∀ (pos : Nat), (s.destructs pos n).2.All P := by
  induction n with
  | zero => exact fun h _ => h
  | succ n ih =>
    intro s h pos
    have := h.destruct (pos % 2 ^ 32)
    unfold DV.destructs
    split
    · rename_i s' e
      rw [e] at this
      exact ih this _
    · exact this

theorem All.implicit {s : DV α} (h : s.All P) (pos n : Nat) : (s.implicit pos n).All P := by
  refine ⟨h.1, h.2, fun i v hv => ?_⟩
  simp only [DV.implicit] at hv
  split at hv
  · cases Option.some.inj hv
    cases hm : s.mem i with
    | none => exact h.2 i
    | some w => exact h.3 i w hm
  · exact h.3 i v hv

theorem All.bulkAppend {s : DV α} (h : s.All P) (n : Nat) {a : Arg α} (ha : a.All P) : (s.bulkAppend n a).2.All P := by
  unfold DV.bulkAppend
  split
  · exact h
  · generalize hf : s.fetchAdd n = r
    have hr : r.2.All P := hf ▸ h.size _
    obtain ⟨idx, s1⟩ := r
    simp only at hr ⊢
    split
    · exact hr
    · exact hr.constructs n _ ha

theorem All.clear {s : DV α} (h : s.All P) : s.clear.2.All P := by
  have := h.destructs s.sizeWord 0
  unfold DV.clear
  split
  · exact h
  · split
    · rename_i s' e
      rw [e] at this
      exact this.size 0
    · exact this

theorem All.resize {s : DV α} (h : s.All P) (n : Nat) {a : Arg α} (ha : a.All P) : (s.resize n a).2.All P := by
  have h1 := h.destructs (s.sizeWord - n) n
  have h2 := h.constructs (n - s.sizeWord) s.sizeWord ha
  unfold DV.resize
  split
  · exact h
  · simp only
    split
    · exact h
    · split
      · rename_i s' e
        split at e
        · rw [e] at h1; exact h1.size _
        · rw [e] at h2; exact h2.size _
      · split
        · exact h1
        · exact h2

/-- The values given to an operation satisfy `P`. -/
def _root_.Vecmem.DVOp.All (P : α → Prop) : DVOp α → Prop
  | .push a | .emplace a | .bulkValue _ a | .resizeValue _ a | .assign _ a => a.All P
  | .write _ _ v => P v
  | _ => True

theorem All.step {s : DV α} (h : s.All P) {op : DVOp α} (ho : op.All P) : (s.step op).2.All P := by
  cases op with
  | push a =>
    simp only [DV.step, DV.pushBack]
    split
    · exact h
    · generalize hf : s.fetchAdd 1 = r
      have hr : r.2.All P := hf ▸ h.size _
      obtain ⟨idx, s1⟩ := r
      simp only at hr ⊢
      split
      · exact hr
      · exact hr.construct _ ho
  | emplace a =>
    simp only [DV.step, DV.emplaceBack]
    split
    · exact h
    · generalize hf : s.fetchAdd 1 = r
      have hr : r.2.All P := hf ▸ h.size _
      obtain ⟨idx, s1⟩ := r
      simp only at hr ⊢
      split
      · exact hr
      · split
        · exact hr
        · rename_i v hv
          exact hr.put _ fun w hw => Option.some.inj hw ▸ hr.read ho hv
  | bulk n => exact h.bulkAppend n h.dflt
  | bulkValue n a => exact h.bulkAppend n ho
  | bulkImplicit n =>
    simp only [DV.step, DV.bulkAppendImplicit]
    split
    · exact h
    · generalize hf : s.fetchAdd n = r
      have hr : r.2.All P := hf ▸ h.size _
      obtain ⟨idx, s1⟩ := r
      simp only at hr ⊢
      split
      · exact hr
      · exact hr.implicit _ _
  | pop =>
    simp only [DV.step, DV.popBack]
    split
    · exact h
    · exact (h.size _).destruct _
  | clear => exact h.clear
  | resize n => exact h.resize n h.dflt
  | resizeValue n a => exact h.resize n ho
  | resizeImplicit n =>
    simp only [DV.step, DV.resizeImplicit]
    split
    · exact h
    · split
      · exact h
      · exact (h.implicit _ _).size _
  | assign n a =>
    have hc := h.clear
    simp only [DV.step, DV.assign]
    split
    · exact h
    · split
      · exact h
      · split
        · rename_i s' e
          rw [e] at hc
          exact (hc.size _).constructs n _ ho
        · exact hc
  | write c i v =>
    simp only [DV.step, DV.write]
    split
    · exact h
    · split
      · exact h
      · exact h.put _ fun w hw => Option.some.inj hw ▸ ho
  | at_ _ | index _ | front | back | size | empty | capacity | iterate | iterateBack => exact h

theorem All.run {ops : List (DVOp α)} : ∀ {s : DV α}, s.All P → (∀ op ∈ ops, op.All P) → (s.run ops).2.All P := by
  induction ops with
  | nil => exact fun h _ => h
  | cons op ops ih =>
    intro s h ho
    exact ih (h.step (ho op List.mem_cons_self)) fun o h' => ho o (List.mem_cons_of_mem _ h')

end DV

/-- The value given to a call satisfies `P`. -/
def ACall.All (P : α → Prop) : ACall α → Prop
  | .push a | .emplace a | .bulkValue _ a => a.All P
  | .bulk _ | .bulkImplicit _ => True

/-- The call a thread is in. -/
def Phase.call : Phase α → Option (ACall α)
  | .idle => none
  | .claimed c _ | .writing c _ _ => some c

/-- The values of all calls that a thread still has to do satisfy `P`. -/
def Thread.All (P : α → Prop) (t : Thread α) : Prop := (∀ c ∈ t.todo, c.All P) ∧ ∀ c, t.phase.call = some c → c.All P

theorem ACall.All.arg {P : α → Prop} {c : ACall α} (h : c.All P) {d : α} (hd : P d) : (c.arg d).All P := by
  cases c <;> first | exact h | exact hd

theorem Thread.All.step {P : α → Prop} {s : DV α} {t : Thread α} (hs : s.All P) (ht : t.All P) {s' : DV α} {t' : Thread α}
    (h : Conc.stepThread s t = some (s', t')) : s'.All P ∧ t'.All P := by
  unfold Conc.stepThread at h
  split at h
  · split at h
    · cases h; exact ⟨hs, ht⟩
    · rename_i c cs hc
      split at h
      · cases h
      · cases h
        have h1 := ht.1
        rw [hc] at h1
        refine ⟨hs.size _, fun x hx => h1 x (List.mem_cons_of_mem _ hx), fun x hx => ?_⟩
        cases Option.some.inj hx
        exact h1 _ List.mem_cons_self
  · rename_i c idx hp
    split at h
    · cases h
    · cases h
      refine ⟨?_, ht.1, fun x hx => ht.2 x (by rw [hp]; exact hx)⟩
      cases c <;> first | exact hs | exact hs.implicit _ _
  · rename_i c idx k hp
    split at h
    · split at h
      · rename_i s1 e
        cases h
        have := hs.construct ((idx + k) % 2 ^ 32) ((ht.2 c (by rw [hp]; rfl)).arg hs.dflt)
        rw [e] at this
        exact ⟨this, ht.1, fun x hx => ht.2 x (by rw [hp]; exact hx)⟩
      · cases h
    · cases h
      exact ⟨hs, ht.1, fun x hx => by cases hx⟩

theorem Conc.all_run {P : α → Prop} (sched : List Nat) : ∀ {g : Conc α}, g.vec.All P → (∀ t ∈ g.threads, t.All P) →
    (g.run sched).vec.All P := by
  induction sched with
  | nil => exact fun h _ => h
  | cons i is ih =>
    intro g h ht
    show ((g.step i).run is).vec.All P
    unfold Conc.step
    split
    · exact ih h ht
    · split
      · exact ih h ht
      · rename_i t e
        split
        · exact ih h ht
        · rename_i s' t' e'
          obtain ⟨h1, h2⟩ := (ht t (List.mem_of_getElem? e)).step h e'
          refine ih h1 fun u hu => ?_
          rcases List.mem_or_eq_of_mem_set hu with hu | rfl
          · exact ht u hu
          · exact h2

theorem Conc.all_start {P : α → Prop} {s : DV α} {progs : List (List (ACall α))} (hp : ∀ p ∈ progs, ∀ c ∈ p, c.All P) :
    ∀ t ∈ (Conc.start s progs).threads, t.All P := by
  intro t ht
  obtain ⟨p, hp', rfl⟩ := List.mem_map.1 ht
  exact ⟨hp p hp', fun c hc => by cases hc⟩

/-! ## Kernels finish -/

/-- How many steps a thread still has to make, at most. -/
def Thread.left (t : Thread α) : Nat :=
  (t.todo.map ACall.steps).sum + match t.phase with
    | .idle => 0
    | .claimed c _ => c.writes + 2
    | .writing c _ k => c.writes - k + 1

theorem Thread.finished {t : Thread α} (h : t.left = 0) : t.todo = [] ∧ t.phase = .idle := by
  unfold Thread.left at h
  constructor
  · cases ht : t.todo with
    | nil => rfl
    | cons c cs =>
      rw [ht] at h
      simp only [List.map_cons, List.sum_cons, ACall.steps] at h
      omega
  · cases hp : t.phase <;> rw [hp] at h <;> simp only at h <;> first | rfl | omega

theorem Thread.left_step {s s' : DV α} {t t' : Thread α} (h : Conc.stepThread s t = some (s', t')) : t'.left ≤ t.left - 1 := by
  unfold Conc.stepThread at h
  split at h
  · rename_i hp
    split at h
    · rename_i hn
      cases h
      simp [Thread.left, hp, hn]
    · rename_i c cs hc
      split at h
      · cases h
      · cases h
        simp only [Thread.left, hp, hc, List.map_cons, List.sum_cons, ACall.steps]
        omega
  · rename_i c idx hp
    split at h
    · cases h
    · cases h
      simp only [Thread.left, hp]
      omega
  · rename_i c idx k hp
    split at h
    · split at h
      · cases h
        simp only [Thread.left, hp]
        omega
      · cases h
    · cases h
      simp only [Thread.left, hp]
      omega

/-- What thread `i` has left. -/
def Conc.left (g : Conc α) (i : Nat) : Nat := ((g.threads[i]?).map Thread.left).getD 0

theorem Conc.step_length (g : Conc α) (i : Nat) : (g.step i).threads.length = g.threads.length := by
  unfold Conc.step
  split
  · rfl
  · split
    · rfl
    · split
      · rfl
      · simp

theorem Conc.run_length (sched : List Nat) : ∀ g : Conc α, (g.run sched).threads.length = g.threads.length := by
  induction sched with
  | nil => exact fun _ => rfl
  | cons i is ih => exact fun g => (ih _).trans (g.step_length i)

theorem Conc.step_failed {g : Conc α} (i : Nat) (h : (g.step i).failed = false) : g.failed = false := by
  by_contra hc
  have hc : g.failed = true := by simpa using hc
  rw [Conc.step, if_pos hc, hc] at h
  cases h

theorem Conc.run_failed (sched : List Nat) : ∀ {g : Conc α}, (g.run sched).failed = false → g.failed = false := by
  induction sched with
  | nil => exact fun h => h
  | cons i is ih => exact fun h => Conc.step_failed i (ih h)

theorem Conc.left_step {g : Conc α} (i : Nat) (h : (g.step i).failed = false) (j : Nat) :
    (g.step i).left j ≤ if j = i then g.left j - 1 else g.left j := by
  have hf := Conc.step_failed i h
  unfold Conc.step at h ⊢
  rw [if_neg (by simp [hf])] at h ⊢
  split at h
  · rename_i e
    split
    · rename_i hji
      subst hji
      simp [Conc.left, e]
    · exact Nat.le_refl _
  · rename_i t e
    split at h
    · cases h
    · rename_i s' t' e'
      try simp only [e']
      have hl := Thread.left_step e'
      have hlt : i < g.threads.length := (List.getElem?_eq_some_iff.1 e).1
      split
      · rename_i hji
        subst hji
        have e2 := (List.getElem?_eq_some_iff.1 e).2
        simpa [Conc.left, e2, List.getElem?_set, hlt] using hl
      · rename_i hne
        simp [Conc.left, Ne.symm hne]

theorem Conc.left_run (sched : List Nat) : ∀ {g : Conc α}, (g.run sched).failed = false →
    ∀ j, (g.run sched).left j ≤ g.left j - sched.count j := by
  induction sched with
  | nil => exact fun _ j => Nat.le_refl _
  | cons i is ih =>
    intro g h j
    have h1 := ih (g := g.step i) h j
    have h2 := Conc.left_step i (Conc.run_failed is h) j
    have h3 : (g.run (i :: is)) = ((g.step i).run is) := rfl
    rw [h3, List.count_cons]
    by_cases hij : j = i
    · subst hij
      simp only [if_true, beq_self_eq_true] at h2 ⊢
      omega
    · rw [if_neg hij] at h2
      rw [if_neg (by simpa using fun h => hij h.symm)]
      omega

theorem count_flatMap_replicate (n : Nat → Nat) (j : Nat) : ∀ (l : List Nat), l.Nodup →
    (l.flatMap fun i => List.replicate (n i) i).count j = if j ∈ l then n j else 0 := by
  intro l
  induction l with
  | nil => intro _; rfl
  | cons i l ih =>
    intro h
    rw [List.nodup_cons] at h
    rw [List.flatMap_cons, List.count_append, ih h.2, List.count_replicate]
    by_cases hij : i = j
    · subst hij
      simp [h.1]
    · rw [if_neg (by simpa using hij)]
      simp [Ne.symm hij]

theorem count_drain (progs : List (List (ACall α))) (j : Nat) :
    (drain progs).count j = ((progs.getD j []).map ACall.steps).sum := by
  unfold drain
  rw [count_flatMap_replicate _ _ _ List.nodup_range]
  split
  · rfl
  · rename_i h
    rw [List.mem_range] at h
    rw [List.getD_eq_getElem?_getD, List.getElem?_eq_none (by omega)]
    rfl

theorem Conc.left_start (s : DV α) (progs : List (List (ACall α))) (j : Nat) :
    (Conc.start s progs).left j = ((progs.getD j []).map ACall.steps).sum := by
  unfold Conc.left Conc.start
  simp only [List.getElem?_map, List.getD_eq_getElem?_getD]
  cases progs[j]? <;> simp [Thread.left]

theorem Conc.run_append (g : Conc α) (a b : List Nat) : g.run (a ++ b) = (g.run a).run b := List.foldl_append

theorem Conc.kernel_finished {s : DV α} {progs : List (List (ACall α))} {sched : List Nat}
    (h : (Conc.kernel s progs sched).failed = false) : (Conc.kernel s progs sched).Finished := by
  intro t ht
  obtain ⟨j, hj⟩ := List.mem_iff_getElem?.1 ht
  apply Thread.finished
  have h1 := Conc.left_run (sched ++ drain progs) h j
  rw [List.count_append, count_drain, Conc.left_start] at h1
  have h2 : (Conc.kernel s progs sched).left j = t.left := by simp [Conc.left, hj]
  have h3 : ((Conc.start s progs).run (sched ++ drain progs)).left j = t.left := h2
  omega

/-- A thread that has finished does nothing. -/
theorem Conc.step_finished {g : Conc α} (h : g.Finished) (i : Nat) : g.step i = g := by
  unfold Conc.step
  split
  · rfl
  · split
    · rfl
    · rename_i t e
      obtain ⟨h1, h2⟩ := h t (List.mem_of_getElem? e)
      have : Conc.stepThread g.vec t = some (g.vec, t) := by
        unfold Conc.stepThread
        rw [h2]
        simp only
        rw [h1]
      rw [this]
      simp only
      have : g.threads.set i t = g.threads := by
        apply List.ext_getElem?
        intro j
        rw [List.getElem?_set]
        split
        · rename_i hij
          subst hij
          rw [e]
          simp [(List.getElem?_eq_some_iff.1 e).1]
        · rfl
      rw [this]

theorem Conc.run_finished {g : Conc α} (h : g.Finished) (sched : List Nat) : g.run sched = g := by
  induction sched with
  | nil => rfl
  | cons i is ih =>
    show (g.step i).run is = g
    rw [Conc.step_finished h i, ih]

/-! ## The device vector in memory -/

theorem elems_length (m : Mem) (t : Nat) (v : View) : (v.elems m t).length = v.len m := by simp [View.elems]

theorem elems_get {m : Mem} {t : Nat} {v : View} {i : Nat} (h : i < v.len m) :
    (v.elems m t)[i]? = some (bytesAt m (v.ptr + i * t) t) := by
  simp [View.elems, h]

theorem bytesAt_length (m : Mem) (p n : Nat) : (bytesAt m p n).length = n := by simp [bytesAt]

theorem elems_sized (m : Mem) (t : Nat) (v : View) : ∀ e ∈ v.elems m t, e.length = t := by
  intro e he
  obtain ⟨i, -, rfl⟩ := List.mem_map.1 he
  exact bytesAt_length _ _ _

theorem bytesAt_get {m : Mem} {p n i : Nat} (h : i < n) : (bytesAt m p n)[i]? = some (m (p + i)) := by
  simp [bytesAt, h]

theorem bytesAt_eq {m : Mem} {p : Nat} {e : Elem} (h : ∀ i, i < e.length → m (p + i) = e.getD i 0) :
    bytesAt m p e.length = e := by
  apply List.ext_getElem?
  intro i
  by_cases hi : i < e.length
  · rw [bytesAt_get hi, h i hi, List.getD_eq_getElem?_getD, List.getElem?_eq_getElem hi]
    rfl
  · rw [List.getElem?_eq_none (by rw [bytesAt_length]; omega), List.getElem?_eq_none (by omega)]

theorem device_all (dbg : Bool) {dflt : Elem} {t : Nat} (hd : dflt.length = t) (m : Mem) (v : View) :
    (v.device dbg dflt t m).All (fun e => e.length = t) := by
  refine ⟨hd, fun _ => hd, fun i e he => ?_⟩
  simp only [View.device] at he
  split at he
  · cases Option.some.inj he
    exact bytesAt_length _ _ _
  · cases he

theorem device_holds {m : Mem} {t : Nat} {v : View} (h : v.Valid m t) (hs : v.sizePtr ≠ 0) (dbg : Bool) (dflt : Elem) :
    (v.device dbg dflt t m).Holds (v.elems m t) fun _ => none := by
  have hl := h.len
  refine ⟨?_, ?_, ?_, h.word32, ?_, ?_, ?_⟩
  · simpa [View.device] using hs
  · rw [elems_length]
    simp [View.device, View.len, hs]
  · rw [elems_length]; exact hl
  · intro i hi
    rw [elems_length] at hi
    rw [elems_get hi]
    simp only [View.device]
    rw [if_pos (by omega)]
  · intro h'; cases h'
  · intro i hi
    simp only [View.device] at hi ⊢
    rw [if_neg (by omega)]

/-- What storing a device vector changes. -/
theorem storeDevice_other {t : Nat} {m : Mem} {v : View} {s : DV Elem} {x : Nat} (h : ¬ v.Has t x) :
    v.storeDevice t m s x = m x := by
  unfold View.storeDevice
  rw [if_neg (c := v.ptr ≤ x ∧ _) (fun hx => h (.inl hx))]
  split
  · rfl
  · rename_i hs
    apply writeLE_other
    by_contra hc
    exact h (.inr ⟨hs, by omega, by omega⟩)

theorem storeDevice_len {t : Nat} {m : Mem} {v : View} (hv : v.Placed t) {s : DV Elem}
    (hw : v.sizePtr ≠ 0 → s.sizeWord < 2 ^ 32) :
    v.len (v.storeDevice t m s) = if v.sizePtr = 0 then v.capacity else s.sizeWord := by
  by_cases h : v.sizePtr = 0
  · simp [View.len, h]
  · rw [if_neg h]
    have e1 : v.len (writeLE m v.sizePtr 4 s.sizeWord) = s.sizeWord := by
      simp only [View.len, if_neg h]
      exact readLE_writeLE (by simpa using hw h)
    refine (len_of_word fun x hx => ?_).trans e1
    unfold View.storeDevice
    rw [if_neg (c := v.ptr ≤ x ∧ _) (fun hp => hv.apart x ⟨hp, hx⟩), if_neg h]

theorem storeDevice_elems {t : Nat} {m : Mem} {v : View} (hv : v.Placed t) {s : DV Elem} {l : List Elem}
    (hl : l.length = if v.sizePtr = 0 then v.capacity else s.sizeWord) (hc : l.length ≤ v.capacity)
    (hm : ∀ i, i < l.length → s.mem i = l[i]?) (hs : ∀ i e, s.mem i = some e → e.length = t) :
    v.elems (v.storeDevice t m s) t = l := by
  have hlen : v.len (v.storeDevice t m s) = l.length := by
    rw [hl]
    refine storeDevice_len hv fun h => ?_
    rw [if_neg h] at hl
    have := hv.word32
    omega
  apply List.ext_getElem?
  intro i
  by_cases hi : i < l.length
  · rw [elems_get (by rw [hlen]; exact hi), List.getElem?_eq_getElem hi]
    have hmi := hm i hi
    rw [List.getElem?_eq_getElem hi] at hmi
    have ht := hs i _ hmi
    have : bytesAt (v.storeDevice t m s) (v.ptr + i * t) l[i].length = l[i] := by
      refine bytesAt_eq fun q hq => ?_
      rw [ht] at hq
      have : (i + 1) * t ≤ v.capacity * t := Nat.mul_le_mul_right t (by omega)
      rw [Nat.succ_mul] at this
      unfold View.storeDevice
      rw [if_pos (by omega)]
      have hd : (v.ptr + i * t + q - v.ptr) = q + t * i := by rw [Nat.mul_comm t i]; omega
      rw [hd, Nat.add_mul_div_left _ _ (by omega : 0 < t), Nat.div_eq_of_lt hq, Nat.zero_add, Nat.add_mul_mod_self_left,
        Nat.mod_eq_of_lt hq, hmi]
      rfl
    rw [ht] at this
    rw [this]
  · rw [List.getElem?_eq_none (by rw [elems_length, hlen]; omega), List.getElem?_eq_none (by omega)]

end Vecmem
