import Verif.Lemmas.AsyncEdmFoot
import Verif.Lemmas.AsyncProgram
import Verif.Lemmas.AsyncPipeline
import Verif.Spec.AsyncEdm

/-! # Lemmas for C66: what a kernel does depends on the memory of its buffers only, and it changes only that -/

namespace Vecmem

open IntMath Props Prog

variable {σ : Type} {R : Limits} {G : Nat} {ups : Nat → MR σ} {u0 : σ} {c : EdmCfg} {p : EPipe σ} {q : EReady}
variable {S : Schema} {A : Nat} {hasHost : Bool} {b : EBuffer}

/-- Two memories agree on the memory of a buffer. -/
def Near (b : EBuffer) (m m' : Mem) : Prop := ∀ x, b.blk.At x → m' x = m x

theorem Near.described (ho : EdmOk σ R G S A hasHost b) {m m' : Mem} (hn : Near b m m') {j : JagView} (hj : VarView.jagged j ∈ b.buf.view.vars)
    (h : DescribedAt m j.ptr j.views) : DescribedAt m' j.ptr j.views :=
  described_congr h fun y hy => hn _ (ho.dev_blk ⟨j, hj, by omega, by omega⟩)

theorem Near.shows (ho : EdmOk σ R G S A hasHost b) {m m' : Mem} (hn : Near b m m') {t : Table} (h : Shows S b m t) : Shows S b m' t where
  table := by rw [← h.table]; exact tableOf_congr ho h.sizes fun x hx => hn x (ho.data_blk hx)
  sizes := fun x hx v hv => by
    obtain ⟨i, w, hw, hi, -⟩ := ho.var_at hx
    rw [len_of_word (m := m) fun y hy => hn y (ho.data_blk (.inl ⟨i, w, x, hw, hi, .inr ⟨v, hv, hy⟩⟩))]
    exact h.sizes x hx v hv
  described := fun j hj => hn.described ho hj (h.described j hj)

/-- What a kernel finds in a buffer. -/
theorem EInv.shows (h : EInv c R G ups u0 p q) {k : Nat} {caps : List Nat} {r : Bool} {t : Table} (hs : (p.store c q).Has k caps r true t) :
    ∃ b, p.bufs.lookup k = some b ∧ (k, b) ∈ p.bufs ∧ EdmOk σ R G (c.schema k) c.align (c.hasHost k) b ∧ Shows (c.schema k) b p.mem t := by
  obtain ⟨b, b1, b2, b3, b4, b5, b6, b7, b8, b9⟩ := h.has hs
  exact ⟨b, b1, b2, b5, b8.symm, b6.sizes b7, fun j hj => b6.described b5 b9.symm j hj⟩

/-- Memory which agrees with that of the program on some buffers. -/
def NearAll (p : EPipe σ) (m' : Mem) (ks : List Nat) : Prop := ∀ k ∈ ks, ∀ b, p.bufs.lookup k = some b → Near b p.mem m'

theorem EInv.reads_near (h : EInv c R G ups u0 p q) {m' : Mem} : ∀ {ins : List Nat} {ts : List Table}, (p.store c q).HasAll ins ts → NearAll p m' ins →
    EPipe.reads c ({ p with mem := m' } : EPipe σ) ins = .ok ts := by
  intro ins
  induction ins with
  | nil =>
    intro ls hh _
    cases ls with
    | nil => rfl
    | cons l ls => exact hh.elim
  | cons i is ih =>
    intro ls hh hn
    cases ls with
    | nil => exact hh.elim
    | cons l ls =>
      obtain ⟨⟨caps, r, hb⟩, hh'⟩ := hh
      obtain ⟨b, b1, b2, ho, hsh⟩ := h.shows hb
      have hsh' := (hn i List.mem_cons_self b b1).shows ho hsh
      unfold EPipe.reads
      simp only [b1]
      rw [readVars_ok (c := c) i m' 0 (S := c.schema i) (xs := b.buf.view.vars) ?_]
      · simp only
        rw [ih hh' fun k hk => hn k (List.mem_cons_of_mem _ hk), hsh'.table]
        rfl
      · intro n v x hv hx
        exact ⟨fun j hj => hsh'.described j (by rw [← hj]; exact List.mem_of_getElem? hx), ho.valid hsh'.sizes hv hx⟩

/-! ## Kernels that load and store -/

theorem putElems_twin {t a : Nat} {l : List Elem} {m m' : Mem} {x : Nat} (h : m' x = m x) :
    Pipe.putElems t m' a l x = Pipe.putElems t m a l x := by
  unfold Pipe.putElems
  split
  · rfl
  · exact h

theorem Near.put (hn : Near b m m') {t a : Nat} {l : List Elem} : Near b (Pipe.putElems t m a l) (Pipe.putElems t m' a l) :=
  fun x hx => putElems_twin (hn x hx)

theorem Shows.locate_near (ho : EdmOk σ R G S A hasHost b) {m m' : Mem} {t : Table} (h : Shows S b m t) (h' : Shows S b m' t)
    {d : Cell} {x : Elem} (hd : t.cell d = some x) : ∃ n a, b.buf.view.locate S m d = some (n, a) ∧ b.buf.view.locate S m' d = some (n, a) ∧
      bytesAt m a n = x ∧ bytesAt m' a n = x := by
  obtain ⟨v, y, w, k1, k2, k3, -, k5, k6⟩ := h.locate ho hd
  obtain ⟨v', y', w', l1, l2, l3, -, l5, l6⟩ := h'.locate ho hd
  cases k1.symm.trans l1
  cases k2.symm.trans l2
  cases k3.symm.trans l3
  exact ⟨_, _, k5, l5, k6, l6⟩

theorem Shows.act_near (ho : EdmOk σ R G S A hasHost b) {m m' : Mem} {t : Table} (h : Shows S b m t) (hn : Near b m m') {pr : KProg}
    (hv : pr.Valid S t) {r r' : KProg × Mem} (h1 : pr.act S b.buf.view m = .ok r) (h2 : pr.act S b.buf.view m' = .ok r') :
    r'.1 = r.1 ∧ Near b r.2 r'.2 := by
  have h' := hn.shows ho h
  cases pr with
  | done =>
    cases h1
    cases h2
    exact ⟨rfl, hn⟩
  | load d next =>
    obtain ⟨x, x1, -⟩ := hv
    obtain ⟨n, a, l1, l2, l3, l4⟩ := h.locate_near ho h' x1
    simp only [KProg.act, l1, l2, l3, l4] at h1 h2
    cases h1
    cases h2
    exact ⟨rfl, hn⟩
  | store d x next =>
    obtain ⟨x1, -, -⟩ := hv
    obtain ⟨z, hz⟩ := Option.isSome_iff_exists.1 x1
    obtain ⟨n, a, l1, l2, -, -⟩ := h.locate_near ho h' hz
    simp only [KProg.act, l1, l2] at h1 h2
    cases h1
    cases h2
    exact ⟨rfl, hn.put⟩

theorem Shows.exec_near (ho : EdmOk σ R G S A hasHost b) : ∀ {pr : KProg} {m m' : Mem} {t : Table}, Shows S b m t → Near b m m' → pr.Valid S t →
    ∀ {m1 m1' : Mem}, pr.exec S b.buf.view m = .ok m1 → pr.exec S b.buf.view m' = .ok m1' → Near b m1 m1' := by
  intro pr
  induction pr with
  | done =>
    intro m m' t _ hn _ m1 m1' h1 h2
    cases h1
    cases h2
    exact hn
  | load d next ih =>
    rintro m m' t h hn ⟨x, x1, x2⟩ m1 m1' h1 h2
    obtain ⟨n, a, l1, l2, l3, l4⟩ := h.locate_near ho (hn.shows ho h) x1
    simp only [KProg.exec, l1, l2, l3, l4] at h1 h2
    exact ih x h hn x2 h1 h2
  | store d x next ih =>
    rintro m m' t h hn ⟨x1, ⟨v', hv', hx⟩, x3⟩ m1 m1' h1 h2
    obtain ⟨z, hz⟩ := Option.isSome_iff_exists.1 x1
    obtain ⟨n, a, l1, l2, -, -⟩ := h.locate_near ho (hn.shows ho h) hz
    obtain ⟨v, y, w, k1, k2, k3, k4, k5, k6⟩ := h.locate ho hz
    cases k1.symm.trans hv'
    obtain ⟨p1, p2⟩ := h.put ho k1 k2 k3 k4 hx
    cases k5.symm.trans l1
    simp only [KProg.exec, l1, l2] at h1 h2
    exact ih p1 hn.put x3 h1 h2

theorem Shows.threads_near (ho : EdmOk σ R G S A hasHost b) : ∀ {ps : List KProg} {m m' : Mem} {t : Table}, Shows S b m t → Near b m m' →
    (∀ p ∈ ps, p.Valid S t) → NoRaces t ps → ∀ {m1 m1' : Mem}, execThreads S b.buf.view ps m = .ok m1 →
    execThreads S b.buf.view ps m' = .ok m1' → Near b m1 m1' := by
  intro ps
  induction ps with
  | nil =>
    intro m m' t _ hn _ _ m1 m1' h1 h2
    cases h1
    cases h2
    exact hn
  | cons p ps ih =>
    intro m m' t h hn hv hr m1 m1' h1 h2
    obtain ⟨n, e1, e2, -⟩ := h.exec ho (hv p List.mem_cons_self)
    obtain ⟨n', f1, f2, -⟩ := (hn.shows ho h).exec ho (hv p List.mem_cons_self)
    simp only [execThreads, e1, f1] at h1 h2
    exact ih e2 (h.exec_near ho hn (hv p List.mem_cons_self) e1 f1)
      (fun q hq => ((hr.tail.2 q hq).1.after).2 (hv q (List.mem_cons_of_mem _ hq))) hr.after h1 h2

theorem Shows.kernel_near (ho : EdmOk σ R G S A hasHost b) : ∀ {sched : List Nat} {ps : List KProg} {m m' : Mem} {t : Table}, Shows S b m t →
    Near b m m' → (∀ p ∈ ps, p.Valid S t) → NoRaces t ps → ∀ {m1 m1' : Mem}, execKernel S b.buf.view ps sched m = .ok m1 →
    execKernel S b.buf.view ps sched m' = .ok m1' → Near b m1 m1' := by
  intro sched
  induction sched with
  | nil => exact fun h hn hv hr _ _ h1 h2 => h.threads_near ho hn hv hr h1 h2
  | cons i sched ih =>
    intro ps m m' t h hn hv hr m1 m1' h1 h2
    unfold execKernel at h1 h2
    cases hi : ps[i]? with
    | none =>
      rw [hi] at h1 h2
      exact ih h hn hv hr h1 h2
    | some pr =>
      have hpv := hv pr (List.mem_of_getElem? hi)
      obtain ⟨n, e1, e2, -⟩ := h.act ho hpv
      obtain ⟨n', f1, f2, -⟩ := (hn.shows ho h).act ho hpv
      obtain ⟨t1, t2, t3⟩ := tick_ok hi hv hr
      simp only [hi, e1, f1] at h1 h2
      exact ih e2 (h.act_near ho hn hpv e1 f1).2 t1 t2 h1 h2

/-! ## Kernels that leave rows behind -/

theorem writeLE_twin {a n v : Nat} {m m' : Mem} {x : Nat} (h : m' x = m x) : writeLE m' a n v x = writeLE m a n v x := by
  unfold writeLE
  split
  · rfl
  · exact h

theorem storeDevice_twin {t : Nat} {v : View} {s : DV Elem} {m m' : Mem} {x : Nat} (h : m' x = m x) :
    v.storeDevice t m' s x = v.storeDevice t m s x := by
  unfold View.storeDevice
  split
  · rfl
  · split
    · exact h
    · exact writeLE_twin h

theorem storeRows_twin {t : Nat} : ∀ {vs : List View} {ss : List (DV Elem)} {m m' : Mem} {x : Nat}, m' x = m x →
    storeRows t m' vs ss x = storeRows t m vs ss x := by
  intro vs
  induction vs with
  | nil => intro ss m m' x h; exact h
  | cons v vs ih =>
    intro ss m m' x h
    cases ss with
    | nil => exact h
    | cons s ss => exact ih (storeDevice_twin h)

theorem EPipe.devices_near (ho : EdmOk σ R G S A hasHost b) {m m' : Mem} {t : Table} (h : Shows S b m t) (hn : Near b m m') {v : Nat} {ty : Var}
    {x : VarView} (hv : S[v]? = some ty) (hx : b.buf.view.vars[v]? = some x) (k : Nat) (u : σ) (bufs : List (Nat × EBuffer)) :
    (EPipe.mk u m' bufs).devices c k v ty x = (EPipe.mk u m bufs).devices c k v ty x := by
  have h' := hn.shows ho h
  unfold EPipe.devices
  simp only
  rw [edevices_eq fun j hj => h.described j (by rw [← hj]; exact List.mem_of_getElem? hx),
    edevices_eq fun j hj => h'.described j (by rw [← hj]; exact List.mem_of_getElem? hx)]
  apply List.map_congr_left
  intro w hw
  refine device_congr fun y hy => hn y (ho.data_blk (.inl ⟨v, ty, x, hv, hx, ?_⟩))
  rcases hy with hy | hy
  · exact .inl ⟨w, hw, hy⟩
  · exact .inr ⟨w, hw, hy⟩

theorem EPipe.leave_near (ho : EdmOk σ R G S A hasHost b) {m m' : Mem} {t : Table} (h : Shows S b m t) (hn : Near b m m') {v : Nat} {ty : Var}
    {x : VarView} (hv : S[v]? = some ty) (hx : b.buf.view.vars[v]? = some x) (ss : List (DV Elem)) (u : σ) (bufs : List (Nat × EBuffer)) :
    Near b ((EPipe.mk u m bufs).leave ty x ss).mem ((EPipe.mk u m' bufs).leave ty x ss).mem ∧
    ∀ a, ¬ b.blk.At a → ((EPipe.mk u m bufs).leave ty x ss).mem a = m a := by
  have h' := hn.shows ho h
  obtain ⟨a1, a2⟩ := VarView.deviceRows_alike (m := m) (x := x)
    fun j hj => h.described j (by rw [← hj]; exact List.mem_of_getElem? hx)
  obtain ⟨b1, b2⟩ := VarView.deviceRows_alike (m := m') (x := x)
    fun j hj => h'.described j (by rw [← hj]; exact List.mem_of_getElem? hx)
  unfold EPipe.leave
  simp only
  rw [storeRows_alike ty.type.size a1 a2, storeRows_alike ty.type.size b1 b2]
  refine ⟨fun y hy => storeRows_twin (hn y hy), fun a ha => storeRows_other fun hc => ha (ho.data_blk ?_)⟩
  obtain ⟨w, hw, hw' | hw'⟩ := hc
  · exact .inl ⟨v, ty, x, hv, hx, .inl ⟨w, hw, hw'⟩⟩
  · exact .inl ⟨v, ty, x, hv, hx, .inr ⟨w, hw, hw'⟩⟩

/-! ## Kernels that append -/

theorem deviceVars_near {dflt : Nat → Elem} {m m' : Mem} : ∀ {S : Schema} {xs : List VarView} {n : Nat},
    (∀ (i : Nat) (v : Var) (x : VarView), S[i]? = some v → xs[i]? = some x → ∀ a, x.HasPayload v.type.size a → m' a = m a) →
    deviceVars dflt m' n S xs = deviceVars dflt m n S xs := by
  intro S
  induction S with
  | nil => intro xs n _; rfl
  | cons v S ih =>
    intro xs n h
    cases xs with
    | nil => rfl
    | cons x xs =>
      unfold deviceVars
      rw [ih fun i w y hw hy => h (i + 1) w y (by simpa using hw) (by simpa using hy)]
      congr 1
      have hp := h 0 v x rfl rfl
      cases x with
      | scalar a =>
        simp only [VarView.device]
        rw [bytesAt_same fun y h1 h2 => hp y ⟨⟨1, 0, a⟩, by simp [VarView.rows], h1, by simpa using h2⟩]
      | jagged j => rfl
      | vector w =>
        simp only [VarView.device]
        congr 1
        funext i
        split
        · rename_i hi
          rw [bytesAt_same fun y h1 h2 => hp y ⟨w, by simp [VarView.rows], ?_, ?_⟩]
          · have : i * v.type.size ≥ 0 := Nat.zero_le _
            omega
          · have : (i + 1) * v.type.size ≤ w.capacity * v.type.size := Nat.mul_le_mul_right _ hi
            rw [Nat.add_mul, Nat.one_mul] at this
            show y < w.ptr + w.capacity * v.type.size
            omega
        · rfl

theorem varStore_twin {t : Nat} {v : VarView} {d : DevVar Elem} {m m' : Mem} {x : Nat} (h : m' x = m x) : v.store t m' d x = v.store t m d x := by
  cases v <;> cases d <;> first | exact h | exact putElems_twin h

theorem storeVars_twin : ∀ {S : Schema} {xs : List VarView} {ds : List (DevVar Elem)} {m m' : Mem} {x : Nat}, m' x = m x →
    storeVars m' S xs ds x = storeVars m S xs ds x := by
  intro S
  induction S with
  | nil => intro xs ds m m' x h; exact h
  | cons v S ih =>
    intro xs ds m m' x h
    cases xs with
    | nil => exact h
    | cons y xs =>
      cases ds with
      | nil => exact h
      | cons d ds => exact ih (varStore_twin h)

theorem storeVars_other : ∀ {S : Schema} {xs : List VarView} {ds : List (DevVar Elem)} {m : Mem} {a : Nat},
    (∀ (i : Nat) (v : Var) (x : VarView), S[i]? = some v → xs[i]? = some x → ¬ x.HasPayload v.type.size a) → storeVars m S xs ds a = m a := by
  intro S
  induction S with
  | nil => intros; rfl
  | cons v S ih =>
    intro xs ds m a h
    cases xs with
    | nil => rfl
    | cons x xs =>
      cases ds with
      | nil => rfl
      | cons d ds =>
        refine (ih fun i w y hw hy => h (i + 1) w y (by simpa using hw) (by simpa using hy)).trans ?_
        have hp := h 0 v x rfl rfl
        cases x <;> cases d <;> first | rfl | skip
        · rename_i p e
          exact putElems_other fun hc => hp ⟨⟨1, 0, p⟩, by simp [VarView.rows], hc.1, by simpa using hc.2⟩
        · rename_i w d' cp f
          exact putElems_other fun hc => hp ⟨w, by simp [VarView.rows], hc.1, by simpa using hc.2⟩

theorem size_word (ho : EdmOk σ R G S A hasHost b) (hj : S.hasJagged = false) (h0 : b.buf.view.size.ptr ≠ 0) {x : Nat}
    (h1 : b.buf.view.size.ptr ≤ x) (h2 : x < b.buf.view.size.ptr + 4) : b.blk.At x := by
  have hr : b.resizable = true := by
    cases hr : b.resizable with
    | true => rfl
    | false => exact absurd (ho.placed.fixed hr) h0
  have := (ho.placed.word hr hj).2.2
  refine EdmOk.at_inside this ⟨h1, ?_⟩
  simpa [CType.region, CType.uint] using h2

theorem EdmView.device_near (ho : EdmOk σ R G S A hasHost b) (hj : S.hasJagged = false) {m m' : Mem} (hn : Near b m m') (dbg : Bool)
    (dflt : Nat → Elem) : b.buf.view.device dbg dflt S m' = b.buf.view.device dbg dflt S m := by
  unfold EdmView.device
  rw [deviceVars_near (m := m) fun i v x hv hx a ha => hn a (ho.data_blk (.inl ⟨i, v, x, hv, hx, .inl ha⟩))]
  congr 1
  split
  · rfl
  · rename_i h0
    exact readLE_congr fun i h1 h2 => hn _ (size_word ho hj h0 h1 h2)

theorem EdmView.store_near (ho : EdmOk σ R G S A hasHost b) (hj : S.hasJagged = false) {m m' : Mem} (hn : Near b m m') (s : DevCont Elem) :
    Near b (b.buf.view.store S m s) (b.buf.view.store S m' s) ∧ ∀ a, ¬ b.blk.At a → b.buf.view.store S m s a = m a := by
  have h2 : ∀ a, ¬ b.blk.At a → storeVars m S b.buf.view.vars s.vars a = m a := fun a ha =>
    storeVars_other fun i v x hv hx hp => ha (ho.data_blk (.inl ⟨i, v, x, hv, hx, .inl hp⟩))
  unfold EdmView.store
  simp only
  by_cases h0 : b.buf.view.size.ptr = 0
  · rw [if_pos h0, if_pos h0]
    exact ⟨fun x hx => storeVars_twin (hn x hx), h2⟩
  · rw [if_neg h0, if_neg h0]
    refine ⟨fun x hx => writeLE_twin (storeVars_twin (hn x hx)), fun a ha => ?_⟩
    unfold writeLE
    rw [if_neg fun hc => ha (size_word ho hj h0 hc.1 (by omega))]
    exact h2 a ha

/-! ## All kernels -/

/-- What is needed of a kernel. -/
def LocalStep (c : EdmCfg) (ups : Nat → MR σ) (p : EPipe σ) (ins : List Nat) (k : Nat) (op : EdmOp) : Prop :=
  ∃ b o m1, p.bufs.lookup k = some b ∧ p.exec c ups op = (.ok o, { p with mem := m1 }) ∧ (∀ x, ¬ b.blk.At x → m1 x = p.mem x) ∧
    ∀ m', NearAll p m' (k :: ins) → ∃ o' m1', ({ p with mem := m' } : EPipe σ).exec c ups op = (.ok o', { p with mem := m1' }) ∧ Near b m1 m1'

theorem local_kernel (h : EInv c R G ups u0 p q) {ins : List Nat} {k : Nat} {f : List Table → List KProg} {sched : List Nat}
    {out : Nat → Nat → Prop} (hf : (EdmOp.kernel ins k f sched).Fits c R G out (p.store c q)) : LocalStep c ups p ins k (.kernel ins k f sched) := by
  obtain ⟨-, ts, caps, r, t, f1, f2, f3, f4⟩ := hf
  obtain ⟨b, b1, b2, ho, hsh⟩ := h.shows f2
  obtain ⟨m1, e1, e2, e3⟩ := hsh.kernel ho (sched := sched) f3 f4
  refine ⟨b, .unit, m1, b1, by simp only [EPipe.exec, b1, h.reads f1, e1], fun x hx => e3 x fun hc => hx (ho.data_blk hc), fun m' hn => ?_⟩
  have hnk := hn k List.mem_cons_self b b1
  obtain ⟨m1', g1, -, -⟩ := (hnk.shows ho hsh).kernel ho (sched := sched) f3 f4
  refine ⟨.unit, m1', ?_, hsh.kernel_near ho hnk f3 f4 e1 g1⟩
  simp only [EPipe.exec, b1, h.reads_near f1 fun i hi => hn i (List.mem_cons_of_mem _ hi), g1]

theorem local_single (h : EInv c R G ups u0 p q) {ins : List Nat} {k v : Nat} {f : List Table → List (Nat × DVOp Elem)}
    {out : Nat → Nat → Prop} (hf : (EdmOp.single ins k v f).Fits c R G out (p.store c q)) : LocalStep c ups p ins k (.single ins k v f) := by
  obtain ⟨-, ts, caps, r, t, ty, rows, f1, f2, hv, hr, f4, f5, f6⟩ := hf
  obtain ⟨b, b1, b2, ho, hsh⟩ := h.shows f2
  obtain ⟨x, hx, -⟩ := tableOf_at ho (m := p.mem) hv
  have hk := (EPipe.leave_near ho hsh (fun _ _ => rfl) hv hx (runRows (p.devices c k v ty x) (f ts)).2 p.res p.bufs).2
  refine ⟨b, _, _, b1, by simp only [EPipe.exec, b1, h.reads f1, hv, hx]; rfl, hk, fun m' hn => ?_⟩
  have hnk := hn k List.mem_cons_self b b1
  refine ⟨_, _, by simp only [EPipe.exec, b1, h.reads_near f1 fun i hi => hn i (List.mem_cons_of_mem _ hi), hv, hx]; rfl, ?_⟩
  rw [EPipe.devices_near ho hsh hnk hv hx]
  exact (EPipe.leave_near ho hsh hnk hv hx _ p.res p.bufs).1

theorem local_rows (hl : FamLawful R G ups u0) (hc : c.Wf) (h : EInv c R G ups u0 p q) {ins : List Nat} {k v : Nat}
    {f : List Table → List (List (Nat × ACall Elem))} {sched : List Nat} {out : Nat → Nat → Prop}
    (hf : (EdmOp.rows ins k v f sched).Fits c R G out (p.store c q)) : LocalStep c ups p ins k (.rows ins k v f sched) := by
  have hok := (estep_rows hl hc h hf).2
  obtain ⟨-, ts, caps, t, ty, rows, f1, f2, hv, hk, hr, f4, f5⟩ := hf
  obtain ⟨b, b1, b2, ho, hsh⟩ := h.shows f2
  obtain ⟨x, hx, -⟩ := tableOf_at ho (m := p.mem) hv
  have he : p.exec c ups (.rows ins k v f sched) = (if (RowConc.kernel (p.devices c k v ty x) (f ts) sched).failed then .ub else
      .ok (.claims ((RowConc.kernel (p.devices c k v ty x) (f ts) sched).threads.map RowThread.done)),
      p.leave ty x (RowConc.kernel (p.devices c k v ty x) (f ts) sched).rows) := by
    simp only [EPipe.exec, b1, h.reads f1, hv, hx]
  have hnf : (RowConc.kernel (p.devices c k v ty x) (f ts) sched).failed = false := by
    cases hfl : (RowConc.kernel (p.devices c k v ty x) (f ts) sched).failed with
    | false => rfl
    | true =>
      rw [he, hfl] at hok
      cases hok
  rw [hnf, if_neg (by simp)] at he
  refine ⟨b, _, _, b1, he, (EPipe.leave_near ho hsh (fun _ _ => rfl) hv hx _ p.res p.bufs).2, fun m' hn => ?_⟩
  have hnk := hn k List.mem_cons_self b b1
  have hd := EPipe.devices_near (c := c) ho hsh hnk hv hx k p.res p.bufs
  refine ⟨.claims ((RowConc.kernel (p.devices c k v ty x) (f ts) sched).threads.map RowThread.done), ((EPipe.mk p.res m' p.bufs).leave ty x (RowConc.kernel (p.devices c k v ty x) (f ts) sched).rows).mem, ?_,
    (EPipe.leave_near ho hsh hnk hv hx _ p.res p.bufs).1⟩
  simp only [EPipe.exec, b1, h.reads_near f1 fun i hi => hn i (List.mem_cons_of_mem _ hi), hv, hx]
  rw [hd]
  have hnf' : (RowConc.kernel (EPipe.devices c ⟨p.res, p.mem, p.bufs⟩ k v ty x) (f ts) sched).failed = false := hnf
  rw [hnf', if_neg (by simp)]
  rfl

theorem local_append (hl : FamLawful R G ups u0) (hc : c.Wf) (h : EInv c R G ups u0 p q) {ins : List Nat} {k : Nat}
    {f : List Table → List (List (DCall Elem))} {sched : List Nat} {out : Nat → Nat → Prop}
    (hf : (EdmOp.append ins k f sched).Fits c R G out (p.store c q)) : LocalStep c ups p ins k (.append ins k f sched) := by
  have hok := (estep_append hl hc h hf).2
  obtain ⟨-, hnj, ts, caps, t, n, f1, f2, hn, hfit, hargs⟩ := hf
  obtain ⟨b, b1, b2, ho, hsh⟩ := h.shows f2
  generalize hg : DConc.kernel (b.buf.view.device c.dbg (c.dflt k) (c.schema k) p.mem) (f ts) sched = g at *
  have he : p.exec c ups (.append ins k f sched) = (if g.failed then .ub else .ok (.calls (g.threads.map DThread.done)),
      { p with mem := b.buf.view.store (c.schema k) p.mem g.cont }) := by
    simp only [EPipe.exec, b1, h.reads f1, hg]
  have hnf : g.failed = false := by
    cases hfl : g.failed with
    | false => rfl
    | true =>
      rw [he, hfl] at hok
      cases hok
  rw [hnf, if_neg (by simp)] at he
  refine ⟨b, _, _, b1, he, (EdmView.store_near ho hnj (fun _ _ => rfl) g.cont).2, fun m' hn => ?_⟩
  have hnk := hn k List.mem_cons_self b b1
  refine ⟨.calls (g.threads.map DThread.done), b.buf.view.store (c.schema k) m' g.cont, ?_, (EdmView.store_near ho hnj hnk g.cont).1⟩
  simp only [EPipe.exec, b1, h.reads_near f1 fun i hi => hn i (List.mem_cons_of_mem _ hi), EdmView.device_near ho hnj hnk, hg]
  rw [hnf, if_neg (by simp)]

end Vecmem
