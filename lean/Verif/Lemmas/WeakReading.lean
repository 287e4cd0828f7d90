import Verif.Spec.WeakReading
import Verif.Spec.WeakInputs
import Verif.Lemmas.WeakInputs
import Verif.Lemmas.WeakAccess
import Verif.Lemmas.WeakContainers
import Verif.Lemmas.WeakRows

/-!
# Lemmas for C82: kernels that read their inputs on weak memory
-/

namespace Vecmem

/-! ## threads whose loads have been answered -/

section

variable {γ : Type} {ro : Nat → Bool} {m : AMem 32} {mem : Mem} {B : Nat → Nat} {locs : Nat → Cell → Option (Nat × Nat)} {call : γ → WProg 32 → WProg 32}

theorem given_readInput (k : Elem → WProg 32) : ∀ (t a : Nat) (l : Elem), (∀ u, u < t → ro (B (a + u)) = true ∧ m (B (a + u)) = BitVec.ofNat 32 (mem (a + u)).toNat) →
    (readInput B k t a l).given ro m = (k (l ++ bytesAt mem a t)).given ro m := by
  intro t
  induction t with
  | zero =>
    intro a l _
    have : bytesAt mem a 0 = [] := rfl
    rw [this, List.append_nil]
    rfl
  | succ t ih =>
    intro a l h
    obtain ⟨h1, h2⟩ := h 0 (by omega)
    rw [Nat.add_zero] at h1 h2
    simp only [readInput, WProg.given, h1, if_true, h2, byteOf_byte]
    rw [ih (a + 1) _ (fun u hu => by rw [Nat.add_assoc, Nat.add_comm 1 u]; exact h (u + 1) (by omega)), bytesAt_succ, List.append_assoc]
    rfl

theorem onlyReads_readInput {k : Elem → WProg 32} (hk : ∀ x, (k x).OnlyReads ro) : ∀ (t a : Nat) (l : Elem), (readInput B k t a l).OnlyReads ro := by
  intro t
  induction t with
  | zero => exact fun a l => hk l
  | succ t ih => exact fun a l => ⟨fun _ => rfl, fun r => ih _ _⟩

theorem onlyReads_code (hcall : ∀ x k, k.OnlyReads ro → (call x k).OnlyReads ro) (t : RTask γ) : (t.code locs B call).OnlyReads ro := by
  induction t with
  | done => trivial
  | load k c next ih =>
    unfold RTask.code
    split
    · exact onlyReads_readInput ih _ _ _
    · trivial
  | call x next ih => exact hcall _ _ ih

theorem given_code {ts : List Table} (hro : ∀ k c t a, locs k c = some (t, a) → ∀ u, u < t → ro (B (a + u)) = true ∧ m (B (a + u)) = BitVec.ofNat 32 (mem (a + u)).toNat)
    (hloc : ∀ k c x, (ts[k]?).bind (·.cell c) = some x → ∃ t a, locs k c = some (t, a) ∧ bytesAt mem a t = x)
    (hcall : ∀ x k, (call x k).given ro m = call x (k.given ro m)) (t : RTask γ) (hv : t.Valid ts) :
    (t.code locs B call).given ro m = (t.calls ts).foldr call .done := by
  induction t with
  | done => rfl
  | load k c next ih =>
    obtain ⟨x, hx, hv⟩ := hv
    obtain ⟨n, a, h1, h2⟩ := hloc k c x hx
    unfold RTask.code RTask.calls
    rw [h1, hx]
    dsimp only
    rw [given_readInput _ n a [] (hro k c n a h1), List.nil_append, h2, ih x hv]
  | call x next ih =>
    unfold RTask.code RTask.calls
    rw [hcall, ih hv, List.foldr_cons]

theorem defined_code {I : WImpl 32} (hI : I = posixWeak ∨ I = cudaWeak ∨ I = syclWeak ∨ I = syclBuiltinWeak) (hcall : ∀ x k, k.Defined I → (call x k).Defined I) (t : RTask γ) :
    (t.code locs B call).Defined I := by
  have hrd : (I .read).isSome := by rw [plain_read hI]; rfl
  have hR : ∀ (k : Elem → WProg 32), (∀ x, (k x).Defined I) → ∀ (t a : Nat) (l : Elem), (readInput B k t a l).Defined I := by
    intro k hk t
    induction t with
    | zero => exact fun a l => hk l
    | succ t ih => exact fun a l => ⟨hrd, fun r => ih _ _⟩
  induction t with
  | done => trivial
  | load k c next ih =>
    unfold RTask.code
    split
    · exact hR _ ih _ _ _
    · trivial
  | call x next ih => exact hcall _ _ ih

end

/-! ## calls that append -/

section

variable {ro : Nat → Bool} {m : AMem 32} {V : WVec}

theorem given_stores (hV : ∀ a, V.Owns a → ro a = false) (index : Nat) (k : WProg 32) : ∀ l : List (Nat × Nat × BitVec 32),
    (V.stores index k l).given ro m = V.stores index (k.given ro m) l
  | [] => rfl
  | (v, j, x) :: l => by
    simp only [WVec.stores, WProg.given, hV _ (.inr ⟨_, _, rfl⟩), given_stores hV index k l]
    rfl

theorem onlyReads_stores (hV : ∀ a, V.Owns a → ro a = false) (index : Nat) {k : WProg 32} (hk : k.OnlyReads ro) : ∀ l : List (Nat × Nat × BitVec 32),
    (V.stores index k l).OnlyReads ro
  | [] => hk
  | (v, j, x) :: l => ⟨fun h => (by rw [hV _ (.inr ⟨_, _, rfl⟩)] at h; cases h), fun _ => onlyReads_stores hV index hk l⟩

theorem given_append (hV : ∀ a, V.Owns a → ro a = false) (c : WAppend 32) (k : WProg 32) : (c.code V k).given ro m = c.code V (k.given ro m) := by
  unfold WAppend.code
  simp only [WProg.given, hV _ (.inl rfl)]
  rw [if_neg (by simp)]
  congr 1
  funext r
  split
  · rfl
  · exact given_stores hV _ _ _

theorem onlyReads_append (hV : ∀ a, V.Owns a → ro a = false) (c : WAppend 32) {k : WProg 32} (hk : k.OnlyReads ro) : (c.code V k).OnlyReads ro := by
  refine ⟨fun h => (by rw [hV _ (.inl rfl)] at h; cases h), fun r => ?_⟩
  beta_reduce
  split
  · trivial
  · exact onlyReads_stores hV _ hk _

theorem defined_append {I : WImpl 32} (hI : I = posixWeak ∨ I = cudaWeak ∨ I = syclWeak ∨ I = syclBuiltinWeak) (c : WAppend 32) {k : WProg 32} (hk : k.Defined I) :
    (c.code V k).Defined I := by
  refine ⟨by rcases hI with rfl | rfl | rfl | rfl <;> rfl, fun r => ?_⟩
  beta_reduce
  split
  · trivial
  · exact stores_defined (by intro x; rcases hI with rfl | rfl | rfl | rfl <;> rfl) V _ hk _

theorem records_code (words : Elem → List (BitVec 32)) (new : List (Nat × Elem)) : ∀ cs : List (DCall Elem),
    cs.foldr (fun c k => (c.weak words new).code V k) .done = (WTask.records words new cs).code V
  | [] => rfl
  | c :: cs => by
    rw [List.foldr_cons, records_code words new cs]
    rfl

/-- What there is in the end, and what was claimed, can be told without the accesses to other variables. -/
theorem elsewhere_final {tr : WTrace 32} {a : Nat} (ha : ro a = false) (x : BitVec 32) : (tr.elsewhere ro).Final m a x ↔ tr.Final m a x := by
  have hm : ∀ e : WEvent 32, e.addr = a → (e ∈ tr.elsewhere ro ↔ e ∈ tr) := by
    intro e he
    unfold WTrace.elsewhere
    rw [List.mem_filter, he, ha]
    simp
  unfold WTrace.Final
  constructor
  · rintro (⟨h1, h2⟩ | ⟨e, t, h1, h2, h3, h4⟩)
    · exact .inl ⟨h1, fun e he hea => h2 e ((hm e hea).2 he) hea⟩
    · exact .inr ⟨e, t, (hm e h2).1 h1, h2, h3, fun f hf hfa => h4 f ((hm f hfa).2 hf) hfa⟩
  · rintro (⟨h1, h2⟩ | ⟨e, t, h1, h2, h3, h4⟩)
    · exact .inl ⟨h1, fun e he hea => h2 e ((hm e hea).1 he) hea⟩
    · exact .inr ⟨e, t, (hm e h2).2 h1, h2, h3, fun f hf hfa => h4 f ((hm f hfa).1 hf) hfa⟩

theorem elsewhere_claims {tr : WTrace 32} {a : Nat} (ha : ro a = false) (i : Nat) : WTrace.claims a ((tr.elsewhere ro).of i) = WTrace.claims a (tr.of i) := by
  unfold WTrace.claims WTrace.of WTrace.elsewhere
  simp only [List.filter_filter]
  refine List.filter_congr fun e _ => ?_
  by_cases h : e.addr = a
  · rw [h, ha]; simp
  · simp [h]

theorem EdmView.InVars.change {S : Schema} {e : EdmView} {val val' : Nat → BitVec 32 → Prop} {mem : Mem} (h : e.InVars S V val mem) (hv : ∀ a, V.Owns a → ∀ x, val a x → val' a x) :
    e.InVars S V val' mem := by
  obtain ⟨h1, ⟨y, h2, h3⟩, h4⟩ := h
  exact ⟨h1, ⟨y, hv _ (.inl rfl) _ h2, h3⟩, fun k v x g1 g2 i u g3 g4 => hv _ (.inr ⟨_, _, rfl⟩) _ (h4 k v x g1 g2 i u g3 g4)⟩

end

theorem several_code (V : Nat → WVec) (words : Elem → List (BitVec 32)) (dflt : Elem) : ∀ cs : List (Nat × ACall Elem),
    cs.foldr (fun x k => (x.2.weak words dflt).code (V x.1) k) .done = (MTask.calls (fun _ => words) (fun _ => dflt) cs).code V
  | [] => rfl
  | (_, _) :: cs => by
    rw [List.foldr_cons, several_code V words dflt cs]
    rfl

theorem View.InVars.change {V : WVec} {v : View} {t : Nat} {val val' : Nat → BitVec 32 → Prop} {mem : Mem} (h : v.InVars t V val mem) (hv : ∀ a, V.Owns a → ∀ x, val a x → val' a x) :
    v.InVars t V val' mem := by
  obtain ⟨h1, ⟨y, h2, h3⟩, h4⟩ := h
  exact ⟨h1, ⟨y, hv _ (.inl rfl) _ h2, h3⟩, fun i u g3 g4 => hv _ (.inr ⟨_, _, rfl⟩) _ (h4 i u g3 g4)⟩

theorem ReadingRows.alike {I : WImpl 32} {dbg : Bool} {dflt : Elem} {t : Nat} {vs ws : List View} {locs : Nat → Cell → Option (Nat × Nat)} {progs : List (RTask (Nat × ACall Elem))}
    {mem mem' : Mem} {idx : Nat → Nat → List Nat} (hl : vs.length = ws.length) (ha : ∀ (i : Nat) (v w : View), vs[i]? = some v → ws[i]? = some w → v.Alike w)
    (h : ReadingRows I dbg dflt t vs locs progs mem mem' idx) : ReadingRows I dbg dflt t ws locs progs mem mem' idx := by
  obtain ⟨V, B, m, s, h1, h2, h3, h4, h5, h6, h7, h8, h9⟩ := h
  have key : ∀ (k : Nat) (w : View), ws[k]? = some w → ∃ v, vs[k]? = some v ∧ v.Alike w := by
    intro k w hw
    have hk : k < vs.length := by rw [hl]; exact (List.getElem?_eq_some_iff.1 hw).1
    exact ⟨vs[k], List.getElem?_eq_getElem hk, ha k _ _ (List.getElem?_eq_getElem hk) hw⟩
  refine ⟨V, B, m, s, h1, h2, fun k w hw => ?_, h4, h5, h6, fun k w hw => ?_, fun x hx => h8 x fun v hv hvx => ?_, fun i k hk => h9 i k (by rw [hl]; exact hk)⟩
  · obtain ⟨v, g1, g2⟩ := key k w hw
    exact g2.inVars (h3 k v g1)
  · obtain ⟨v, g1, g2⟩ := key k w hw
    exact g2.inVars (h7 k v g1)
  · obtain ⟨k, hk⟩ := List.getElem?_of_mem hv
    have hk' : k < ws.length := by rw [← hl]; exact (List.getElem?_eq_some_iff.1 hk).1
    exact hx ws[k] (List.getElem_mem hk') ((ha k v ws[k] hk (List.getElem?_eq_getElem hk')).has hvx)

/-! ## variables for the inputs -/

/-- The vector in the variables with even numbers. -/
def WVec.even (V : WVec) : WVec := { V with size := 2 * V.size, cell := fun u i => 2 * V.cell u i }

/-- The values of `m` in the variables with even numbers, and the bytes of the memory in the others. -/
def evenVals (m : AMem 32) (mem : Mem) : AMem 32 := fun x => if x % 2 = 0 then m (x / 2) else BitVec.ofNat 32 (mem (x / 2)).toNat

theorem evenVals_even (m : AMem 32) (mem : Mem) (a : Nat) : evenVals m mem (2 * a) = m a := by
  unfold evenVals
  rw [if_pos (by omega), Nat.mul_div_cancel_left _ (by omega)]

theorem WVec.Valid.even {V : WVec} (h : V.Valid 32) : V.even.Valid 32 :=
  ⟨fun v i v' i' (e : 2 * V.cell v i = 2 * V.cell v' i') => h.cells v i v' i' (by omega), fun v i (e : 2 * V.cell v i = 2 * V.size) => h.size v i (by omega), h.cap⟩

theorem owns_even {V : WVec} {a : Nat} (h : V.even.Owns a) : ∃ b, a = 2 * b ∧ V.Owns b := by
  rcases h with h | ⟨v, i, h⟩
  · exact ⟨_, h, .inl rfl⟩
  · exact ⟨_, h, .inr ⟨v, i, rfl⟩⟩

theorem Apart.even {V : Nat → WVec} (h : Apart V) : Apart fun k => (V k).even := by
  intro j k hjk a h1 h2
  obtain ⟨b, e1, h1⟩ := owns_even h1
  obtain ⟨b', e2, h2⟩ := owns_even h2
  obtain rfl : b = b' := by omega
  exact h j k hjk b h1 h2

theorem EdmView.InVars.even {S : Schema} {e : EdmView} {V : WVec} {m : AMem 32} {mem : Mem} (h : e.InVars S V (fun a x => x = m a) mem) :
    e.InVars S V.even (fun a x => x = evenVals m mem a) mem := by
  obtain ⟨h1, ⟨y, h2, h3⟩, h4⟩ := h
  refine ⟨h1, ⟨y, ?_, h3⟩, fun k v x g1 g2 i u g3 g4 => ?_⟩
  · rw [h2]; exact (evenVals_even _ _ _).symm
  · rw [h4 k v x g1 g2 i u g3 g4]; exact (evenVals_even _ _ _).symm

theorem View.InVars.even {t : Nat} {v : View} {V : WVec} {m : AMem 32} {mem : Mem} (h : v.InVars t V (fun a x => x = m a) mem) :
    v.InVars t V.even (fun a x => x = evenVals m mem a) mem := by
  obtain ⟨h1, ⟨y, h2, h3⟩, h4⟩ := h
  refine ⟨h1, ⟨y, ?_, h3⟩, fun i u g3 g4 => ?_⟩
  · rw [h2]; exact (evenVals_even _ _ _).symm
  · rw [h4 i u g3 g4]; exact (evenVals_even _ _ _).symm

theorem inputVars_odd (locs : Nat → Cell → Option (Nat × Nat)) (m : AMem 32) (mem : Mem) {own : Nat → Prop} (h : ∀ a, own a → ∃ b, a = 2 * b) :
    InputVars locs mem (fun a => 2 * a + 1) (evenVals m mem) own := by
  intro k c t a _ u _
  refine ⟨?_, fun ho => ?_⟩
  · show (if (2 * (a + u) + 1) % 2 = 0 then _ else BitVec.ofNat 32 (mem ((2 * (a + u) + 1) / 2)).toNat) = _
    rw [if_neg (by omega), show (2 * (a + u) + 1) / 2 = a + u by omega]
  · obtain ⟨b, hb⟩ := h _ ho
    dsimp only at hb
    omega

/-! ## inputs in memory -/

section

variable {σ : Type} {R : Limits} {G : Nat} {ups : Nat → MR σ} {u0 : σ} {c : EdmCfg} {p : EPipe σ} {q : EReady}

theorem EInv.locs (h : EInv c R G ups u0 p q) : ∀ {ins : List Nat} {ts : List Table}, (p.store c q).HasAll ins ts → ∀ k d x, (ts[k]?).bind (·.cell d) = some x →
    ∃ t a, p.locs c ins k d = some (t, a) ∧ bytesAt p.mem a t = x := by
  intro ins
  induction ins with
  | nil =>
    intro ts hi k d x hx
    cases ts with
    | nil => simp at hx
    | cons _ _ => exact hi.elim
  | cons i is ih =>
    intro ts hi k d x hx
    cases ts with
    | nil => exact hi.elim
    | cons t ts =>
      obtain ⟨⟨caps, r, f2⟩, hi⟩ := hi
      cases k with
      | succ k =>
        obtain ⟨n, a, h1, h2⟩ := ih hi k d x (by simpa using hx)
        refine ⟨n, a, ?_, h2⟩
        unfold EPipe.locs at h1 ⊢
        rw [List.getElem?_cons_succ]
        exact h1
      | zero =>
        obtain ⟨b, b1, -, b3, b4, b5, b6, b7, b8, b9⟩ := h.has f2
        have hsh : Shows (c.schema i) b p.mem t := ⟨b8.symm, b6.sizes b7, fun j hj => b6.described b5 b9.symm j hj⟩
        obtain ⟨v, y, w, -, -, -, -, a4, a5⟩ := hsh.locate b5 (d := d) (x := x) (by simpa using hx)
        refine ⟨_, _, ?_, a5⟩
        unfold EPipe.locs
        simp only [List.getElem?_cons_zero, b1]
        exact a4

open Props (EdmHas)

/-- Where the elements of the inputs are is not in the memory of another container. -/
theorem EInv.locs_far (hl : FamLawful R G ups u0) (h : EInv c R G ups u0 p q) {k0 : Nat} {b0 : EBuffer} (hb : p.bufs.lookup k0 = some b0) :
    ∀ {ins : List Nat} {ts : List Table}, (p.store c q).HasAll ins ts → k0 ∉ ins → ∀ k d x, (ts[k]?).bind (·.cell d) = some x →
    ∃ t a, p.locs c ins k d = some (t, a) ∧ bytesAt p.mem a t = x ∧ ∀ y, a ≤ y → y < a + t → ¬ EdmHas (c.schema k0) b0.buf.view y := by
  intro ins
  induction ins with
  | nil =>
    intro ts hi _ k d x hx
    cases ts with
    | nil => simp at hx
    | cons _ _ => exact hi.elim
  | cons i is ih =>
    intro ts hi hk k d x hx
    cases ts with
    | nil => exact hi.elim
    | cons t ts =>
      obtain ⟨⟨caps, r, f2⟩, hi⟩ := hi
      cases k with
      | succ k =>
        obtain ⟨n, a, h1, h2⟩ := ih hi (fun hc => hk (List.mem_cons_of_mem _ hc)) k d x (by simpa using hx)
        refine ⟨n, a, ?_, h2⟩
        unfold EPipe.locs at h1 ⊢
        rw [List.getElem?_cons_succ]
        exact h1
      | zero =>
        obtain ⟨b, b1, b2, b3, b4, b5, b6, b7, b8, b9⟩ := h.has f2
        have hsh : Shows (c.schema i) b p.mem t := ⟨b8.symm, b6.sizes b7, fun j hj => b6.described b5 b9.symm j hj⟩
        obtain ⟨v, y, w, a1, a2, a3, a6, a4, a5⟩ := hsh.locate b5 (d := d) (x := x) (by simpa using hx)
        refine ⟨_, _, ?_, a5, fun z z1 z2 hz => ?_⟩
        · unfold EPipe.locs
          simp only [List.getElem?_cons_zero, b1]
          exact a4
        · have hm := mem_of_lookup hb
          refine h.cross hl b2 hm (fun (hc : i = k0) => hk (by rw [← hc]; exact List.mem_cons_self)) (x := z) (b5.data_in ?_) ((h.bufs _ hm).data_in hz)
          have hcap := hsh.sizes y (List.mem_of_getElem? a2) w (List.mem_of_getElem? a3)
          have : (d.index + 1) * v.type.size ≤ w.capacity * v.type.size := Nat.mul_le_mul_right _ (by omega)
          rw [Nat.succ_mul] at this
          exact .inl ⟨d.var, v, y, a1, a2, .inl ⟨w, List.mem_of_getElem? a3, by omega, by omega⟩⟩

end

/-! ## threads that load elements of inputs, and load and store -/

section

variable {σ : Type} {R : Limits} {G : Nat} {S : Schema} {A : Nat} {hasHost : Bool} {b : EBuffer} {locs : Nat → Cell → Option (Nat × Nat)} {ts : List Table}

open Props (EdmHas)

/-- The elements of the inputs are in memory, elsewhere. -/
def FarInputs (S : Schema) (b : EBuffer) (locs : Nat → Cell → Option (Nat × Nat)) (ts : List Table) (m : Mem) : Prop :=
  ∀ k d x, (ts[k]?).bind (·.cell d) = some x → ∃ t a, locs k d = some (t, a) ∧ bytesAt m a t = x ∧ ∀ y, a ≤ y → y < a + t → ¬ EdmHas S b.buf.view y

theorem FarInputs.congr {m m' : Mem} (h : FarInputs S b locs ts m) (hm : ∀ a, ¬ EdmHas S b.buf.view a → m' a = m a) : FarInputs S b locs ts m' := by
  intro k d x hx
  obtain ⟨t, a, h1, h2, h3⟩ := h k d x hx
  refine ⟨t, a, h1, ?_, h3⟩
  rw [← h2]
  unfold bytesAt
  exact List.map_congr_left fun i hi => hm _ (h3 _ (by omega) (by have := List.mem_range.1 hi; omega))

theorem Shows.inCell_has (ho : EdmOk σ R G S A hasHost b) {m : Mem} {t : Table} (h : Shows S b m t) {d : Cell} (hd : (t.cell d).isSome) {a : Nat}
    (h1 : InCell (b.buf.view.locate S m) d a) : EdmHas S b.buf.view a := by
  obtain ⟨x, hx⟩ := Option.isSome_iff_exists.1 hd
  obtain ⟨v, y, w, a1, a2, a3, a5, a4, -⟩ := h.locate ho hx
  obtain ⟨t1, p1, e1, e2, e3⟩ := h1
  cases e1.symm.trans a4
  have hcap := h.sizes y (List.mem_of_getElem? a2) w (List.mem_of_getElem? a3)
  have : (d.index + 1) * v.type.size ≤ w.capacity * v.type.size := Nat.mul_le_mul_right _ (by omega)
  rw [Nat.succ_mul] at this
  exact .inl ⟨d.var, v, y, a1, a2, .inl ⟨w, List.mem_of_getElem? a3, by omega, by omega⟩⟩

theorem Shows.no_cell (ho : EdmOk σ R G S A hasHost b) {m : Mem} {t : Table} (h : Shows S b m t) : t.cell ⟨S.length, 0, 0⟩ = none := by
  unfold Table.cell
  rw [List.getElem?_eq_none (by rw [← h.table, tableOf_length ho])]

/-- What the code of a thread does when it runs alone. -/
theorem Shows.soloInputs (ho : EdmOk σ R G S A hasHost b) {m0 : Mem} {t0 : Table} (h0 : Shows S b m0 t0) : ∀ {pr : IProg} {m : Mem} {t : Table}, Shows S b m t →
    FarInputs S b locs ts m → (∀ d, (t.cell d).isSome = (t0.cell d).isSome) → (pr.known S.length ts).Valid S t →
    ∃ m' l, (pr.known S.length ts).exec S b.buf.view m = .ok m' ∧ (pr.code (b.buf.view.locate S m0) locs).solo (byteVars m) = (l, byteVars m', true) ∧
      ∀ x ∈ l, (∃ w d, (w, d) ∈ (pr.known S.length ts).accesses t ∧ (t0.cell d).isSome ∧ InCell (b.buf.view.locate S m0) d x.addr ∧ (x.wrote.isSome → w = true)) ∨
        (x.wrote = none ∧ ¬ EdmHas S b.buf.view x.addr) := by
  intro pr
  induction pr with
  | done => exact fun h _ _ _ => ⟨_, [], rfl, rfl, by simp⟩
  | input k d next ih =>
    intro m t h hf hs hv
    cases hx : (ts[k]?).bind (·.cell d) with
    | none =>
      simp only [IProg.known, hx] at hv
      obtain ⟨x, hx, -⟩ := hv
      rw [h.no_cell ho] at hx
      cases hx
    | some x =>
      simp only [IProg.known, hx] at hv ⊢
      obtain ⟨n, a, h1, h2, h3⟩ := hf k d x hx
      obtain ⟨m', l, i1, i2, i3⟩ := ih x h hf hs hv
      obtain ⟨r, r1, r2⟩ := solo_readBytes (fun x => (next x).code (b.buf.view.locate S m0) locs) m n a []
      rw [List.nil_append, h2] at r1
      refine ⟨m', r ++ l, i1, ?_, ?_⟩
      · simp only [IProg.code, h1]
        rw [r1, i2]
      · intro z hz
        rcases List.mem_append.1 hz with hz | hz
        · obtain ⟨z1, z2⟩ := r2 z hz
          exact .inr ⟨z2, h3 _ z1.1 z1.2⟩
        · exact i3 z hz
  | load d next ih =>
    rintro m t h hf hs ⟨x, x1, x2⟩
    obtain ⟨v, y, w, -, -, -, -, h1, h2⟩ := h.locate ho x1
    obtain ⟨m', l, i1, i2, i3⟩ := ih x h hf hs x2
    have hd : (t0.cell d).isSome := by rw [← hs, x1]; rfl
    have hloc : b.buf.view.locate S m0 d = some (v.type.size, w.ptr + d.index * v.type.size) := by
      rw [← h1]
      exact h0.locate_same ho h hd (by rw [hs]; exact hd)
    obtain ⟨r, r1, r2⟩ := solo_readBytes (fun x => (next x).code (b.buf.view.locate S m0) locs) m v.type.size (w.ptr + d.index * v.type.size) []
    rw [List.nil_append, h2] at r1
    refine ⟨m', r ++ l, ?_, ?_, ?_⟩
    · simp only [IProg.known, KProg.exec, h1, h2]
      exact i1
    · simp only [IProg.code, hloc]
      rw [r1, i2]
    · intro z hz
      simp only [IProg.known, KProg.accesses, x1, Option.getD_some]
      rcases List.mem_append.1 hz with hz | hz
      · obtain ⟨z1, z2⟩ := r2 z hz
        exact .inl ⟨false, d, List.mem_cons_self, hd, ⟨_, _, hloc, z1.1, z1.2⟩, by rw [z2]; simp⟩
      · exact (i3 z hz).imp_left fun ⟨w', d', z1, z2⟩ => ⟨w', d', List.mem_cons_of_mem _ z1, z2⟩
  | store d x next ih =>
    rintro m t h hf hs ⟨x1, ⟨v', hv', hx⟩, x3⟩
    obtain ⟨z, hz⟩ := Option.isSome_iff_exists.1 x1
    obtain ⟨v, y, w, k1, k2, k3, k4, h1, h2⟩ := h.locate ho hz
    cases k1.symm.trans hv'
    obtain ⟨p1, p2⟩ := h.put ho k1 k2 k3 k4 hx
    obtain ⟨m', l, i1, i2, i3⟩ := ih p1 (hf.congr p2) (fun d' => by rw [cell_setCell]; exact hs d') x3
    have hd : (t0.cell d).isSome := by rw [← hs]; exact x1
    have hloc : b.buf.view.locate S m0 d = some (v'.type.size, w.ptr + d.index * v'.type.size) := by
      rw [← h1]
      exact h0.locate_same ho h hd x1
    obtain ⟨r, r1, r2⟩ := solo_writeBytes (next.code (b.buf.view.locate S m0) locs) x m (w.ptr + d.index * v'.type.size)
    rw [soloBytes_eq hx] at r1
    refine ⟨m', r ++ l, ?_, ?_, ?_⟩
    · simp only [IProg.known, KProg.exec, h1]
      exact i1
    · simp only [IProg.code, hloc]
      rw [r1, i2]
    · intro z hz
      simp only [IProg.known, KProg.accesses]
      rcases List.mem_append.1 hz with hz | hz
      · obtain ⟨z1, z2⟩ := r2 z hz
        exact .inl ⟨true, d, List.mem_cons_self, hd, ⟨_, _, hloc, z1, hx ▸ z2⟩, fun _ => rfl⟩
      · exact (i3 z hz).imp_left fun ⟨w', d', z1, z2⟩ => ⟨w', d', List.mem_cons_of_mem _ z1, z2⟩

/-- The threads of a kernel, one after the other. -/
theorem Shows.soloAllInputs (ho : EdmOk σ R G S A hasHost b) {m0 : Mem} {t0 : Table} (h0 : Shows S b m0 t0) : ∀ {ps : List IProg} {m : Mem} {t : Table}, Shows S b m t →
    FarInputs S b locs ts m → (∀ d, (t.cell d).isSome = (t0.cell d).isSome) → (∀ p ∈ ps.map (·.known S.length ts), p.Valid S t) → NoRaces t (ps.map (·.known S.length ts)) →
    ∃ m', execThreads S b.buf.view (ps.map (·.known S.length ts)) m = .ok m' ∧
      ps.foldl (fun m p => ((p.code (b.buf.view.locate S m0) locs).solo m).2.1) (byteVars m) = byteVars m' := by
  intro ps
  induction ps with
  | nil => exact fun h _ _ _ _ => ⟨_, rfl, rfl⟩
  | cons p ps ih =>
    intro m t h hf hs hv hr
    rw [List.map_cons] at hv hr ⊢
    obtain ⟨m1, e1, e2, e3⟩ := h.exec ho (hv _ List.mem_cons_self)
    obtain ⟨m1', l, g1, g2, -⟩ := h0.soloInputs ho h hf hs (hv _ List.mem_cons_self)
    rw [e1] at g1
    cases g1
    obtain ⟨m2, f1, f2⟩ := ih e2 (hf.congr e3) (fun d => by
      rw [← hs d]
      exact runAll_isSome (ps := [p.known S.length ts])) (fun q hq => ((hr.tail.2 q hq).1.after).2 (hv q (List.mem_cons_of_mem _ hq))) hr.after
    refine ⟨m2, ?_, ?_⟩
    · simp only [execThreads, e1]
      exact f1
    · rw [List.foldl_cons, g2]
      exact f2

theorem inputCode_rest {loc : Cell → Option (Nat × Nat)} {ps : List IProg} {i : Nat} (h : ps.length ≤ i) : inputCode loc locs ps i = .done := by
  unfold inputCode
  rw [List.getElem?_eq_none h]
  rfl

theorem oneByOne_inputs {loc : Cell → Option (Nat × Nat)} (ps : List IProg) (m : AMem 32) :
    oneByOne (inputCode loc locs ps) (List.range ps.length) m = ps.foldl (fun m p => ((p.code loc locs).solo m).2.1) m := by
  have h : ps = (List.range ps.length).map fun i => ps[i]?.getD .done := by
    apply List.ext_getElem
    · simp
    · intro i h1 h2
      simp [h1]
  conv => rhs; rw [h]
  rw [List.foldl_map]
  rfl

/-- Threads that do not race for elements do not race for bytes. -/
theorem Shows.raceFreeInputs (ho : EdmOk σ R G S A hasHost b) {m : Mem} {t : Table} (h : Shows S b m t) (hf : FarInputs S b locs ts m) {ps : List IProg}
    (hv : ∀ p ∈ ps.map (·.known S.length ts), p.Valid S t) (hr : NoRaces t (ps.map (·.known S.length ts))) :
    RaceFree (byteVars m) (inputCode (b.buf.view.locate S m) locs ps) ∧ ∀ i, ((inputCode (b.buf.view.locate S m) locs ps i).solo (byteVars m)).2.2 = true := by
  constructor
  · intro i j hij x hx hw y hy hxy
    cases hi : ps[i]? with
    | none => rw [inputCode_rest (List.getElem?_eq_none_iff.1 hi)] at hx; cases hx
    | some p =>
      cases hj : ps[j]? with
      | none => rw [inputCode_rest (List.getElem?_eq_none_iff.1 hj)] at hy; cases hy
      | some q =>
        unfold inputCode at hx hy
        rw [hi, Option.getD_some] at hx
        rw [hj, Option.getD_some] at hy
        obtain ⟨_, l, -, g2, g3⟩ := h.soloInputs ho h hf (fun _ => rfl) (hv _ (List.mem_map_of_mem (List.mem_of_getElem? hi)))
        obtain ⟨_, l', -, k2, k3⟩ := h.soloInputs ho h hf (fun _ => rfl) (hv _ (List.mem_map_of_mem (List.mem_of_getElem? hj)))
        rw [g2] at hx
        rw [k2] at hy
        rcases g3 x hx with ⟨w, d, x1, x2, x3, x4⟩ | ⟨x1, -⟩
        · rcases k3 y hy with ⟨w', d', y1, y2, y3, -⟩ | ⟨-, y1⟩
          · rw [hxy] at y3
            cases h.apart ho x2 y2 x3 y3
            cases x4 hw
            exact hr i j _ _ hij (by rw [List.getElem?_map, hi]; rfl) (by rw [List.getElem?_map, hj]; rfl) d w' x1 y1
          · exact y1 (by rw [hxy]; exact h.inCell_has ho x2 x3)
        · rw [x1] at hw
          cases hw
  · intro i
    cases hi : ps[i]? with
    | none => rw [inputCode_rest (List.getElem?_eq_none_iff.1 hi)]; rfl
    | some p =>
      obtain ⟨_, l, -, g2, -⟩ := h.soloInputs ho h hf (fun _ => rfl) (hv _ (List.mem_map_of_mem (List.mem_of_getElem? hi)))
      unfold inputCode
      rw [hi, Option.getD_some, g2]

end

end Vecmem
