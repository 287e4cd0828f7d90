import Verif.Spec.WeakAccess
import Verif.Lemmas.RaceFree
import Verif.Lemmas.EdmPipelineRaces
import Verif.Model.WeakAccess

/-!
# Lemmas for C81: kernels that load and store elements, on weak memory
-/

namespace Vecmem

open IntMath

theorem byteOf_byte (x : UInt8) : byteOf (some (BitVec.ofNat 32 x.toNat)) = x := by
  unfold byteOf
  simp only [Option.getD_some, BitVec.toNat_ofNat]
  rw [Nat.mod_eq_of_lt (by have := x.toNat_lt; omega)]
  simp

theorem byteVars_inj {m m' : Mem} (h : byteVars m = byteVars m') : m = m' := by
  funext a
  have := congrFun h a
  simp only [byteVars] at this
  rw [← byteOf_byte (m a), this, byteOf_byte]

theorem bytesAt_succ (m : Mem) (a t : Nat) : bytesAt m a (t + 1) = m a :: bytesAt m (a + 1) t := by
  unfold bytesAt
  rw [List.range_succ_eq_map, List.map_cons, List.map_map]
  congr 1
  refine List.map_congr_left fun i _ => ?_
  simp only [Function.comp_apply]
  congr 1
  omega

/-- Reading bytes alone. -/
theorem solo_readBytes (k : Elem → WProg 32) (m : Mem) : ∀ (t a : Nat) (l : Elem), ∃ r : List (SoloAccess 32),
    (readBytes k t a l).solo (byteVars m) = (r ++ ((k (l ++ bytesAt m a t)).solo (byteVars m)).1, ((k (l ++ bytesAt m a t)).solo (byteVars m)).2) ∧
    ∀ x ∈ r, (a ≤ x.addr ∧ x.addr < a + t) ∧ x.wrote = none := by
  intro t
  induction t with
  | zero =>
    intro a l
    refine ⟨[], ?_, by simp⟩
    simp [readBytes, bytesAt]
  | succ t ih =>
    intro a l
    obtain ⟨r, r1, r2⟩ := ih (a + 1) (l ++ [m a])
    refine ⟨⟨a, some (byteVars m a), none⟩ :: r, ?_, ?_⟩
    · have hm : (fun b => if b = a then (none : Option (BitVec 32)).getD (byteVars m a) else byteVars m b) = byteVars m := by
        funext b
        by_cases h : b = a
        · subst h; simp
        · rw [if_neg h]
      simp only [readBytes, WProg.solo, WCall.solo]
      rw [hm, show byteOf (some (byteVars m a)) = m a from byteOf_byte _, r1, bytesAt_succ]
      simp only [List.append_assoc, List.cons_append, List.nil_append]
    · intro x hx
      rcases List.mem_cons.1 hx with rfl | hx
      · exact ⟨⟨Nat.le_refl _, by dsimp only; omega⟩, rfl⟩
      · obtain ⟨⟨h1, h2⟩, h3⟩ := r2 x hx
        exact ⟨⟨by omega, by omega⟩, h3⟩

/-- The memory after bytes have been written. -/
def soloBytes (m : Mem) : Nat → Elem → Mem
  | _, [] => m
  | a, x :: l => soloBytes (fun b => if b = a then x else m b) (a + 1) l

theorem soloBytes_at : ∀ (l : Elem) (m : Mem) (a b : Nat), soloBytes m a l b = if a ≤ b ∧ b < a + l.length then l.getD (b - a) 0 else m b := by
  intro l
  induction l with
  | nil => intro m a b; rw [if_neg (by simp only [List.length_nil]; omega)]; rfl
  | cons x l ih =>
    intro m a b
    unfold soloBytes
    rw [ih]
    simp only [List.length_cons]
    by_cases h1 : b = a
    · subst h1
      rw [if_neg (by omega), if_pos rfl, if_pos (by omega), Nat.sub_self]
      rfl
    · by_cases h2 : a ≤ b ∧ b < a + (l.length + 1)
      · rw [if_pos h2, if_pos (by omega), show b - a = (b - (a + 1)) + 1 by omega]
        simp
      · rw [if_neg h2, if_neg (by omega), if_neg h1]

theorem soloBytes_eq {t : Nat} {m : Mem} {a : Nat} {x : Elem} (h : x.length = t) : soloBytes m a x = Pipe.putElems t m a [x] := by
  funext b
  rw [soloBytes_at]
  unfold Pipe.putElems
  simp only [List.length_cons, List.length_nil, Nat.zero_add, Nat.one_mul, h]
  by_cases hb : a ≤ b ∧ b < a + t
  · rw [if_pos hb, if_pos hb, Nat.div_eq_of_lt (by omega), Nat.mod_eq_of_lt (by omega)]
    rfl
  · rw [if_neg hb, if_neg hb]

/-- Writing bytes alone. -/
theorem solo_writeBytes (k : WProg 32) : ∀ (l : Elem) (m : Mem) (a : Nat), ∃ r : List (SoloAccess 32),
    (writeBytes k a l).solo (byteVars m) = (r ++ (k.solo (byteVars (soloBytes m a l))).1, (k.solo (byteVars (soloBytes m a l))).2) ∧
    ∀ x ∈ r, a ≤ x.addr ∧ x.addr < a + l.length := by
  intro l
  induction l with
  | nil => intro m a; exact ⟨[], rfl, by simp⟩
  | cons x l ih =>
    intro m a
    obtain ⟨r, r1, r2⟩ := ih (fun b => if b = a then x else m b) (a + 1)
    refine ⟨⟨a, none, some (BitVec.ofNat 32 x.toNat)⟩ :: r, ?_, ?_⟩
    · have hm : (fun b => if b = a then (some (BitVec.ofNat 32 x.toNat)).getD (byteVars m a) else byteVars m b) = byteVars fun b => if b = a then x else m b := by
        funext b
        by_cases h : b = a
        · subst h; simp [byteVars]
        · simp [byteVars, h]
      simp only [writeBytes, WProg.solo, WCall.solo]
      rw [hm, r1]
      rfl
    · intro y hy
      simp only [List.length_cons]
      rcases List.mem_cons.1 hy with rfl | hy
      · exact ⟨Nat.le_refl _, by dsimp only; omega⟩
      · obtain ⟨h1, h2⟩ := r2 y hy
        exact ⟨by omega, by omega⟩

/-- The bytes of an element. -/
def InCell (loc : Cell → Option (Nat × Nat)) (d : Cell) (a : Nat) : Prop := ∃ t b, loc d = some (t, b) ∧ b ≤ a ∧ a < b + t

theorem cell_setCell {t : Table} {c d : Cell} {x : Elem} : ((t.setCell c x).cell d).isSome = (t.cell d).isSome := by
  obtain ⟨v, r, i⟩ := c
  obtain ⟨v', r', i'⟩ := d
  unfold Table.cell Table.setCell
  simp only [List.getElem?_modify]
  cases hv : t[v']? with
  | none => rfl
  | some rows =>
    simp only [Option.map_eq_map, Option.map_some]
    by_cases h1 : v = v'
    · subst h1
      rw [if_pos rfl, List.getElem?_modify]
      cases hr : rows[r']? with
      | none => rfl
      | some l =>
        simp only [Option.map_eq_map, Option.map_some]
        by_cases h2 : r = r'
        · subst h2
          rw [if_pos rfl]
          rw [List.getElem?_set]
          by_cases h3 : i = i'
          · subst h3
            rw [if_pos rfl]
            by_cases h4 : i < l.length
            · rw [if_pos h4, List.getElem?_eq_getElem h4]; rfl
            · rw [if_neg h4, List.getElem?_eq_none (by omega)]
          · rw [if_neg h3]
        · rw [if_neg h2]
    · rw [if_neg h1]

section

variable {σ : Type} {R : Limits} {G : Nat} {S : Schema} {A : Nat} {hasHost : Bool} {b : EBuffer}

/-- An element does not move. -/
theorem Shows.locate_same (ho : EdmOk σ R G S A hasHost b) {m m' : Mem} {t t' : Table} (h : Shows S b m t) (h' : Shows S b m' t') {d : Cell}
    (hd : (t.cell d).isSome) (hd' : (t'.cell d).isSome) : b.buf.view.locate S m d = b.buf.view.locate S m' d := by
  obtain ⟨x, hx⟩ := Option.isSome_iff_exists.1 hd
  obtain ⟨x', hx'⟩ := Option.isSome_iff_exists.1 hd'
  obtain ⟨v, y, w, a1, a2, a3, -, a4, -⟩ := h.locate ho hx
  obtain ⟨v', y', w', b1, b2, b3, -, b4, -⟩ := h'.locate ho hx'
  cases a1.symm.trans b1
  cases a2.symm.trans b2
  cases a3.symm.trans b3
  rw [a4, b4]

/-- Different elements have no byte in common. -/
theorem Shows.apart (ho : EdmOk σ R G S A hasHost b) {m : Mem} {t : Table} (h : Shows S b m t) {c d : Cell} (hc : (t.cell c).isSome) (hd : (t.cell d).isSome) {a : Nat}
    (h1 : InCell (b.buf.view.locate S m) c a) (h2 : InCell (b.buf.view.locate S m) d a) : c = d := by
  obtain ⟨x, hx⟩ := Option.isSome_iff_exists.1 hc
  obtain ⟨x', hx'⟩ := Option.isSome_iff_exists.1 hd
  obtain ⟨v, y, w, a1, a2, a3, a5, a4, -⟩ := h.locate ho hx
  obtain ⟨v', y', w', b1, b2, b3, b5, b4, -⟩ := h.locate ho hx'
  obtain ⟨t1, p1, e1, e2, e3⟩ := h1
  obtain ⟨t2, p2, e4, e5, e6⟩ := h2
  cases e1.symm.trans a4
  cases e4.symm.trans b4
  have hvp := ho.varsPlaced
  have hin : ∀ {v : Var} {y : VarView} {w : View} {i r k : Nat}, b.buf.view.vars[i]? = some y → y.rows[r]? = some w → k < w.len m → w.ptr + k * v.type.size ≤ a →
      a < w.ptr + k * v.type.size + v.type.size → w.HasPayload v.type.size a := by
    intro v y w i r k hy hw hk h1 h2
    have hcap := h.sizes y (List.mem_of_getElem? hy) w (List.mem_of_getElem? hw)
    have : (k + 1) * v.type.size ≤ w.capacity * v.type.size := Nat.mul_le_mul_right _ (by omega)
    rw [Nat.succ_mul] at this
    exact ⟨by omega, by omega⟩
  have p1 := hin a2 a3 a5 e2 e3
  have p2 := hin b2 b3 b5 e5 e6
  by_cases hv : c.var = d.var
  · rw [← hv] at b1 b2
    cases a1.symm.trans b1
    cases a2.symm.trans b2
    by_cases hr : c.row = d.row
    · rw [← hr] at b3
      cases a3.symm.trans b3
      have hi : c.index = d.index := by
        by_contra hi
        rcases Nat.lt_or_gt_of_ne hi with hlt | hlt
        · have : (c.index + 1) * v.type.size ≤ d.index * v.type.size := Nat.mul_le_mul_right _ (by omega)
          rw [Nat.succ_mul] at this
          omega
        · have : (d.index + 1) * v.type.size ≤ c.index * v.type.size := Nat.mul_le_mul_right _ (by omega)
          rw [Nat.succ_mul] at this
          omega
      cases c
      cases d
      simp_all
    · exact (separate_get (hvp.each _ v y a1 a2).2.2.separate hr a3 b3 a ⟨.inl p1, .inl p2⟩).elim
  · exact (hvp.apart _ _ v v' y y' hv a1 b1 a2 b2 a ⟨⟨w, List.mem_of_getElem? a3, p1⟩, .inl ⟨w', List.mem_of_getElem? b3, p2⟩⟩).elim

/-- What the code of a thread does when it runs alone. -/
theorem Shows.solo (ho : EdmOk σ R G S A hasHost b) {m0 : Mem} {t0 : Table} (h0 : Shows S b m0 t0) : ∀ {pr : KProg} {m : Mem} {t : Table}, Shows S b m t →
    (∀ d, (t.cell d).isSome = (t0.cell d).isSome) → pr.Valid S t →
    ∃ m' l, pr.exec S b.buf.view m = .ok m' ∧ (pr.code (b.buf.view.locate S m0)).solo (byteVars m) = (l, byteVars m', true) ∧
      ∀ x ∈ l, ∃ w d, (w, d) ∈ pr.accesses t ∧ (t0.cell d).isSome ∧ InCell (b.buf.view.locate S m0) d x.addr ∧ (x.wrote.isSome → w = true) := by
  intro pr
  induction pr with
  | done => exact fun h _ _ => ⟨_, [], rfl, rfl, by simp⟩
  | load d next ih =>
    rintro m t h hs ⟨x, x1, x2⟩
    obtain ⟨v, y, w, -, -, -, -, h1, h2⟩ := h.locate ho x1
    obtain ⟨m', l, i1, i2, i3⟩ := ih x h hs x2
    have hd : (t0.cell d).isSome := by rw [← hs, x1]; rfl
    have hloc : b.buf.view.locate S m0 d = some (v.type.size, w.ptr + d.index * v.type.size) := by
      rw [← h1]
      exact h0.locate_same ho h hd (by rw [hs]; exact hd)
    obtain ⟨r, r1, r2⟩ := solo_readBytes (fun x => (next x).code (b.buf.view.locate S m0)) m v.type.size (w.ptr + d.index * v.type.size) []
    rw [List.nil_append, h2] at r1
    refine ⟨m', r ++ l, ?_, ?_, ?_⟩
    · simp only [KProg.exec, h1, h2]
      exact i1
    · simp only [KProg.code, hloc]
      rw [r1, i2]
    · intro z hz
      simp only [KProg.accesses, x1, Option.getD_some]
      rcases List.mem_append.1 hz with hz | hz
      · obtain ⟨z1, z2⟩ := r2 z hz
        exact ⟨false, d, List.mem_cons_self, hd, ⟨_, _, hloc, z1.1, z1.2⟩, by rw [z2]; simp⟩
      · obtain ⟨w', d', z1, z2⟩ := i3 z hz
        exact ⟨w', d', List.mem_cons_of_mem _ z1, z2⟩
  | store d x next ih =>
    rintro m t h hs ⟨x1, ⟨v', hv', hx⟩, x3⟩
    obtain ⟨z, hz⟩ := Option.isSome_iff_exists.1 x1
    obtain ⟨v, y, w, k1, k2, k3, k4, h1, h2⟩ := h.locate ho hz
    cases k1.symm.trans hv'
    obtain ⟨p1, p2⟩ := h.put ho k1 k2 k3 k4 hx
    obtain ⟨m', l, i1, i2, i3⟩ := ih p1 (fun d' => by rw [cell_setCell]; exact hs d') x3
    have hd : (t0.cell d).isSome := by rw [← hs]; exact x1
    have hloc : b.buf.view.locate S m0 d = some (v'.type.size, w.ptr + d.index * v'.type.size) := by
      rw [← h1]
      exact h0.locate_same ho h hd x1
    obtain ⟨r, r1, r2⟩ := solo_writeBytes (next.code (b.buf.view.locate S m0)) x m (w.ptr + d.index * v'.type.size)
    rw [soloBytes_eq hx] at r1
    refine ⟨m', r ++ l, ?_, ?_, ?_⟩
    · simp only [KProg.exec, h1]
      exact i1
    · simp only [KProg.code, hloc]
      rw [r1, i2]
    · intro z hz
      simp only [KProg.accesses]
      rcases List.mem_append.1 hz with hz | hz
      · obtain ⟨z1, z2⟩ := r2 z hz
        exact ⟨true, d, List.mem_cons_self, hd, ⟨_, _, hloc, z1, hx ▸ z2⟩, fun _ => rfl⟩
      · obtain ⟨w', d', z1, z2⟩ := i3 z hz
        exact ⟨w', d', List.mem_cons_of_mem _ z1, z2⟩

theorem runAll_isSome {ps : List KProg} {t : Table} {d : Cell} : ((runAll ps t).cell d).isSome = (t.cell d).isSome := by
  have h1 : ∀ (p : KProg) (t : Table), ((p.run t).cell d).isSome = (t.cell d).isSome := by
    intro p
    induction p with
    | done => intro t; rfl
    | load c next ih => intro t; exact ih _ t
    | store c x next ih => intro t; exact (ih _).trans cell_setCell
  induction ps generalizing t with
  | nil => rfl
  | cons p ps ih => rw [runAll_cons, ih, h1]

/-- The threads of a kernel, one after the other. -/
theorem Shows.soloAll (ho : EdmOk σ R G S A hasHost b) {m0 : Mem} {t0 : Table} (h0 : Shows S b m0 t0) : ∀ {ps : List KProg} {m : Mem} {t : Table}, Shows S b m t →
    (∀ d, (t.cell d).isSome = (t0.cell d).isSome) → (∀ p ∈ ps, p.Valid S t) → NoRaces t ps →
    ∃ m', execThreads S b.buf.view ps m = .ok m' ∧
      ps.foldl (fun m p => ((p.code (b.buf.view.locate S m0)).solo m).2.1) (byteVars m) = byteVars m' := by
  intro ps
  induction ps with
  | nil => exact fun h _ _ _ => ⟨_, rfl, rfl⟩
  | cons p ps ih =>
    intro m t h hs hv hr
    obtain ⟨m1, e1, e2, -⟩ := h.exec ho (hv p List.mem_cons_self)
    obtain ⟨m1', l, g1, g2, -⟩ := h0.solo ho h hs (hv p List.mem_cons_self)
    rw [e1] at g1
    cases g1
    obtain ⟨m2, f1, f2⟩ := ih e2 (fun d => by
      rw [← hs d]
      exact runAll_isSome (ps := [p])) (fun q hq => ((hr.tail.2 q hq).1.after).2 (hv q (List.mem_cons_of_mem _ hq))) hr.after
    refine ⟨m2, ?_, ?_⟩
    · simp only [execThreads, e1]
      exact f1
    · rw [List.foldl_cons, g2]
      exact f2

theorem accessCode_rest {loc : Cell → Option (Nat × Nat)} {ps : List KProg} {i : Nat} (h : ps.length ≤ i) : accessCode loc ps i = .done := by
  unfold accessCode
  rw [List.getElem?_eq_none h]
  rfl

theorem oneByOne_range {loc : Cell → Option (Nat × Nat)} : ∀ (ps : List KProg) (m : AMem 32), oneByOne (accessCode loc ps) (List.range ps.length) m = ps.foldl (fun m p => ((p.code loc).solo m).2.1) m := by
  intro ps m
  have h : ps = (List.range ps.length).map fun i => ps[i]?.getD .done := by
    apply List.ext_getElem
    · simp
    · intro i h1 h2
      simp [h1]
  conv => rhs; rw [h]
  rw [List.foldl_map]
  rfl

/-- Threads that do not race for elements do not race for bytes. -/
theorem Shows.raceFree (ho : EdmOk σ R G S A hasHost b) {m : Mem} {t : Table} (h : Shows S b m t) {ps : List KProg} (hv : ∀ p ∈ ps, p.Valid S t) (hr : NoRaces t ps) :
    RaceFree (byteVars m) (accessCode (b.buf.view.locate S m) ps) ∧ ∀ i, ((accessCode (b.buf.view.locate S m) ps i).solo (byteVars m)).2.2 = true := by
  constructor
  · intro i j hij x hx hw y hy hxy
    cases hi : ps[i]? with
    | none => rw [accessCode_rest (List.getElem?_eq_none_iff.1 hi)] at hx; cases hx
    | some p =>
      cases hj : ps[j]? with
      | none => rw [accessCode_rest (List.getElem?_eq_none_iff.1 hj)] at hy; cases hy
      | some q =>
        unfold accessCode at hx hy
        rw [hi, Option.getD_some] at hx
        rw [hj, Option.getD_some] at hy
        obtain ⟨_, l, -, g2, g3⟩ := h.solo ho h (fun _ => rfl) (hv p (List.mem_of_getElem? hi))
        obtain ⟨_, l', -, k2, k3⟩ := h.solo ho h (fun _ => rfl) (hv q (List.mem_of_getElem? hj))
        rw [g2] at hx
        rw [k2] at hy
        obtain ⟨w, d, x1, x2, x3, x4⟩ := g3 x hx
        obtain ⟨w', d', y1, y2, y3, -⟩ := k3 y hy
        rw [hxy] at y3
        cases h.apart ho x2 y2 x3 y3
        cases x4 hw
        exact hr i j p q hij hi hj d w' x1 y1
  · intro i
    cases hi : ps[i]? with
    | none => rw [accessCode_rest (List.getElem?_eq_none_iff.1 hi)]; rfl
    | some p =>
      obtain ⟨_, l, -, g2, -⟩ := h.solo ho h (fun _ => rfl) (hv p (List.mem_of_getElem? hi))
      unfold accessCode
      rw [hi, Option.getD_some, g2]

end

end Vecmem
