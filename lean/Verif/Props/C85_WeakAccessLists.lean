import Verif.Lemmas.WeakAccessLists
import Verif.Props.C83_WeakReadingLists

/-!
# C85: programs with vectors and jagged vectors whose kernels load and store elements on weak memory

Vocabulary: `Verif/Spec/WeakAccessLists.lean`, and that of C80 and C83.
-/

namespace Vecmem.Props

open Vecmem

section

variable {σ : Type} {I : WImpl 32} {R : Limits} {G : Nat} {ups : Nat → MR σ} {u0 : σ} {c : JagCfg} {p : JPipe σ} {q : JReady}

/-- The elements of the inputs are in memory, and not in the arrays of the vectors with the views `vs`. -/
def FarRows (vs : List View) (t : Nat) (locs : Nat → Cell → Option (Nat × Nat)) (ts : List Table) (m : Mem) : Prop :=
  ∀ k d x, (ts[k]?).bind (·.cell d) = some x → ∃ n a, locs k d = some (n, a) ∧ bytesAt m a n = x ∧ ∀ y, a ≤ y → y < a + n → ∀ v ∈ vs, ¬ v.HasPayload t y

theorem FarRows.cells {vs : List View} {t : Nat} {locs : Nat → Cell → Option (Nat × Nat)} {ts : List Table} {m : Mem} (hv : ∀ v ∈ vs, v.Valid m t) (h : FarRows vs t locs ts m)
    (T : Table) : FarCells (locateRow vs t m) T locs ts m := by
  intro k d x hx
  obtain ⟨n, a, h1, h2, h3⟩ := h k d x hx
  refine ⟨n, a, h1, h2, fun y y1 y2 hc => ?_⟩
  obtain ⟨e, -, he⟩ := hc
  obtain ⟨-, v, v1, -, -, -, v2⟩ := rows_inCell (fun v hv' => (hv v hv').len) he
  exact h3 y y1 y2 v (List.mem_of_getElem? v1) v2

/-- **C85**: a kernel whose threads load elements of inputs, and load and store elements of vectors that share no memory, on weak memory and without races, leaves in these what the threads leave when they
are given the elements of the inputs and run one after the other; it changes no other memory. -/
theorem c85_access (hI : I = posixWeak ∨ I = cudaWeak ∨ I = syclWeak ∨ I = syclBuiltinWeak) {ty : CType} {vs : List View} {mem mem' : Mem} {locs : Nat → Cell → Option (Nat × Nat)}
    {ts : List Table} {progs : List IProg} (hv : ∀ v ∈ vs, v.Valid mem ty.size) (hs : vs.Pairwise (View.Separate ty.size)) (hi : FarRows vs ty.size locs ts mem)
    (hp : RowThreads ty ts progs (vs.map fun v => v.elems mem ty.size)) (h : InputKernel I (locateRow vs ty.size mem) locs progs mem mem') :
    RowsChanged ts progs (vs.map fun v => v.elems mem ty.size) (vs.map fun v => v.elems mem' ty.size) ∧ (∀ a, (∀ v ∈ vs, ¬ v.HasPayload ty.size a) → mem' a = mem a) ∧
      ∀ v ∈ vs, v.len mem' = v.len mem := by
  obtain ⟨s, h1, h2, h3⟩ := h
  have hS : ∀ v ∈ ([⟨.jagged, ty⟩] : Schema), v.type.size = ty.size := by simp
  have hl : ∀ v ∈ vs, v.len mem ≤ v.capacity := fun v hm => (hv v hm).len
  have hv' : ∀ p ∈ progs.map (·.known 1 ts), p.Valid [⟨.jagged, ty⟩] [vs.map fun v => v.elems mem ty.size] := by
    intro p hpm
    obtain ⟨p, hpm', rfl⟩ := List.mem_map.1 hpm
    exact hp.1 p hpm'
  obtain ⟨hf, -⟩ := rows_cells.raceFree (N := 1) hS (rows_apart hl hs _) rfl (hi.cells hv _) hv' hp.2
  obtain ⟨m', e1, e2, e3⟩ := rows_cells.soloAll (N := 1) hS (rows_apart hl hs _) rfl (hi.cells hv _) (fun _ => rfl) hv' hp.2
  have : byteVars m' = byteVars mem' := by
    funext a
    have := (c80_one_by_one hI hf h1 h2 (n := progs.length) (fun i hi => inputCode_rest hi) (List.Perm.refl _) a _).1 (h3 a)
    rw [this, oneByOne_inputs, e1]
  cases byteVars_inj this
  have hm : ∀ a, (∀ v ∈ vs, ¬ v.HasPayload ty.size a) → mem' a = mem a := fun a ha => e3 a fun ⟨d, _, hd⟩ => by
    obtain ⟨-, v, v1, -, -, -, v2⟩ := rows_inCell hl hd
    exact ha v (List.mem_of_getElem? v1) v2
  have hlen := rows_len (fun v hm => (hv v hm).toPlaced) hs hm
  exact ⟨cells_left hlen e2 (runAll_shape _ _), hm, hlen⟩

/-- C85: such kernels can be run. -/
theorem c85_access_runs (hI : I = posixWeak ∨ I = cudaWeak ∨ I = syclWeak ∨ I = syclBuiltinWeak) {ty : CType} {vs : List View} {mem : Mem} {locs : Nat → Cell → Option (Nat × Nat)}
    {ts : List Table} {progs : List IProg} (hv : ∀ v ∈ vs, v.Valid mem ty.size) (hs : vs.Pairwise (View.Separate ty.size)) (hi : FarRows vs ty.size locs ts mem)
    (hp : RowThreads ty ts progs (vs.map fun v => v.elems mem ty.size)) : ∃ mem', InputKernel I (locateRow vs ty.size mem) locs progs mem mem' := by
  have hS : ∀ v ∈ ([⟨.jagged, ty⟩] : Schema), v.type.size = ty.size := by simp
  have hl : ∀ v ∈ vs, v.len mem ≤ v.capacity := fun v hm => (hv v hm).len
  have hv' : ∀ p ∈ progs.map (·.known 1 ts), p.Valid [⟨.jagged, ty⟩] [vs.map fun v => v.elems mem ty.size] := by
    intro p hpm
    obtain ⟨p, hpm', rfl⟩ := List.mem_map.1 hpm
    exact hp.1 p hpm'
  obtain ⟨hf, hok⟩ := rows_cells.raceFree (N := 1) hS (rows_apart hl hs _) rfl (hi.cells hv _) hv' hp.2
  obtain ⟨m', e1, -⟩ := rows_cells.soloAll (N := 1) hS (rows_apart hl hs _) rfl (hi.cells hv _) (fun _ => rfl) hv' hp.2
  obtain ⟨s, h1, h2⟩ := c80_ends hI hf .start (fun i => input_defined hI _ _ _) hok (n := progs.length) (fun i hi => inputCode_rest hi)
  have hrch := WRun.Reach.steps (.start) h1
  refine ⟨m', s, hrch, h2, fun a => ?_⟩
  refine (c80_one_by_one hI hf hrch h2 (n := progs.length) (fun i hi => inputCode_rest hi) (List.Perm.refl _) a _).2 ?_
  rw [oneByOne_inputs, e1]

/-- Where the elements of the inputs are. -/
theorem locs_in (h : JInv c R ups u0 p q) {ins jins : List Nat} {ls : List (List Elem)} {js : List (List (List Elem))} (hi : (p.store c q).vec.HasAll ins ls)
    (hj : (p.store c q).HasAll jins js) (k : Nat) (d : Cell) (x : Elem) (hx : ((listTables ls js)[k]?).bind (·.cell d) = some x) :
    ∃ n a, p.locs c ins jins k d = some (n, a) ∧ bytesAt p.vec.mem a n = x ∧ ∀ y, a ≤ y → y < a + n →
      (∃ e ∈ p.vec.bufs, e.1 ∈ ins ∧ e.2.view.Has (c.vec.ty e.1).size y) ∨ ∃ e ∈ p.jags, e.1 ∈ jins ∧ JagHas (c.ty e.1).size e.2.views y := by
  obtain ⟨n, a, h1, h2⟩ := h.locs hi hj k d x hx
  refine ⟨n, a, h1, h2, fun y y1 y2 => ?_⟩
  obtain ⟨hlen, hget⟩ := HasAll_get hi
  obtain ⟨T, hT, hx⟩ := Option.bind_eq_some_iff.1 hx
  unfold listTables at hT
  by_cases hk : k < ls.length
  · rw [List.getElem?_append_left (by simpa using hk), List.getElem?_map] at hT
    obtain ⟨l, g1, rfl⟩ := Option.map_eq_some_iff.1 hT
    obtain ⟨i, cap, r, g2, g3⟩ := hget k l g1
    obtain ⟨b, b1, b2, -, -, -, -, b7, -⟩ := h.vec.has g3
    unfold JPipe.locs at h1
    simp only [g2, b1] at h1
    obtain ⟨-, v, v1, -, -, -, v2⟩ := rows_inCell (vs := [b.view]) (fun v hv => by rw [List.mem_singleton.1 hv]; exact b7.len) ⟨n, a, h1, y1, y2⟩
    have hv := List.mem_singleton.1 (List.mem_of_getElem? v1)
    subst hv
    exact .inl ⟨(i, b), b2, List.mem_of_getElem? g2, .inl v2⟩
  · rw [List.getElem?_append_right (by simpa using hk), List.getElem?_map, List.length_map] at hT
    obtain ⟨rows, g1, rfl⟩ := Option.map_eq_some_iff.1 hT
    obtain ⟨i, caps, r, g2, g3⟩ := jagHasAll_get hj _ rows g1
    obtain ⟨b, b1, b2, -, -, -, b6, b7, b8⟩ := h.has g3
    have ha := deviceRows_alike (h.described b2 b6)
    unfold JPipe.locs at h1
    rw [List.getElem?_eq_none (by omega)] at h1
    rw [hlen] at g2
    simp only [g2, b1] at h1
    have hl : ∀ w ∈ b.views, w.len p.vec.mem ≤ w.capacity := fun w hw => (b8.inner w hw).len
    rw [locateRow_alike ha.1 ha.2 hl] at h1
    obtain ⟨-, v, v1, -, -, -, v2⟩ := rows_inCell hl ⟨n, a, h1, y1, y2⟩
    exact .inr ⟨(i, b), b2, List.mem_of_getElem? g2, v, List.mem_of_getElem? v1, .inl v2⟩

/-- The inputs are elsewhere than a vector buffer that is not one of them. -/
theorem far_vec (hl : FamLawful R G ups u0) (h : JInv c R ups u0 p q) {ins jins : List Nat} {ls : List (List Elem)} {js : List (List (List Elem))} (hi : (p.store c q).vec.HasAll ins ls)
    (hj : (p.store c q).HasAll jins js) {k : Nat} (hk : k ∉ ins) {b : VecBuffer} (hb : (k, b) ∈ p.vec.bufs) :
    FarRows [b.view] (c.vec.ty k).size (p.locs c ins jins) (listTables ls js) p.vec.mem := by
  intro i d x hx
  obtain ⟨n, a, h1, h2, h3⟩ := locs_in h hi hj i d x hx
  refine ⟨n, a, h1, h2, fun y y1 y2 v hv hc => ?_⟩
  rw [List.mem_singleton.1 hv] at hc
  rcases h3 y y1 y2 with ⟨e, he, he', hy⟩ | ⟨e, he, -, hy⟩
  · exact h.vec.separate hl he hb (fun (hek : e.1 = k) => hk (hek ▸ he')) hy (.inl hc)
  · exact h.vec.frame hl hb (.inl hc) (blocks_sub he ((h.bufs e he).rows_in _ hy))

/-- The inputs are elsewhere than a jagged buffer that is not one of them. -/
theorem far_jag (hl : FamLawful R G ups u0) (h : JInv c R ups u0 p q) {ins jins : List Nat} {ls : List (List Elem)} {js : List (List (List Elem))} (hi : (p.store c q).vec.HasAll ins ls)
    (hj : (p.store c q).HasAll jins js) {k : Nat} (hk : k ∉ jins) {b : JagBuffer} (hb : (k, b) ∈ p.jags) :
    FarRows b.views (c.ty k).size (p.locs c ins jins) (listTables ls js) p.vec.mem := by
  intro i d x hx
  obtain ⟨n, a, h1, h2, h3⟩ := locs_in h hi hj i d x hx
  refine ⟨n, a, h1, h2, fun y y1 y2 v hv hc => ?_⟩
  have hin : InBlocks (b.blocks (c.source k) (c.hasHost k)) y := (h.bufs _ hb).rows_in _ ⟨v, hv, .inl hc⟩
  rcases h3 y y1 y2 with ⟨e, he, -, hy⟩ | ⟨e, he, he', hy⟩
  · exact h.vec.frame hl he hy (blocks_sub hb hin)
  · exact h.cross hl he hb (fun (hek : e.1 = k) => hk (hek ▸ he')) ((h.bufs e he).rows_in _ hy) hin

/-- A step does what it may do. -/
theorem c85_step_inv (hI : I = posixWeak ∨ I = cudaWeak ∨ I = syclWeak ∨ I = syclBuiltinWeak) (hl : FamLawful R G ups u0) (hc : c.Wf) (h : JInv c R ups u0 p q) {op : JAOp}
    (hf : op.Fits c R (p.Outside c) (p.store c q)) {out : JROut} {p' : JPipe σ} (hs : JAStep I c ups p op out p') :
    JInv c R ups u0 p' (op.ready q) ∧ JAMeans c (p.store c q) op out (p'.store c (op.ready q)) := by
  cases hs with
  | plain hs =>
    obtain ⟨f1, f2, f3⟩ := hf
    obtain ⟨r, g1, g2⟩ := c83_step_inv hI h f1 f2 f3 hs
    obtain ⟨op', g3, g4⟩ := c79_step_inv hI hc h f1 f3 g2
    obtain ⟨i1, i2⟩ := jag_step hl hc h (g3.fits f1)
    rw [g4, g3.ready] at i1 i2
    exact ⟨i1, .plain g1 (g3.step i2)⟩
  | @access ins jins k progs b mem' hb hk =>
    obtain ⟨f0, ls, js, cap, r, l, f1, f2, f3, f4⟩ := hf
    obtain ⟨b', b1, b2, b3, b4, b5, b6, b7, b8⟩ := h.vec.has f3
    cases hb.symm.trans b1
    obtain ⟨g1, g2, g3⟩ := c85_access hI (vs := [b.view]) (fun v hv => by rw [List.mem_singleton.1 hv]; exact b7) (List.pairwise_singleton _ _) (far_vec hl h f1 f2 f0 b2)
      (by simpa only [List.map_cons, List.map_nil, b6] using f4) hk
    have hm : ∀ x, ¬ b.view.Has (c.vec.ty k).size x → mem' x = p.vec.mem x := fun x hx => g2 x fun v hv hp => hx (by rw [List.mem_singleton.1 hv] at hp; exact .inl hp)
    obtain ⟨i1, i2⟩ := h.vec.change b1 (m' := mem') (h.vec.apart hl b2 hm) (ready' := q.vec) (fun _ _ => rfl) (fun hk => hk)
      (fun _ => by rw [g3 _ List.mem_cons_self]; exact b7.len)
    obtain ⟨i3, i4⟩ := h.frame i1 (h.vec.keeps hl b2 hm)
    refine ⟨i3, ?_⟩
    show JAMeans c _ _ _ (JPipe.store c { p with vec := { p.vec with mem := mem' } } { q with vec := q.vec })
    rw [i4, i2, if_pos b3, b4, b5]
    simp only [List.map_cons, List.map_nil, b6] at g1
    exact .access f1 f2 f3 g1
  | @rowAccess ins jins k progs b mem' hb hk =>
    obtain ⟨f0, ls, js, caps, r, rows, f1, f2, f3, f4⟩ := hf
    obtain ⟨b', b1, b2, b3, b4, b5, b6, b7, b8⟩ := h.has f3
    cases hb.symm.trans b1
    have ha := deviceRows_alike (h.described b2 b6)
    rw [locateRow_alike ha.1 ha.2 fun w hw => (b8.inner w hw).len] at hk
    obtain ⟨g1, g2, g3⟩ := c85_access hI b8.inner b8.separate (far_jag hl h f1 f2 f0 b2) (by rw [b7]; exact f4) hk
    obtain ⟨i1, i2⟩ := h.rowsChange hl b1 (m' := mem') (fun x hx => g2 x fun v hv hp => hx ⟨v, hv, .inl hp⟩) (fun _ v hv => by rw [g3 v hv]; exact (b8.inner v hv).len)
    refine ⟨i1, ?_⟩
    show JAMeans c _ _ _ (JPipe.store c { p with vec := { p.vec with mem := mem' } } q)
    rw [i2, if_pos (known_iff.2 b3), b4, b5, b6]
    rw [b7] at g1
    exact .rowAccess f1 f2 f3 g1

theorem c85_inv (hI : I = posixWeak ∨ I = cudaWeak ∨ I = syclWeak ∨ I = syclBuiltinWeak) (hl : FamLawful R G ups u0) (hc : c.Wf) (h : JAReach I c R ups u0 p q) :
    JInv c R ups u0 p q := by
  induction h with
  | init m => exact jag_inv hl hc (.init m)
  | step h hf hs ih => exact (c85_step_inv hI hl hc ih hf hs).1

/-- **C85**: in a program with vector buffers, jagged buffers and copies (C62) whose kernels run on weak memory — they read inputs, and append (C83), or load and store elements without races —
every step does to the elements in memory, and returns, what it may do and return according to `JAMeans`, which speaks about lists of elements and lists of rows only. -/
theorem c85_pipelines (hI : I = posixWeak ∨ I = cudaWeak ∨ I = syclWeak ∨ I = syclBuiltinWeak) (hl : FamLawful R G ups u0) (hc : c.Wf)
    (h : JAReach I c R ups u0 p q) {op : JAOp} (hf : op.Fits c R (p.Outside c) (p.store c q)) {out : JROut} {p' : JPipe σ} (hs : JAStep I c ups p op out p') :
    JAMeans c (p.store c q) op out (p'.store c (op.ready q)) :=
  (c85_step_inv hI hl hc (c85_inv hI hl hc h) hf hs).2

theorem c85_goes_on_inv (hI : I = posixWeak ∨ I = cudaWeak ∨ I = syclWeak ∨ I = syclBuiltinWeak) (hl : FamLawful R G ups u0) (hc : c.Wf)
    (hinv : JInv c R ups u0 p q) {op : JAOp} (hf : op.Fits c R (p.Outside c) (p.store c q)) : ∃ out p', JAStep I c ups p op out p' := by
  cases op with
  | plain op =>
    obtain ⟨f1, f2, f3⟩ := hf
    obtain ⟨out, p', hs⟩ := c83_goes_on_inv hI hc hinv f1 f2 f3
    exact ⟨_, _, .plain hs⟩
  | access ins jins k progs =>
    obtain ⟨f0, ls, js, cap, r, l, f1, f2, f3, f4⟩ := hf
    obtain ⟨b, b1, b2, b3, b4, b5, b6, b7, b8⟩ := hinv.vec.has f3
    obtain ⟨mem', hk⟩ := c85_access_runs hI (vs := [b.view]) (fun v hv => by rw [List.mem_singleton.1 hv]; exact b7) (List.pairwise_singleton _ _) (far_vec hl hinv f1 f2 f0 b2)
      (by simpa only [List.map_cons, List.map_nil, b6] using f4)
    exact ⟨_, _, .access b1 hk⟩
  | rowAccess ins jins k progs =>
    obtain ⟨f0, ls, js, caps, r, rows, f1, f2, f3, f4⟩ := hf
    obtain ⟨b, b1, b2, b3, b4, b5, b6, b7, b8⟩ := hinv.has f3
    have ha := deviceRows_alike (hinv.described b2 b6)
    obtain ⟨mem', hk⟩ := c85_access_runs hI b8.inner b8.separate (far_jag hl hinv f1 f2 f0 b2) (by rw [b7]; exact f4)
    exact ⟨_, _, .rowAccess b1 (by rw [locateRow_alike ha.1 ha.2 fun w hw => (b8.inner w hw).len]; exact hk)⟩

/-- C85: in every state of a program, each step that fits can be made. -/
theorem c85_goes_on (hI : I = posixWeak ∨ I = cudaWeak ∨ I = syclWeak ∨ I = syclBuiltinWeak) (hl : FamLawful R G ups u0) (hc : c.Wf)
    (h : JAReach I c R ups u0 p q) {op : JAOp} (hf : op.Fits c R (p.Outside c) (p.store c q)) : ∃ out p', JAStep I c ups p op out p' :=
  c85_goes_on_inv hI hl hc (c85_inv hI hl hc h) hf

/-! ## end to end -/

/-- `out[i] = g(in[i])`: a thread for each of `n` elements. -/
def transformThreads (g : Elem → Elem) (n : Nat) : List IProg := (List.range n).map fun i => .input 0 ⟨0, 0, i⟩ fun x => .store ⟨0, 0, i⟩ (g x) .done

theorem transform_known (g : Elem → Elem) {xs : List Elem} {i : Nat} (hi : i < xs.length) :
    IProg.known 1 (listTables [xs] []) (.input 0 ⟨0, 0, i⟩ fun x => .store ⟨0, 0, i⟩ (g x) .done) = .store ⟨0, 0, i⟩ (g xs[i]) .done := by
  have : ((listTables [xs] [])[0]?).bind (·.cell ⟨0, 0, i⟩) = some xs[i] := by simp [listTables, Table.cell, hi]
  simp only [IProg.known, this]

theorem transform_fits {ty : CType} {g : Elem → Elem} {xs l : List Elem} (hlen : xs.length = l.length) (hg : ∀ e ∈ xs, (g e).length = ty.size) :
    RowThreads ty (listTables [xs] []) (transformThreads g xs.length) [l] := by
  constructor
  · intro p hp
    obtain ⟨i, hi, rfl⟩ := List.mem_map.1 hp
    have hi : i < xs.length := List.mem_range.1 hi
    rw [transform_known g hi]
    exact ⟨by simp [Table.cell, ← hlen, hi], ⟨_, rfl, hg _ (List.getElem_mem hi)⟩, trivial⟩
  · intro i j p q hij hp hq d b h1 h2
    simp only [transformThreads, List.map_map, List.getElem?_map] at hp hq
    obtain ⟨i', hi, rfl⟩ := Option.map_eq_some_iff.1 hp
    obtain ⟨j', hj, rfl⟩ := Option.map_eq_some_iff.1 hq
    obtain ⟨hi1, hi2⟩ := List.getElem?_eq_some_iff.1 hi
    obtain ⟨hj1, hj2⟩ := List.getElem?_eq_some_iff.1 hj
    simp only [List.getElem_range] at hi2 hj2
    subst hi2 hj2
    simp only [List.length_range] at hi1 hj1
    rw [Function.comp_apply, transform_known g hi1] at h1
    rw [Function.comp_apply, transform_known g hj1] at h2
    simp only [KProg.accesses, List.mem_singleton, Prod.mk.injEq] at h1 h2
    rw [h1.2] at h2
    exact hij (by simpa using h2.2)

theorem transform_changes {g : Elem → Elem} {xs l : List Elem} (hlen : xs.length = l.length) :
    RowsChanged (listTables [xs] []) (transformThreads g xs.length) [l] [xs.map g] := by
  have h : ∀ n, n ≤ xs.length → ((transformThreads g n).map (·.known 1 (listTables [xs] []))).foldl (fun t p => p.run t) [[l]] = [[(xs.take n).map g ++ l.drop n]] := by
    intro n
    induction n with
    | zero => intro _; simp [transformThreads]
    | succ n ih =>
      intro hn
      have hx : n < xs.length := by omega
      unfold transformThreads at ih ⊢
      rw [List.range_succ, List.map_append, List.map_append, List.foldl_append, ih (by omega)]
      rw [List.map_cons, List.map_cons, List.map_nil, List.map_nil, transform_known g hx]
      simp only [List.foldl_cons, List.foldl_nil, KProg.run, Table.setCell, List.modify_zero_cons]
      rw [List.set_append_right _ _ (by simp), List.take_succ_eq_append_getElem hx]
      have : n - ((xs.take n).map g).length = 0 := by simp; omega
      rw [this, List.drop_eq_getElem_cons (i := n) (l := l) (by omega), List.set_cons_zero]
      simp only [List.map_append, List.map_cons, List.map_nil, List.append_assoc, List.singleton_append]
  have := h xs.length (Nat.le_refl _)
  rw [List.take_length, hlen, List.drop_length, List.append_nil] at this
  unfold RowsChanged
  rw [hlen]
  exact this

/-- C85, end to end: in any state of any program, a kernel with a thread for each element of a vector buffer, which loads the element on weak memory, and stores a value for it as the element with the same
number of another vector buffer with as many elements, leaves the values in this, in order. -/
theorem c85_transform (hI : I = posixWeak ∨ I = cudaWeak ∨ I = syclWeak ∨ I = syclBuiltinWeak) (hl : FamLawful R G ups u0) (hc : c.Wf)
    (h : JAReach I c R ups u0 p q) {i k : Nat} (hik : i ≠ k) {xs l : List Elem} (hi : ∃ cap r, (p.store c q).vec.Has i cap r xs) {cap : Nat} {r : Bool}
    (hk : (p.store c q).vec.Has k cap r l) (hlen : xs.length = l.length) (g : Elem → Elem) (hg : ∀ e ∈ xs, (g e).length = (c.vec.ty k).size) :
    (∃ out p', JAStep I c ups p (.access [i] [] k (transformThreads g xs.length)) out p') ∧
    ∀ {out : JROut} {p' : JPipe σ}, JAStep I c ups p (.access [i] [] k (transformThreads g xs.length)) out p' → (p'.store c q).vec.Has k cap r (xs.map g) := by
  have hf : (JAOp.access [i] [] k (transformThreads g xs.length)).Fits c R (p.Outside c) (p.store c q) :=
    ⟨by simpa using Ne.symm hik, [xs], [], cap, r, l, ⟨hi, trivial⟩, trivial, hk, transform_fits hlen hg⟩
  refine ⟨c85_goes_on hI hl hc h hf, fun {out p'} hs => ?_⟩
  have hinv := c85_inv hI hl hc h
  have hm := c85_pipelines hI hl hc h hf hs
  change JAMeans c (p.store c q) _ out (p'.store c q) at hm
  generalize p'.store c q = S' at hm
  cases hm with
  | @access _ _ _ _ ls js cap' r' l0 l' hi' hj' hk' hr =>
    cases (hinv.vec.reads hi').symm.trans (hinv.vec.reads (ins := [i]) (ls := [xs]) ⟨hi, trivial⟩)
    cases (hinv.reads hj').symm.trans (hinv.reads (ins := []) (ls := []) trivial)
    unfold Store.Has at hk hk'
    rw [hk] at hk'
    simp only [Option.some.injEq, VBuf.mk.injEq] at hk'
    obtain ⟨rfl, rfl, rfl⟩ := hk'
    have := (transform_changes (g := g) hlen).symm.trans hr
    simp only [List.cons.injEq, and_true] at this
    rw [this]
    simp [Store.Has, Store.put]

/-- A thread that loads the last `n` elements of row `j`, from number `i` on, one after the other, and stores a value for each of them in its place. -/
def updateRow (g : Elem → Elem) (j : Nat) : Nat → Nat → IProg
  | _, 0 => .done
  | i, n + 1 => .load ⟨0, j, i⟩ fun x => .store ⟨0, j, i⟩ (g x) (updateRow g j (i + 1) n)

/-- `for (auto& x : rows[j]) x = g(x)`: a thread for each row. -/
def updateThreads (g : Elem → Elem) (lens : List Nat) : List IProg := lens.mapIdx fun j n => updateRow g j 0 n

theorem setCell_row {rows : List (List Elem)} {j : Nat} {l : List Elem} (hl : rows[j]? = some l) (i : Nat) (e : Elem) :
    Table.setCell [rows] ⟨0, j, i⟩ e = [rows.set j (l.set i e)] := by
  have hj : j < rows.length := (List.getElem?_eq_some_iff.1 hl).1
  simp only [Table.setCell, List.modify_zero_cons, List.cons.injEq, and_true]
  apply List.ext_getElem?
  intro k
  rw [List.getElem?_modify, List.getElem?_set]
  by_cases hk : j = k
  · subst hk
    obtain ⟨_, rfl⟩ := List.getElem?_eq_some_iff.1 hl
    simp [hj]
  · simp [hk]

theorem updateRow_run (g : Elem → Elem) (j : Nat) (ts : List Table) : ∀ (n i : Nat) (rows : List (List Elem)) (l : List Elem), rows[j]? = some l → i + n = l.length →
    ((updateRow g j i n).known 1 ts).run [rows] = [rows.set j (l.take i ++ (l.drop i).map g)] := by
  intro n
  induction n with
  | zero =>
    intro i rows l hl hi
    rw [List.drop_of_length_le (by omega), List.take_of_length_le (by omega), List.map_nil, List.append_nil]
    obtain ⟨h1, rfl⟩ := List.getElem?_eq_some_iff.1 hl
    rw [List.set_getElem_self]
    rfl
  | succ n ih =>
    intro i rows l hl hi
    have hil : i < l.length := by omega
    have hj : j < rows.length := (List.getElem?_eq_some_iff.1 hl).1
    have hcell : Table.cell [rows] ⟨0, j, i⟩ = some l[i] := by simp [Table.cell, hl, hil]
    have hset := setCell_row hl i (g l[i])
    simp only [updateRow, IProg.known, KProg.run, hcell, Option.getD_some, hset]
    rw [ih (i + 1) _ (l.set i (g l[i])) (List.getElem?_set_self hj) (by rw [List.length_set]; omega), List.set_set]
    congr 2
    rw [List.drop_set_of_lt (by omega), List.take_set, List.take_succ_eq_append_getElem hil, List.set_append_right _ _ (by simp), List.drop_eq_getElem_cons hil]
    simp [Nat.min_eq_left (Nat.le_of_lt hil)]
    rw [List.drop_eq_getElem_cons (l := l.map g) (i := i) (by simpa using hil), List.getElem_map]

theorem updateRow_ok {ty : CType} {g : Elem → Elem} (hg : ∀ e, e.length = ty.size → (g e).length = ty.size) (j : Nat) (ts : List Table) : ∀ (n i : Nat) (rows : List (List Elem)) (l : List Elem),
    rows[j]? = some l → i + n = l.length → (∀ e ∈ l, e.length = ty.size) →
    ((updateRow g j i n).known 1 ts).Valid [⟨.jagged, ty⟩] [rows] ∧ ∀ x ∈ ((updateRow g j i n).known 1 ts).accesses [rows], x.2.row = j := by
  intro n
  induction n with
  | zero => exact fun i rows l _ _ _ => ⟨trivial, by simp [updateRow, IProg.known, KProg.accesses]⟩
  | succ n ih =>
    intro i rows l hl hi he
    have hil : i < l.length := by omega
    have hj : j < rows.length := (List.getElem?_eq_some_iff.1 hl).1
    have hcell : Table.cell [rows] ⟨0, j, i⟩ = some l[i] := by simp [Table.cell, hl, hil]
    have hset := setCell_row hl i (g l[i])
    have hsz := hg _ (he l[i] (List.getElem_mem hil))
    obtain ⟨i1, i2⟩ := ih (i + 1) _ (l.set i (g l[i])) (List.getElem?_set_self (a := l.set i (g l[i])) hj) (by rw [List.length_set]; omega) (fun e h => by
      rcases List.mem_or_eq_of_mem_set h with h | rfl
      · exact he e h
      · exact hsz)
    constructor
    · simp only [updateRow, IProg.known, KProg.Valid]
      exact ⟨_, hcell, by rw [hcell]; rfl, ⟨_, rfl, hsz⟩, by rw [hset]; exact i1⟩
    · intro x hx
      simp only [updateRow, IProg.known, KProg.accesses, hcell, Option.getD_some, hset, List.mem_cons] at hx
      rcases hx with rfl | rfl | hx
      · rfl
      · rfl
      · exact i2 x hx

theorem update_get {g : Elem → Elem} {rows : List (List Elem)} {ts : List Table} {j : Nat} {p : KProg}
    (h : ((updateThreads g (rows.map List.length)).map (·.known 1 ts))[j]? = some p) : ∃ l, rows[j]? = some l ∧ p = (updateRow g j 0 l.length).known 1 ts := by
  simp only [updateThreads, List.getElem?_map, List.getElem?_mapIdx] at h
  cases hl : rows[j]? with
  | none => rw [hl] at h; cases h
  | some l =>
    rw [hl] at h
    exact ⟨l, rfl, (Option.some.inj h).symm⟩

theorem update_fits {ty : CType} {g : Elem → Elem} {rows : List (List Elem)} {ts : List Table} (hg : ∀ e, e.length = ty.size → (g e).length = ty.size)
    (he : ∀ l ∈ rows, ∀ e ∈ l, e.length = ty.size) : RowThreads ty ts (updateThreads g (rows.map List.length)) rows := by
  constructor
  · intro p hp
    obtain ⟨j, hj⟩ := List.mem_iff_getElem?.1 (List.mem_map_of_mem (f := (·.known 1 ts)) hp)
    obtain ⟨l, h1, h2⟩ := update_get hj
    rw [h2]
    exact (updateRow_ok hg j ts l.length 0 rows l h1 (Nat.zero_add _) (he l (List.mem_of_getElem? h1))).1
  · intro i j p q hij hp hq d b h1 h2
    obtain ⟨l, g1, rfl⟩ := update_get hp
    obtain ⟨l', k1, rfl⟩ := update_get hq
    have a1 := (updateRow_ok hg i ts l.length 0 rows l g1 (Nat.zero_add _) (he l (List.mem_of_getElem? g1))).2 _ h1
    have a2 := (updateRow_ok hg j ts l'.length 0 rows l' k1 (Nat.zero_add _) (he l' (List.mem_of_getElem? k1))).2 _ h2
    exact hij (a1.symm.trans a2)

theorem update_changes {g : Elem → Elem} {rows : List (List Elem)} {ts : List Table} :
    RowsChanged ts (updateThreads g (rows.map List.length)) rows (rows.map (·.map g)) := by
  have hmap : (updateThreads g (rows.map List.length)).map (·.known 1 ts) = (List.range rows.length).map fun j => (updateRow g j 0 (rows[j]?.getD []).length).known 1 ts := by
    apply List.ext_getElem
    · simp [updateThreads]
    · intro j h1 h2
      have hj : j < rows.length := by simpa using h2
      simp [updateThreads, hj]
  have h : ∀ n, n ≤ rows.length → ((List.range n).map fun j => (updateRow g j 0 (rows[j]?.getD []).length).known 1 ts).foldl (fun t p => p.run t) [rows] =
      [(rows.take n).map (·.map g) ++ rows.drop n] := by
    intro n
    induction n with
    | zero => intro _; simp
    | succ n ih =>
      intro hn
      have hx : n < rows.length := by omega
      rw [List.range_succ, List.map_append, List.foldl_append, ih (by omega)]
      rw [List.map_cons, List.map_nil, List.foldl_cons, List.foldl_nil, List.getElem?_eq_getElem hx, Option.getD_some]
      have hlen : ((rows.take n).map (·.map g)).length = n := by simp; omega
      rw [updateRow_run g n ts rows[n].length 0 _ rows[n] (by
        rw [List.getElem?_append_right (by omega), hlen, Nat.sub_self, List.getElem?_drop]
        simp [hx]) (Nat.zero_add _)]
      rw [List.take_zero, List.nil_append, List.drop_zero, List.set_append_right _ _ (by omega), hlen, Nat.sub_self, List.drop_eq_getElem_cons hx, List.set_cons_zero,
        List.take_succ_eq_append_getElem hx]
      simp only [List.map_append, List.map_cons, List.map_nil, List.append_assoc, List.singleton_append]
  unfold RowsChanged
  rw [hmap, h _ (Nat.le_refl _), List.take_length, List.drop_length, List.append_nil]

/-- C85, end to end: in any state of any program, a kernel with a thread for each row of a jagged buffer, which loads, on weak memory, each element of the row, and stores a value for it in its place, leaves the
values of all elements, in order. -/
theorem c85_update_rows (hI : I = posixWeak ∨ I = cudaWeak ∨ I = syclWeak ∨ I = syclBuiltinWeak) (hl : FamLawful R G ups u0) (hc : c.Wf)
    (h : JAReach I c R ups u0 p q) {k : Nat} {caps : List Nat} {r : Bool} {rows : List (List Elem)} (hk : (p.store c q).Has k caps r true rows)
    (g : Elem → Elem) (hg : ∀ e, e.length = (c.ty k).size → (g e).length = (c.ty k).size) :
    (∃ out p', JAStep I c ups p (.rowAccess [] [] k (updateThreads g (rows.map List.length))) out p') ∧
    ∀ {out : JROut} {p' : JPipe σ}, JAStep I c ups p (.rowAccess [] [] k (updateThreads g (rows.map List.length))) out p' → (p'.store c q).Has k caps r true (rows.map (·.map g)) := by
  have hinv := c85_inv hI hl hc h
  have hsized : ∀ l ∈ rows, ∀ e ∈ l, e.length = (c.ty k).size := by
    obtain ⟨b, -, -, -, -, -, -, b7, -⟩ := hinv.has hk
    intro l hl e he
    rw [← b7] at hl
    obtain ⟨w, -, rfl⟩ := List.mem_map.1 hl
    exact elems_sized _ _ _ e he
  have hf : (JAOp.rowAccess [] [] k (updateThreads g (rows.map List.length))).Fits c R (p.Outside c) (p.store c q) :=
    ⟨by simp, [], [], caps, r, rows, trivial, trivial, hk, update_fits hg hsized⟩
  refine ⟨c85_goes_on hI hl hc h hf, fun {out p'} hs => ?_⟩
  have hm := c85_pipelines hI hl hc h hf hs
  change JAMeans c (p.store c q) _ out (p'.store c q) at hm
  generalize p'.store c q = S' at hm
  cases hm with
  | @rowAccess _ _ _ _ ls js cap' r' l0 l' hi' hj' hk' hr =>
    unfold JStore.Has at hk hk'
    rw [hk] at hk'
    simp only [Option.some.injEq, JBuf.mk.injEq] at hk'
    obtain ⟨rfl, rfl, rfl, -⟩ := hk'
    have := (update_changes (g := g) (rows := rows)).symm.trans hr
    simp only [List.cons.injEq, and_true] at this
    rw [this]
    simp [JStore.Has, JStore.put]

end

set_option maxRecDepth 20000 in
-- Elements are uploaded, and copied to a second vector buffer, doubled; the elements of a jagged buffer with two rows are incremented in their places.
example : ∃ (p : JPipe _) (q : JReady), JAReach cudaWeak demoJagCfg 64 (fun _ => demoBase) demoInit p q ∧
    (∃ out p', JAStep cudaWeak demoJagCfg (fun _ => demoBase) p (.access [0] [] 1 (transformThreads (fun e => [2 * e.getD 0 0]) 4)) out p' ∧
      (p'.store demoJagCfg q).vec.Has 1 4 false [[2], [4], [6], [10]]) ∧
    ∃ out p', JAStep cudaWeak demoJagCfg (fun _ => demoBase) p (.rowAccess [] [] 0 (updateThreads (fun e => [e.getD 0 0 + 1]) [2, 1])) out p' ∧
      (p'.store demoJagCfg q).Has 0 [2, 1] false true [[[8], [8]], [[8]]] := by
  have hI : (cudaWeak : WImpl 32) = posixWeak ∨ (cudaWeak : WImpl 32) = cudaWeak ∨ (cudaWeak : WImpl 32) = syclWeak ∨ (cudaWeak : WImpl 32) = syclBuiltinWeak := .inr (.inl rfl)
  have h0 := JAReach.init (I := cudaWeak) (c := demoJagCfg) (R := 64) (ups := fun _ => demoBase) (u0 := demoInit) (fun _ => 7)
  have h1 := h0.step (op := .plain (.plain (.vec (.create 0 4 false)))) ⟨⟨rfl, by decide, ⟨by decide, by decide, 4, rfl⟩⟩, trivial, trivial⟩ (.plain (.plain (.other id)))
  have h2 := h1.step (op := .plain (.plain (.vec (.upload 100 [[1], [2], [3], [5]] 0)))) ⟨⟨by decide, fun _ => ⟨by decide, by decide⟩, by unfold JPipe.Outside Pipe.Outside; decide +kernel, by decide, 4, false, [[7], [7], [7], [7]], by rfl⟩, trivial, trivial⟩ (.plain (.plain (.other id)))
  have h3 := h2.step (op := .plain (.plain (.create 0 [2, 1] false))) ⟨⟨rfl, by decide, ⟨by decide, by decide, 4, rfl⟩, ⟨by decide, by decide, 4, rfl⟩⟩, trivial, trivial⟩ (.plain (.plain (.other id)))
  have h4 := h3.step (op := .plain (.plain (.setup 0))) ⟨⟨_, rfl⟩, trivial, trivial⟩ (.plain (.plain (.other id)))
  have h5 := h4.step (op := .plain (.plain (.vec (.create 1 4 false)))) ⟨⟨rfl, by decide, ⟨by decide, by decide, 4, rfl⟩⟩, trivial, trivial⟩ (.plain (.plain (.other id)))
  refine ⟨_, _, h5, ?_, ?_⟩
  · obtain ⟨⟨out, p', hs⟩, ha⟩ := c85_transform hI (FamLawful.same (demo_lawful 64)) demoJagCfg_wf h5 (i := 0) (k := 1) (by decide) (xs := [[1], [2], [3], [5]]) ⟨4, false, by rfl⟩
      (l := [[7], [7], [7], [7]]) (cap := 4) (r := false) (by rfl) rfl (fun e => [2 * e.getD 0 0]) (fun _ _ => rfl)
    exact ⟨out, p', hs, ha hs⟩
  · obtain ⟨⟨out, p', hs⟩, ha⟩ := c85_update_rows hI (FamLawful.same (demo_lawful 64)) demoJagCfg_wf h5 (k := 0) (caps := [2, 1]) (r := false) (rows := [[[7], [7]], [[7]]]) (by rfl)
      (fun e => [e.getD 0 0 + 1]) (fun _ _ => rfl)
    exact ⟨out, p', hs, ha hs⟩

end Vecmem.Props
