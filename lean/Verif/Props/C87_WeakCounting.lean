import Verif.Lemmas.WeakCounting
import Verif.Props.C85_WeakAccessLists
import Verif.Props.C86_WeakCounters

/-!
# C87: programs with vectors and jagged vectors whose kernels change elements with atomic operations on weak memory

Vocabulary: `Verif/Spec/WeakCounting.lean`, and that of C85 and C86.
-/

namespace Vecmem.Props

open Vecmem

section

variable {σ : Type} {I : WImpl 32} {R : Limits} {G : Nat} {ups : Nat → MR σ} {u0 : σ} {c : JagCfg} {p : JPipe σ} {q : JReady}

variable {v : View} {mem mem' : Mem} {locs : Nat → Cell → Option (Nat × Nat)} {ts : List Table} {progs : List (RTask CountCall)} {C B : Nat → Nat} {m : AMem 32} {s : WRun 32} {n : Nat}

/-- The programs that are given their inputs. -/
theorem count_given (hI : I = posixWeak ∨ I = cudaWeak ∨ I = syclWeak ∨ I = syclBuiltinWeak)
    (hloc : ∀ k d x, (ts[k]?).bind (·.cell d) = some x → ∃ t a, locs k d = some (t, a) ∧ bytesAt mem a t = x) (hv : CountThreads ts n progs) (h2 : InputVars locs mem B m fun a => ∃ i, C i = a)
    (h3 : WRun.Reach I m (fun i => (progs[i]?.getD .done).code locs B (CountCall.code C n)) s) :
    ∃ s', WRun.Reach I m (countCode (progs.map fun t => countChain C (t.calls ts))) s' ∧ s'.sys.trace = s.sys.trace.elsewhere (inputs locs B) ∧
      ∀ i, s'.prog i = (s.prog i).given (inputs locs B) m := by
  obtain ⟨o1, o2⟩ := inputs_own h2
  obtain ⟨s', g1, g2, g3⟩ := c82_given hI (ro := inputs locs B) (fun i => onlyReads_code (fun x k hk => onlyReads_count o1 x hk) _) h3
  have hprog : ∀ i : Nat, (RTask.code locs B (CountCall.code C n) (progs[i]?.getD .done)).given (inputs locs B) m = countCode (progs.map fun t => countChain C (t.calls ts)) i := by
    intro i
    unfold countCode
    rw [List.getElem?_map]
    cases hp : progs[i]? with
    | none => rfl
    | some t =>
      have ht := List.mem_of_getElem? hp
      obtain ⟨hv1, kind, hv2⟩ := hv
      show (RTask.code locs B (CountCall.code C n) t).given (inputs locs B) m = (countChain C (t.calls ts)).code
      rw [given_code (ts := ts) (mem := mem) o2 hloc (fun x k => given_count o1 x k) t (hv1 t ht), countChain_code fun x hx => (hv2 t ht x hx).1]
  rw [funext hprog] at g1
  exact ⟨s', g1, g2, g3⟩

theorem count_counts (hC : ∀ i j, C i = C j → i = j) (hv : CountThreads ts n progs) :
    ∃ kind, ∀ x ∈ progs.map fun t => countChain C (t.calls ts), x.Counts (fun _ => false) kind := by
  obtain ⟨-, kind, hv2⟩ := hv
  have hinj : Function.Injective C := fun i j h => hC i j h
  refine ⟨Function.extend C kind fun _ => .sum, fun x hx => ?_⟩
  obtain ⟨t, ht, rfl⟩ := List.mem_map.1 hx
  exact countChain_counts fun y hy => by rw [hinj.extend_apply]; exact (hv2 t ht y hy).2

theorem count_updates : (progs.map fun t => countChain C (t.calls ts)).flatMap (·.updates m) = (countCalls ts progs).map fun u => (C u.1, u.2) := by
  simp only [countCalls, List.flatMap_map, countChain_updates, List.map_map, List.map_flatMap]
  rfl

/-- What is in the variables when all threads have come to their ends. -/
theorem count_final (hI : I = posixWeak ∨ I = cudaWeak ∨ I = syclWeak ∨ I = syclBuiltinWeak)
    (hloc : ∀ k d x, (ts[k]?).bind (·.cell d) = some x → ∃ t a, locs k d = some (t, a) ∧ bytesAt mem a t = x) (hv : CountThreads ts n progs) (hC : ∀ i j, C i = C j → i = j)
    (h2 : InputVars locs mem B m fun a => ∃ i, C i = a) (h3 : WRun.Reach I m (fun i => (progs[i]?.getD .done).code locs B (CountCall.code C n)) s) (hd : ∀ i, s.prog i = .done)
    (i : Nat) (y : BitVec 32) : s.sys.trace.Final m (C i) y ↔ y = combined i (countCalls ts progs) (m (C i)) := by
  obtain ⟨o1, -⟩ := inputs_own h2
  obtain ⟨s', g1, g2, g3⟩ := count_given hI hloc hv h2 h3
  obtain ⟨kind, hk⟩ := count_counts hC hv
  have := c86_counters hI hk g1 (fun i => by rw [g3, hd]; rfl) (C i) y
  rwa [g2, elsewhere_final (o1 _ ⟨i, rfl⟩), count_updates, combined_map hC] at this

/-- C87: every element of four bytes is exactly one number, so `Counted` says what all elements become. -/
theorem c87_numbers (e : Elem) (he : e.length = 4) : ∃ x, wordBytes x = e ∧ ∀ y, wordBytes y = e → y = x := by
  obtain ⟨x, hx⟩ := wordBytes_exists (fun a => e.getD a 0) 0
  have : bytesAt (fun a => e.getD a 0) 0 4 = e := by
    match e, he with
    | [_, _, _, _], _ => rfl
  rw [this] at hx
  exact ⟨x, hx.symm, fun y hy => wordBytes_inj (hy.trans hx)⟩

theorem counted_len (hv : v.Valid mem 4) (hm : ∀ a, ¬ (v.ptr ≤ a ∧ a < v.ptr + v.len mem * 4) → mem' a = mem a) :
    (∀ a, ¬ v.HasPayload 4 a → mem' a = mem a) ∧ v.len mem' = v.len mem := by
  have h1 : ∀ a, ¬ v.HasPayload 4 a → mem' a = mem a := fun a ha => hm a fun hc => ha ⟨hc.1, by have := hv.len; omega⟩
  exact ⟨h1, rows_len (vs := [v]) (fun w hw => by rw [List.mem_singleton.1 hw]; exact hv.toPlaced) (List.pairwise_singleton _ _)
    (fun a ha => h1 a (ha v List.mem_cons_self)) v List.mem_cons_self⟩

/-- **C87**: a kernel whose threads load elements of inputs, and change elements of a vector with atomic operations, of one kind for each element, depending on what they have loaded, leaves in each element what
the operations on it make of it, one after the other; however it runs, on weak memory, and whatever the memory orders.  No other byte changes. -/
theorem c87_count (hI : I = posixWeak ∨ I = cudaWeak ∨ I = syclWeak ∨ I = syclBuiltinWeak)
    (hloc : ∀ k d x, (ts[k]?).bind (·.cell d) = some x → ∃ t a, locs k d = some (t, a) ∧ bytesAt mem a t = x) (hv : v.Valid mem 4) (hp : CountThreads ts (v.len mem) progs)
    (h : CountKernel I v locs progs mem mem') :
    Counted (countCalls ts progs) (v.elems mem 4) (v.elems mem' 4) ∧ (∀ a, ¬ v.HasPayload 4 a → mem' a = mem a) ∧ v.len mem' = v.len mem := by
  obtain ⟨C, B, m, s, hC, h2, hm, h3, hd, hf, ho⟩ := h
  obtain ⟨k1, k2⟩ := counted_len hv ho
  refine ⟨⟨by simp [View.elems, k2], fun i x hx => ?_⟩, k1, k2⟩
  have hi : i < v.len mem := by
    have := (List.getElem?_eq_some_iff.1 hx).1
    simpa [View.elems] using this
  rw [elems_get hi, bytesAt_word (hm i hi)] at hx
  cases wordBytes_inj (Option.some.inj hx)
  obtain ⟨y, y1, y2⟩ := hf i hi
  rw [elems_get (by rw [k2]; exact hi), bytesAt_word y2, (count_final hI hloc hp hC h2 h3 hd i y).1 y1]

theorem count_code_defined (hI : I = posixWeak ∨ I = cudaWeak ∨ I = syclWeak ∨ I = syclBuiltinWeak) (x : CountCall) {k : WProg 32} (hk : k.Defined I) : (x.code C n k).Defined I := by
  unfold CountCall.code
  split
  · refine ⟨?_, fun _ => hk⟩
    obtain ⟨kd, hkd⟩ := x.fetches
    generalize x.op = op at hkd
    cases kd <;> cases op <;> first | exact hkd.elim | (rcases hI with rfl | rfl | rfl | rfl <;> rfl)
  · trivial

/-- C87: such kernels can be run. -/
theorem c87_count_runs (hI : I = posixWeak ∨ I = cudaWeak ∨ I = syclWeak ∨ I = syclBuiltinWeak)
    (hloc : ∀ k d x, (ts[k]?).bind (·.cell d) = some x → ∃ t a, locs k d = some (t, a) ∧ bytesAt mem a t = x) (hp : CountThreads ts (v.len mem) progs) :
    ∃ mem', CountKernel I v locs progs mem mem' := by
  have hC : ∀ i j : Nat, 2 * i = 2 * j → i = j := fun i j h => by omega
  let m0 : AMem 32 := fun i => BitVec.ofNat 32 (readLE mem (v.ptr + i * 4) 4)
  have hiv : InputVars locs mem (fun a => 2 * a + 1) (evenVals m0 mem) (fun a => ∃ i, 2 * i = a) := inputVars_odd locs m0 mem fun a h => h.imp fun _ h => h.symm
  obtain ⟨s, h1, h2⟩ := WRun.Reach.finishAll (I := I) (m := evenVals m0 mem)
    (progs := fun i => (progs[i]?.getD .done).code locs (fun a => 2 * a + 1) (CountCall.code (fun i => 2 * i) (v.len mem)))
    .start (fun i => defined_code hI (fun x k hk => count_code_defined hI x hk) _) (n := progs.length)
    (fun i hi => by dsimp only; rw [List.getElem?_eq_none hi]; exact .inl rfl)
  have hr := WRun.Reach.steps (.start) h1
  obtain ⟨s', g1, g2, g3⟩ := count_given hI hloc hp hiv hr
  have hdone : ∀ i, s.prog i = .done := fun i => (h2 i).resolve_right fun hf => code_not_failed (by
    have := g1.after i
    rw [g3, hf] at this
    exact this)
  refine ⟨storeWords mem v.ptr (v.len mem) fun i => combined i (countCalls ts progs) (m0 i), fun i => 2 * i, _, _, s, hC, hiv, fun i hi => ?_, hr, hdone, fun i hi => ?_, fun a ha => if_neg ha⟩
  · rw [evenVals_even]
    have := readLE_lt mem (v.ptr + i * 4) 4
    rw [BitVec.toNat_ofNat, Nat.mod_eq_of_lt (by simpa using this)]
  · refine ⟨_, (count_final hI hloc hp hC hiv hr hdone i _).2 rfl, ?_⟩
    rw [evenVals_even]
    exact storeWords_read mem v.ptr (fun i => combined i (countCalls ts progs) (m0 i)) hi

/-- A step does what it may do. -/
theorem c87_step_inv (hI : I = posixWeak ∨ I = cudaWeak ∨ I = syclWeak ∨ I = syclBuiltinWeak) (hl : FamLawful R G ups u0) (hc : c.Wf) (h : JInv c R ups u0 p q) {op : JCOp}
    (hf : op.Fits c R (p.Outside c) (p.store c q)) {out : JROut} {p' : JPipe σ} (hs : JCStep I c ups p op out p') :
    JInv c R ups u0 p' (op.ready q) ∧ JCMeans c (p.store c q) op out (p'.store c (op.ready q)) := by
  cases hs with
  | plain hs =>
    obtain ⟨i1, i2⟩ := c85_step_inv hI hl hc h hf hs
    exact ⟨i1, .plain i2⟩
  | @count ins jins k progs b mem' hb hk =>
    obtain ⟨-, f5, ls, js, cap, r, l, f1, f2, f3, f4⟩ := hf
    obtain ⟨b', b1, b2, b3, b4, b5, b6, b7, b8⟩ := h.vec.has f3
    cases hb.symm.trans b1
    rw [f5] at b6 b7
    obtain ⟨g1, g2, g3⟩ := c87_count hI (h.locs f1 f2) b7 (by rw [b8]; exact f4) hk
    have hm : ∀ x, ¬ b.view.Has (c.vec.ty k).size x → mem' x = p.vec.mem x := fun x hx => g2 x fun hp => hx (by rw [f5]; exact .inl hp)
    obtain ⟨i1, i2⟩ := h.vec.change b1 (m' := mem') (h.vec.apart hl b2 hm) (ready' := q.vec) (fun _ _ => rfl) (fun hk => hk) (fun _ => by rw [g3]; exact b7.len)
    obtain ⟨i3, i4⟩ := h.frame i1 (h.vec.keeps hl b2 hm)
    refine ⟨i3, ?_⟩
    show JCMeans c _ _ _ (JPipe.store c { p with vec := { p.vec with mem := mem' } } { q with vec := q.vec })
    rw [i4, i2, if_pos b3, b4, b5, f5]
    rw [b6] at g1
    exact .count f1 f2 f3 g1

theorem c87_inv (hI : I = posixWeak ∨ I = cudaWeak ∨ I = syclWeak ∨ I = syclBuiltinWeak) (hl : FamLawful R G ups u0) (hc : c.Wf) (h : JCReach I c R ups u0 p q) :
    JInv c R ups u0 p q := by
  induction h with
  | init m => exact jag_inv hl hc (.init m)
  | step h hf hs ih => exact (c87_step_inv hI hl hc ih hf hs).1

/-- **C87**: in a program with vector buffers, jagged buffers and copies (C62) whose kernels run on weak memory — they read inputs, and append (C83), load and store elements without races (C85), or change elements
with atomic operations — every step does to the elements in memory, and returns, what it may do and return according to `JCMeans`, which speaks about lists of elements and lists of rows only. -/
theorem c87_pipelines (hI : I = posixWeak ∨ I = cudaWeak ∨ I = syclWeak ∨ I = syclBuiltinWeak) (hl : FamLawful R G ups u0) (hc : c.Wf)
    (h : JCReach I c R ups u0 p q) {op : JCOp} (hf : op.Fits c R (p.Outside c) (p.store c q)) {out : JROut} {p' : JPipe σ} (hs : JCStep I c ups p op out p') :
    JCMeans c (p.store c q) op out (p'.store c (op.ready q)) :=
  (c87_step_inv hI hl hc (c87_inv hI hl hc h) hf hs).2

/-- C87: in every state of a program, each step that fits can be made. -/
theorem c87_goes_on (hI : I = posixWeak ∨ I = cudaWeak ∨ I = syclWeak ∨ I = syclBuiltinWeak) (hl : FamLawful R G ups u0) (hc : c.Wf)
    (h : JCReach I c R ups u0 p q) {op : JCOp} (hf : op.Fits c R (p.Outside c) (p.store c q)) : ∃ out p', JCStep I c ups p op out p' := by
  have hinv := c87_inv hI hl hc h
  cases op with
  | plain op =>
    obtain ⟨out, p', hs⟩ := c85_goes_on_inv hI hl hc hinv hf
    exact ⟨_, _, .plain hs⟩
  | count ins jins k progs =>
    obtain ⟨-, f5, ls, js, cap, r, l, f1, f2, f3, f4⟩ := hf
    obtain ⟨b, b1, b2, b3, b4, b5, b6, b7, b8⟩ := hinv.vec.has f3
    obtain ⟨mem', hk⟩ := c87_count_runs hI (v := b.view) (hinv.locs f1 f2) (by rw [b8]; exact f4)
    exact ⟨_, _, .count b1 hk⟩

/-! ## end to end -/

/-- `atomic_ref(bins[bin(in[i])]).fetch_add(1)`: a thread for each of `n` elements. -/
def binThreads (bin : Elem → Nat) (n : Nat) : List (RTask CountCall) :=
  (List.range n).map fun i => .load 0 ⟨0, 0, i⟩ fun x => .call ⟨bin x, .fetchAdd 1, none, .sum, trivial⟩ .done

theorem bin_cell {xs : List Elem} {i : Nat} (hi : i < xs.length) : ((listTables [xs] [])[0]?).bind (·.cell ⟨0, 0, i⟩) = some xs[i] := by simp [listTables, Table.cell, hi]

theorem bin_fits {bin : Elem → Nat} {xs : List Elem} {n : Nat} (hb : ∀ x ∈ xs, bin x < n) : CountThreads (listTables [xs] []) n (binThreads bin xs.length) := by
  constructor
  · intro t ht
    obtain ⟨i, hi, rfl⟩ := List.mem_map.1 ht
    exact ⟨_, bin_cell (List.mem_range.1 hi), trivial⟩
  · refine ⟨fun _ => .sum, fun t ht x hx => ?_⟩
    obtain ⟨i, hi, rfl⟩ := List.mem_map.1 ht
    simp only [RTask.calls, bin_cell (List.mem_range.1 hi), List.mem_singleton] at hx
    subst hx
    exact ⟨hb _ (List.getElem_mem _), trivial⟩

theorem bin_calls (bin : Elem → Nat) (xs : List Elem) : countCalls (listTables [xs] []) (binThreads bin xs.length) = (xs.map bin).map fun b => (b, AOp.fetchAdd 1) := by
  have : ((binThreads bin xs.length).flatMap (·.calls (listTables [xs] []))).map (fun x => (x.index, x.op)) = (List.range xs.length).map fun i => (bin (xs[i]?.getD []), AOp.fetchAdd 1) := by
    unfold binThreads
    rw [List.flatMap_map, List.map_flatMap, List.map_eq_flatMap]
    refine List.flatMap_congr fun i hi => ?_
    have hi := List.mem_range.1 hi
    simp only [RTask.calls, bin_cell hi, List.map_cons, List.map_nil, List.getElem?_eq_getElem hi, Option.getD_some]
  rw [countCalls, this]
  apply List.ext_getElem
  · simp
  · intro i h1 h2
    simp at h1
    simp [h1]

/-- C87, end to end: a kernel that fills a histogram, kept in a vector buffer of numbers of four bytes, with a thread for each element of another vector buffer, leaves in each bin its old contents and the number of
the elements that belong to it. -/
theorem c87_histogram (hI : I = posixWeak ∨ I = cudaWeak ∨ I = syclWeak ∨ I = syclBuiltinWeak) (hl : FamLawful R G ups u0) (hc : c.Wf)
    (h : JCReach I c R ups u0 p q) {i k : Nat} (hik : i ≠ k) (h4 : (c.vec.ty k).size = 4) {xs : List Elem} (hi : ∃ cap r, (p.store c q).vec.Has i cap r xs) {cap : Nat} {r : Bool}
    {ns : List (BitVec 32)} (hk : (p.store c q).vec.Has k cap r (ns.map wordBytes)) (bin : Elem → Nat) (hb : ∀ x ∈ xs, bin x < ns.length) :
    (∃ out p', JCStep I c ups p (.count [i] [] k (binThreads bin xs.length)) out p') ∧
    ∀ {out : JROut} {p' : JPipe σ}, JCStep I c ups p (.count [i] [] k (binThreads bin xs.length)) out p' →
      (p'.store c q).vec.Has k cap r (ns.mapIdx fun b n => wordBytes (n + BitVec.ofNat 32 ((xs.map bin).count b))) := by
  have hf : (JCOp.count [i] [] k (binThreads bin xs.length)).Fits c R (p.Outside c) (p.store c q) :=
    ⟨by simpa using Ne.symm hik, h4, [xs], [], cap, r, ns.map wordBytes, ⟨hi, trivial⟩, trivial, hk, bin_fits (by simpa using hb)⟩
  refine ⟨c87_goes_on hI hl hc h hf, fun {out p'} hs => ?_⟩
  have hinv := c87_inv hI hl hc h
  have hm := c87_pipelines hI hl hc h hf hs
  change JCMeans c (p.store c q) _ out (p'.store c q) at hm
  generalize p'.store c q = S' at hm
  cases hm with
  | @count _ _ _ _ ls js cap' r' l0 l' hi' hj' hk' hr =>
    cases (hinv.vec.reads hi').symm.trans (hinv.vec.reads (ins := [i]) (ls := [xs]) ⟨hi, trivial⟩)
    cases (hinv.reads hj').symm.trans (hinv.reads (ins := []) (ls := []) trivial)
    unfold Store.Has at hk hk'
    rw [hk] at hk'
    simp only [Option.some.injEq, VBuf.mk.injEq] at hk'
    obtain ⟨rfl, rfl, rfl⟩ := hk'
    have : l' = ns.mapIdx fun b n => wordBytes (n + BitVec.ofNat 32 ((xs.map bin).count b)) := by
      apply List.ext_getElem?
      intro b
      rw [List.getElem?_mapIdx]
      cases hn : ns[b]? with
      | none =>
        rw [List.getElem?_eq_none_iff] at hn
        exact List.getElem?_eq_none (by rw [hr.1, List.length_map]; exact hn)
      | some n =>
        rw [hr.2 b n (by rw [List.getElem?_map, hn]; rfl), bin_calls]
        have := combined_ones (w := 32) id (fun _ _ h => h) b (xs.map bin) n
        simp only [id] at this
        rw [this]
        rfl
    rw [this]
    simp [Store.Has, Store.put]

end

/-- The resources and types of a program with bytes in the vector buffer 0 and numbers of four bytes in vector buffer 1. -/
def countCfg : JagCfg := { demoJagCfg with vec := { demoCfg with ty := fun k => if k = 1 then ⟨4, 4⟩ else ⟨1, 1⟩, dflt := fun k => if k = 1 then [0, 0, 0, 0] else [0] } }

theorem countCfg_wf : countCfg.Wf := by
  refine ⟨fun k => ?_, fun _ => ⟨⟨Nat.zero_lt_one, ⟨0, rfl⟩, Nat.dvd_refl 1⟩, rfl⟩⟩
  show (if k = 1 then (⟨4, 4⟩ : CType) else ⟨1, 1⟩).Wf ∧ (if k = 1 then ([0, 0, 0, 0] : Elem) else [0]).length = (if k = 1 then (⟨4, 4⟩ : CType) else ⟨1, 1⟩).size
  split
  · exact ⟨⟨by decide, ⟨2, rfl⟩, by decide⟩, rfl⟩
  · exact ⟨⟨by decide, ⟨0, rfl⟩, by decide⟩, rfl⟩

set_option maxRecDepth 20000 in
/-- The hypotheses are met: four bytes, and two counters, 10 and 255, are copied to vector buffers; a kernel then adds to the counters the number of even and odd ones. -/
example : ∃ (p : JPipe _) (q : JReady), JCReach cudaWeak countCfg 64 (fun _ => demoBase) demoInit p q ∧
    ∃ out p', JCStep cudaWeak countCfg (fun _ => demoBase) p (.count [0] [] 1 (binThreads (fun e => (e.getD 0 0).toNat % 2) 4)) out p' ∧
      (p'.store countCfg q).vec.Has 1 2 false [[11, 0, 0, 0], [2, 1, 0, 0]] := by
  have hI : (cudaWeak : WImpl 32) = posixWeak ∨ (cudaWeak : WImpl 32) = cudaWeak ∨ (cudaWeak : WImpl 32) = syclWeak ∨ (cudaWeak : WImpl 32) = syclBuiltinWeak := .inr (.inl rfl)
  have h0 := JCReach.init (I := cudaWeak) (c := countCfg) (R := 64) (ups := fun _ => demoBase) (u0 := demoInit) (fun _ => 7)
  have h1 := h0.step (op := .plain (.plain (.plain (.vec (.create 0 4 false))))) ⟨⟨rfl, by decide, ⟨by decide, by decide, 4, rfl⟩⟩, trivial, trivial⟩ (.plain (.plain (.plain (.other id))))
  have h2 := h1.step (op := .plain (.plain (.plain (.vec (.upload 100 [[1], [2], [3], [5]] 0))))) ⟨⟨by decide, fun _ => ⟨by decide, by decide⟩, by unfold JPipe.Outside Pipe.Outside; decide +kernel, by decide, 4, false, [[7], [7], [7], [7]], by rfl⟩, trivial, trivial⟩ (.plain (.plain (.plain (.other id))))
  have h3 := h2.step (op := .plain (.plain (.plain (.vec (.create 1 2 false))))) ⟨⟨rfl, by decide, ⟨by decide, by decide, 4, rfl⟩⟩, trivial, trivial⟩ (.plain (.plain (.plain (.other id))))
  have h4 := h3.step (op := .plain (.plain (.plain (.vec (.upload 100 [[10, 0, 0, 0], [255, 0, 0, 0]] 1))))) ⟨⟨by decide, fun _ => ⟨by decide, by decide⟩, by unfold JPipe.Outside Pipe.Outside; decide +kernel, by decide, 2, false, [[7, 7, 7, 7], [7, 7, 7, 7]], by rfl⟩, trivial, trivial⟩ (.plain (.plain (.plain (.other id))))
  refine ⟨_, _, h4, ?_⟩
  obtain ⟨⟨out, p', hs⟩, ha⟩ := c87_histogram hI (FamLawful.same (demo_lawful 64)) countCfg_wf h4 (i := 0) (k := 1) (by decide) rfl (xs := [[1], [2], [3], [5]]) ⟨4, false, by rfl⟩
    (cap := 2) (r := false) (ns := [10, 255]) (by rfl) (fun e => (e.getD 0 0).toNat % 2) (by decide)
  exact ⟨out, p', hs, ha hs⟩

end Vecmem.Props
