import Verif.Lemmas.EdmBuffer
import Verif.Lemmas.Tactics

/-! # The memory views of a container buffer -/

namespace Vecmem

open IntMath

variable {S : Schema} {caps : List Nat} {resizable : Bool} {m mh : Blk} {ps : List Nat}

theorem placeEnd_le (A : Nat) : ∀ (ts : List (CType × Nat)) (p : Nat), (∀ e ∈ ts, 0 < e.1.align ∧ e.1.align ≤ A) →
    placeEnd p ts ≤ p + neededBytes A ts := by
  intro ts
  induction ts with
  | nil => intro p _; exact Nat.le_add_right _ _
  | cons e ts ih =>
    obtain ⟨t, n⟩ := e
    intro p hw
    have hneed : neededBytes A ((t, n) :: ts) = n * t.size + A + neededBytes A ts := by
      unfold neededBytes
      simp only [List.map_cons, List.sum_cons, List.length_cons, Nat.add_mul, Nat.one_mul]; omega
    have hw' := fun e he => hw e (List.mem_cons_of_mem _ he)
    rw [hneed]
    simp only [placeEnd]
    by_cases hn : n = 0
    · rw [if_pos hn]
      have := ih p hw'
      omega
    · rw [if_neg hn]
      have := ih (alignUp t.align p + n * t.size) hw'
      obtain ⟨h1, h2⟩ := hw (t, n) List.mem_cons_self
      have := alignUp_lt h1 p
      simp only at *
      omega

theorem findLast_cons (e : CType × Nat) (ts : List (CType × Nat)) (q : Nat) (qs : List Nat) :
    findLast (e :: ts) (q :: qs) =
      if findLast ts qs ≠ 0 ∨ (ts.zip qs).reverse.find? (·.2 ≠ 0) ≠ none then findLast ts qs
      else if q ≠ 0 then q + e.2 * e.1.size else 0 := by
  unfold findLast
  simp only [List.zip_cons_cons, List.reverse_cons, List.find?_append]
  cases hx : (ts.zip qs).reverse.find? (·.2 ≠ 0) with
  | some y => simp
  | none =>
    by_cases hq : q = 0 <;> simp [hq]

theorem placeAt_none {ts : List (CType × Nat)} (h : ∀ e ∈ ts, e.2 = 0) (p : Nat) :
    (∀ q ∈ placeAt p ts, q = 0) ∧ placeEnd p ts = p := by
  induction ts with
  | nil => exact ⟨by simp [placeAt], rfl⟩
  | cons e ts ih =>
    obtain ⟨t, n⟩ := e
    have hn : n = 0 := h (t, n) List.mem_cons_self
    obtain ⟨i1, i2⟩ := ih (fun e he => h e (List.mem_cons_of_mem _ he))
    simp only [placeAt, placeEnd, hn, if_true]
    refine ⟨?_, i2⟩
    intro q hq
    rcases List.mem_cons.1 hq with rfl | hq
    · rfl
    · exact i1 q hq

theorem findFirst_none {l : List Nat} (h : ∀ q ∈ l, q = 0) : findFirst l = 0 := by
  unfold findFirst
  rw [List.find?_eq_none.2 (by intro x hx; simp [h x hx])]
  rfl

theorem findLast_none {ts : List (CType × Nat)} {l : List Nat} (h : ∀ q ∈ l, q = 0) :
    (ts.zip l).reverse.find? (·.2 ≠ 0) = none ∧ findLast ts l = 0 := by
  have : (ts.zip l).reverse.find? (·.2 ≠ 0) = none := by
    rw [List.find?_eq_none]
    intro x hx
    have := h x.2 (List.of_mem_zip (a := x.1) (b := x.2) (List.mem_reverse.1 hx)).2
    simp [this]
  refine ⟨this, ?_⟩
  unfold findLast
  rw [this]

theorem memoryView_none {ts : List (CType × Nat)} {l : List Nat} (h : ∀ q ∈ l, q = 0) : memoryView ts l = ⟨0, 0, 0⟩ := by
  unfold memoryView
  rw [findFirst_none h, (findLast_none h).2]

theorem findLast_at {ts : List (CType × Nat)} : ∀ {p : Nat}, p ≠ 0 → (∃ e ∈ ts, e.2 ≠ 0) →
    (ts.zip (placeAt p ts)).reverse.find? (·.2 ≠ 0) ≠ none ∧ findLast ts (placeAt p ts) = placeEnd p ts := by
  induction ts with
  | nil => rintro p _ ⟨e, he, _⟩; simp at he
  | cons x ts ih =>
    obtain ⟨t, n⟩ := x
    intro p hp hex
    have hmain : findLast ((t, n) :: ts) (placeAt p ((t, n) :: ts)) = placeEnd p ((t, n) :: ts) := by
      by_cases hn : n = 0
      · have hex' : ∃ e ∈ ts, e.2 ≠ 0 := by
          obtain ⟨e, he, h0⟩ := hex
          rcases List.mem_cons.1 he with rfl | he
          · exact absurd hn h0
          · exact ⟨e, he, h0⟩
        obtain ⟨i1, i2⟩ := ih hp hex'
        simp only [placeAt, placeEnd, if_pos hn]
        rw [findLast_cons, if_pos (Or.inr i1), i2]
      · simp only [placeAt, placeEnd, if_neg hn]
        have hge := alignUp_ge t.align p
        by_cases hex' : ∃ e ∈ ts, e.2 ≠ 0
        · obtain ⟨i1, i2⟩ := ih (p := alignUp t.align p + n * t.size) (by omega) hex'
          rw [findLast_cons, if_pos (Or.inr i1), i2]
        · have hall : ∀ e ∈ ts, e.2 = 0 := fun e he => by
            by_contra h0; exact hex' ⟨e, he, h0⟩
          obtain ⟨a1, a2⟩ := placeAt_none hall (alignUp t.align p + n * t.size)
          obtain ⟨b1, b2⟩ := findLast_none (ts := ts) a1
          rw [findLast_cons, if_neg (by rintro (h | h); exacts [h b2, h b1]), if_pos (by omega), a2]
    refine ⟨?_, hmain⟩
    intro hc
    unfold findLast at hmain
    rw [hc] at hmain
    have := placeEnd_ge ((t, n) :: ts) p
    simp only at hmain
    omega

theorem findFirst_at {ts : List (CType × Nat)} : ∀ {p : Nat}, p ≠ 0 → (∃ e ∈ ts, e.2 ≠ 0) →
    p ≤ findFirst (placeAt p ts) ∧ findFirst (placeAt p ts) ≤ placeEnd p ts ∧
    ∀ k e, ts[k]? = some e → e.2 ≠ 0 → findFirst (placeAt p ts) ≤ (placeAt p ts).getD k 0 := by
  induction ts with
  | nil => rintro p _ ⟨e, he, _⟩; simp at he
  | cons x ts ih =>
    obtain ⟨t, n⟩ := x
    intro p hp hex
    by_cases hn : n = 0
    · have hex' : ∃ e ∈ ts, e.2 ≠ 0 := by
        obtain ⟨e, he, h0⟩ := hex
        rcases List.mem_cons.1 he with rfl | he
        · exact absurd hn h0
        · exact ⟨e, he, h0⟩
      obtain ⟨i1, i2, i3⟩ := ih hp hex'
      simp only [placeAt, placeEnd, if_pos hn]
      have hf : findFirst (0 :: placeAt p ts) = findFirst (placeAt p ts) := by simp [findFirst]
      rw [hf]
      refine ⟨i1, i2, ?_⟩
      intro k e he h0
      cases k with
      | zero => simp at he; subst he; exact absurd hn h0
      | succ k => simpa using i3 k e (by simpa using he) h0
    · simp only [placeAt, placeEnd, if_neg hn]
      have hge := alignUp_ge t.align p
      have hf : findFirst (alignUp t.align p :: placeAt (alignUp t.align p + n * t.size) ts) = alignUp t.align p := by
        have : alignUp t.align p ≠ 0 := by omega
        simp [findFirst, this]
      rw [hf]
      have := placeEnd_ge ts (alignUp t.align p + n * t.size)
      refine ⟨hge, by omega, ?_⟩
      intro k e he h0
      cases k with
      | zero => simp
      | succ k =>
        have := (placeAt_bounds ts (alignUp t.align p + n * t.size) k e (by simpa using he) h0).1
        simp only [List.getD_cons_succ]
        omega

/-- The memory view of regions that were placed from `p` on. -/
theorem memoryView_at {ts : List (CType × Nat)} {p : Nat} (hp : p ≠ 0) (hlt : placeEnd p ts - p < 2 ^ 32) :
    ((memoryView ts (placeAt p ts)).capacity ≠ 0 ∨ (memoryView ts (placeAt p ts)).ptr ≠ 0 →
      p ≤ (memoryView ts (placeAt p ts)).ptr ∧
      (memoryView ts (placeAt p ts)).ptr + (memoryView ts (placeAt p ts)).capacity = placeEnd p ts) ∧
    ∀ (k : Nat) (e : CType × Nat), ts[k]? = some e → e.2 ≠ 0 →
      (e.1.region ((placeAt p ts).getD k 0) e.2).Inside (memoryView ts (placeAt p ts)).bytes := by
  by_cases hex : ∃ e ∈ ts, e.2 ≠ 0
  · obtain ⟨_, h1⟩ := findLast_at hp hex
    obtain ⟨h2, h3, h4⟩ := findFirst_at hp hex
    have hcap : (memoryView ts (placeAt p ts)).capacity = placeEnd p ts - findFirst (placeAt p ts) := by
      unfold memoryView
      simp only [h1]
      exact Nat.mod_eq_of_lt (by omega)
    have hptr : (memoryView ts (placeAt p ts)).ptr = findFirst (placeAt p ts) := rfl
    refine ⟨fun _ => by rw [hcap, hptr]; omega, ?_⟩
    intro k e he h0
    have h5 := h4 k e he h0
    have h6 := (placeAt_bounds ts p k e he h0).2
    simp only [View.bytes, CType.region, Blk.Inside, hcap, hptr]
    omega
  · have hall : ∀ e ∈ ts, e.2 = 0 := fun e he => by
      by_contra h0; exact hex ⟨e, he, h0⟩
    rw [memoryView_none (placeAt_none hall p).1]
    refine ⟨fun h => by simp at h, ?_⟩
    intro k e he h0
    exact absurd (hall e (List.mem_of_getElem? he)) h0

/-- Size words are placed without gaps. -/
theorem placeEnd_words : ∀ (ns : List Nat) (p : Nat), p ≠ 0 → (∃ n ∈ ns, n ≠ 0) →
    placeEnd p (ns.map fun n => (CType.uint, n)) =
      findFirst (placeAt p (ns.map fun n => (CType.uint, n))) + ns.sum * 4 := by
  intro ns
  have hal : ∀ (ns : List Nat) (p : Nat), 4 ∣ p → placeEnd p (ns.map fun n => (CType.uint, n)) = p + ns.sum * 4 := by
    intro ns
    induction ns with
    | nil => intro p _; rfl
    | cons n ns ih =>
      intro p hp
      simp only [List.map_cons, placeEnd, List.sum_cons]
      by_cases hn : n = 0
      · rw [if_pos hn, ih p hp, hn]; omega
      · have : alignUp CType.uint.align p = p := alignUp_of_dvd (by decide) hp
        rw [if_neg hn, this]
        have h4 : CType.uint.size = 4 := rfl
        rw [ih _ (by rw [h4]; omega), h4]; omega
  induction ns with
  | nil => rintro p _ ⟨n, hn, _⟩; simp at hn
  | cons n ns ih =>
    intro p hp hex
    simp only [List.map_cons, placeEnd, placeAt, List.sum_cons]
    by_cases hn : n = 0
    · rw [if_pos hn, if_pos hn]
      have hex' : ∃ n ∈ ns, n ≠ 0 := by
        obtain ⟨e, he, h0⟩ := hex
        rcases List.mem_cons.1 he with rfl | he
        · exact absurd hn h0
        · exact ⟨e, he, h0⟩
      rw [ih p hp hex']
      have hf : findFirst (0 :: placeAt p (ns.map fun n => (CType.uint, n))) =
        findFirst (placeAt p (ns.map fun n => (CType.uint, n))) := by simp [findFirst]
      rw [hf, hn]; omega
    · rw [if_neg hn, if_neg hn]
      have hge := alignUp_ge CType.uint.align p
      have hd : 4 ∣ alignUp CType.uint.align p := alignUp_dvd (by decide) p
      have hf : ∀ l, findFirst (alignUp CType.uint.align p :: l) = alignUp CType.uint.align p := by
        intro l
        have : alignUp CType.uint.align p ≠ 0 := by omega
        simp [findFirst, this]
      have h4 : CType.uint.size = 4 := rfl
      rw [hf, hal _ _ (by rw [h4]; omega), h4]
      omega

/-- The slices of the pointers. -/
theorem slices {A B C : List (CType × Nat)} (p : Nat) :
    (placeAt p (A ++ (B ++ C))).take A.length = placeAt p A ∧
    ((placeAt p (A ++ (B ++ C))).drop A.length).take B.length = placeAt (placeEnd p A) B ∧
    ((placeAt p (A ++ (B ++ C))).drop A.length).drop B.length = placeAt (placeEnd (placeEnd p A) B) C := by
  have hA := placeAt_length A p
  have hB := placeAt_length B (placeEnd p A)
  rw [placeAt_append, placeAt_append]
  refine ⟨?_, ?_, ?_⟩
  · rw [← hA, List.take_left]
  · rw [← hA, List.drop_left, ← hB, List.take_left]
  · rw [← hA, List.drop_left, ← hB, List.drop_left]

theorem sizeRegions_eq (hr : resizable = true) (hj : S.hasJagged = true) :
    S.sizeRegions caps resizable = (S.map fun v => v.layoutSize caps).map fun n => (CType.uint, n) := by
  subst hr
  simp [Schema.sizeRegions, hj]

/-- The memory view of the size words. -/
theorem sizeView_at {p : Nat} (hp : p ≠ 0) (hlt : placeEnd p (S.sizeRegions caps resizable) - p < 2 ^ 32) :
    let w := S.sizeView caps resizable (placeAt p (S.sizeRegions caps resizable))
    (w.capacity ≠ 0 ∨ w.ptr ≠ 0 → p ≤ w.ptr ∧ w.ptr + w.capacity = placeEnd p (S.sizeRegions caps resizable)) ∧
    ∀ (k : Nat) (e : CType × Nat), (S.sizeRegions caps resizable)[k]? = some e → e.2 ≠ 0 →
      (e.1.region ((placeAt p (S.sizeRegions caps resizable)).getD k 0) e.2).Inside w.bytes := by
  intro w
  cases hr : resizable with
  | false =>
    subst hr
    have : S.sizeRegions caps false = [] := by simp [Schema.sizeRegions]
    refine ⟨?_, ?_⟩
    · intro h; simp [w, Schema.sizeView] at h
    · intro k e he; simp [this] at he
  | true =>
    subst hr
    cases hj : S.hasJagged with
    | false =>
      have hts : S.sizeRegions caps true = [(CType.uint, 1)] := by simp [Schema.sizeRegions, hj]
      have hw : w = ⟨4, 0, alignUp 4 p⟩ := by
        simp only [w, Schema.sizeView, hj, hts, placeAt]
        simp [CType.uint]
      have hge := alignUp_ge 4 p
      rw [hts]
      refine ⟨?_, ?_⟩
      · intro _
        rw [hw]
        simp only [placeEnd, CType.uint]
        simp
        omega
      · intro k e he _
        cases k with
        | zero =>
          simp at he; subst he
          rw [hw]
          simp [placeAt, CType.region, CType.uint, View.bytes, Blk.Inside]
        | succ k => simp at he
    | true =>
      have hts := sizeRegions_eq (S := S) (caps := caps) (resizable := true) rfl hj
      have hwp : w.ptr = findFirst (placeAt p (S.sizeRegions caps true)) := by simp [w, Schema.sizeView, hj]
      have hwc : w.capacity = wrap64 ((S.map fun v => v.layoutSize caps).sum * 4) % 2 ^ 32 := by
        simp [w, Schema.sizeView, hj]
      by_cases hex : ∃ n ∈ S.map fun v => v.layoutSize caps, n ≠ 0
      · have hend := placeEnd_words _ p hp hex
        rw [← hts] at hend
        have hex' : ∃ e ∈ S.sizeRegions caps true, e.2 ≠ 0 := by
          obtain ⟨n, hn, h0⟩ := hex
          exact ⟨(.uint, n), by rw [hts]; exact List.mem_map.2 ⟨n, hn, rfl⟩, h0⟩
        obtain ⟨h2, h3, h4⟩ := findFirst_at hp hex'
        have hcap : w.capacity = (S.map fun v => v.layoutSize caps).sum * 4 := by
          rw [hwc]
          have : (S.map fun v => v.layoutSize caps).sum * 4 < 2 ^ 32 := by omega
          unfold wrap64
          omega
        refine ⟨fun _ => by rw [hcap, hwp]; omega, ?_⟩
        intro k e he h0
        have h5 := h4 k e he h0
        have h6 := (placeAt_bounds _ p k e he h0).2
        simp only [View.bytes, CType.region, Blk.Inside, hcap, hwp]
        omega
      · have hall : ∀ n ∈ S.map fun v => v.layoutSize caps, n = 0 := fun n hn => by
          by_contra h0; exact hex ⟨n, hn, h0⟩
        have hall' : ∀ e ∈ S.sizeRegions caps true, e.2 = 0 := by
          intro e he
          rw [hts] at he
          obtain ⟨n, hn, rfl⟩ := List.mem_map.1 he
          exact hall n hn
        have hsum : (S.map fun v => v.layoutSize caps).sum = 0 := by
          generalize S.map (fun v => v.layoutSize caps) = l at hall
          induction l with
          | nil => rfl
          | cons a l ih =>
            rw [List.sum_cons, hall a List.mem_cons_self, ih (fun n hn => hall n (List.mem_cons_of_mem _ hn))]
        refine ⟨?_, ?_⟩
        · intro h
          rw [hwc, hwp, hsum, findFirst_none (placeAt_none hall' p).1] at h
          simp [wrap64] at h
        · intro k e he h0
          exact absurd (hall' e (List.mem_of_getElem? he)) h0

theorem bufferView_blocks (ho : S.Ok caps) {p : Nat} (hps : ps = placeAt p (S.allRegions caps resizable))
    (h : PlacedIn m (S.allRegions caps resizable) ps) (hmp : m.addr = p) (hp : p ≠ 0)
    (hend : placeEnd p (S.allRegions caps resizable) ≤ p + m.size) (hlt : m.size < 2 ^ 32) (hls : Option (List Nat)) :
    EdmBlocks m S caps resizable (S.bufferView caps resizable ps hls) := by
  have hm : m.addr ≠ 0 := by omega
  have e0 : placeEnd p (S.allRegions caps resizable) = placeEnd (placeEnd (placeEnd p (S.sizeRegions caps resizable))
      (S.layoutRegions caps)) (S.payloadRegions caps) := by
    unfold Schema.allRegions
    rw [placeEnd_append, placeEnd_append]
  have hllen : (S.layoutRegions caps).length = S.length := by simp [Schema.layoutRegions]
  obtain ⟨s1, s2, s3⟩ := slices (A := S.sizeRegions caps resizable) (B := S.layoutRegions caps)
    (C := S.payloadRegions caps) p
  rw [hllen] at s2 s3
  generalize hq1 : placeEnd p (S.sizeRegions caps resizable) = p1 at *
  generalize hq2 : placeEnd p1 (S.layoutRegions caps) = p2 at *
  have g1 : p ≤ p1 := hq1 ▸ placeEnd_ge _ _
  have g2 : p1 ≤ p2 := hq2 ▸ placeEnd_ge _ _
  have g3 : p2 ≤ placeEnd p2 (S.payloadRegions caps) := placeEnd_ge _ _
  have hsize : (S.bufferView caps resizable ps hls).size =
      S.sizeView caps resizable (placeAt p (S.sizeRegions caps resizable)) := by
    show S.sizeView caps resizable (ps.take _) = _
    rw [hps]; unfold Schema.allRegions; rw [s1]
  have hlayout : (S.bufferView caps resizable ps hls).layout =
      memoryView (S.layoutRegions caps) (placeAt p1 (S.layoutRegions caps)) := by
    show memoryView _ ((ps.drop _).take _) = _
    rw [hps]; unfold Schema.allRegions; rw [s2]
  have hpay : (S.bufferView caps resizable ps hls).payload =
      memoryView (S.payloadRegions caps) (placeAt p2 (S.payloadRegions caps)) := by
    show memoryView _ ((ps.drop _).drop _) = _
    rw [hps]; unfold Schema.allRegions; rw [s3]
  obtain ⟨a1, a2⟩ := sizeView_at (S := S) (caps := caps) (resizable := resizable) hp (by omega)
  obtain ⟨b1, b2⟩ := memoryView_at (ts := S.layoutRegions caps) (p := p1) (by omega) (by omega)
  obtain ⟨c1, c2⟩ := memoryView_at (ts := S.payloadRegions caps) (p := p2) (by omega) (by omega)
  have hsizeAt : ∀ k, k < (S.sizeRegions caps resizable).length →
      (placeAt p (S.sizeRegions caps resizable)).getD k 0 = ps.getD k 0 := by
    intro k hk
    rw [← s1, hps]
    unfold Schema.allRegions
    simp [List.getD_eq_getElem?_getD, hk]
  have hlayAt : ∀ k, k < S.length → (placeAt p1 (S.layoutRegions caps)).getD k 0 = ps.getD (S.words caps resizable + k) 0 := by
    intro k hk
    rw [← s2, hps]
    unfold Schema.allRegions Schema.words
    simp [List.getD_eq_getElem?_getD, hk]
  have hpayAt : ∀ k, (placeAt p2 (S.payloadRegions caps)).getD k 0 = ps.getD (S.words caps resizable + S.length + k) 0 := by
    intro k
    rw [← s3, hps]
    unfold Schema.allRegions Schema.words
    simp [List.getD_eq_getElem?_getD, Nat.add_assoc]
  rw [← hsize] at a1 a2
  rw [← hlayout] at b1 b2
  rw [← hpay] at c1 c2
  generalize hE : S.bufferView caps resizable ps hls = E at *
  refine ⟨?_, ?_, ?_, ?_, ?_, ?_⟩
  · intro b hb h0
    simp only [List.mem_cons, List.not_mem_nil, or_false] at hb
    rcases hb with rfl | rfl | rfl
    · have := a1 (Or.inl h0)
      simp only [View.bytes, Blk.Inside] at h0 ⊢; omega
    · have := b1 (Or.inl h0)
      simp only [View.bytes, Blk.Inside] at h0 ⊢; omega
    · have := c1 (Or.inl h0)
      simp only [View.bytes, Blk.Inside] at h0 ⊢; omega
  · have key : ∀ (v : View) (lo hi : Nat), (v.capacity ≠ 0 ∨ v.ptr ≠ 0 → lo ≤ v.ptr ∧ v.ptr + v.capacity = hi) →
        v.capacity = 0 ∧ v.ptr = 0 ∨ lo ≤ v.ptr ∧ v.ptr + v.capacity = hi := by
      intro v lo hi hh
      by_cases hc : v.capacity ≠ 0 ∨ v.ptr ≠ 0
      · exact Or.inr (hh hc)
      · left; omega
    have k1 := key _ _ _ a1
    have k2 := key _ _ _ b1
    have k3 := key _ _ _ c1
    simp only [List.pairwise_cons, List.mem_cons, List.not_mem_nil, or_false, View.bytes, Blk.Disjoint]
    refine ⟨?_, ?_, by simp⟩
    · rintro b (rfl | rfl) <;> simp only <;> omega
    · rintro b rfl; simp only; omega
  · intro i v x hv hx b hb hb0
    rw [← hE, bufferView_var, hv, Option.map_some, Option.some.injEq] at hx
    subst hx
    have hpr : (S.payloadRegions caps)[i]? = some (v.type, v.payloadSize caps) := by simp [Schema.payloadRegions, hv]
    have hc := c2 i _ hpr
    rw [hpayAt] at hc
    unfold Var.makeView at hb
    cases hk : v.kind with
    | scalar =>
      have hsz : v.payloadSize caps = 1 := by simp [Var.payloadSize, hk]
      rw [hsz] at hc
      rw [hk] at hb
      simp only [VarView.payloads, List.mem_singleton] at hb
      subst hb
      exact hc (by simp)
    | vector =>
      have hsz : v.payloadSize caps = caps.length := by simp [Var.payloadSize, hk]
      rw [hsz] at hc
      rw [hk] at hb
      simp only [VarView.payloads, List.mem_singleton] at hb
      subst hb
      simp only [View.payload, Nat.mod_eq_of_lt ho.count] at hb0 ⊢
      exact hc (by
        intro h0
        simp only at h0
        apply hb0
        simp [CType.region, h0])
    | jagged =>
      rw [ho.jagged_size hk] at hc
      rw [hk] at hb
      simp only [VarView.payloads, List.mem_map] at hb
      obtain ⟨w, hw, rfl⟩ := hb
      have hrow := jagViews_row ho.caps32 hw
      have : caps.sum ≠ 0 := by
        intro h0
        simp only [h0, Blk.Inside, CType.region, Nat.zero_mul] at hrow
        omega
      exact hrow.trans (hc this)
  · intro i j hx hne
    rw [← hE, bufferView_var] at hx
    cases hv : S[i]? with
    | none => rw [hv] at hx; simp at hx
    | some v =>
      rw [hv, Option.map_some, Option.some.injEq] at hx
      have hi := (List.getElem?_eq_some_iff.1 hv).1
      unfold Var.makeView at hx
      cases hk : v.kind with
      | scalar => rw [hk] at hx; simp at hx
      | vector => rw [hk] at hx; simp at hx
      | jagged =>
        rw [hk] at hx
        simp only [VarView.jagged.injEq] at hx
        subst hx
        have hlr : (S.layoutRegions caps)[i]? = some (CType.view, caps.length) := by
          simp [Schema.layoutRegions, hv, layoutType_jagged hk, layoutSize_jagged hk]
        have hne' : caps.length ≠ 0 := by
          intro h0
          apply hne
          apply List.length_eq_zero_iff.1
          rw [jagViews_length]; exact h0
        have := b2 i _ hlr hne'
        rw [hlayAt i hi] at this
        simpa [jagViews_length] using this
  · intro hr hj
    rw [← hE, bufferView_word hr hj]
  · intro hr i j hx w hw
    rw [← hE, bufferView_var] at hx
    cases hv : S[i]? with
    | none => rw [hv] at hx; simp at hx
    | some v =>
      rw [hv, Option.map_some, Option.some.injEq] at hx
      have hi := (List.getElem?_eq_some_iff.1 hv).1
      unfold Var.makeView at hx
      cases hk : v.kind with
      | scalar => rw [hk] at hx; simp at hx
      | vector => rw [hk] at hx; simp at hx
      | jagged =>
        rw [hk] at hx
        simp only [VarView.jagged.injEq] at hx
        subst hx
        have hj := mem_jagged hv hk
        have hlen : (S.sizeRegions caps resizable).length = S.length := words_jagged hr hj
        have hsr : (S.sizeRegions caps resizable)[i]? = some (CType.uint, caps.length) := by
          have := words_at (caps := caps) hr hj hv
          unfold Schema.allRegions at this
          rw [List.getElem?_append_left (by omega), layoutSize_jagged hk] at this
          exact this
        have hne : caps.length ≠ 0 := by
          obtain ⟨j, _, hj, _⟩ := jagViews_mem ho.caps32 hw
          omega
        have hin := a2 i _ hsr hne
        rw [hsizeAt i (by omega)] at hin
        have hpt : S.sizePtr resizable ps i v = ps.getD i 0 := by unfold Schema.sizePtr; simp [hr, hj, hk]
        simp only [hpt] at hw
        have hwd := words_at (caps := caps) hr hj hv
        rw [layoutSize_jagged hk] at hwd
        exact (jagViews_word ho.caps32 (h.nonnull hm hwd hne) hw).trans hin

/-! ## the number of bytes -/

theorem neededBytes_append (A : Nat) (a b : List (CType × Nat)) :
    neededBytes A (a ++ b) = neededBytes A a + neededBytes A b := by
  unfold neededBytes
  simp only [List.map_append, List.sum_append, List.length_append, Nat.add_mul]
  omega

theorem neededBytes_mono {A B : Nat} (h : A ≤ B) (ts : List (CType × Nat)) : neededBytes A ts ≤ neededBytes B ts := by
  unfold neededBytes
  have := Nat.mul_le_mul_left ts.length h
  omega

theorem maxAlignOf_le {A : Nat} {ts : List (CType × Nat)} (h : ∀ e ∈ ts, e.1.align ≤ A) : maxAlignOf ts ≤ A := by
  unfold maxAlignOf
  have : ∀ (l : List Nat) a, a ≤ A → (∀ x ∈ l, x ≤ A) → l.foldl max a ≤ A := by
    intro l
    induction l with
    | nil => intro a h _; exact h
    | cons x l ih =>
      intro a h hl
      have := hl x List.mem_cons_self
      exact ih _ (by omega) fun y hy => hl y (List.mem_cons_of_mem _ hy)
  refine this _ 0 (Nat.zero_le _) ?_
  intro x hx
  obtain ⟨e, he, rfl⟩ := List.mem_map.1 hx
  exact h e he

theorem layoutType_align (v : Var) : v.layoutType.align ≤ 8 := by
  unfold Var.layoutType
  split <;> simp [CType.view]

theorem layoutType_wf (v : Var) : v.layoutType.Wf := by
  unfold Var.layoutType
  split
  · exact ⟨by decide, ⟨3, rfl⟩, by decide⟩
  · exact ⟨by decide, ⟨2, rfl⟩, by decide⟩

theorem allRegions_mem {e : CType × Nat} (h : e ∈ S.allRegions caps resizable) :
    e.1 = .uint ∨ (∃ v ∈ S, e.1 = v.layoutType) ∨ ∃ v ∈ S, e.1 = v.type := by
  unfold Schema.allRegions at h
  rcases List.mem_append.1 h with h | h
  · left
    unfold Schema.sizeRegions at h
    split at h
    · simp at h
    · split at h
      · obtain ⟨v, _, rfl⟩ := List.mem_map.1 h; rfl
      · simp only [List.mem_singleton] at h; rw [h]
  · rcases List.mem_append.1 h with h | h
    · obtain ⟨v, hv, rfl⟩ := List.mem_map.1 h; exact Or.inr (Or.inl ⟨v, hv, rfl⟩)
    · obtain ⟨v, hv, rfl⟩ := List.mem_map.1 h; exact Or.inr (Or.inr ⟨v, hv, rfl⟩)

theorem neededBytes_room (A : Nat) :
    neededBytes A (S.allRegions caps resizable) ≤ S.room caps A ∧
    neededBytes A (S.layoutRegions caps) ≤ S.room caps A := by
  have hcons : ∀ (e : CType × Nat) ts, neededBytes A (e :: ts) = e.2 * e.1.size + A + neededBytes A ts := by
    intro e ts
    unfold neededBytes
    simp only [List.map_cons, List.sum_cons, List.length_cons, Nat.add_mul, Nat.one_mul]; omega
  have hvar : ∀ v : Var, v.layoutSize caps * 4 + v.layoutSize caps * v.layoutType.size + v.payloadSize caps * v.type.size
      ≤ v.room caps := by
    intro v
    unfold Var.layoutSize Var.layoutType Var.payloadSize Var.room
    cases v.kind with
    | scalar => simp
    | vector => simp
    | jagged =>
      have : wrap64 caps.sum ≤ caps.sum := Nat.mod_le _ _
      have := Nat.mul_le_mul_right v.type.size this
      simp only [if_true, CType.view, Nat.mul_add]
      omega
  have hall : neededBytes A (S.map fun v => (CType.uint, v.layoutSize caps)) + neededBytes A (S.layoutRegions caps) +
      neededBytes A (S.payloadRegions caps) ≤ (S.map fun v => v.room caps + 3 * A).sum := by
    unfold Schema.layoutRegions Schema.payloadRegions
    induction S with
    | nil => simp [neededBytes]
    | cons v S ih =>
      have := hvar v
      have h4 : CType.uint.size = 4 := rfl
      simp only [List.map_cons, hcons, List.sum_cons, h4]
      omega
  unfold Schema.allRegions Schema.room
  rw [neededBytes_append, neededBytes_append]
  refine ⟨?_, by omega⟩
  unfold Schema.sizeRegions
  split
  · have : neededBytes A [] = 0 := by simp [neededBytes]
    omega
  · split
    · omega
    · have : neededBytes A [(CType.uint, 1)] = 4 + A := by simp [neededBytes, CType.uint]
      omega

theorem IsReq.le {R : Limits} {n k a : Nat} (h : IsReq R n a) (hk : k ≤ n) : IsReq R k a :=
  ⟨⟨by have := h.1.1; omega, by have := h.1.2; omega⟩, h.2⟩

end Vecmem
