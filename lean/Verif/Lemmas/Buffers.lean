import Verif.Spec.Buffers
import Verif.Lemmas.Align
import Verif.Lemmas.Family
import Verif.Lemmas.Wrappers
import Verif.Lemmas.Tactics

namespace Vecmem

open IntMath

variable {σ ι : Type} {R : Limits} {G : Nat}

/-! ## placing the regions -/

theorem placeHelper_ok (A : Nat) : ∀ (ts : List (CType × Nat)) (p q : Nat),
    (∀ e ∈ ts, 0 < e.1.size ∧ 0 < e.1.align ∧ e.1.align ≤ A) → neededBytes A ts ≤ q → q < 2 ^ 64 →
    ∃ ps, placeHelper p q ts = .ok ps ∧ PlacedIn ⟨p, q, 1⟩ ts ps ∧
      ∀ t n x, ((t, n), x) ∈ ts.zip ps → n ≠ 0 → p ≤ x := by
  intro ts
  induction ts with
  | nil => intro p q _ _ _; exact ⟨[], rfl, ⟨rfl, by simp, by simp, by simp⟩, by simp⟩
  | cons e ts ih =>
    obtain ⟨t, n⟩ := e
    intro p q hw hq hlt
    obtain ⟨hs, ha, hA⟩ : 0 < t.size ∧ 0 < t.align ∧ t.align ≤ A := hw (t, n) List.mem_cons_self
    have hw' : ∀ e ∈ ts, 0 < e.1.size ∧ 0 < e.1.align ∧ e.1.align ≤ A :=
      fun e he => hw e (List.mem_cons_of_mem _ he)
    have hneed : neededBytes A ((t, n) :: ts) = n * t.size + A + neededBytes A ts := by
      unfold neededBytes
      simp only [List.map_cons, List.sum_cons, List.length_cons, Nat.add_mul, Nat.one_mul]; omega
    rw [hneed] at hq
    have hsz : wrap64 (t.size * n) = n * t.size := by
      rw [Nat.mul_comm]; unfold wrap64; exact Nat.mod_eq_of_lt (by omega)
    unfold placeHelper
    simp only [hsz]
    by_cases hn : n = 0
    · subst hn
      obtain ⟨ps, h1, h2, h3⟩ := ih p q hw' (by omega) hlt
      refine ⟨0 :: ps, by simp [h1, Res.map], ⟨?_, ?_, ?_, ?_⟩, ?_⟩
      · simp [h2.length]
      · intro t' n' x hm hz
        rcases List.mem_cons.1 hm with he | he
        · simp only [Prod.mk.injEq] at he; exact he.2
        · exact h2.empty _ _ _ he hz
      · intro t' n' x hm hz
        rcases List.mem_cons.1 hm with he | he
        · simp only [Prod.mk.injEq] at he; exact absurd he.1.2 hz
        · exact h2.inside _ _ _ he hz
      · refine List.pairwise_cons.2 ⟨?_, h2.order⟩
        intro y _ h0; exact absurd rfl h0
      · intro t' n' x hm hz
        rcases List.mem_cons.1 hm with he | he
        · simp only [Prod.mk.injEq] at he; exact absurd he.1.2 hz
        · exact h3 _ _ _ he hz
    · have hpos : 0 < n * t.size := Nat.mul_pos (by omega) hs
      have g1 := alignUp_lt ha p
      have g2 := alignUp_ge t.align p
      have g3 := alignUp_dvd ha p
      have hfit : n * t.size + (alignUp t.align p - p) ≤ q := by omega
      rw [if_pos hpos, stdAlign_eq, if_pos hfit]
      simp only
      have hq' : wrap64 (q - (alignUp t.align p - p) + 2 ^ 64 - n * t.size)
          = q - (alignUp t.align p - p) - n * t.size := by unfold wrap64; omega
      rw [hq']
      obtain ⟨ps, h1, h2, h3⟩ := ih (alignUp t.align p + n * t.size)
        (q - (alignUp t.align p - p) - n * t.size) hw' (by omega) (by omega)
      refine ⟨alignUp t.align p :: ps, by rw [h1]; rfl, ⟨?_, ?_, ?_, ?_⟩, ?_⟩
      · simp [h2.length]
      · intro t' n' x hm hz
        rcases List.mem_cons.1 hm with he | he
        · simp only [Prod.mk.injEq] at he; omega
        · exact h2.empty _ _ _ he hz
      · intro t' n' x hm hz
        rcases List.mem_cons.1 hm with he | he
        · simp only [Prod.mk.injEq] at he
          obtain ⟨⟨rfl, rfl⟩, rfl⟩ := he
          refine ⟨g3, ?_⟩
          simp only [CType.region, Blk.Inside]; omega
        · obtain ⟨k1, k2⟩ := h2.inside _ _ _ he hz
          refine ⟨k1, ?_⟩
          simp only [CType.region, Blk.Inside] at k2 ⊢; omega
      · refine List.pairwise_cons.2 ⟨?_, h2.order⟩
        intro y hy _ hy0
        exact h3 _ _ _ hy hy0
      · intro t' n' x hm hz
        rcases List.mem_cons.1 hm with he | he
        · simp only [Prod.mk.injEq] at he
          obtain ⟨_, rfl⟩ := he; exact g2
        · have := h3 _ _ _ he hz; omega

theorem foldl_max_ge (l : List Nat) : ∀ a, a ≤ l.foldl max a ∧ ∀ x ∈ l, x ≤ l.foldl max a := by
  induction l with
  | nil => intro a; simp
  | cons y l ih =>
    intro a
    simp only [List.foldl_cons]
    obtain ⟨h1, h2⟩ := ih (max a y)
    refine ⟨by omega, ?_⟩
    intro x hx
    rcases List.mem_cons.1 hx with rfl | hx
    · omega
    · exact h2 x hx

/-- The largest alignment. -/
def maxAlignOf (ts : List (CType × Nat)) : Nat := (ts.map (·.1.align)).foldl max 0

/-! ## single steps of a family -/

variable {ups : ι → MR σ} {u0 u : σ} {T : List (ι × Blk)}

/-- The block of an owning pointer. -/
def UniqueAlloc.blk (m : UniqueAlloc) : Blk := ⟨m.ptr, m.size, maxAlign⟩

theorem FamLawful.make (h : FamLawful R G ups u0) (hu : FReach R ups u0 u T) (i : ι) {sz n : Nat}
    (hq : IsReq R (n * sz) maxAlign) (hn : 0 < n * sz) :
    (∃ m u', UniqueAlloc.make (ups i) u sz n = (.ok m, u') ∧ m.size = n * sz ∧
      FReach R ups u0 u' ((i, m.blk) :: T) ∧ GoodAnswer G (T.map (·.2)) (n * sz) maxAlign (.ok m.ptr)) ∨
    ∃ u', UniqueAlloc.make (ups i) u sz n = (.badAlloc, u') ∧ FReach R ups u0 u' T := by
  have hw : wrap64 (n * sz) = n * sz := Nat.mod_eq_of_lt hq.1.2
  have hg := h.alloc i hu hq hn
  unfold UniqueAlloc.make
  simp only [hw]
  cases hx : (ups i).allocate u (n * sz) maxAlign with
  | mk r u' =>
    rw [hx] at hg
    cases r <;> simp only [GoodAnswer] at hg
    · exact Or.inl ⟨⟨_, n * sz⟩, u', rfl, rfl, .alloc i hu hq hn hx, hg⟩
    · exact Or.inr ⟨u', rfl, .refuse i hu hq hn hx⟩

theorem FamLawful.destroy (h : FamLawful R G ups u0) {i : ι} {m : UniqueAlloc}
    (hu : FReach R ups u0 u ((i, m.blk) :: T)) (h0 : m.ptr ≠ 0) :
    ∃ u', m.destroy (ups i) u = (.ok (), u') ∧ FReach R ups u0 u' T := by
  have hd := h.dealloc hu List.mem_cons_self
  unfold UniqueAlloc.destroy
  rw [if_neg h0]
  cases hx : (ups i).deallocate u m.ptr m.size maxAlign with
  | mk r u' =>
    have : r = .ok () := by
      have : ((ups i).deallocate u m.ptr m.size maxAlign).1 = .ok () := hd
      rwa [hx] at this
    subst this
    exact ⟨u', rfl, .free hu hx⟩

theorem FamLawful.placement (h : FamLawful R G ups u0) (hu : FReach R ups u0 u T) (i : ι)
    {ts : List (CType × Nat)} (hne : ts ≠ []) (hw : ∀ e ∈ ts, e.1.Wf)
    (hq : IsReq R (neededBytes (maxAlignOf ts) ts) maxAlign) :
    (∃ m ps u', Vecmem.placement (ups i) u ts = (.ok (m, ps), u') ∧
      m.size = neededBytes (maxAlignOf ts) ts ∧ PlacedIn m.blk ts ps ∧
      FReach R ups u0 u' ((i, m.blk) :: T) ∧ GoodAnswer G (T.map (·.2)) m.size maxAlign (.ok m.ptr)) ∨
    ∃ u', Vecmem.placement (ups i) u ts = (.badAlloc, u') ∧ FReach R ups u0 u' T := by
  have hpos : ∀ e ∈ ts, 0 < e.1.size ∧ 0 < e.1.align ∧ e.1.align ≤ maxAlignOf ts := by
    intro e he
    obtain ⟨h1, ⟨k, hk⟩, _⟩ := hw e he
    refine ⟨h1, by rw [hk]; exact Nat.two_pow_pos k, ?_⟩
    exact (foldl_max_ge _ 0).2 _ (List.mem_map.2 ⟨e, he, rfl⟩)
  have hbytes : placeBytes ts = neededBytes (maxAlignOf ts) ts := Nat.mod_eq_of_lt hq.1.2
  have hn : 0 < neededBytes (maxAlignOf ts) ts := by
    obtain ⟨e, l, rfl⟩ := List.exists_cons_of_ne_nil hne
    have := hpos e List.mem_cons_self
    unfold neededBytes
    have : 0 < (e :: l).length * maxAlignOf (e :: l) := Nat.mul_pos (by simp) (by omega)
    omega
  have hone : neededBytes (maxAlignOf ts) ts * 1 = neededBytes (maxAlignOf ts) ts := Nat.mul_one _
  unfold Vecmem.placement
  rw [hbytes]
  rcases h.make hu i (sz := 1) (n := neededBytes (maxAlignOf ts) ts) (by rw [hone]; exact hq)
    (by rw [hone]; exact hn) with ⟨m, u', h1, h2, h3, h4⟩ | ⟨u', h1, h2⟩
  · left
    rw [hone] at h2 h4
    obtain ⟨ps, p1, p2, _⟩ := placeHelper_ok (maxAlignOf ts) ts m.ptr _ hpos (Nat.le_refl _) hq.1.2
    refine ⟨m, ps, u', by simp only [h1, p1, Res.map], h2, ?_, h3, by rw [h2]; exact h4⟩
    refine ⟨p2.length, p2.empty, ?_, p2.order⟩
    intro t n p hm h0
    obtain ⟨k1, k2⟩ := p2.inside t n p hm h0
    exact ⟨k1, by simpa [UniqueAlloc.blk, Blk.Inside, h2] using k2⟩
  · right
    exact ⟨u', by simp only [h1, Res.map], h2⟩

/-! ## one resource as a family -/

theorem Reach.fam {m : MR σ} {s0 s : σ} {L : List Blk} (h : Reach R m s0 s L) :
    FReach R (fun _ : Unit => m) s0 s (L.map fun b => ((), b)) := by
  induction h with
  | init => exact .init
  | alloc _ hq hn he ih => exact .alloc () ih hq hn he
  | refuse _ hq hn he ih => exact .refuse () ih hq hn he
  | zero _ hq he ih => exact .zero () ih hq he
  | free _ he ih => exact .free ih he
  | freeNull _ he ih => exact .freeNull () ih he
  | perm _ hp ih => exact .perm ih (hp.map _)

theorem map_snd_unit (L : List Blk) : (L.map fun b => ((), b)).map (·.2) = L := by
  induction L with
  | nil => rfl
  | cons b L ih => simp only [List.map_cons, ih]

/-! ## the inner vectors of a jagged buffer -/

theorem jagViews_get (t : CType) (hdr data : Nat) : ∀ (caps : List Nat) (i0 d0 i : Nat),
    (jagViews t hdr data caps i0 d0)[i]? =
      caps[i]?.map fun c => ⟨c % 2 ^ 32, if hdr ≠ 0 then hdr + 4 * (i0 + i) else 0,
        data + t.size * (d0 + (caps.take i).sum)⟩ := by
  intro caps
  induction caps with
  | nil => intro i0 d0 i; simp [jagViews]
  | cons c cs ih =>
    intro i0 d0 i
    cases i with
    | zero => simp [jagViews]
    | succ i =>
      simp only [jagViews, List.getElem?_cons_succ, ih, List.take_succ_cons, List.sum_cons]
      congr 1; funext c'
      rw [show i0 + 1 + i = i0 + (i + 1) by omega, show d0 + c + (cs.take i).sum = d0 + (c + (cs.take i).sum) by omega]

theorem jagViews_length (t : CType) (hdr data : Nat) : ∀ (caps : List Nat) (i0 d0 : Nat),
    (jagViews t hdr data caps i0 d0).length = caps.length := by
  intro caps
  induction caps with
  | nil => intros; rfl
  | cons c cs ih => intro i0 d0; simp [jagViews, ih]

theorem sum_take_succ_le {caps : List Nat} {i j : Nat} {c : Nat} (hc : caps[i]? = some c) (hij : i < j) :
    (caps.take i).sum + c ≤ (caps.take j).sum := by
  induction caps generalizing i j with
  | nil => simp at hc
  | cons x xs ih =>
    cases j with
    | zero => omega
    | succ j =>
      cases i with
      | zero => simp at hc; subst hc; simp
      | succ i =>
        simp only [List.getElem?_cons_succ] at hc
        have := ih hc (j := j) (by omega)
        simp only [List.take_succ_cons, List.sum_cons]; omega

theorem sum_take_add_le {caps : List Nat} {i : Nat} {c : Nat} (hc : caps[i]? = some c) :
    (caps.take i).sum + c ≤ caps.sum := by
  have h := sum_take_succ_le hc (j := caps.length) (by
    rcases List.getElem?_eq_some_iff.1 hc with ⟨h, _⟩; exact h)
  rwa [List.take_length] at h

theorem jagViews_inner {m : Blk} {t : CType} {caps : List Nat} {resizable : Bool} {hdr data : Nat}
    (hc : ∀ c ∈ caps, c < 2 ^ 32)
    (hd : caps.sum ≠ 0 → m.addr ≠ 0 ∧ (t.region data caps.sum).Inside m)
    (hh : resizable = true → caps ≠ [] → hdr ≠ 0 ∧ 4 ∣ hdr ∧ (CType.uint.region hdr caps.length).Inside m ∧
      (caps.sum ≠ 0 → hdr + 4 * caps.length ≤ data))
    (hf : resizable = false → hdr = 0) :
    InnerVectors m t caps resizable (jagViews t hdr data caps 0 0) := by
  have hget : ∀ i v, (jagViews t hdr data caps 0 0)[i]? = some v → ∃ c, caps[i]? = some c ∧ c < 2 ^ 32 ∧
      v.capacity = c ∧ v.sizePtr = (if hdr ≠ 0 then hdr + 4 * i else 0) ∧
      v.ptr = data + t.size * (caps.take i).sum := by
    intro i v hv
    rw [jagViews_get] at hv
    cases hx : caps[i]? with
    | none => rw [hx] at hv; simp at hv
    | some c =>
      rw [hx] at hv
      have hlt := hc c (List.mem_of_getElem? hx)
      simp only [Option.map_some, Option.some.injEq] at hv
      subst hv
      refine ⟨c, rfl, hlt, Nat.mod_eq_of_lt hlt, by simp, by simp⟩
  have hmem : ∀ v ∈ jagViews t hdr data caps 0 0, ∃ i c, caps[i]? = some c ∧ c < 2 ^ 32 ∧ i < caps.length ∧
      v.capacity = c ∧ v.sizePtr = (if hdr ≠ 0 then hdr + 4 * i else 0) ∧
      v.ptr = data + t.size * (caps.take i).sum := by
    intro v hv
    obtain ⟨i, hi⟩ := List.mem_iff_getElem?.1 hv
    obtain ⟨c, h1, h2, h3⟩ := hget i v hi
    exact ⟨i, c, h1, h2, (List.getElem?_eq_some_iff.1 h1).1, h3⟩
  refine ⟨?_, ?_, ⟨data, ?_⟩, ?_, ?_, ?_, ?_⟩
  · apply List.ext_getElem?
    intro i
    rw [List.getElem?_map, jagViews_get]
    cases hx : caps[i]? with
    | none => rfl
    | some c =>
      have := Nat.mod_eq_of_lt (hc c (List.mem_of_getElem? hx))
      simp only [Option.map_some, this]
  · intro v hv h0
    obtain ⟨i, c, h1, _, _, h3, _, h5⟩ := hmem v hv
    have hle := sum_take_add_le h1
    obtain ⟨hd0, hd'⟩ := hd (by omega)
    have e1 := Nat.mul_le_mul_left t.size hle
    rw [Nat.mul_add] at e1
    refine ⟨hd0, ?_⟩
    simp only [View.payload, CType.region, Blk.Inside, h5, h3] at hd' ⊢
    rw [Nat.mul_comm c, Nat.add_assoc]
    rw [Nat.mul_comm caps.sum] at hd'
    omega
  · intro i v hv
    obtain ⟨c, _, _, _, _, h5⟩ := hget i v hv
    rw [h5, Nat.mul_comm]
  · rw [List.pairwise_iff_getElem]
    intro i j hi hj hij
    obtain ⟨c, h1, _, h3, _, h5⟩ := hget i _ (List.getElem?_eq_getElem hi)
    obtain ⟨c', _, _, _, _, h5'⟩ := hget j _ (List.getElem?_eq_getElem hj)
    have hle := Nat.mul_le_mul_left t.size (sum_take_succ_le h1 hij)
    rw [Nat.mul_add] at hle
    rw [h5, h5', h3, Nat.mul_comm c]; omega
  · intro v hv
    obtain ⟨i, c, h1, _, hi, h3, h4, h5⟩ := hmem v hv
    cases resizable with
    | false => simp [h4, hf rfl]
    | true =>
      obtain ⟨g1, g2, g3, _⟩ := hh rfl (by rintro rfl; simp at hi)
      rw [if_pos g1] at h4
      simp only [if_true, View.sizeWord, CType.region, CType.uint, Blk.Aligned, Blk.Inside, h4] at g3 ⊢
      refine ⟨by omega, Nat.dvd_add g2 (Nat.dvd_mul_right _ _), by omega, by omega⟩
  · intro hr
    refine ⟨hdr, ?_⟩
    intro i v hv
    obtain ⟨c, h1, _, _, h4, _⟩ := hget i v hv
    obtain ⟨g1, _⟩ := hh hr (by rintro rfl; simp at h1)
    rw [h4, if_pos g1]
  · intro hr v hv w hw h0
    obtain ⟨i, c, h1, _, hi, _, h4, _⟩ := hmem v hv
    obtain ⟨j, c', h1', _, hj, h3', _, h5'⟩ := hmem w hw
    obtain ⟨g1, g2, g3, g4⟩ := hh hr (by rintro rfl; simp at hi)
    have := sum_take_add_le h1'
    have := g4 (by omega)
    rw [if_pos g1] at h4
    rw [h4, h5']
    have := Nat.le_add_right data (t.size * (caps.take j).sum)
    omega

/-! ## construction of a jagged buffer -/

/-- The owners among `ms` that are not null. -/
def heldBy (ms : List (ι × UniqueAlloc)) : List (ι × Blk) :=
  (ms.filter fun e => e.2.ptr != 0).map fun e => (e.1, e.2.blk)

theorem heldBy_cons (i : ι) (m : UniqueAlloc) (ms : List (ι × UniqueAlloc)) :
    heldBy ((i, m) :: ms) = if m.ptr = 0 then heldBy ms else (i, m.blk) :: heldBy ms := by
  unfold heldBy
  by_cases h : m.ptr = 0 <;> simp [List.filter_cons, h]

theorem unwind_ok (h : FamLawful R G ups u0) {α : Type} (e : Res α) :
    ∀ (ms : List (ι × UniqueAlloc)) (u : σ), FReach R ups u0 u (heldBy ms ++ T) →
    ∃ u', unwind e (ms.map fun x => (ups x.1, x.2)) u = (e, u') ∧ FReach R ups u0 u' T := by
  intro ms
  induction ms with
  | nil => intro u hu; exact ⟨u, rfl, hu⟩
  | cons x ms ih =>
    obtain ⟨i, m⟩ := x
    intro u hu
    rw [heldBy_cons] at hu
    simp only [List.map_cons, unwind]
    by_cases h0 : m.ptr = 0
    · rw [if_pos h0] at hu
      have : m.destroy (ups i) u = (.ok (), u) := by unfold UniqueAlloc.destroy; rw [if_pos h0]
      rw [this]
      exact ih u hu
    · rw [if_neg h0] at hu
      obtain ⟨u', h1, h2⟩ := h.destroy hu h0
      rw [h1]
      exact ih u' h2

theorem allocOuter_ok (h : FamLawful R G ups u0) (hu : FReach R ups u0 u T) (i : ι) {n : Nat}
    (hq : IsReq R (n * viewSize) maxAlign) :
    (∃ m u', allocOuter (ups i) u n = (.ok m, u') ∧ FReach R ups u0 u' (heldBy [(i, m)] ++ T) ∧
      (n = 0 → m = {}) ∧ (n ≠ 0 → m.ptr ≠ 0 ∧ m.size = n * viewSize ∧ (maxAlign ≤ G → maxAlign ∣ m.ptr))) ∨
    ∃ u', allocOuter (ups i) u n = (.badAlloc, u') ∧ FReach R ups u0 u' T := by
  unfold allocOuter
  by_cases hn : n = 0
  · rw [if_pos hn]
    exact Or.inl ⟨{}, u, rfl, by simpa [heldBy] using hu, fun _ => rfl, fun h => absurd hn h⟩
  · rw [if_neg hn]
    rcases h.make hu i hq (Nat.mul_pos (by omega) (by decide)) with ⟨m, u', h1, h2, h3, h4⟩ | ⟨u', h1, h2⟩
    · simp only [GoodAnswer] at h4
      refine Or.inl ⟨m, u', h1, ?_, fun h => absurd h hn, fun _ => ⟨h4.1, h2, h4.2.2.1⟩⟩
      rw [heldBy_cons, if_neg h4.1]; exact h3
    · exact Or.inr ⟨u', h1, h2⟩

theorem uint_wf : CType.uint.Wf := ⟨by decide, ⟨2, rfl⟩, by decide⟩

theorem jagInner_ok (h : FamLawful R G ups u0) (hu : FReach R ups u0 u T) (i : ι) {t : CType} {caps : List Nat}
    {resizable : Bool} (ht : t.Wf) (hc : ∀ c ∈ caps, c < 2 ^ 32)
    (hq : IsReq R (neededBytes (max 4 t.align) [(.uint, caps.length), (t, caps.sum)]) maxAlign) :
    (∃ m hdr data u', jagInner (ups i) u t caps resizable = (.ok (m, hdr, data), u') ∧
      FReach R ups u0 u' (heldBy [(i, m)] ++ T) ∧
      InnerVectors m.blk t caps resizable (jagViews t hdr data caps 0 0) ∧
      ((resizable = true ∨ t.align ≤ maxAlign ∧ maxAlign ≤ G) → t.align ∣ data) ∧ (m.ptr = 0 → m = {})) ∨
    ∃ u', jagInner (ups i) u t caps resizable = (.badAlloc, u') ∧ FReach R ups u0 u' T := by
  have hneed : neededBytes (max 4 t.align) [(.uint, caps.length), (t, caps.sum)]
      = caps.length * 4 + caps.sum * t.size + 2 * max 4 t.align := by
    simp [neededBytes, CType.uint]
  have hlt := hq.1.2
  rw [hneed] at hlt
  have hts : 0 < t.size := ht.1
  have htot : wrap64 caps.sum = caps.sum := by
    have := Nat.le_mul_of_pos_right caps.sum hts
    exact Nat.mod_eq_of_lt (by omega)
  have hsz : wrap64 (caps.sum * t.size) = caps.sum * t.size := Nat.mod_eq_of_lt (by omega)
  unfold jagInner
  simp only [htot, hsz]
  cases resizable with
  | false =>
    by_cases h0 : caps.sum = 0
    · simp only [h0, Bool.not_false, bne_self_eq_false, Bool.and_false, Bool.false_eq_true, if_false, Bool.false_and]
      refine Or.inl ⟨{}, 0, 0, u, rfl, by simpa [heldBy] using hu, ?_, fun _ => Nat.dvd_zero _, fun _ => rfl⟩
      exact jagViews_inner hc (fun h => absurd h0 h) (fun h => by simp at h) (fun _ => rfl)
    · have hb : (!false && caps.sum != 0) = true := by simp [h0]
      rw [if_pos hb]
      have hq' : IsReq R (caps.sum * t.size * 1) maxAlign := by
        refine ⟨⟨?_, by omega⟩, hq.2⟩
        have := hq.1.1; rw [hneed] at this; omega
      rcases h.make hu i hq' (by rw [Nat.mul_one]; exact Nat.mul_pos (by omega) hts) with
        ⟨m, u', h1, h2, h3, h4⟩ | ⟨u', h1, h2⟩
      · simp only [GoodAnswer] at h4
        refine Or.inl ⟨m, 0, m.ptr, u', by simp only [h1, Res.map], ?_, ?_, ?_, fun h => absurd h h4.1⟩
        · rw [heldBy_cons, if_neg h4.1]; exact h3
        · refine jagViews_inner hc (fun _ => ⟨h4.1, ?_⟩) (fun h => by simp at h) (fun _ => rfl)
          simp only [CType.region, UniqueAlloc.blk, Blk.Inside, h2]; omega
        · rintro (h | ⟨ha, hG⟩)
          · simp at h
          · obtain ⟨k, hk⟩ := ht.2.1
            refine Nat.dvd_trans ?_ (h4.2.2.1 hG)
            rw [hk] at ha ⊢
            have : maxAlign = 2 ^ 4 := rfl
            rw [this] at ha ⊢
            exact Nat.pow_dvd_pow 2 ((Nat.pow_le_pow_iff_right (a := 2) (by decide)).1 ha)
      · exact Or.inr ⟨u', by simp only [h1, Res.map], h2⟩
  | true =>
    simp only [Bool.not_true, Bool.false_and, Bool.false_eq_true, if_false, Bool.true_and]
    by_cases h0 : caps.length = 0
    · have hnil : caps = [] := List.length_eq_zero_iff.1 h0
      simp only [h0, bne_self_eq_false, Bool.false_eq_true, if_false]
      refine Or.inl ⟨{}, 0, 0, u, rfl, by simpa [heldBy] using hu, ?_, fun _ => Nat.dvd_zero _, fun _ => rfl⟩
      exact jagViews_inner hc (fun h => by simp [hnil] at h) (fun _ h => absurd hnil h) (fun _ => rfl)
    · have hb : (caps.length != 0) = true := by simp [h0]
      rw [if_pos hb]
      have hmax : maxAlignOf [(CType.uint, caps.length), (t, caps.sum)] = max 4 t.align := by
        simp [maxAlignOf, CType.uint]
      rcases h.placement hu i (ts := [(CType.uint, caps.length), (t, caps.sum)]) (by simp)
        (by
          intro e he
          simp only [List.mem_cons, List.not_mem_nil, or_false] at he
          rcases he with rfl | rfl
          · exact uint_wf
          · exact ht) (by rw [hmax]; exact hq) with ⟨m, ps, u', h1, h2, h3, h4, h5⟩ | ⟨u', h1, h2⟩
      · simp only [GoodAnswer] at h5
        obtain ⟨a, b, rfl⟩ : ∃ a b, ps = [a, b] := by
          have hl := h3.length
          match ps, hl with
          | [a, b], _ => exact ⟨a, b, rfl⟩
        obtain ⟨k1, k2⟩ := h3.inside CType.uint caps.length a (by simp) h0
        refine Or.inl ⟨m, a, b, u', by simp [h1, Res.map], ?_, ?_, ?_, fun h => absurd h h5.1⟩
        · rw [heldBy_cons, if_neg h5.1]; exact h4
        · refine jagViews_inner hc (fun hs => ⟨h5.1, (h3.inside t caps.sum b (by simp) hs).2⟩) (fun _ _ => ?_) (fun h => by simp at h)
          refine ⟨?_, k1, k2, ?_⟩
          · have := k2.1
            simp only [CType.region, UniqueAlloc.blk] at this
            omega
          · intro hs
            have hp := List.pairwise_cons.1 h3.order
            have := hp.1 ((t, caps.sum), b) (by simp) h0 hs
            simp only [CType.uint] at this
            omega
        · intro _
          by_cases hs : caps.sum = 0
          · rw [h3.empty t caps.sum b (by simp) hs]; exact Nat.dvd_zero _
          · exact (h3.inside t caps.sum b (by simp) hs).1
      · exact Or.inr ⟨u', by simp only [h1, Res.map], h2⟩

end Vecmem
