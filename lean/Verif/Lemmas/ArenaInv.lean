import Verif.Lemmas.ArenaLawful

/-! The invariant of the arena resource. -/

namespace Vecmem

open IntMath

variable {σ : Type} {R : Limits} {up : MR σ} {RR : σ → List Blk → Prop} {S : Nat}

namespace Arena

theorem mask_eq {x : Nat} (h : x < 2 ^ 64) : x &&& (2 ^ 64 - 256) = x / 256 * 256 := by
  apply Nat.eq_of_testBit_eq
  intro i
  rw [Nat.testBit_and, show (2 ^ 64 - 256 : Nat) = (2 ^ 56 - 1) * 2 ^ 8 by decide,
    show x / 256 * 256 = (x / 2 ^ 8) * 2 ^ 8 by norm_num, Nat.testBit_mul_two_pow,
    Nat.testBit_mul_two_pow, Nat.testBit_two_pow_sub_one, Nat.testBit_div_two_pow]
  by_cases h8 : 8 ≤ i
  · by_cases h64 : i - 8 < 56
    · simp [h8, h64]
    · have : x.testBit i = false := Nat.testBit_lt_two_pow (Nat.lt_of_lt_of_le h
        (Nat.pow_le_pow_right (by decide) (by omega)))
      simp [h8, this]
  · simp [h8]

theorem alignUp_eq {n : Nat} (h : n ≤ 2 ^ 64 - 256) : alignUp n = arenaBytes n := by
  unfold alignUp arenaBytes wrap64
  rw [Nat.mod_eq_of_lt (by omega), mask_eq (by omega)]

theorem arenaBytes_spec (n : Nat) : n ≤ arenaBytes n ∧ arenaBytes n < n + 256 ∧ 256 ∣ arenaBytes n := by
  unfold arenaBytes
  refine ⟨by omega, by omega, Nat.dvd_mul_left _ _⟩

/-- A superblock as a block held from upstream. -/
def toBlk (c : ABlock) : Blk := ⟨c.ptr, c.size, maxAlign⟩

structure Inv (RR : σ → List Blk → Prop) (S : Nat) (s : Arena × σ) (L H : List Blk) : Prop where
  reach : RR s.2 H
  super : s.1.superSize = S
  sup : ∀ h ∈ H, h.align = maxAlign ∧ (h.size = S ∨ h.size = minSuper)
  first : ∃ h ∈ H, h.size = S
  geo : Geo H s.1.free s.1.allocated
  live : ∀ c, c ∈ s.1.allocated ↔ ∃ b ∈ L, c = ⟨b.addr, arenaBytes b.size⟩
  pos : ∀ b ∈ L, 0 < b.size
  distinct : L.Pairwise fun b c => b.addr ≠ c.addr

theorem Inv.perm {s : Arena × σ} {L L' H : List Blk} (h : Inv RR S s L H) (hp : L.Perm L') :
    Inv RR S s L' H where
  reach := h.reach
  super := h.super
  sup := h.sup
  first := h.first
  geo := h.geo
  live := by
    intro c
    rw [h.live]
    constructor
    · rintro ⟨b, hb, e⟩; exact ⟨b, hp.mem_iff.1 hb, e⟩
    · rintro ⟨b, hb, e⟩; exact ⟨b, hp.mem_iff.2 hb, e⟩
  pos := fun b hb => h.pos b (hp.mem_iff.2 hb)
  distinct := (hp.pairwise_iff (fun h => Ne.symm h)).1 h.distinct

/-- The limits that make upstream serve superblocks. -/
structure Up (R : Limits) (G : Nat) (up : MR σ) (RR : σ → List Blk → Prop) (S : Nat) : Prop where
  law : Serves R G up RR
  gap : ∀ u H, RR u H → ∀ b ∈ H, ∀ c ∈ H, 0 < b.size → b.addr + b.size ≠ c.addr
  hG : maxAlign ≤ G
  hA : maxAlign ≤ R.align
  hS : S ≤ R.size
  h18 : minSuper ≤ R.size
  pos : 0 < S
  lt : S < 2 ^ 64

variable {G : Nat}

theorem expand_ok (hU : Up R G up RR S) {s : Arena × σ} {L H : List Blk}
    (hI : RR s.2 H) (hg : Geo H s.1.free s.1.allocated) (hsz : s.1.superSize = S) (n : Nat) :
    ((expand up s n).1 = .badAlloc ∧ (expand up s n).2.1 = s.1 ∧ RR (expand up s n).2.2 H) ∨
    ∃ p, (expand up s n).1 = .ok ⟨p, expandSize S n⟩ ∧
      RR (expand up s n).2.2 (⟨p, expandSize S n, maxAlign⟩ :: H) ∧
      (expand up s n).2.1.superSize = S ∧
      (expand up s n).2.1.allocated = s.1.allocated ∧
      Geo (⟨p, expandSize S n, maxAlign⟩ :: H) (expand up s n).2.1.free s.1.allocated ∧
      ⟨p, expandSize S n⟩ ∈ (expand up s n).2.1.free := by
  have hq : IsReq R (expandSize S n) maxAlign := by
    refine ⟨⟨?_, ?_⟩, hU.hA, 4, rfl⟩
    · unfold expandSize; split; exacts [hU.h18, hU.hS]
    · unfold expandSize; split; exacts [by decide, hU.lt]
  have hpos : 0 < expandSize S n := by
    unfold expandSize; split; exacts [by decide, hU.pos]
  have hgood := hU.law.alloc hI hq hpos
  unfold expand
  rw [hsz]
  simp only
  cases hr : up.allocate s.2 (expandSize S n) maxAlign with
  | mk r u =>
  rw [hr] at hgood
  rcases hU.law.answer hI hq hpos with ⟨p, u', he⟩ | ⟨u', he⟩
  · rw [hr] at he
    obtain ⟨rfl, rfl⟩ := Prod.mk.inj he
    right
    have hreach := hU.law.sAlloc hI hq hpos hr
    have hH := HOk.of hU.law hU.gap hreach
    have hd : ∀ x ∈ H, Blk.Disjoint ⟨p, expandSize S n, maxAlign⟩ x := hgood.2.2.2
    have hnew : ∀ c ∈ s.1.free, c.ptr ≠ (⟨p, expandSize S n⟩ : ABlock).ptr := by
      intro c hc he
      obtain ⟨x, hx, hin⟩ := hg.fin c hc
      have := (hg.fpos c hc).1
      have := hd x hx
      unfold InB Blk.Disjoint at *
      simp only at *
      omega
    obtain ⟨i1, i2⟩ := setInsert_new hg.fs hnew
    have hnone : s.1.free.find? (fun c => c.ptr == p) = none := by
      rw [List.find?_eq_none]
      intro c hc
      simpa using hnew c hc
    refine ⟨p, by simp [hnone], hreach, hsz, rfl, ?_, ?_⟩
    · exact hg.grow hH hd (hgood.2.2.1 hU.hG) hgood.1 i1 i2
    · exact (i2 _).2 (.inl rfl)
  · rw [hr] at he
    obtain ⟨rfl, rfl⟩ := Prod.mk.inj he
    left
    exact ⟨rfl, rfl, hU.law.sRefuse hI hq hpos hr⟩

/-- The outcome of an allocation. -/
def AllocOk (RR : σ → List Blk → Prop) (S : Nat) (L H : List Blk) (n a : Nat)
    (r : Res Nat × (Arena × σ)) : Prop :=
  (∃ p H', r.1 = .ok p ∧ Inv RR S r.2 (⟨p, n, a⟩ :: L) H') ∨
    (r.1 = .badAlloc ∧ Inv RR S r.2 L H)

theorem Inv.take {s : Arena × σ} {L H : List Blk} (hI : Inv RR S s L H) {n a : Nat} (hn : 0 < n)
    {b : ABlock} (hb : b ∈ s.1.free) (hnb : arenaBytes n ≤ b.size) {F' : List ABlock} (hs : Srt F')
    (hF : ∀ c, c ∈ F' ↔ (c ∈ s.1.free ∧ c.ptr ≠ b.ptr) ∨
      (arenaBytes n < b.size ∧ c = ⟨b.ptr + arenaBytes n, b.size - arenaBytes n⟩)) :
    Inv RR S ({ s.1 with free := F',
                              allocated := setInsert s.1.allocated ⟨b.ptr, arenaBytes n⟩ }, s.2)
      (⟨b.ptr, n, a⟩ :: L) H := by
  obtain ⟨a1, a2, a3⟩ := arenaBytes_spec n
  obtain ⟨g1, g2⟩ := hI.geo.alloc hb hnb (by omega) a3 hs hF
  refine ⟨hI.reach, hI.super, hI.sup, hI.first, g1, ?_, ?_, ?_⟩
  · intro c
    simp only
    rw [g2, hI.live]
    simp only [List.mem_cons, exists_eq_or_imp]
  · intro x hx
    rcases List.mem_cons.1 hx with rfl | hx
    · exact hn
    · exact hI.pos x hx
  · refine List.pairwise_cons.2 ⟨?_, hI.distinct⟩
    intro x hx he
    have hm : (⟨x.addr, arenaBytes x.size⟩ : ABlock) ∈ s.1.allocated := (hI.live _).2 ⟨x, hx, rfl⟩
    have := hI.geo.fa b hb _ hm
    have := (hI.geo.apos _ hm).1
    unfold Dj at *
    simp only at *
    omega

theorem expandAndFit_ok (hU : Up R G up RR S) {s : Arena × σ} {L H : List Blk}
    (hI : Inv RR S s L H) {n a : Nat} (hn : 0 < n) (hmax : arenaBytes n ≤ max S minSuper) :
    ((expandAndFit up s (arenaBytes n)).1 = .badAlloc ∧
      Inv RR S (expandAndFit up s (arenaBytes n)).2 L H) ∨
    ∃ b H', (expandAndFit up s (arenaBytes n)).1 = .ok b ∧
      Inv RR S ({ (expandAndFit up s (arenaBytes n)).2.1 with
        allocated := setInsert (expandAndFit up s (arenaBytes n)).2.1.allocated b },
        (expandAndFit up s (arenaBytes n)).2.2) (⟨b.ptr, n, a⟩ :: L) H' := by
  obtain ⟨a1, a2, a3⟩ := arenaBytes_spec n
  have hfit : arenaBytes n ≤ expandSize S (arenaBytes n) := by
    unfold expandSize; split <;> omega
  have he := expand_ok (L := L) hU hI.reach hI.geo hI.super (arenaBytes n)
  unfold expandAndFit
  generalize hr : expand up s (arenaBytes n) = r at he
  obtain ⟨r1, r2, r3⟩ := r
  rcases he with ⟨e1, e2, e3⟩ | ⟨p, e1, e2, e3, e4, e5, e6⟩
  · left
    simp only at e1 e2 e3
    subst e1 e2
    exact ⟨rfl, e3, hI.super, hI.sup, hI.first, hI.geo, hI.live, hI.pos, hI.distinct⟩
  · right
    simp only at e1 e2 e3 e4 e5 e6
    subst e1
    have hH := HOk.of hU.law hU.gap e2
    have h0 : 0 < expandSize S (arenaBytes n) := hH.pos _ List.mem_cons_self
    have hco := coalesce_present (b := ⟨p, expandSize S (arenaBytes n)⟩) e5.fs e6 h0
      (fun c hc => e5.merged c hc _ e6)
    simp only [hco]
    have hI' : Inv RR S (r2, r3) L (⟨p, expandSize S (arenaBytes n), maxAlign⟩ :: H) := by
      refine ⟨e2, e3, ?_, ?_, ?_, ?_, hI.pos, hI.distinct⟩
      · intro h hh
        rcases List.mem_cons.1 hh with rfl | hh
        · refine ⟨rfl, ?_⟩
          simp only [expandSize]; split
          · exact .inr rfl
          · exact .inl rfl
        · exact hI.sup h hh
      · obtain ⟨h, hh, e⟩ := hI.first
        exact ⟨h, List.mem_cons_of_mem _ hh, e⟩
      · simp only [e4]; exact e5
      · simp only [e4]; exact hI.live
    rcases firstFit_spec (n := arenaBytes n) e5.fs e5.ff (fun c hc => (e5.fpos c hc).1) (by omega) with
      ⟨f1, f2⟩ | ⟨b, f1, f2, f3, f4, f5⟩
    · have := f2 _ e6
      simp only at this
      omega
    · have := hI'.take (a := a) hn f1 f2 f4 f5
      refine ⟨_, ⟨p, expandSize S (arenaBytes n), maxAlign⟩ :: H, rfl, ?_⟩
      rw [f3]
      exact this

theorem allocate_ok (hU : Up R G up RR S) {s : Arena × σ} {L H : List Blk}
    (hI : Inv RR S s L H) {n a : Nat} (hn : 0 < n) (hmax : arenaBytes n ≤ max S minSuper) :
    AllocOk RR S L H n a (allocate up s n) := by
  obtain ⟨a1, a2, a3⟩ := arenaBytes_spec n
  have hn64 : n ≤ 2 ^ 64 - 256 := by
    have h1 := hU.lt
    have h2 : minSuper < 2 ^ 64 := by decide
    have h3 : arenaBytes n < 2 ^ 64 := by omega
    obtain ⟨k, hk⟩ := a3
    omega
  unfold allocate
  rw [alignUp_eq hn64]
  have hexp : ∀ r, r = expandAndFit up s (arenaBytes n) → AllocOk RR S L H n a
      (match r.1 with
        | .ok b => (.ok b.ptr, ({ r.2.1 with allocated := setInsert r.2.1.allocated b }, r.2.2))
        | e => (e.map fun _ => 0, r.2)) := by
    rintro r rfl
    rcases expandAndFit_ok (a := a) hU hI hn hmax with ⟨e1, e2⟩ | ⟨b, H', e1, e2⟩
    · rw [e1]; exact .inr ⟨rfl, e2⟩
    · rw [e1]; exact .inl ⟨b.ptr, H', rfl, e2⟩
  unfold getBlock
  split
  · rcases firstFit_spec (n := arenaBytes n) hI.geo.fs hI.geo.ff (fun c hc => (hI.geo.fpos c hc).1)
      (by omega) with ⟨f1, f2⟩ | ⟨b, f1, f2, f3, f4, f5⟩
    · simp only [f1]
      exact hexp _ rfl
    · have hb0 := (hI.geo.fpos b f1).2.2
      simp only [f3]
      rw [if_pos hb0]
      exact .inl ⟨b.ptr, H, rfl, hI.take hn f1 f2 f4 f5⟩
  · exact hexp _ rfl

theorem Inv.good (hU : Up R G up RR S) {s : Arena × σ} {L H : List Blk} {b : Blk}
    (hI : Inv RR S s (b :: L) H) :
    b.addr ≠ 0 ∧ 16 ∣ b.addr ∧ (∃ h ∈ H, b.Inside h) ∧ ∀ c ∈ L, b.Disjoint c := by
  have hb : (⟨b.addr, arenaBytes b.size⟩ : ABlock) ∈ s.1.allocated := (hI.live _).2 ⟨b, by simp, rfl⟩
  obtain ⟨p1, p2, p3, p4⟩ := hI.geo.apos _ hb
  obtain ⟨h, hh, hin⟩ := hI.geo.ain _ hb
  have hsz := (arenaBytes_spec b.size).1
  refine ⟨p3, p2, ⟨h, hh, ?_⟩, ?_⟩
  · unfold InB Blk.Inside at *; simp only at *; omega
  · intro c hc
    have hcm : (⟨c.addr, arenaBytes c.size⟩ : ABlock) ∈ s.1.allocated := (hI.live _).2 ⟨c, by simp [hc], rfl⟩
    have := hI.geo.aa _ hb _ hcm ((List.pairwise_cons.1 hI.distinct).1 c hc)
    have := (arenaBytes_spec c.size).1
    unfold Dj Blk.Disjoint at *; simp only at *; omega

theorem coalesce_nil {b : ABlock} (h : b.ptr ≠ 0) : coalesce [] b = none := by
  simp [coalesce, h]

theorem erase_mem {A : List ABlock} (hs : Srt A) {b : ABlock} (hb : b ∈ A) :
    Srt (A.erase b) ∧ ∀ c, c ∈ A.erase b ↔ c ∈ A ∧ c.ptr ≠ b.ptr := by
  refine ⟨List.Pairwise.sublist List.erase_sublist hs, ?_⟩
  intro c
  rw [hs.nodup.mem_erase_iff]
  constructor
  · rintro ⟨h1, h2⟩
    exact ⟨h2, fun he => h1 (hs.eq h2 hb he)⟩
  · rintro ⟨h1, h2⟩
    exact ⟨fun he => h2 (by rw [he]), h1⟩

theorem find_ptr {A : List ABlock} (hs : Srt A) {b : ABlock} (hb : b ∈ A) :
    A.find? (fun c => c.ptr == b.ptr) = some b := by
  cases hf : A.find? (fun c => c.ptr == b.ptr) with
  | none =>
    have := List.find?_eq_none.1 hf b hb
    simp at this
  | some c =>
    have h1 := List.mem_of_find?_eq_some hf
    have h2 := List.find?_some hf
    rw [hs.eq h1 hb (by simpa using h2)]

/-- Freeing in terms of the tiling. -/
theorem deallocate_geo {a : Arena} {H : List Blk} (hH : HOk H) (g : Geo H a.free a.allocated) {b : ABlock}
    (hb : b ∈ a.allocated) (hne : a.free ≠ []) :
    ∃ F', deallocate a b.ptr = (.ok (), { a with free := F', allocated := a.allocated.erase b }) ∧
      Geo H F' (a.allocated.erase b) ∧ F' ≠ [] := by
  obtain ⟨p1, p2, p3, p4⟩ := g.apos b hb
  obtain ⟨F', m, c1, c2⟩ := coalesce_spec (b := b) g.fs hne g.ff (fun c hc => (g.fpos c hc).1)
    (fun c hc => g.fa c hc b hb) p1 p3
  obtain ⟨e1, e2⟩ := erase_mem g.as hb
  refine ⟨F', ?_, g.release hH hb e1 e2 c2, ?_⟩
  · unfold deallocate
    rw [find_ptr g.as hb]
    simp only [if_neg p3, c1]
  · have := (c2.2.1 m).2 (.inl rfl)
    exact List.ne_nil_of_mem this

theorem deallocate_ok (hU : Up R G up RR S) {s : Arena × σ} {L H : List Blk} {b : Blk}
    (hI : Inv RR S s (b :: L) H) :
    (s.1.free = [] ∧ (deallocate s.1 b.addr).1 = .ub) ∨
    (s.1.free ≠ [] ∧ (deallocate s.1 b.addr).1 = .ok () ∧
      Inv RR S ((deallocate s.1 b.addr).2, s.2) L H) := by
  have hb : (⟨b.addr, arenaBytes b.size⟩ : ABlock) ∈ s.1.allocated := (hI.live _).2 ⟨b, by simp, rfl⟩
  by_cases hne : s.1.free = []
  · left
    refine ⟨hne, ?_⟩
    have := find_ptr hI.geo.as hb
    simp only at this
    have p3 := (hI.geo.apos _ hb).2.2.1
    unfold deallocate
    rw [this]
    simp only [if_neg p3, hne, coalesce_nil p3]
  · right
    have hH := HOk.of hU.law hU.gap hI.reach
    obtain ⟨F', d1, d2, _⟩ := deallocate_geo hH hI.geo hb hne
    simp only at d1
    rw [d1]
    refine ⟨hne, rfl, hI.reach, hI.super, hI.sup, hI.first, d2, ?_, fun x hx => hI.pos x (by simp [hx]),
      (List.pairwise_cons.1 hI.distinct).2⟩
    intro c
    rw [(erase_mem hI.geo.as hb).2, hI.live]
    have hd := (List.pairwise_cons.1 hI.distinct).1
    constructor
    · rintro ⟨⟨x, hx, rfl⟩, hp⟩
      rcases List.mem_cons.1 hx with rfl | hx
      · exact absurd rfl hp
      · exact ⟨x, hx, rfl⟩
    · rintro ⟨x, hx, rfl⟩
      exact ⟨⟨x, by simp [hx], rfl⟩, fun he => hd x hx he.symm⟩

/-- There is a free block exactly if a byte of the superblocks is not set aside for a live block. -/
theorem Inv.free_ne_nil {s : Arena × σ} {L H : List Blk} (hI : Inv RR S s L H) :
    s.1.free ≠ [] ↔ ∃ h ∈ H, ∃ x, h.addr ≤ x ∧ x < h.addr + h.size ∧
      ∀ b ∈ L, ¬ (b.addr ≤ x ∧ x < b.addr + arenaBytes b.size) := by
  constructor
  · intro hne
    obtain ⟨c, hc⟩ := List.exists_mem_of_ne_nil _ hne
    obtain ⟨h, hh, hin⟩ := hI.geo.fin c hc
    have c0 := (hI.geo.fpos c hc).1
    unfold InB at hin
    refine ⟨h, hh, c.ptr, hin.1, by omega, ?_⟩
    intro b hb hx
    have := hI.geo.fa c hc _ ((hI.live _).2 ⟨b, hb, rfl⟩)
    unfold Dj at this
    simp only at this
    omega
  · rintro ⟨h, hh, x, h1, h2, h3⟩ he
    obtain ⟨c, hc, hx⟩ := hI.geo.cover h hh x h1 h2
    rw [he] at hc
    have hc : c ∈ s.1.allocated := by simpa using hc
    obtain ⟨b, hb, rfl⟩ := (hI.live _).1 hc
    exact h3 b hb hx

/-- A superblock whose size is not a multiple of 256 is never handed out completely. -/
theorem Inv.free_of_odd (hU : Up R G up RR S) {s : Arena × σ} {L H : List Blk} (hI : Inv RR S s L H)
    (hodd : S % 256 ≠ 0) : s.1.free ≠ [] := by
  intro he
  obtain ⟨h, hh, hsz⟩ := hI.first
  have hH := HOk.of hU.law hU.gap hI.reach
  have h0 := hH.pos h hh
  have hin : ∀ x, h.addr ≤ x → x < h.addr + h.size →
      ∃ c ∈ s.1.allocated, c.ptr ≤ x ∧ x < c.ptr + c.size ∧ h.addr ≤ c.ptr ∧
        c.ptr + c.size ≤ h.addr + h.size := by
    intro x h1 h2
    obtain ⟨c, hc, hx⟩ := hI.geo.cover h hh x h1 h2
    rw [he] at hc
    have hc : c ∈ s.1.allocated := by simpa using hc
    obtain ⟨h', hh', hin⟩ := hI.geo.ain c hc
    have e : h = h' := by
      rcases hH.dj h hh h' hh' with e | e
      · exact e
      · exfalso; unfold InB Has Blk.Disjoint at *; omega
    subst e
    exact ⟨c, hc, hx.1, hx.2, hin.1, hin.2⟩
  -- all blocks begin at multiples of 256
  have key : ∀ v, ∀ c ∈ s.1.allocated, c.ptr = v → h.addr ≤ c.ptr → c.ptr + c.size ≤ h.addr + h.size →
      256 ∣ c.ptr - h.addr := by
    intro v
    induction v using Nat.strongRecOn with
    | _ v ih =>
      intro c hc hv h1 h2
      by_cases e : c.ptr = h.addr
      · rw [e]; simp
      · have c0 := (hI.geo.apos c hc).1
        obtain ⟨d, hd, d1, d2, d3, d4⟩ := hin (c.ptr - 1) (by omega) (by omega)
        have hdj := hI.geo.aa c hc d hd (by omega)
        have hends : d.ptr + d.size = c.ptr := by unfold Dj at hdj; omega
        have := ih d.ptr (by omega) d hd rfl d3 d4
        have := (hI.geo.apos d hd).2.2.2
        have e2 : c.ptr - h.addr = (d.ptr - h.addr) + d.size := by omega
        rw [e2]
        exact Nat.dvd_add ‹_› ‹_›
  obtain ⟨c, hc, c1, c2, c3, c4⟩ := hin (h.addr + h.size - 1) (by omega) (by omega)
  have k1 := key c.ptr c hc rfl c3 c4
  have k2 := (hI.geo.apos c hc).2.2.2
  have : S = (c.ptr - h.addr) + c.size := by omega
  exact hodd (Nat.mod_eq_zero_of_dvd (by rw [this]; exact Nat.dvd_add k1 k2))

end Arena

end Vecmem
