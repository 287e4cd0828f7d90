import Verif.Lemmas.ArenaReach
import Verif.Lemmas.Kinds
import Verif.Spec.Faults

/-! Arenas whose bookkeeping fails: blocks in use stay apart. -/

namespace Vecmem

open IntMath

namespace Arena

variable {σ : Type} {R : Limits} {up : MR σ} {RR : σ → List Blk → Prop} {S G : Nat}
variable {H : List Blk} {F F' A A' : List ABlock}

theorem Lax.sub (g : Lax H F A) (hF : F'.Sublist F) (hA : A'.Sublist A) : Lax H F' A' where
  fs := List.Pairwise.sublist hF g.fs
  as := List.Pairwise.sublist hA g.as
  fpos := fun c hc => g.fpos c (hF.subset hc)
  apos := fun c hc => g.apos c (hA.subset hc)
  fin := fun c hc => g.fin c (hF.subset hc)
  ain := fun c hc => g.ain c (hA.subset hc)
  ff := fun c hc d hd => g.ff c (hF.subset hc) d (hF.subset hd)
  aa := fun c hc d hd => g.aa c (hA.subset hc) d (hA.subset hd)
  fa := fun c hc d hd => g.fa c (hF.subset hc) d (hA.subset hd)
  merged := fun c hc d hd => g.merged c (hF.subset hc) d (hF.subset hd)

theorem Lax.more (g : Lax H F A) (h : Blk) : Lax (h :: H) F A := by
  refine { g with fin := ?_, ain := ?_ }
  · intro c hc
    obtain ⟨x, hx, hin⟩ := g.fin c hc
    exact ⟨x, List.mem_cons_of_mem _ hx, hin⟩
  · intro c hc
    obtain ⟨x, hx, hin⟩ := g.ain c hc
    exact ⟨x, List.mem_cons_of_mem _ hx, hin⟩

theorem firstFitF_cases (f : Faults) (F : List ABlock) (n : Nat) :
    (∃ f', firstFitF f F n = (.ok (firstFit F n).1, (firstFit F n).2, f')) ∨
    ∃ F' f', firstFitF f F n = (.badAlloc, F', f') ∧ F'.Sublist F := by
  unfold firstFitF firstFit
  cases F.find? (fun b => n ≤ b.size) with
  | none => exact .inl ⟨_, rfl⟩
  | some b =>
    simp only
    split
    · by_cases hf : f.now = true
      · simp only [hf, if_true]
        exact .inr ⟨_, _, rfl, List.erase_sublist⟩
      · simp only [hf]
        exact .inl ⟨_, rfl⟩
    · exact .inl ⟨_, rfl⟩

theorem coalesceLeft_sub {X Y Z : List ABlock} {pb b : ABlock} (h : coalesceLeft X Y pb b = some Z) :
    Z.Sublist (X ++ Y) := by
  have hd : ∀ Y' : List ABlock, Y'.Sublist Y → (X.dropLast ++ Y').Sublist (X ++ Y) :=
    fun Y' h => List.Sublist.append (List.dropLast_sublist X) h
  unfold coalesceLeft at h
  cases hm : (pb.ptr + pb.size == b.ptr) with
  | false =>
    rw [hm] at h
    cases Y with
    | nil =>
      simp only [Option.some.injEq] at h
      subst h; simp
    | cons nb rest =>
      simp only at h
      split at h
      · cases h; exact List.Sublist.append_left (List.sublist_cons_self _ _) _
      · cases h; exact List.Sublist.refl _
  | true =>
    rw [hm] at h
    cases Y with
    | nil =>
      simp only [Option.some.injEq] at h
      subst h
      simpa using List.dropLast_sublist X
    | cons nb rest =>
      simp only at h
      split at h
      · split at h
        · cases h
        · cases h; exact hd _ (List.sublist_cons_self _ _)
      · split at h
        · cases h
          exact (List.sublist_cons_self _ _).trans (List.sublist_append_right _ _)
        · cases h; exact hd _ (List.Sublist.refl _)

/-- What `coalesce_block` does, if there are free blocks, when it may fail. -/
theorem coalesceF_cases (f : Faults) (hs : Srt F) (hpos : ∀ c ∈ F, 0 < c.size) {b : ABlock} (hp : b.ptr ≠ 0)
    (hne : F ≠ []) :
    (∃ f', coalesceF f F b = match coalesce F b with
      | none => (.ub, F, f)
      | some F' => (.ok (), F', f')) ∨
    ∃ F' f', coalesceF f F b = (.badAlloc, F', f') ∧ F'.Sublist F := by
  unfold coalesceF coalesce
  rw [if_neg hp, if_neg hp]
  obtain ⟨h1, h2, h3⟩ := split_spec hs b.ptr
  simp only
  generalize hA : F.takeWhile (fun c => c.ptr < b.ptr) = X at *
  generalize hB : F.dropWhile (fun c => c.ptr < b.ptr) = Y at *
  clear hA hB
  subst h3
  by_cases hf : f.now = true
  · right
    simp only [hf, if_true]
    have hsome : ∃ pb, X.getLast?.or Y.head? = some pb := by
      cases hX : X.getLast? with
      | some c => exact ⟨c, rfl⟩
      | none =>
        have hX0 := List.getLast?_eq_none_iff.1 hX
        cases Y with
        | nil => simp [hX0] at hne
        | cons y ys => exact ⟨y, rfl⟩
    obtain ⟨pb, hpb⟩ := hsome
    rw [hpb]
    simp only
    cases hl : coalesceLeft X Y pb b with
    | some Z => exact ⟨Z, _, rfl, coalesceLeft_sub hl⟩
    | none =>
      exfalso
      unfold coalesceLeft at hl
      cases hm : (pb.ptr + pb.size == b.ptr) with
      | false =>
        rw [hm] at hl
        cases Y with
        | nil => simp at hl
        | cons nb rest => simp only at hl; split at hl <;> cases hl
      | true =>
        rw [hm] at hl
        cases Y with
        | nil => simp at hl
        | cons nb rest =>
          simp only at hl
          split at hl
          · split at hl
            · rename_i hX0
              rw [List.isEmpty_iff] at hX0
              subst hX0
              simp only [List.getLast?_nil, List.head?_cons, Option.none_or, Option.some.injEq] at hpb
              subst hpb
              have := h2 nb List.mem_cons_self
              have := hpos nb (by simp)
              have hm := beq_iff_eq.1 hm
              omega
            · cases hl
          · split at hl <;> cases hl
  · left
    simp only [hf]
    refine ⟨f.tail, ?_⟩
    cases X.getLast?.or Y.head? with
    | none => rfl
    | some pb => rfl

/-- The invariant that survives failures: bytes of superblocks may be neither free nor allocated. -/
structure LaxInv (RR : σ → List Blk → Prop) (S : Nat) (s : Arena × σ) (L H : List Blk) : Prop where
  reach : RR s.2 H
  super : s.1.superSize = S
  geo : Lax H s.1.free s.1.allocated
  live : ∀ c, c ∈ s.1.allocated ↔ ∃ b ∈ L, c = ⟨b.addr, arenaBytes b.size⟩
  pos : ∀ b ∈ L, 0 < b.size
  distinct : L.Pairwise fun b c => b.addr ≠ c.addr

theorem Inv.lax {s : Arena × σ} {L H : List Blk} (h : Inv RR S s L H) : LaxInv RR S s L H :=
  ⟨h.reach, h.super, h.geo.toLax, h.live, h.pos, h.distinct⟩

theorem LaxInv.perm {s : Arena × σ} {L L' H : List Blk} (h : LaxInv RR S s L H) (hp : L.Perm L') :
    LaxInv RR S s L' H := by
  refine { h with live := ?_, pos := ?_, distinct := ?_ }
  · intro c
    rw [h.live]
    constructor
    · rintro ⟨b, hb, e⟩; exact ⟨b, hp.mem_iff.1 hb, e⟩
    · rintro ⟨b, hb, e⟩; exact ⟨b, hp.mem_iff.2 hb, e⟩
  · exact fun b hb => h.pos b (hp.mem_iff.2 hb)
  · exact (hp.pairwise_iff (fun h => Ne.symm h)).1 h.distinct

/-- Free blocks may get lost. -/
theorem LaxInv.lose {s : Arena × σ} {L H : List Blk} (h : LaxInv RR S s L H) {F' : List ABlock}
    (hF : F'.Sublist s.1.free) : LaxInv RR S ({ s.1 with free := F' }, s.2) L H :=
  ⟨h.reach, h.super, h.geo.sub hF (List.Sublist.refl _), h.live, h.pos, h.distinct⟩

theorem LaxInv.good {s : Arena × σ} {L H : List Blk} {b : Blk}
    (hI : LaxInv RR S s (b :: L) H) :
    b.addr ≠ 0 ∧ 16 ∣ b.addr ∧ (∃ h ∈ H, b.Inside h) ∧ ∀ c ∈ L, b.Disjoint c := by
  have hb : (⟨b.addr, arenaBytes b.size⟩ : ABlock) ∈ s.1.allocated := (hI.live _).2 ⟨b, by simp, rfl⟩
  obtain ⟨p1, p2, p3, p4⟩ := hI.geo.apos _ hb
  obtain ⟨h, hh, hin⟩ := hI.geo.ain _ hb
  have hsz := (arenaBytes_spec b.size).1
  refine ⟨p3, p2, ⟨h, hh, ?_⟩, ?_⟩
  · unfold InB Blk.Inside at *; simp only at *; omega
  · intro c hc
    have hcm : (⟨c.addr, arenaBytes c.size⟩ : ABlock) ∈ s.1.allocated := (hI.live _).2 ⟨c, by simp [hc], rfl⟩
    have := hI.geo.aa _ hb _ hcm ((List.pairwise_cons.1 hI.distinct).1 c hc)
    have := (arenaBytes_spec c.size).1
    unfold Dj Blk.Disjoint at *; simp only at *; omega

theorem LaxInv.disjoint {s : Arena × σ} {L H : List Blk} (hI : LaxInv RR S s L H) : L.Pairwise Blk.Disjoint := by
  suffices h : ∀ L', LaxInv RR S s (L' ++ L) H → L.Pairwise Blk.Disjoint from h [] hI
  clear hI
  induction L with
  | nil => intros; exact List.Pairwise.nil
  | cons b L ih =>
    intro L' hI
    have h1 := (hI.perm (L' := b :: (L' ++ L)) List.perm_middle).good.2.2.2
    refine List.pairwise_cons.2 ⟨fun c hc => h1 c (List.mem_append_right _ hc), ih (L' ++ [b]) ?_⟩
    simpa using hI

theorem LaxInv.take {s : Arena × σ} {L H : List Blk} (hI : LaxInv RR S s L H) {n a : Nat} (hn : 0 < n)
    {b : ABlock} (hb : b ∈ s.1.free) (hnb : arenaBytes n ≤ b.size) {F' : List ABlock} (hs : Srt F')
    (hF : ∀ c, c ∈ F' ↔ (c ∈ s.1.free ∧ c.ptr ≠ b.ptr) ∨
      (arenaBytes n < b.size ∧ c = ⟨b.ptr + arenaBytes n, b.size - arenaBytes n⟩)) :
    LaxInv RR S ({ s.1 with free := F',
                            allocated := setInsert s.1.allocated ⟨b.ptr, arenaBytes n⟩ }, s.2)
      (⟨b.ptr, n, a⟩ :: L) H ∧
    LaxInv RR S ({ s.1 with free := F' }, s.2) L H := by
  obtain ⟨a1, a2, a3⟩ := arenaBytes_spec n
  obtain ⟨g1, g2⟩ := hI.geo.alloc hb hnb (by omega) a3 hs hF
  refine ⟨⟨hI.reach, hI.super, g1, ?_, ?_, ?_⟩,
    ⟨hI.reach, hI.super, ⟨hs, hI.geo.as, g1.fpos, hI.geo.apos, g1.fin, hI.geo.ain, g1.ff, hI.geo.aa, ?_, g1.merged⟩,
      hI.live, hI.pos, hI.distinct⟩⟩
  · intro c
    simp only
    rw [g2, hI.live]
    simp only [List.mem_cons, exists_eq_or_imp]
  · intro x hx
    rcases List.mem_cons.1 hx with rfl | hx
    · exact hn
    · exact hI.pos x hx
  · refine List.pairwise_cons.2 ⟨?_, hI.distinct⟩
    intro x hx he
    have hm : (⟨x.addr, arenaBytes x.size⟩ : ABlock) ∈ s.1.allocated := (hI.live _).2 ⟨x, hx, rfl⟩
    have := hI.geo.fa b hb _ hm
    have := (hI.geo.apos _ hm).1
    unfold Dj at *
    simp only at *
    omega
  · exact fun c hc d hd => g1.fa c hc d ((g2 d).2 (.inr hd))

/-- The outcome of taking a block: one that can be recorded, none because of a failure, or nothing found. -/
def TakeOk (RR : σ → List Blk → Prop) (S : Nat) (L : List Blk) (n a : Nat)
    (r : Res ABlock × (Arena × σ)) : Prop :=
  (∃ b H', r.1 = .ok b ∧ LaxInv RR S r.2 L H' ∧
    LaxInv RR S ({ r.2.1 with allocated := setInsert r.2.1.allocated b }, r.2.2) (⟨b.ptr, n, a⟩ :: L) H') ∨
  (r.1 = .badAlloc ∧ ∃ H', LaxInv RR S r.2 L H')

theorem LaxInv.firstFitF {s : Arena × σ} {L H : List Blk} (hI : LaxInv RR S s L H) {n : Nat} (a : Nat) (hn : 0 < n)
    (f : Faults) :
    (∃ f', Arena.firstFitF f s.1.free (arenaBytes n) = (.ok {}, s.1.free, f') ∧
      ∀ c ∈ s.1.free, c.size < arenaBytes n) ∨
    ((∀ b, (Arena.firstFitF f s.1.free (arenaBytes n)).1 = .ok b → b.ptr ≠ 0) ∧
      TakeOk RR S L n a ((Arena.firstFitF f s.1.free (arenaBytes n)).1,
      ({ s.1 with free := (Arena.firstFitF f s.1.free (arenaBytes n)).2.1 }, s.2))) := by
  obtain ⟨a1, a2, a3⟩ := arenaBytes_spec n
  rcases firstFitF_cases f s.1.free (arenaBytes n) with ⟨f', e⟩ | ⟨F', f', e, h⟩
  · rw [e]
    rcases firstFit_spec (n := arenaBytes n) hI.geo.fs hI.geo.ff (fun c hc => (hI.geo.fpos c hc).1) (by omega) with
      ⟨f1, f2⟩ | ⟨b, f1, f2, f3, f4, f5⟩
    · left; rw [f1]; exact ⟨f', rfl, f2⟩
    · right
      obtain ⟨t1, t2⟩ := hI.take (a := a) hn f1 f2 f4 f5
      rw [f3]
      refine ⟨?_, .inl ⟨_, H, rfl, t2, t1⟩⟩
      intro x hx
      cases hx
      exact (hI.geo.fpos b f1).2.2
  · right
    rw [e]
    exact ⟨(fun b hb => by cases hb), .inr ⟨rfl, H, hI.lose h⟩⟩

theorem expandF_ok (hU : Up R G up RR S) {s : Arena × σ} {L H : List Blk} (hI : LaxInv RR S s L H) (f : Faults) (n : Nat) :
    ((expandF f up s n).1 = .badAlloc ∧ ∃ H', LaxInv RR S (expandF f up s n).2 L H') ∨
    ∃ p, (expandF f up s n).1 = .ok ⟨p, expandSize S n⟩ ∧ p ≠ 0 ∧ 0 < expandSize S n ∧
      ⟨p, expandSize S n⟩ ∈ (expandF f up s n).2.1.free ∧ ∃ H', LaxInv RR S (expandF f up s n).2 L H' := by
  have hq : IsReq R (expandSize S n) maxAlign := by
    refine ⟨⟨?_, ?_⟩, hU.hA, 4, rfl⟩
    · unfold expandSize; split; exacts [hU.h18, hU.hS]
    · unfold expandSize; split; exacts [by decide, hU.lt]
  have hpos : 0 < expandSize S n := by
    unfold expandSize; split; exacts [by decide, hU.pos]
  have hgood := hU.law.alloc hI.reach hq hpos
  unfold expandF
  rw [hI.super]
  simp only
  cases hr : up.allocate s.2 (expandSize S n) maxAlign with
  | mk r u =>
  rw [hr] at hgood
  rcases hU.law.answer hI.reach hq hpos with ⟨p, u', he⟩ | ⟨u', he⟩
  · rw [hr] at he
    obtain ⟨rfl, rfl⟩ := Prod.mk.inj he
    have hreach := hU.law.sAlloc hI.reach hq hpos hr
    by_cases hf : f.now = true
    · left
      simp only [hf, if_true]
      exact ⟨trivial, _, hreach, hI.super, hI.geo.more _, hI.live, hI.pos, hI.distinct⟩
    · right
      simp only [hf]
      have hH := HOk.of hU.law hU.gap hreach
      have hd : ∀ x ∈ H, Blk.Disjoint ⟨p, expandSize S n, maxAlign⟩ x := hgood.2.2.2
      have hnew : ∀ c ∈ s.1.free, c.ptr ≠ (⟨p, expandSize S n⟩ : ABlock).ptr := by
        intro c hc he
        obtain ⟨x, hx, hin⟩ := hI.geo.fin c hc
        have := (hI.geo.fpos c hc).1
        have := hd x hx
        unfold InB Blk.Disjoint at *
        simp only at *
        omega
      obtain ⟨i1, i2⟩ := setInsert_new hI.geo.fs hnew
      have hnone : s.1.free.find? (fun c => c.ptr == p) = none := by
        rw [List.find?_eq_none]
        intro c hc
        simpa using hnew c hc
      refine ⟨p, by simp [hnone], hgood.1, hpos, (i2 _).2 (.inl rfl), _, hreach, hI.super, ?_, hI.live, hI.pos,
        hI.distinct⟩
      exact hI.geo.grow hH hd (hgood.2.2.1 hU.hG) hgood.1 i1 i2
  · rw [hr] at he
    obtain ⟨rfl, rfl⟩ := Prod.mk.inj he
    left
    exact ⟨rfl, H, hU.law.sRefuse hI.reach hq hpos hr, hI.super, hI.geo, hI.live, hI.pos, hI.distinct⟩

theorem expandAndFitF_ok (hU : Up R G up RR S) {s : Arena × σ} {L H : List Blk} (hI : LaxInv RR S s L H) (f : Faults)
    {n : Nat} (a : Nat) (hn : 0 < n) (hmax : arenaBytes n ≤ max S minSuper) :
    TakeOk RR S L n a ((expandAndFitF f up s (arenaBytes n)).1, (expandAndFitF f up s (arenaBytes n)).2.1) := by
  obtain ⟨a1, a2, a3⟩ := arenaBytes_spec n
  have hfit : arenaBytes n ≤ expandSize S (arenaBytes n) := by
    unfold expandSize; split <;> omega
  have he := expandF_ok hU hI f (arenaBytes n)
  unfold expandAndFitF
  generalize hr : expandF f up s (arenaBytes n) = r at he
  obtain ⟨r1, r2, r3⟩ := r
  rcases he with ⟨e1, H', e2⟩ | ⟨p, e1, e2, e3, e4, H', e5⟩
  · simp only at e1 e2
    subst e1
    exact .inr ⟨rfl, H', e2⟩
  · simp only at e1 e2 e3 e4 e5
    subst e1
    have hco := coalesce_present (b := ⟨p, expandSize S (arenaBytes n)⟩) e5.geo.fs e4 e3
      (fun c hc => e5.geo.merged c hc _ e4)
    rcases coalesceF_cases f.tail e5.geo.fs (fun c hc => (e5.geo.fpos c hc).1)
      (b := ⟨p, expandSize S (arenaBytes n)⟩) e2 (List.ne_nil_of_mem e4) with ⟨f', c1⟩ | ⟨F', f', c1, c2⟩
    · rw [hco] at c1
      simp only at c1
      simp only [c1]
      rcases e5.firstFitF a hn f' with ⟨f'', x1, x2⟩ | ⟨_, x⟩
      · have := x2 _ e4
        simp only at this
        omega
      · exact x
    · simp only at c1
      simp only [c1]
      exact .inr ⟨rfl, H', e5.lose c2⟩

theorem allocateF_ok (hU : Up R G up RR S) {s : Arena × σ} {L H : List Blk} (hI : LaxInv RR S s L H) (f : Faults)
    {n : Nat} (a : Nat) (hn : 0 < n) (hmax : arenaBytes n ≤ max S minSuper) :
    (∃ p H', (allocateF f up s n).1 = .ok p ∧ LaxInv RR S (allocateF f up s n).2 (⟨p, n, a⟩ :: L) H') ∨
    ((allocateF f up s n).1 = .badAlloc ∧ ∃ H', LaxInv RR S (allocateF f up s n).2 L H') := by
  obtain ⟨a1, a2, a3⟩ := arenaBytes_spec n
  have hn64 : n ≤ 2 ^ 64 - 256 := by
    have h1 := hU.lt
    have h2 : minSuper < 2 ^ 64 := by decide
    have h3 : arenaBytes n < 2 ^ 64 := by omega
    obtain ⟨k, hk⟩ := a3
    omega
  have hget : TakeOk RR S L n a ((getBlockF f up s (arenaBytes n)).1, (getBlockF f up s (arenaBytes n)).2.1) := by
    unfold getBlockF
    split
    · rcases hI.firstFitF a hn f with ⟨f', x1, x2⟩ | ⟨x0, x⟩
      · simp only [x1]
        exact expandAndFitF_ok hU hI f' a hn hmax
      · simp only
        generalize Arena.firstFitF f s.1.free (arenaBytes n) = y at x0 x
        obtain ⟨y1, y2, y3⟩ := y
        simp only at x0 x
        cases y1 with
        | ok b =>
          simp only
          rw [if_pos (x0 b rfl)]
          exact x
        | _ => exact x
    · exact expandAndFitF_ok hU hI f a hn hmax
  unfold allocateF
  rw [alignUp_eq hn64]
  simp only
  generalize getBlockF f up s (arenaBytes n) = y at hget
  obtain ⟨y1, y2, y3⟩ := y
  rcases hget with ⟨b, H', e, h1, h2⟩ | ⟨e, H', h1⟩
  · simp only at e h1 h2
    subst e
    simp only
    split
    · exact .inr ⟨rfl, H', h1⟩
    · exact .inl ⟨_, H', rfl, h2⟩
  · simp only at e h1
    subst e
    exact .inr ⟨rfl, H', h1⟩

theorem deallocateF_ok (hU : Up R G up RR S) {s : Arena × σ} {L H : List Blk} {b : Blk}
    (hI : LaxInv RR S s (b :: L) H) (f : Faults) :
    (s.1.free = [] ∧ (deallocateF f s.1 b.addr).1 = .ub) ∨
    (s.1.free ≠ [] ∧ ((deallocateF f s.1 b.addr).1 = .ok () ∨ (deallocateF f s.1 b.addr).1 = .badAlloc) ∧
      LaxInv RR S ((deallocateF f s.1 b.addr).2, s.2) L H) := by
  have hb : (⟨b.addr, arenaBytes b.size⟩ : ABlock) ∈ s.1.allocated := (hI.live _).2 ⟨b, by simp, rfl⟩
  obtain ⟨p1, p2, p3, p4⟩ := hI.geo.apos _ hb
  have hfind := find_ptr hI.geo.as hb
  simp only at hfind p3
  unfold deallocateF
  rw [hfind]
  simp only [if_neg p3]
  by_cases hne : s.1.free = []
  · left
    refine ⟨hne, ?_⟩
    rw [hne]
    simp [coalesceF, p3]
  · right
    have hH := HOk.of hU.law hU.gap hI.reach
    obtain ⟨F', m, c1, c2⟩ := coalesce_spec (b := ⟨b.addr, arenaBytes b.size⟩) hI.geo.fs hne hI.geo.ff
      (fun c hc => (hI.geo.fpos c hc).1) (fun c hc => hI.geo.fa c hc _ hb) p1 p3
    obtain ⟨e1, e2⟩ := erase_mem hI.geo.as hb
    have hlive : ∀ c, c ∈ s.1.allocated.erase ⟨b.addr, arenaBytes b.size⟩ ↔
        ∃ b ∈ L, c = ⟨b.addr, arenaBytes b.size⟩ := by
      intro c
      rw [e2, hI.live]
      have hd := (List.pairwise_cons.1 hI.distinct).1
      constructor
      · rintro ⟨⟨x, hx, rfl⟩, hp⟩
        rcases List.mem_cons.1 hx with rfl | hx
        · exact absurd rfl hp
        · exact ⟨x, hx, rfl⟩
      · rintro ⟨x, hx, rfl⟩
        exact ⟨⟨x, by simp [hx], rfl⟩, fun he => hd x hx he.symm⟩
    have hpos : ∀ x ∈ L, 0 < x.size := fun x hx => hI.pos x (by simp [hx])
    have hdis := (List.pairwise_cons.1 hI.distinct).2
    refine ⟨hne, ?_⟩
    rcases coalesceF_cases f hI.geo.fs (fun c hc => (hI.geo.fpos c hc).1)
      (b := ⟨b.addr, arenaBytes b.size⟩) p3 hne with ⟨f', x⟩ | ⟨F'', f', x, y⟩
    · rw [c1] at x
      simp only at x
      simp only [x]
      exact ⟨.inl trivial, hI.reach, hI.super, hI.geo.release hH hb e1 e2 c2, hlive, hpos, hdis⟩
    · simp only [x]
      exact ⟨.inr trivial, hI.reach, hI.super, hI.geo.sub y List.erase_sublist, hlive, hpos, hdis⟩

theorem mrF_alloc (f : Faults) {s : Arena × σ} {n a : Nat} (hn : 0 < n) :
    (mrF f up).allocate s n a = allocateF f up s n := by
  simp [mrF, pimpl, Nat.pos_iff_ne_zero.1 hn]

theorem mrF_zero (f : Faults) {s : Arena × σ} {a : Nat} : (mrF f up).allocate s 0 a = (.ok 0, s) := by
  simp [mrF, pimpl]

theorem mrF_null (f : Faults) {s : Arena × σ} {n a : Nat} : (mrF f up).deallocate s 0 n a = (.ok (), s) := by
  simp [mrF, pimpl]

theorem mrF_dealloc (f : Faults) {s : Arena × σ} {p n a : Nat} (hp : p ≠ 0) :
    (mrF f up).deallocate s p n a = ((deallocateF f s.1 p).1, ((deallocateF f s.1 p).2, s.2)) := by
  simp [mrF, pimpl, hp]

theorem LaxInv.reached {R' : Limits} (hU : Up R G up RR S) (hlim : ∀ n a, IsReq R' n a → arenaBytes n ≤ max S minSuper)
    {s0 s : Arena × σ} {L : List Blk} {k : Nat} (h0 : ∃ H, LaxInv RR S s0 [] H)
    (hr : FaultReach R' .drops (fun f => mrF f up) s0 s L k) : ∃ H, LaxInv RR S s L H := by
  induction hr with
  | init => exact h0
  | @alloc s s' L k n a p f _ hq hn e ih =>
    obtain ⟨H, hI⟩ := ih
    rw [mrF_alloc f hn] at e
    rcases allocateF_ok hU hI f a hn (hlim n a hq) with ⟨p', H', e1, h1⟩ | ⟨e1, _⟩
    · rw [e] at e1 h1
      cases e1
      exact ⟨H', h1⟩
    · rw [e] at e1; cases e1
  | @refuse s s' L k n a f _ hq hn e ih =>
    obtain ⟨H, hI⟩ := ih
    rw [mrF_alloc f hn] at e
    rcases allocateF_ok hU hI f a hn (hlim n a hq) with ⟨p', H', e1, _⟩ | ⟨e1, H', h1⟩
    · rw [e] at e1; cases e1
    · rw [e] at h1; exact ⟨H', h1⟩
  | zero f _ _ e ih => rw [mrF_zero f] at e; cases e; exact ih
  | @free s s' L k b f _ e ih =>
    obtain ⟨H, hI⟩ := ih
    rw [mrF_dealloc f hI.good.1] at e
    rcases deallocateF_ok hU hI f with ⟨_, e1⟩ | ⟨_, _, h1⟩
    · rw [(Prod.mk.inj e).1] at e1; cases e1
    · rw [← (Prod.mk.inj e).2]; exact ⟨H, h1⟩
  | @throw s s' L k b f _ e ih =>
    obtain ⟨H, hI⟩ := ih
    rw [mrF_dealloc f hI.good.1] at e
    rw [if_pos rfl]
    rcases deallocateF_ok hU hI f with ⟨_, e1⟩ | ⟨_, _, h1⟩
    · rw [(Prod.mk.inj e).1] at e1; cases e1
    · rw [← (Prod.mk.inj e).2]; exact ⟨H, h1⟩
  | freeNull f _ e ih => rw [mrF_null f] at e; cases e; exact ih
  | perm _ hp ih =>
    obtain ⟨H, hI⟩ := ih
    exact ⟨H, hI.perm hp⟩

theorem LaxInv.answer (hU : Up R G up RR S) {s : Arena × σ} {L H : List Blk} (hI : LaxInv RR S s L H) (f : Faults)
    {n a : Nat} (hn : 0 < n) (hmax : arenaBytes n ≤ max S minSuper) (ha : ∃ k, a = 2 ^ k) :
    GoodAnswer maxAlign L n a (allocateF f up s n).1 := by
  rcases allocateF_ok hU hI f a hn hmax with ⟨p, H', e, h⟩ | ⟨e, _⟩
  · rw [e]
    obtain ⟨g1, g2, ⟨b, hb, hin⟩, g4⟩ := h.good
    refine ⟨g1, ?_, ?_, g4⟩
    · have := ((hU.law.live h.reach).1 b hb).2.1
      unfold Blk.Inside at hin
      simp only at hin
      omega
    · intro hle
      obtain ⟨k, rfl⟩ := ha
      have hk : k ≤ 4 := by
        by_contra hlt
        have : 2 ^ 5 ≤ 2 ^ k := Nat.pow_le_pow_right (by decide) (by omega)
        simp only [maxAlign] at hle
        omega
      exact Nat.dvd_trans (Nat.pow_dvd_pow 2 hk) g2
  · rw [e]; trivial

end Arena

end Vecmem
