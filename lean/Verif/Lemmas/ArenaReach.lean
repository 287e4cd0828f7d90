import Verif.Lemmas.ArenaInv

/-! Histories of the arena resource. -/

namespace Vecmem

open IntMath

variable {σ : Type} {R R' : Limits} {up : MR σ} {RR : σ → List Blk → Prop} {S G : Nat}

namespace Arena

theorem create_ok {u0 : σ} (hU : Up R G up RR S) (h0 : RR u0 []) (M : Nat) :
    ((create up u0 S M).1 = .badAlloc ∧ RR (create up u0 S M).2 []) ∨
    ∃ a H, (create up u0 S M).1 = .ok a ∧ Inv RR S (a, (create up u0 S M).2) [] H := by
  have hone : ∀ (a : Arena) (n : Nat), a.superSize = S → a.free = [] → a.allocated = [] → n ≤ S →
      ((expand up (a, u0) n).1 = .badAlloc ∧ RR (expand up (a, u0) n).2.2 []) ∨
      ∃ b H, (expand up (a, u0) n).1 = .ok b ∧
        Inv RR S ({ (expand up (a, u0) n).2.1 with
          free := setInsert (expand up (a, u0) n).2.1.free b }, (expand up (a, u0) n).2.2) [] H := by
    intro a n h1 h2 h3 hn
    have hes : expandSize S n = S := by unfold expandSize; rw [if_neg (by omega)]
    rcases expand_ok (L := []) (s := (a, u0)) hU (H := []) h0
      (by simp only [h2, h3]; exact Geo.empty) h1 n with ⟨e1, e2, e3⟩ | ⟨p, e1, e2, e3, e4, e5, e6⟩
    · exact .inl ⟨e1, e3⟩
    · right
      rw [hes] at e1 e2 e5 e6
      refine ⟨_, [⟨p, S, maxAlign⟩], e1, ?_⟩
      rw [setInsert_present ⟨_, e6, rfl⟩]
      refine ⟨e2, e3, ?_, ?_, ?_, ?_, by simp, .nil⟩
      · intro h hh
        obtain rfl := List.mem_singleton.1 hh
        exact ⟨rfl, .inl rfl⟩
      · exact ⟨_, List.mem_singleton.2 rfl, rfl⟩
      · simp only [e4]; exact e5
      · intro c; simp [e4, h3]
  unfold create
  have hn : (if S = 2 ^ 64 - 1 then alignUp (S / 2) else S) ≤ S := by
    split
    · rename_i h
      rw [h]
      decide
    · exact Nat.le_refl _
  simp only
  generalize (if S = 2 ^ 64 - 1 then alignUp (S / 2) else S) = n at hn
  generalize ha : (if M = 2 ^ 64 - 1 then
    ({ superSize := S, maxSize := 2 ^ 64 - 1 - 2 ^ 26 } : Arena) else { superSize := S, maxSize := M }) = a
  have q1 : a.superSize = S ∧ a.free = [] ∧ a.allocated = [] := by
    rw [← ha]; split <;> exact ⟨rfl, rfl, rfl⟩
  rcases hone a n q1.1 q1.2.1 q1.2.2 hn with ⟨e1, e2⟩ | ⟨b, H, e1, e2⟩
  · left
    rw [e1]
    exact ⟨rfl, e2⟩
  · right
    rw [e1]
    exact ⟨_, H, rfl, e2⟩

theorem mr_alloc {s : Arena × σ} {n a : Nat} (hn : 0 < n) :
    (mr up).allocate s n a = allocate up s n := by
  simp [mr, pimpl, impl, Nat.pos_iff_ne_zero.1 hn]

theorem mr_zero {s : Arena × σ} {a : Nat} : (mr up).allocate s 0 a = (.ok 0, s) := by
  simp [mr, pimpl]

theorem mr_null {s : Arena × σ} {n a : Nat} : (mr up).deallocate s 0 n a = (.ok (), s) := by
  simp [mr, pimpl]

theorem mr_dealloc {s : Arena × σ} {p n a : Nat} (hp : p ≠ 0) :
    (mr up).deallocate s p n a = ((deallocate s.1 p).1, ((deallocate s.1 p).2, s.2)) := by
  simp [mr, pimpl, impl, hp]

theorem Inv.live_wf (hU : Up R G up RR S) {s : Arena × σ} {H L : List Blk} (hI : Inv RR S s L H)
    {b : Blk} (hb : b ∈ L) :
    b.addr ≠ 0 ∧ 16 ∣ b.addr ∧ (∃ h ∈ H, b.Inside h) ∧ b.addr + b.size ≤ 2 ^ 64 := by
  obtain ⟨s1, s2, rfl⟩ := List.append_of_mem hb
  have := (hI.perm (List.perm_middle)).good hU
  refine ⟨this.1, this.2.1, this.2.2.1, ?_⟩
  obtain ⟨h, hh, hin⟩ := this.2.2.1
  have := ((hU.law.live hI.reach).1 h hh).2.1
  unfold Blk.Inside at hin; omega

/-- Requests are answered correctly. -/
theorem Inv.answer (hU : Up R G up RR S) {s : Arena × σ} {H L : List Blk} (hI : Inv RR S s L H)
    {n a : Nat} (hn : 0 < n) (hmax : arenaBytes n ≤ max S minSuper) (ha : ∃ k, a = 2 ^ k) :
    GoodAnswer maxAlign L n a ((mr up).allocate s n a).1 := by
  rw [mr_alloc hn]
  rcases allocate_ok (a := a) hU hI hn hmax with ⟨p, H', e1, e2⟩ | ⟨e1, e2⟩
  · rw [e1]
    obtain ⟨g1, g2, g3, g4⟩ := e2.good hU
    refine ⟨g1, (e2.live_wf hU List.mem_cons_self).2.2.2, ?_, g4⟩
    intro hle
    obtain ⟨k, rfl⟩ := ha
    refine Nat.dvd_trans (Nat.pow_dvd_pow 2 ?_) (show 2 ^ 4 ∣ p from g2)
    exact (Nat.pow_le_pow_iff_right (a := 2) (by decide)).1 hle
  · rw [e1]; trivial

theorem Inv.live_disjoint {s : Arena × σ} {H L : List Blk} (hI : Inv RR S s L H) : L.Pairwise Blk.Disjoint := by
  refine List.Pairwise.imp_of_mem ?_ hI.distinct
  intro b c hb hc hne
  have hcb : (⟨b.addr, arenaBytes b.size⟩ : ABlock) ∈ s.1.allocated := (hI.live _).2 ⟨b, hb, rfl⟩
  have hcc : (⟨c.addr, arenaBytes c.size⟩ : ABlock) ∈ s.1.allocated := (hI.live _).2 ⟨c, hc, rfl⟩
  have := hI.geo.aa _ hcb _ hcc hne
  have := (arenaBytes_spec b.size).1
  have := (arenaBytes_spec c.size).1
  unfold Dj at *
  unfold Blk.Disjoint
  simp only at *
  omega

/-- Correct calls keep the invariant; the deallocation of live blocks is excepted. -/
theorem inv_calls (hU : Up R G up RR S) (hlim : ∀ n a, IsReq R' n a → arenaBytes n ≤ max S minSuper)
    {s s' : Arena × σ} {L : List Blk} (h : ∃ H, Inv RR S s L H) :
    (∀ n a p, IsReq R' n a → 0 < n → (mr up).allocate s n a = (.ok p, s') → ∃ H, Inv RR S s' (⟨p, n, a⟩ :: L) H) ∧
    (∀ n a, IsReq R' n a → 0 < n → (mr up).allocate s n a = (.badAlloc, s') → ∃ H, Inv RR S s' L H) ∧
    (∀ b L', L = b :: L' → (mr up).deallocate s b.addr b.size b.align = (.ok (), s') →
      ∃ H, Inv RR S s' L' H) := by
  obtain ⟨H, hI⟩ := h
  refine ⟨?_, ?_, ?_⟩
  · intro n a p hq hn he
    rw [mr_alloc hn] at he
    have := allocate_ok (a := a) hU hI hn (hlim n a hq)
    rw [he] at this
    rcases this with ⟨p', H', e1, e2⟩ | ⟨e1, _⟩
    · cases e1
      exact ⟨H', e2⟩
    · cases e1
  · intro n a hq hn he
    rw [mr_alloc hn] at he
    have := allocate_ok (a := a) hU hI hn (hlim n a hq)
    rw [he] at this
    rcases this with ⟨p', H', e1, e2⟩ | ⟨_, e2⟩
    · cases e1
    · exact ⟨H, e2⟩
  · rintro b L' rfl he
    rw [mr_dealloc (hI.good hU).1] at he
    obtain ⟨e1, e2⟩ := Prod.mk.inj he
    rcases deallocate_ok hU hI with ⟨_, h⟩ | ⟨_, _, h⟩
    · rw [h] at e1; cases e1
    · rw [e2] at h; exact ⟨H, h⟩

theorem reach_inv (hU : Up R G up RR S) {s0 : Arena × σ} {H0 : List Blk}
    (h0 : Inv RR S s0 [] H0) (hlim : ∀ n a, IsReq R' n a → arenaBytes n ≤ max S minSuper)
    {s : Arena × σ} {L : List Blk} (hr : Reach R' (mr up) s0 s L) : ∃ H, Inv RR S s L H := by
  induction hr with
  | init => exact ⟨H0, h0⟩
  | alloc h1 hq hn he ih => exact (inv_calls hU hlim ih).1 _ _ _ hq hn he
  | refuse h1 hq hn he ih => exact (inv_calls hU hlim ih).2.1 _ _ hq hn he
  | zero h1 hq he ih =>
    rw [mr_zero] at he
    obtain ⟨rfl, rfl⟩ := Prod.mk.inj he
    exact ih
  | free h1 he ih => exact (inv_calls hU hlim ih).2.2 _ _ rfl he
  | freeNull h1 he ih =>
    rw [mr_null] at he
    obtain ⟨rfl, rfl⟩ := Prod.mk.inj he
    exact ih
  | perm _ hp ih =>
    obtain ⟨H, hI⟩ := ih
    exact ⟨H, hI.perm hp⟩

/-- An arena whose initial size is not a multiple of 256 serves requests that fit into a superblock. -/
theorem serves (hU : Up R G up RR S) (hodd : S % 256 ≠ 0)
    (hlim : ∀ n a, IsReq R' n a → arenaBytes n ≤ max S minSuper) :
    Serves R' maxAlign (mr up) (fun s L => (∃ H, Inv RR S s L H) ∧ Live R' maxAlign L) := by
  refine Serves.of_inv_live ?_ ?_ ?_ ?_ ?_
  · rintro s L n a h _ hq hn
    refine ⟨?_, ?_, ?_⟩
    · obtain ⟨H, hI⟩ := h
      exact hI.answer hU hn (hlim n a hq) hq.2.2
    · intro p hp
      exact (inv_calls hU hlim h).1 n a p hq hn (by rw [← hp])
    · intro hb
      exact (inv_calls hU hlim h).2.1 n a hq hn (by rw [← hb])
  · intro s L a h hq; rw [mr_zero]; exact ⟨.inl rfl, h⟩
  · intro s L b h _
    have hok : ((mr up).deallocate s b.addr b.size b.align).1 = .ok () := by
      obtain ⟨H, hI⟩ := h
      rw [mr_dealloc (hI.good hU).1]
      rcases deallocate_ok hU hI with ⟨e, _⟩ | ⟨_, e, _⟩
      · exact absurd e (hI.free_of_odd hU hodd)
      · exact e
    exact ⟨hok, (inv_calls hU hlim h).2.2 b L rfl (by rw [← hok])⟩
  · intro s L n a h; rw [mr_null]; exact ⟨rfl, h⟩
  · rintro s L L' ⟨H, hI⟩ hp; exact ⟨H, hI.perm hp⟩

theorem releaseAll_ok {H : List Blk} (hH : HOk H) : ∀ (bs : List ABlock) (a : Arena), a.allocated = bs →
    Geo H a.free bs → (a.free ≠ [] ∨ bs = []) →
    ∃ a', releaseAll bs a = (.ok (), a') ∧ Geo H a'.free []
  | [], a, _, hg, _ => ⟨a, rfl, hg⟩
  | b :: bs, a, ha, hg, hne => by
    have hne : a.free ≠ [] := by
      rcases hne with h | h
      · exact h
      · simp at h
    obtain ⟨F', d1, d2, d3⟩ := deallocate_geo (a := a) (b := b) hH (by rw [ha]; exact hg) (by rw [ha]; simp) hne
    have e : a.allocated.erase b = bs := by rw [ha]; simp
    rw [e] at d1 d2
    obtain ⟨a', r1, r2⟩ := releaseAll_ok hH bs { a with free := F', allocated := bs } rfl d2 (.inl d3)
    refine ⟨a', ?_, r2⟩
    unfold releaseAll
    rw [d1]
    exact r1

theorem returnAll_ok (hl : Serves R G up RR) {U : List Blk} : ∀ (bs : List ABlock) (u : σ),
    RR u (bs.map toBlk ++ U) →
    (returnAll up u bs).1 = .ok () ∧ RR (returnAll up u bs).2 U
  | [], u, h => ⟨rfl, h⟩
  | b :: bs, u, h => by
    have hd := hl.dealloc h (b := toBlk b) (by simp)
    unfold returnAll
    cases hr : up.deallocate u b.ptr b.size maxAlign with
    | mk r u' =>
    have hr' : up.deallocate u (toBlk b).addr (toBlk b).size (toBlk b).align = (r, u') := hr
    rw [hr'] at hd
    simp only at hd
    subst hd
    exact returnAll_ok hl bs u' (hl.sFree h hr')

theorem destroy_ok (hU : Up R G up RR S) {s : Arena × σ} {L H : List Blk}
    (hI : Inv RR S s L H) (hne : s.1.free ≠ [] ∨ L = []) :
    (destroy up s).1 = .ok () ∧ RR (destroy up s).2 [] := by
  have hH := HOk.of hU.law hU.gap hI.reach
  have hA : s.1.free ≠ [] ∨ s.1.allocated = [] := by
    rcases hne with h | h
    · exact .inl h
    · right
      rw [List.eq_nil_iff_forall_not_mem]
      intro c hc
      obtain ⟨b, hb, _⟩ := (hI.live c).1 hc
      rw [h] at hb; simp at hb
  obtain ⟨a', r1, r2⟩ := releaseAll_ok hH s.1.allocated s.1 rfl hI.geo hA
  unfold destroy
  rw [r1]
  refine returnAll_ok hU.law a'.free s.2 ?_
  rw [List.append_nil]
  refine hU.law.perm hI.reach ?_
  obtain ⟨w1, w2⟩ := r2.whole hH
  have hn1 : H.Nodup := by
    have := (hU.law.live hI.reach).2
    refine List.Pairwise.imp_of_mem ?_ this
    intro a b ha hb hd he
    subst he
    have := hH.pos a ha
    unfold Blk.Disjoint at hd; omega
  have hn2 : (a'.free.map toBlk).Nodup := by
    refine List.pairwise_map.2 (List.Pairwise.imp ?_ r2.fs)
    intro a b hab he
    simp only [toBlk, Blk.mk.injEq] at he
    omega
  refine (List.perm_ext_iff_of_nodup hn1 hn2).2 ?_
  intro x
  rw [List.mem_map]
  constructor
  · intro hx
    refine ⟨_, w1 x hx, ?_⟩
    have := (hI.sup x hx).1
    simp only [toBlk, ← this]
  · rintro ⟨c, hc, rfl⟩
    obtain ⟨h, hh, rfl⟩ := w2 c hc
    have := (hI.sup h hh).1
    simp only [toBlk, ← this]
    exact hh

end Arena

end Vecmem
