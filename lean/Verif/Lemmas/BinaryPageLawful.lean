import Verif.Spec.BinaryPage
import Verif.Lemmas.BinaryPage
import Verif.Lemmas.Serves

/-! The binary page resource is well-behaved. -/

namespace Vecmem

open PageState Buddy IntMath

namespace BinPage

/-! ### Searching -/

theorem scan_spec {sp : Superpage} (hw : sp.Wf) : ∀ (count p : Nat), p + count ≤ 511 →
    (∃ q, scan sp count p = some (some q) ∧ p ≤ q ∧ q < p + count ∧ sp.st (q + 1) = vacant) ∨
    (scan sp count p = some none ∧ ∀ q, p ≤ q → q < p + count → sp.st (q + 1) ≠ vacant) := by
  intro count
  induction count with
  | zero => intro p _; right; exact ⟨rfl, fun q _ _ => by omega⟩
  | succ c ih =>
    intro p hp
    unfold scan
    rw [getState_eq hw (by omega)]
    simp only [Option.bind_eq_bind, Option.bind_some]
    split
    · rename_i hv; left; exact ⟨p, rfl, by omega, by omega, hv⟩
    · rename_i hv
      rcases ih (p + 1) (by omega) with ⟨q, h1, h2, h3, h4⟩ | ⟨h1, h2⟩
      · left; exact ⟨q, h1, by omega, by omega, h4⟩
      · right; refine ⟨h1, fun q h3 h4 => ?_⟩
        by_cases e : q = p
        · subst e; exact hv
        · exact h2 q (by omega) (by omega)

/-- `(k, i)` is a vacant page of the superpages `sps` that can hold a page of (log₂) size `size`. -/
def Cand (sps : List Superpage) (size : Nat) (c : Nat × Nat) : Prop :=
  ∃ sp h, sps[c.1]? = some sp ∧ c.2 = h - 1 ∧ 1 ≤ h ∧ h ≤ 511 ∧ sp.st h = vacant ∧
    sp.minPage ≤ size ∧ size ≤ sp.size - Nat.log2 h

theorem log2_of_range {h d : Nat} (h1 : 2 ^ d ≤ h) (h2 : h < 2 ^ (d + 1)) : Nat.log2 h = d := by
  have h0 : h ≠ 0 := by have := Nat.two_pow_pos d; omega
  have a := (Nat.le_log2 h0).2 h1
  have b := (Nat.log2_lt h0).2 h2
  omega

theorem searchSize_spec {size search : Nat} (hss : size ≤ search) : ∀ (sps : List Superpage) (k : Nat),
    (∀ sp ∈ sps, SpInv sp) →
    (∃ b j i, searchSize size search k sps = some (b, some (k + j, i)) ∧ Cand sps size (j, i)) ∨
    (∃ b, searchSize size search k sps = some (b, none) ∧
      (b = false → ∀ sp ∈ sps, sp.minPage ≤ size → sp.size < search) ∧
      (∀ sp ∈ sps, sp.minPage ≤ size → ∀ h, 1 ≤ h → h ≤ 511 → sp.st h = vacant →
        sp.size - Nat.log2 h ≠ search)) := by
  intro sps
  induction sps with
  | nil => intro k _; right; exact ⟨false, rfl, by simp, by simp⟩
  | cons sp rest ih =>
    intro k hI
    have hsp := hI sp List.mem_cons_self
    have hrest := ih (k + 1) (fun sp h => hI sp (List.mem_cons_of_mem _ h))
    have hshift : ∀ {j i : Nat}, Cand rest size (j, i) → Cand (sp :: rest) size (j + 1, i) := by
      rintro j i ⟨s, h, h1, h2⟩
      exact ⟨s, h, by simpa using h1, h2⟩
    unfold searchSize
    by_cases hel : size ≥ sp.minPage ∧ search ≤ sp.size
    · rw [if_pos hel]
      have hls := levelStart_ok hsp.wf (s := search) (by omega) hel.2 64 0 (by omega)
        (by have := hsp.wf.max; omega)
      rw [show (2 ^ 0 - 1) = 0 from rfl] at hls
      have hd8 : sp.size - search ≤ 8 := by have := hsp.wf.delta; omega
      generalize hd : sp.size - search = d at *
      have hpow : 2 ^ d ≤ 256 := by
        have := Nat.pow_le_pow_right (n := 2) (by omega) hd8; omega
      have hpos := Nat.two_pow_pos d
      rw [hls]
      simp only [Option.bind_eq_bind, Option.bind_some]
      rw [show 2 * (2 ^ d - 1) + 1 - (2 ^ d - 1) = 2 ^ d by omega]
      have hlog : ∀ q, 2 ^ d - 1 ≤ q → q < 2 ^ d - 1 + 2 ^ d → Nat.log2 (q + 1) = d := by
        intro q h1 h2; exact log2_of_range (by omega) (by rw [Nat.pow_succ]; omega)
      rcases scan_spec hsp.wf (2 ^ d) (2 ^ d - 1) (by omega) with ⟨q, h1, h2, h3, h4⟩ | ⟨h1, h2⟩
      · left
        rw [h1]
        refine ⟨true, 0, q, rfl, sp, q + 1, rfl, rfl, by omega, by omega, h4, hel.1, ?_⟩
        rw [hlog q h2 h3]; omega
      · rw [h1]
        simp only [Option.bind_some]
        have hnone : ∀ h, 1 ≤ h → h ≤ 511 → sp.st h = vacant → sp.size - Nat.log2 h ≠ search := by
          intro h g1 g2 g3 g4
          have hld := hsp.wf.depth g2 g1
          have : Nat.log2 h = d := by omega
          have l1 := Nat.log2_self_le (n := h) (by omega)
          have l2 := Nat.lt_log2_self (n := h)
          rw [this] at l1 l2
          rw [Nat.pow_succ] at l2
          refine h2 (h - 1) (by omega) (by omega) ?_
          rw [Nat.sub_add_cancel g1]; exact g3
        rcases hrest with ⟨b, j, i, r1, r2⟩ | ⟨b, r1, _, r3⟩
        · left
          rw [r1]
          exact ⟨true, j + 1, i, by simp only [Option.map_some]; congr 4; omega, hshift r2⟩
        · right
          rw [r1]
          refine ⟨true, rfl, by simp, ?_⟩
          intro s hs hmin
          rcases List.mem_cons.1 hs with rfl | hs
          · exact hnone
          · exact r3 s hs hmin
    · rw [if_neg hel]
      rcases hrest with ⟨b, j, i, r1, r2⟩ | ⟨b, r1, r2, r3⟩
      · left; exact ⟨b, j + 1, i, by rw [r1]; congr 4; omega, hshift r2⟩
      · right
        refine ⟨b, r1, ?_, ?_⟩
        · intro hb s hs hmin
          rcases List.mem_cons.1 hs with rfl | hs
          · omega
          · exact r2 hb s hs hmin
        · intro s hs hmin h g1 g2 g3
          rcases List.mem_cons.1 hs with rfl | hs
          · have : s.size < search := by omega
            omega
          · exact r3 s hs hmin h g1 g2 g3

theorem findLoop_spec {sps : List Superpage} {size : Nat} (hI : ∀ sp ∈ sps, SpInv sp) :
    ∀ (fuel search : Nat), size ≤ search → 65 ≤ search + fuel → 0 < fuel →
    (∃ c, findLoop sps size fuel search = some (some c) ∧ Cand sps size c) ∨
    (findLoop sps size fuel search = some none ∧
      ∀ sp ∈ sps, sp.minPage ≤ size → ∀ h, 1 ≤ h → h ≤ 511 → sp.st h = vacant →
        sp.size - Nat.log2 h < search) := by
  intro fuel
  induction fuel with
  | zero => intro search _ _ h; omega
  | succ f ih =>
    intro search h1 h2 _
    unfold findLoop
    rcases searchSize_spec h1 sps 0 hI with ⟨b, j, i, r1, r2⟩ | ⟨b, r1, r2, r3⟩
    · left
      rw [r1]
      refine ⟨(j, i), ?_, r2⟩
      simp only [Option.bind_eq_bind, Option.bind_some, Nat.zero_add]
    · rw [r1]
      simp only [Option.bind_eq_bind, Option.bind_some]
      cases b with
      | false =>
        right
        refine ⟨rfl, ?_⟩
        intro sp hsp hmin h g1 g2 g3
        have := r2 rfl sp hsp hmin; omega
      | true =>
        simp only
        by_cases hf : f = 0
        · -- the search size exceeds all sizes, so the previous round has found no superpage
          exfalso
          subst hf
          have : ∀ (sps : List Superpage) (k : Nat), (∀ sp ∈ sps, SpInv sp) →
              ∀ r, searchSize size search k sps = some (true, r) → False := by
            intro sps
            induction sps with
            | nil => intro k _ r hr; simp [searchSize] at hr
            | cons sp rest ih' =>
              intro k hI r hr
              unfold searchSize at hr
              have := (hI sp List.mem_cons_self).wf.max
              rw [if_neg (by omega)] at hr
              exact ih' (k + 1) (fun sp h => hI sp (List.mem_cons_of_mem _ h)) r hr
          exact this sps 0 hI _ r1
        · rcases ih (search + 1) (by omega) (by omega) (by omega) with ⟨c, q1, q2⟩ | ⟨q1, q2⟩
          · left; exact ⟨c, q1, q2⟩
          · right
            refine ⟨q1, ?_⟩
            intro sp hsp hmin h g1 g2 g3
            have := q2 sp hsp hmin h g1 g2 g3
            have := r3 sp hsp hmin h g1 g2 g3
            omega

theorem findFreePage_spec {sps : List Superpage} {size : Nat} (hI : ∀ sp ∈ sps, SpInv sp) :
    (∃ c, findFreePage sps size = some (some c) ∧ Cand sps size c) ∨
    (findFreePage sps size = some none ∧
      ∀ sp ∈ sps, sp.minPage ≤ size → ∀ h, 1 ≤ h → h ≤ 511 → sp.st h = vacant →
        sp.size - Nat.log2 h < size) :=
  findLoop_spec hI 66 size (by omega) (by omega) (by omega)

/-! ### New superpages -/

theorem newSuperpage_ok {m p : Nat} (h1 : 16 ≤ m) (h2 : m ≤ 63) :
    ∃ sp, newSuperpage m p = some sp ∧ sp.size = m ∧ sp.minPage = m - 8 ∧ sp.mem = p ∧ SpInv sp ∧
      sp.st 1 = vacant ∧ ∀ h, sp.st h ≠ occupied := by
  have hmin : wrap64 (m + 2 ^ 64 - deltaSuperpageSize) = m - 8 := by
    unfold wrap64 deltaSuperpageSize; omega
  refine ⟨⟨m, m - 8, (List.range 511).map
    (fun i => if i = 0 then PageState.vacant else PageState.nonExtant), p⟩, ?_, rfl, rfl, rfl, ?_⟩
  · unfold newSuperpage
    simp only [hmin]
    rw [if_neg (by unfold minPageSize; omega), show m - (m - 8) = 8 by omega]
    rfl
  · have hst : ∀ h, Superpage.st ⟨m, m - 8, (List.range 511).map
        (fun i => if i = 0 then PageState.vacant else PageState.nonExtant), p⟩ h =
        if h = 1 then vacant else nonExtant := by
      intro h
      unfold Superpage.st
      by_cases h0 : h = 0
      · subst h0; simp
      · rw [if_neg h0]
        simp only [List.getD_eq_getElem?_getD, List.getElem?_map]
        by_cases hlt : h - 1 < 511
        · rw [List.getElem?_range hlt]
          simp only [Option.map_some, Option.getD_some]
          by_cases h1 : h = 1
          · subst h1; simp
          · rw [if_neg (by omega), if_neg h1]
        · rw [List.getElem?_eq_none (by simp; omega)]
          simp only [Option.map_none, Option.getD_none]
          rw [if_neg (by omega)]
    refine ⟨⟨⟨by simp, by simp only; omega, by simp only; omega, h2⟩, ⟨?_, ?_, ?_, ?_⟩, ?_⟩, ?_, ?_⟩
    · rw [hst]; simp
    · intro h hh; rw [hst, hst, if_neg (show 2 * h ≠ 1 by omega)]
      split <;> simp
    · intro h hh; rw [hst, hst, if_neg (show 2 * h + 1 ≠ 1 by omega)]
      split <;> simp
    · intro h hh; rw [hst, if_neg (by omega)]
    · intro g hg h1; rw [hst] at h1; split at h1 <;> cases h1
    · rw [hst]; rfl
    · intro h; rw [hst]; split <;> simp

/-! ### The invariant -/

variable {σ : Type} {R : Limits} {up : MR σ} {RR : σ → List Blk → Prop}

/-- The chunk of a superpage, as requested from upstream. -/
def spBlk (sp : Superpage) : Blk := ⟨sp.mem, 2 ^ sp.size, maxAlign⟩

/-- (log₂) size of the page for a request. -/
def pageLog (n : Nat) : Nat := max 8 (clog2 n)

/-- Page `h` of superpage number `k` holds `b`. -/
def Holds (sps : List Superpage) (k : Nat) (sp : Superpage) (h : Nat) (b : Blk) : Prop :=
  sps[k]? = some sp ∧ 1 ≤ h ∧ sp.st h = occupied ∧ b.addr = sp.mem + off sp.size h ∧
    pageLog b.size = sp.size - Nat.log2 h ∧ sp.minPage ≤ pageLog b.size

structure Inv (R : Limits) (RR : σ → List Blk → Prop) (s : List Superpage × σ) (L : List Blk) : Prop where
  reach : RR s.2 (s.1.map spBlk)
  sps : ∀ sp ∈ s.1, SpInv sp
  held : ∀ b ∈ L, ∃ k sp h, Holds s.1 k sp h b
  live : ∀ sp k, s.1[k]? = some sp → ∀ h, 1 ≤ h → sp.st h = occupied → ∃ b ∈ L, Holds s.1 k sp h b
  wf : ∀ b ∈ L, 0 < b.size ∧ b.size ≤ 2 ^ 63
  distinct : L.Pairwise fun b c => b.addr ≠ c.addr

theorem Inv.perm {s : List Superpage × σ} {L L' : List Blk} (h : Inv R RR s L) (hp : L.Perm L') :
    Inv R RR s L' :=
  ⟨h.reach, h.sps, fun b hb => h.held b (hp.symm.subset hb),
    fun sp k hk g hg ho => by
      obtain ⟨b, hb, h1⟩ := h.live sp k hk g hg ho
      exact ⟨b, hp.subset hb, h1⟩,
    fun b hb => h.wf b (hp.symm.subset hb),
    hp.pairwise h.distinct (fun h => Ne.symm h)⟩

theorem chunks_disjoint (hl : Serves R G up RR) {s : List Superpage × σ}
    (hr : RR s.2 (s.1.map spBlk)) {k k' : Nat} {sp sp' : Superpage}
    (hk : s.1[k]? = some sp) (hk' : s.1[k']? = some sp') (hne : k ≠ k') :
    (spBlk sp).Disjoint (spBlk sp') := by
  have hp := (hl.live hr).2
  rw [List.pairwise_map, List.pairwise_iff_getElem] at hp
  obtain ⟨l1, e1⟩ := List.getElem?_eq_some_iff.1 hk
  obtain ⟨l2, e2⟩ := List.getElem?_eq_some_iff.1 hk'
  rcases Nat.lt_or_gt_of_ne hne with h | h
  · have := hp k k' l1 l2 h; rw [e1, e2] at this; exact this
  · have := hp k' k l2 l1 h; rw [e1, e2] at this; exact this.symm

/-- The block of a page. -/
def pageBlk (sp : Superpage) (h : Nat) : Blk :=
  ⟨sp.mem + off sp.size h, 2 ^ (sp.size - Nat.log2 h), 1⟩

theorem pageBlk_inside {sp : Superpage} (hw : sp.Wf) {h : Nat} (h1 : 1 ≤ h) (h2 : h ≤ 511) :
    (pageBlk sp h).Inside (spBlk sp) := by
  have := off_le (N := sp.size) h1 (hw.depth h2 h1)
  simp only [Blk.Inside, pageBlk, spBlk]; omega

/-- Different occupied pages are disjoint. -/
theorem pages_disjoint (hl : Serves R G up RR) {s : List Superpage × σ}
    (hr : RR s.2 (s.1.map spBlk)) (hI : ∀ sp ∈ s.1, SpInv sp) {k k' h h' : Nat}
    {sp sp' : Superpage} (hk : s.1[k]? = some sp) (hk' : s.1[k']? = some sp') (h1 : 1 ≤ h)
    (h1' : 1 ≤ h') (ho : sp.st h = occupied) (ho' : sp'.st h' = occupied) (hne : ¬ (k = k' ∧ h = h')) :
    (pageBlk sp h).Disjoint (pageBlk sp' h') := by
  have hs := hI sp (List.mem_of_getElem? hk)
  have hs' := hI sp' (List.mem_of_getElem? hk')
  have h2 : h ≤ 511 := hs.tree.le (by rw [ho]; simp)
  have h2' : h' ≤ 511 := hs'.tree.le (by rw [ho']; simp)
  by_cases hkk : k = k'
  · subst hkk
    rw [hk] at hk'; cases hk'
    have := hs.tree.disjoint (N := sp.size) h1 h1' (hs.wf.depth h2 h1) (hs.wf.depth h2' h1') ho ho'
      (fun e => hne ⟨rfl, e⟩)
    simp only [Blk.Disjoint, pageBlk]; omega
  · exact (chunks_disjoint hl hr hk hk' hkk).mono (pageBlk_inside hs.wf h1 h2)
      (pageBlk_inside hs'.wf h1' h2')

theorem Holds.inside {sps : List Superpage} {k h : Nat} {sp : Superpage} {b : Blk}
    (hh : Holds sps k sp h b) (hb : b.size ≤ 2 ^ 63) : b.Inside (pageBlk sp h) := by
  obtain ⟨_, _, _, e, e2, _⟩ := hh
  simp only [Blk.Inside, pageBlk, e, ← e2]
  have h1 := le_two_pow_clog2 b.size
  have h2 : 2 ^ clog2 b.size ≤ 2 ^ pageLog b.size :=
    Nat.pow_le_pow_right (by omega) (by unfold pageLog; omega)
  omega

theorem Inv.good {G : Nat} (hl : Serves R G up RR) (hG : maxAlign ≤ G) {s : List Superpage × σ}
    {L : List Blk} {p n a : Nat} (ha : ∃ k, a = 2 ^ k) (h : Inv R RR s (⟨p, n, a⟩ :: L)) :
    GoodAnswer maxAlign L n a (.ok p) ∧ ∃ c ∈ s.1.map spBlk, Blk.Inside ⟨p, n, a⟩ c := by
  obtain ⟨k, sp, g, hh⟩ := h.held _ List.mem_cons_self
  have hin := hh.inside (h.wf _ List.mem_cons_self).2
  have hsp := h.sps sp (List.mem_of_getElem? hh.1)
  have h511 : g ≤ 511 := hsp.tree.le (by rw [hh.2.2.1]; simp)
  have hin2 := hin.trans (pageBlk_inside hsp.wf hh.2.1 h511)
  have hmem : spBlk sp ∈ s.1.map spBlk := List.mem_map.2 ⟨sp, List.mem_of_getElem? hh.1, rfl⟩
  obtain ⟨w1, w2, w3, w4, _⟩ := (hl.live h.reach).1 _ hmem
  refine ⟨⟨?_, ?_, ?_, ?_⟩, _, hmem, hin2⟩
  · simp only [Blk.Inside, spBlk] at hin2 w1; omega
  · simp only [Blk.Inside, spBlk] at hin2 w2; omega
  · intro hle
    obtain ⟨j, rfl⟩ := ha
    have hj : j ≤ 4 := by
      have : (2:Nat) ^ j ≤ 2 ^ 4 := hle
      exact (Nat.pow_le_pow_iff_right (a := 2) (by decide)).1 this
    have h16 : (2:Nat) ^ j ∣ 2 ^ 4 := Nat.pow_dvd_pow 2 hj
    have hd1 : (2:Nat) ^ 4 ∣ sp.mem := w3 hG
    have e := hh.2.2.2.1
    simp only at e
    rw [e]
    refine Nat.dvd_add (Nat.dvd_trans h16 hd1) (Nat.dvd_trans h16 ?_)
    unfold off
    refine Nat.dvd_mul_left_of_dvd (Nat.pow_dvd_pow 2 ?_) _
    have := hh.2.2.2.2.1
    simp only [pageLog] at this; omega
  · intro b hb
    obtain ⟨k', sp', g', hh'⟩ := h.held b (List.mem_cons_of_mem _ hb)
    have hin' := hh'.inside (h.wf _ (List.mem_cons_of_mem _ hb)).2
    have hne := (List.pairwise_cons.1 h.distinct).1 b hb
    refine (pages_disjoint hl h.reach h.sps hh.1 hh'.1 hh.2.1 hh'.2.1 hh.2.2.1 hh'.2.2.1 ?_).mono hin hin'
    rintro ⟨rfl, rfl⟩
    have e1 := hh.1; rw [hh'.1] at e1; cases e1
    exact hne (by rw [hh.2.2.2.1, hh'.2.2.2.1])

theorem roundUp?_eq {dbg : Bool} {n : Nat} (h0 : 0 < n) (h : n ≤ 2 ^ 63) :
    roundUp? dbg n = some (clog2 n) := by
  have h' : (1 <<< 63) ≥ n := by rw [Nat.one_shiftLeft]; exact h
  unfold roundUp? roundUp
  rw [roundUpRelease_eq_clog2 (by omega) h]
  simp only [if_pos h']
  split <;> trivial

theorem map_spBlk_set {sps : List Superpage} {k : Nat} {sp sp' : Superpage} (hk : sps[k]? = some sp)
    (hs : sp.Same sp') : (sps.set k sp').map spBlk = sps.map spBlk := by
  rw [List.map_set]
  have : spBlk sp' = spBlk sp := by simp only [spBlk, hs.mem, hs.size]
  rw [this]
  obtain ⟨l, e⟩ := List.getElem?_eq_some_iff.1 hk
  apply List.ext_getElem?
  intro i
  rw [List.getElem?_set]
  split
  · rename_i hi; subst hi; simp [l, e]
  · rfl

/-- Taking a candidate page. -/
theorem take_ok {G : Nat} (hl : Serves R G up RR) {s : List Superpage × σ} {L : List Blk} {n a : Nat}
    {c : Nat × Nat} (hI : Inv R RR s L) (h0 : 0 < n) (hn : n ≤ 2 ^ 63)
    (hc : Cand s.1 (pageLog n) c) :
    ∃ p s', take s (pageLog n) c = (.ok p, s') ∧ s'.2 = s.2 ∧ Inv R RR s' (⟨p, n, a⟩ :: L) := by
  obtain ⟨sp, h, hk, hc2, h1, h2, hv, hmin, hle⟩ := hc
  obtain ⟨k, i⟩ := c
  simp only at hk hc2
  subst hc2
  have hsp := hI.sps sp (List.mem_of_getElem? hk)
  obtain ⟨sp', h', r1, r2, r3, r4, r5, r6, r7, r8⟩ := takePage_ok hsp h1 h2 hv hmin hle
  have hlen : k < s.1.length := (List.getElem?_eq_some_iff.1 hk).1
  have hget : (s.1.set k sp')[k]? = some sp' := by simp [hlen]
  have hget' : ∀ j, j ≠ k → (s.1.set k sp')[j]? = s.1[j]? := by
    intro j hj; rw [List.getElem?_set_ne (Ne.symm hj)]
  have hmap := map_spBlk_set hk r2
  have hspsI : ∀ q ∈ s.1.set k sp', SpInv q := by
    intro q hq
    rcases List.mem_or_eq_of_mem_set hq with hq | rfl
    · exact hI.sps q hq
    · exact r3
  have hreach : RR s.2 ((s.1.set k sp').map spBlk) := by rw [hmap]; exact hI.reach
  -- pages that were occupied still are
  have hkeep : ∀ b j q g, Holds s.1 j q g b → ∃ q', Holds (s.1.set k sp') j q' g b := by
    intro b j q g hh
    by_cases hj : j = k
    · subst hj
      have e := hh.1; rw [hk] at e; cases e
      refine ⟨sp', hget, hh.2.1, (r8 g).2 (Or.inl hh.2.2.1), ?_, ?_, ?_⟩
      · rw [r2.mem, r2.size]; exact hh.2.2.2.1
      · rw [r2.size]; exact hh.2.2.2.2.1
      · rw [r2.minPage]; exact hh.2.2.2.2.2
    · exact ⟨q, by rw [hget' j hj]; exact hh.1, hh.2⟩
  have hnew : Holds (s.1.set k sp') k sp' h' ⟨sp.mem + off sp.size h', n, a⟩ :=
    ⟨hget, r4, (r8 h').2 (Or.inr rfl), by rw [r2.mem, r2.size], by rw [r2.size, r7], by
      rw [r2.minPage]; exact hmin⟩
  refine ⟨sp.mem + off sp.size h', (s.1.set k sp', s.2), ?_, rfl, hreach, hspsI, ?_, ?_, ?_, ?_⟩
  · unfold take
    simp only [hk, r1]
  · intro b hb
    rcases List.mem_cons.1 hb with rfl | hb
    · exact ⟨k, sp', h', hnew⟩
    · obtain ⟨j, q, g, hh⟩ := hI.held b hb
      obtain ⟨q', hq'⟩ := hkeep b j q g hh
      exact ⟨j, q', g, hq'⟩
  · intro q j hj g hg ho
    by_cases e : j = k
    · subst e
      have e2 := hj; simp only at e2; rw [hget] at e2; cases e2
      rcases (r8 g).1 ho with ho | rfl
      · obtain ⟨b, hb, hh⟩ := hI.live sp j hk g hg ho
        obtain ⟨q', hq'⟩ := hkeep b j sp g hh
        have e3 := hq'.1; rw [hget] at e3; cases e3
        exact ⟨b, List.mem_cons_of_mem _ hb, hq'⟩
      · exact ⟨_, List.mem_cons_self, hnew⟩
    · simp only [hget' j e] at hj
      obtain ⟨b, hb, hh⟩ := hI.live q j hj g hg ho
      exact ⟨b, List.mem_cons_of_mem _ hb, by rw [Holds, hget' j e]; exact hh⟩
  · intro b hb
    rcases List.mem_cons.1 hb with rfl | hb
    · exact ⟨h0, hn⟩
    · exact hI.wf b hb
  · refine List.pairwise_cons.2 ⟨?_, hI.distinct⟩
    intro b hb
    obtain ⟨j, q, g, hh⟩ := hI.held b hb
    obtain ⟨q', hq'⟩ := hkeep b j q g hh
    have hne : ¬ (k = j ∧ h' = g) := by
      rintro ⟨rfl, rfl⟩
      have e := hh.1; rw [hk] at e; cases e
      exact r6 hh.2.2.1
    have hd := pages_disjoint (s := (s.1.set k sp', s.2)) hl hreach hspsI hnew.1 hq'.1 hnew.2.1 hq'.2.1
      hnew.2.2.1 hq'.2.2.1 hne
    have p1 := Nat.two_pow_pos (sp'.size - Nat.log2 h')
    have p2 := Nat.two_pow_pos (q'.size - Nat.log2 g)
    have e1 := hnew.2.2.2.1
    have e2 := hq'.2.2.2.1
    simp only [Blk.Disjoint, pageBlk] at hd
    simp only at e1 ⊢
    omega

theorem clog2_lt_64 {n : Nat} (h0 : 0 < n) (h : n ≤ 2 ^ 63) : clog2 n ≤ 63 :=
  clog2_le (by omega) h


/-- The outcome of an allocation. -/
def AllocOk (R : Limits) (RR : σ → List Blk → Prop) (L : List Blk) (n a : Nat)
    (r : Res Nat × (List Superpage × σ)) : Prop :=
  (∃ p, r.1 = .ok p ∧ Inv R RR r.2 (⟨p, n, a⟩ :: L)) ∨ (r.1 = .badAlloc ∧ Inv R RR r.2 L)

theorem _root_.Vecmem.PageLimits.le {n : Nat} (hR : PageLimits R) (h : n ≤ R.size) : n ≤ 2 ^ 63 := by
  obtain ⟨_, K, hK, _, h63⟩ := hR
  rw [hK] at h
  exact Nat.le_trans h (Nat.pow_le_pow_right (by omega) h63)

/-- The size of a new chunk. -/
theorem superpageLog_spec {g K : Nat} (h8 : 8 ≤ g) (hgK : g ≤ K) (hK20 : 20 ≤ K) :
    16 ≤ superpageLog g ∧ superpageLog g ≤ K ∧ g ≤ superpageLog g ∧ superpageLog g ≤ g + 8 := by
  unfold superpageLog minSuperpageSize deltaSuperpageSize
  split <;> omega

theorem Inv.refused {G : Nat} (hl : Serves R G up RR) {s : List Superpage × σ} {L : List Blk} {n a : Nat} {u : σ}
    (hI : Inv R RR s L) (h0 : 0 < n) (hq : IsReq R n a)
    (hx : up.allocate s.2 n a = (.badAlloc, u)) : Inv R RR (s.1, u) L :=
  ⟨hl.sRefuse hI.reach hq h0 hx, hI.sps, hI.held, hI.live, hI.wf, hI.distinct⟩

theorem Inv.newChunk {G : Nat} (hl : Serves R G up RR) {s : List Superpage × σ} {L : List Blk} {m p : Nat} {u : σ} {sp : Superpage}
    (hI : Inv R RR s L) (hq : IsReq R (2 ^ m) maxAlign)
    (hx : up.allocate s.2 (2 ^ m) maxAlign = (.ok p, u)) (k2 : sp.size = m) (k4 : sp.mem = p)
    (k5 : SpInv sp) (k7 : ∀ h, sp.st h ≠ occupied) : Inv R RR (s.1 ++ [sp], u) L := by
  have hpsp : spBlk sp = ⟨p, 2 ^ m, maxAlign⟩ := by simp only [spBlk, k2, k4]
  have hlift : ∀ (j : Nat) (q : Superpage), s.1[j]? = some q → (s.1 ++ [sp])[j]? = some q := by
    intro j q hj
    rw [List.getElem?_append_left (List.getElem?_eq_some_iff.1 hj).1]; exact hj
  refine ⟨?_, ?_, ?_, ?_, hI.wf, hI.distinct⟩
  · rw [List.map_append, List.map_singleton, hpsp]
    exact hl.perm (hl.sAlloc hI.reach hq (Nat.two_pow_pos m) hx)
      ((List.perm_append_singleton _ _).symm)
  · intro q hq
    rcases List.mem_append.1 hq with hq | hq
    · exact hI.sps q hq
    · rw [List.mem_singleton.1 hq]; exact k5
  · intro b hb
    obtain ⟨j, q, g, hh⟩ := hI.held b hb
    exact ⟨j, q, g, hlift j q hh.1, hh.2⟩
  · intro q j hj g hg ho
    by_cases hjl : j < s.1.length
    · simp only [List.getElem?_append_left hjl] at hj
      obtain ⟨b, hb, hh⟩ := hI.live q j hj g hg ho
      exact ⟨b, hb, hlift j q hh.1, hh.2⟩
    · simp only at hj
      rw [List.getElem?_append_right (by omega)] at hj
      have : q = sp := by
        cases hji : j - s.1.length with
        | zero => rw [hji] at hj; simpa using hj.symm
        | succ i => rw [hji] at hj; simp at hj
      subst this
      exact absurd ho (k7 g)

theorem addSuperpage_ok {G : Nat} (hl : Serves R G up RR) {s : List Superpage × σ} {L : List Blk}
    {m : Nat} (hI : Inv R RR s L) (hreq : IsReq R (2 ^ m) maxAlign) (h16 : 16 ≤ m) (h63 : m ≤ 63) :
    (∃ sp u, addSuperpage up s m = (.ok (), (s.1 ++ [sp], u)) ∧
      Inv R RR (s.1 ++ [sp], u) L ∧ sp.st 1 = vacant ∧ sp.minPage = m - 8 ∧ sp.size = m) ∨
    (∃ u, addSuperpage up s m = (.badAlloc, (s.1, u)) ∧ Inv R RR (s.1, u) L) := by
  unfold addSuperpage
  rcases hl.answer hI.reach hreq (Nat.two_pow_pos m) with ⟨p, u, hx⟩ | ⟨u, hx⟩
  · obtain ⟨sp, k1, k2, k3, k4, k5, k6, k7⟩ := newSuperpage_ok (p := p) h16 h63
    simp only [hx]
    rw [k1]
    exact Or.inl ⟨sp, u, rfl, hI.newChunk hl hreq hx k2 k4 k5 k7, k6, k3, k2⟩
  · simp only [hx, Res.map]
    exact Or.inr ⟨u, rfl, hI.refused hl (Nat.two_pow_pos m) hreq hx⟩

theorem allocateUpstream_ok {G : Nat} (hl : Serves R G up RR) (hR : PageLimits R)
    {s : List Superpage × σ} {L : List Blk} {g : Nat} (hI : Inv R RR s L) (h8 : 8 ≤ g)
    (hg : 2 ^ g ≤ R.size) :
    (∃ sp u, allocateUpstream up s g = (.ok (), (s.1 ++ [sp], u)) ∧
      Inv R RR (s.1 ++ [sp], u) L ∧ sp.st 1 = vacant ∧ sp.minPage ≤ g ∧ g ≤ sp.size) ∨
    (∃ u, allocateUpstream up s g = (.badAlloc, (s.1, u)) ∧ Inv R RR (s.1, u) L) := by
  obtain ⟨hA, K, hK, hK20, hK63⟩ := hR
  have hgK : g ≤ K := by
    rw [hK] at hg; exact (Nat.pow_le_pow_iff_right (a := 2) (by decide)).1 hg
  obtain ⟨m1, m2, m3, m4⟩ := superpageLog_spec h8 hgK hK20
  unfold allocateUpstream
  generalize superpageLog g = m at m1 m2 m3 m4 ⊢
  have hle : (2:Nat) ^ m ≤ 2 ^ K := Nat.pow_le_pow_right (by omega) m2
  have hlt : (2:Nat) ^ m < 2 ^ 64 := Nat.pow_lt_pow_right (by omega) (by omega)
  have hreq : IsReq R (2 ^ m) maxAlign := ⟨⟨by rw [hK]; exact hle, hlt⟩, hA, 4, rfl⟩
  rcases addSuperpage_ok hl hI hreq m1 (by omega) with ⟨sp, u, e, h1, h2, h3, h4⟩ | h
  · exact Or.inl ⟨sp, u, e, h1, h2, by omega, by omega⟩
  · exact Or.inr h

theorem pageLog_le {n : Nat} (hR : PageLimits R) (h0 : 0 < n) (hn : n ≤ R.size) :
    2 ^ pageLog n ≤ R.size := by
  obtain ⟨_, K, hK, hK20, _⟩ := hR
  rw [hK] at hn ⊢
  have := clog2_le (by omega) hn
  exact Nat.pow_le_pow_right (by omega) (by unfold pageLog; omega)

theorem allocateFresh_ok {G : Nat} (hl : Serves R G up RR) (hR : PageLimits R)
    {s : List Superpage × σ} {L : List Blk} {n a : Nat} (hI : Inv R RR s L) (h0 : 0 < n)
    (hn : n ≤ R.size) : AllocOk R RR L n a (allocateFresh up s (pageLog n)) := by
  have hn63 := hR.le hn
  unfold allocateFresh
  rcases allocateUpstream_ok (g := pageLog n) hl hR hI (Nat.le_max_left _ _) (pageLog_le hR h0 hn) with ⟨sp, u, e, hInew, k1, k2, k3⟩ | ⟨u, e, hI'⟩
  · rw [e]
    simp only
    rcases findFreePage_spec (size := pageLog n) hInew.sps with ⟨c, f1, f2⟩ | ⟨f1, f2⟩
    · simp only at f1
      simp only [f1]
      obtain ⟨p', s', t1, _, t3⟩ := take_ok (a := a) hl hInew h0 hn63 f2
      rw [t1]
      exact Or.inl ⟨p', rfl, t3⟩
    · exfalso
      have := f2 sp (List.mem_append_right _ (List.mem_singleton.2 rfl)) k2 1
        (by omega) (by omega) k1
      rw [show Nat.log2 1 = 0 by decide] at this
      omega
  · rw [e]
    exact Or.inr ⟨rfl, hI'⟩

theorem allocate_ok {G : Nat} {dbg : Bool} (hl : Serves R G up RR) (hR : PageLimits R)
    {s : List Superpage × σ} {L : List Blk} {n a : Nat} (hI : Inv R RR s L) (h0 : 0 < n)
    (hn : n ≤ R.size) : AllocOk R RR L n a (allocate dbg up s n) := by
  have hn63 := hR.le hn
  unfold allocate
  rw [roundUp?_eq h0 hn63]
  simp only
  rw [show max minPageSize (clog2 n) = pageLog n from rfl]
  rcases findFreePage_spec (size := pageLog n) hI.sps with ⟨c, f1, f2⟩ | ⟨f1, _⟩
  · rw [f1]
    simp only
    obtain ⟨p', s', t1, _, t3⟩ := take_ok (a := a) hl hI h0 hn63 f2
    rw [t1]
    exact Or.inl ⟨p', rfl, t3⟩
  · rw [f1]
    exact allocateFresh_ok hl hR hI h0 hn

theorem deallocate_ok {G : Nat} {dbg : Bool} (hl : Serves R G up RR) {s : List Superpage × σ}
    {L : List Blk} {b : Blk} (hI : Inv R RR s (b :: L)) :
    ∃ s', deallocate dbg s b.addr b.size = (.ok (), s') ∧ s'.2 = s.2 ∧ Inv R RR s' L := by
  obtain ⟨k, sp, h, hh⟩ := hI.held b List.mem_cons_self
  obtain ⟨hb0, hb63⟩ := hI.wf b List.mem_cons_self
  obtain ⟨hk, h1, ho, hadr, hpl, hmin⟩ := hh
  have hsp := hI.sps sp (List.mem_of_getElem? hk)
  have h511 : h ≤ 511 := hsp.tree.le (by rw [ho]; simp)
  have hlen : k < s.1.length := (List.getElem?_eq_some_iff.1 hk).1
  have hin := pageBlk_inside hsp.wf h1 h511
  have hpos := Nat.two_pow_pos (sp.size - Nat.log2 h)
  have hcontain : sp.mem ≤ b.addr ∧ b.addr < sp.mem + 2 ^ sp.size := by
    simp only [Blk.Inside, pageBlk, spBlk] at hin; omega
  -- the search finds this superpage
  have hfind : s.1.findIdx? (fun q => q.mem ≤ b.addr && b.addr < q.mem + 2 ^ q.size) = some k := by
    rw [List.findIdx?_eq_some_iff_getElem]
    refine ⟨hlen, ?_, ?_⟩
    · rw [(List.getElem?_eq_some_iff.1 hk).2]; simp [hcontain]
    · intro j hj
      have hjl : j < s.1.length := by omega
      have := chunks_disjoint hl hI.reach (List.getElem?_eq_getElem hjl) hk (by omega)
      have hp1 := Nat.two_pow_pos (s.1[j]).size
      simp only [Blk.Disjoint, spBlk] at this
      simp only [Bool.and_eq_true, decide_eq_true_eq]
      omega
  have hgoal : max sp.minPage (clog2 b.size) = sp.size - Nat.log2 h := by
    have := hsp.wf.min
    unfold pageLog at hpl hmin; omega
  obtain ⟨sp', f1, f2, f3, f4⟩ := freePage_ok (dbg := dbg) hsp h1 h511 ho (roundUp?_eq hb0 hb63) hgoal
  have hget : (s.1.set k sp')[k]? = some sp' := by simp [hlen]
  have hget' : ∀ j, j ≠ k → (s.1.set k sp')[j]? = s.1[j]? := by
    intro j hj; rw [List.getElem?_set_ne (Ne.symm hj)]
  refine ⟨(s.1.set k sp', s.2), ?_, rfl, ?_, ?_, ?_, ?_, ?_, ?_⟩
  · unfold deallocate
    rw [hfind]
    simp only [hk]
    rw [hadr, f1]
  · rw [map_spBlk_set hk f2]; exact hI.reach
  · intro q hq
    rcases List.mem_or_eq_of_mem_set hq with hq | rfl
    · exact hI.sps q hq
    · exact f3
  · intro c hc
    obtain ⟨j, q, g, hh'⟩ := hI.held c (List.mem_cons_of_mem _ hc)
    have hne := (List.pairwise_cons.1 hI.distinct).1 c hc
    by_cases hj : j = k
    · subst hj
      have e := hh'.1; rw [hk] at e; cases e
      have hgh : g ≠ h := by rintro rfl; exact hne (by rw [hadr, hh'.2.2.2.1])
      refine ⟨j, sp', g, hget, hh'.2.1, (f4 g).2 ⟨hh'.2.2.1, hgh⟩, ?_, ?_, ?_⟩
      · rw [f2.mem, f2.size]; exact hh'.2.2.2.1
      · rw [f2.size]; exact hh'.2.2.2.2.1
      · rw [f2.minPage]; exact hh'.2.2.2.2.2
    · exact ⟨j, q, g, by rw [hget' j hj]; exact hh'.1, hh'.2⟩
  · intro q j hj g hg hog
    by_cases e : j = k
    · subst e
      have e2 := hj; simp only at e2; rw [hget] at e2; cases e2
      obtain ⟨hog, hgh⟩ := (f4 g).1 hog
      obtain ⟨c, hc, hh'⟩ := hI.live sp j hk g hg hog
      have hcb : c ≠ b := by
        rintro rfl
        have hd := pages_disjoint hl hI.reach hI.sps hk hk h1 hg ho hog (fun x => hgh x.2.symm)
        have p1 := Nat.two_pow_pos (sp.size - Nat.log2 g)
        have e1 := hh'.2.2.2.1
        simp only [Blk.Disjoint, pageBlk] at hd
        omega
      refine ⟨c, (List.mem_cons.1 hc).resolve_left hcb, hget, hg, (f4 g).2 ⟨hog, hgh⟩, ?_, ?_, ?_⟩
      · rw [f2.mem, f2.size]; exact hh'.2.2.2.1
      · rw [f2.size]; exact hh'.2.2.2.2.1
      · rw [f2.minPage]; exact hh'.2.2.2.2.2
    · simp only [hget' j e] at hj
      obtain ⟨c, hc, hh'⟩ := hI.live q j hj g hg hog
      have hcb : c ≠ b := by
        rintro rfl
        have hd := pages_disjoint hl hI.reach hI.sps hk hj h1 hg ho hog (fun x => e x.1.symm)
        have p1 := Nat.two_pow_pos (q.size - Nat.log2 g)
        have e1 := hh'.2.2.2.1
        simp only [Blk.Disjoint, pageBlk] at hd
        omega
      exact ⟨c, (List.mem_cons.1 hc).resolve_left hcb, by rw [Holds, hget' j e]; exact hh'⟩
  · intro c hc; exact hI.wf c (List.mem_cons_of_mem _ hc)
  · exact (List.pairwise_cons.1 hI.distinct).2

theorem serves {G : Nat} {dbg : Bool} (hl : Serves R G up RR) (hG : maxAlign ≤ G) (hR : PageLimits R) :
    Serves R maxAlign (mr dbg up) (fun s L => Inv R RR s L ∧ Live R maxAlign L) := by
  refine Serves.of_inv_live ?_ ?_ ?_ ?_ ?_
  · intro s L n a h _ hq hn
    have e : (mr dbg up).allocate s n a = allocate dbg up s n := by
      simp [mr, pimpl, impl, Nat.pos_iff_ne_zero.1 hn]
    rw [e]
    rcases allocate_ok (a := a) (dbg := dbg) hl hR h hn hq.1.1 with ⟨p, h1, h2⟩ | ⟨h1, h2⟩
    · rw [h1]
      refine ⟨(h2.good hl hG hq.2.2).1, ?_, by simp⟩
      rintro q ⟨⟩; exact h2
    · rw [h1]; exact ⟨trivial, by simp, fun _ => h2⟩
  · intro s L a h _
    have e : (mr dbg up).allocate s 0 a = (.ok 0, s) := by simp [mr, pimpl]
    rw [e]; exact ⟨Or.inl rfl, h⟩
  · intro s L b h _
    obtain ⟨s', d1, _, d3⟩ := deallocate_ok (dbg := dbg) hl h
    have hb0 : b.addr ≠ 0 := by
      obtain ⟨k, sp, g, hh⟩ := h.held b List.mem_cons_self
      have hmem : spBlk sp ∈ s.1.map spBlk := List.mem_map.2 ⟨sp, List.mem_of_getElem? hh.1, rfl⟩
      have := ((hl.live h.reach).1 _ hmem).1
      have e := hh.2.2.2.1
      simp only [spBlk] at this; omega
    have e : (mr dbg up).deallocate s b.addr b.size b.align = deallocate dbg s b.addr b.size := by
      simp [mr, pimpl, impl, hb0]
    rw [e, d1]; exact ⟨rfl, d3⟩
  · intro s L n a h
    have e : (mr dbg up).deallocate s 0 n a = (.ok (), s) := by simp [mr, pimpl]
    rw [e]; exact ⟨rfl, h⟩
  · intro s L L' h hp; exact h.perm hp

theorem init_inv {u0 : σ} (h0 : RR u0 []) : Inv R RR ([], u0) [] :=
  ⟨h0, by simp, by simp, by simp, by simp, by simp⟩

theorem lawful_inv {u0 : σ} {G : Nat} {dbg : Bool} (hl : Lawful R G up u0) (hG : maxAlign ≤ G)
    (hR : PageLimits R) :
    Lawful R maxAlign (mr dbg up) ([], u0) ∧
      ∀ s L, Reach R (mr dbg up) ([], u0) s L → Inv R (Reach R up u0) s L :=
  have h := serves (dbg := dbg) hl.serves hG hR
  have h0 : Inv R (Reach R up u0) ([], u0) [] ∧ Live R maxAlign [] := ⟨init_inv .init, by simp [Live]⟩
  ⟨h.lawful h0, fun _ _ hr => (h.reach h0 hr).1⟩

theorem destroy_ok {G : Nat} (hl : Serves R G up RR) : ∀ (sps : List Superpage) (U : List Blk) (u : σ),
    RR u (sps.map spBlk ++ U) →
    (destroy up sps u).1 = .ok () ∧ RR (destroy up sps u).2 U := by
  intro sps
  induction sps with
  | nil => intro U u h; exact ⟨rfl, h⟩
  | cons sp rest ih =>
    intro U u h
    have hok := hl.dealloc h List.mem_cons_self
    simp only [destroy]
    cases hx : up.deallocate u sp.mem (2 ^ sp.size) maxAlign with
    | mk r u' =>
      simp only [spBlk] at hok
      rw [hx] at hok
      simp only at hok
      subst hok
      exact ih U u' (hl.sFree h hx)

/-! ### Completeness of merging -/

/-- In a tree without occupied pages above or below page `x` there is a vacant page containing `x`. -/
theorem vacant_above {st : Nat → PageState} (ht : Tree st) (hm : Merged st 0) : ∀ {x : Nat}, 1 ≤ x →
    x ≤ 511 → (∀ g, 1 ≤ g → (Desc x g ∨ Desc g x) → st g ≠ occupied) →
    ∃ t, 1 ≤ t ∧ Desc t x ∧ st t = vacant := by
  intro x
  induction x using Nat.strongRecOn with
  | ind x ih =>
    intro h1 h2 h3
    by_cases hx : st x = nonExtant
    · -- the parent is not split
      have hx1 : x ≠ 1 := by rintro rfl; exact ht.root hx
      have hps : st (x / 2) ≠ PageState.split := by
        intro hs
        rcases Nat.mod_two_eq_zero_or_one x with hmod | hmod
        · have := (ht.left (x / 2) (by omega)).1 hs
          rw [show 2 * (x / 2) = x by omega] at this; exact this hx
        · have := (ht.right (x / 2) (by omega)).1 hs
          rw [show 2 * (x / 2) + 1 = x by omega] at this; exact this hx
      have hup : Desc (x / 2) x := desc_half.2 (Or.inr (.refl _))
      obtain ⟨t, t1, t2, t3⟩ := ih (x / 2) (by omega) (by omega) (by omega) (by
        intro g hg hd
        rcases hd with hd | hd
        · by_cases e : g = x / 2
          · subst e; exact h3 _ hg (Or.inr hup)
          · rw [ht.below (by omega) hps hd e]; simp
        · exact h3 g hg (Or.inr (hd.trans hup)))
      exact ⟨t, t1, t2.trans hup, t3⟩
    · have hc := ht.collapsible 9 x (by omega) h1 hx (fun g hd => h3 g (by have := hd.le; omega) (Or.inl hd))
      exact ⟨x, h1, .refl _, hc.vacant hm⟩

end BinPage

end Vecmem
