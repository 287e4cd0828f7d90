import Verif.Lemmas.BinaryPageLawful
import Verif.Spec.BinaryPage

/-! Free memory of the binary page resource is found. -/

namespace Vecmem

open PageState Buddy IntMath

namespace BinPage

variable {σ : Type} {R : Limits} {up : MR σ} {RR : σ → List Blk → Prop}

theorem clog2_of_le {n k : Nat} (h0 : 0 < n) (h : n ≤ 2 ^ k) : clog2 n ≤ k := clog2_le (by omega) h

theorem pageBytes_eq {n : Nat} (h0 : 0 < n) : pageBytes n = 2 ^ pageLog n := by
  unfold pageBytes pageLog
  split
  · rename_i h
    have := clog2_of_le (k := 8) h0 h
    rw [show max 8 (clog2 n) = 8 by omega]; rfl
  · rename_i h
    have h8 : 8 ≤ clog2 n := by
      have := le_two_pow_clog2 n
      by_contra hc
      have : 2 ^ clog2 n ≤ 2 ^ 8 := Nat.pow_le_pow_right (by omega) (by omega)
      omega
    rw [show max 8 (clog2 n) = clog2 n by omega]
    unfold clog2
    split
    · rename_i h'; exact h'
    · rfl

theorem pageLog_le_of {n g : Nat} (h0 : 0 < n) (h : n ≤ 2 ^ g) (h8 : 8 ≤ g) : pageLog n ≤ g := by
  have := clog2_of_le h0 h
  unfold pageLog; omega

/-- A free region that is as large as a page for the request. -/
theorem region_cand {s : List Superpage × σ} {L : List Blk} (hI : Inv R RR s L) {k : Nat}
    {sp : Superpage} (hk : s.1[k]? = some sp) {n g j : Nat} (hmin : sp.minPage ≤ pageLog n)
    (hg : pageLog n ≤ g) (hgs : g ≤ sp.size) (hj : j < 2 ^ (sp.size - g))
    (hfree : ∀ b ∈ L, Blk.Disjoint ⟨sp.mem + j * 2 ^ g, 2 ^ g, 1⟩ (pageOf b)) :
    ∃ c, findFreePage s.1 (pageLog n) = some (some c) ∧ Cand s.1 (pageLog n) c := by
  have hsp := hI.sps sp (List.mem_of_getElem? hk)
  have hd8 : sp.size - g ≤ 8 := by have := hsp.wf.delta; omega
  have hx1 : 1 ≤ 2 ^ (sp.size - g) + j := by have := Nat.two_pow_pos (sp.size - g); omega
  have hlog : Nat.log2 (2 ^ (sp.size - g) + j) = sp.size - g :=
    log2_of_range (by omega) (by rw [Nat.pow_succ]; omega)
  have hx511 : 2 ^ (sp.size - g) + j ≤ 511 := by
    have : 2 ^ (sp.size - g) ≤ 2 ^ 8 := Nat.pow_le_pow_right (by omega) hd8
    omega
  have hoff : off sp.size (2 ^ (sp.size - g) + j) = j * 2 ^ g := by
    unfold off
    rw [hlog, Nat.add_sub_cancel_left]
    congr 2; omega
  obtain ⟨t, t1, t2, t3⟩ := vacant_above hsp.tree hsp.merged hx1 hx511 (by
    intro y hy hd ho
    obtain ⟨b, hb, hh⟩ := hI.live sp k hk y hy ho
    have hb0 := (hI.wf b hb).1
    have hdis := hfree b hb
    have hy511 := hsp.tree.le (g := y) (by rw [ho]; simp)
    have hyd := hsp.wf.depth hy511 hy
    have p1 := Nat.two_pow_pos g
    have p2 := Nat.two_pow_pos (sp.size - Nat.log2 y)
    have e1 := hh.2.2.2.1
    have e2 := hh.2.2.2.2.1
    simp only [Blk.Disjoint, pageOf, pageBytes_eq hb0, e2, e1] at hdis
    have hgg : sp.size - (sp.size - g) = g := by omega
    rcases hd with hd | hd
    · have := hd.inside (N := sp.size) hx1 hyd
      rw [hoff, hlog, hgg] at this
      omega
    · have := hd.inside (N := sp.size) hy (by rw [hlog]; omega)
      rw [hoff, hlog, hgg] at this
      omega)
  have hle := t2.log2_le t1
  rw [hlog] at hle
  rcases findFreePage_spec (size := pageLog n) hI.sps with h | ⟨_, h⟩
  · exact h
  · exfalso
    have t511 : t ≤ 511 := hsp.tree.le (by rw [t3]; simp)
    have := h sp (List.mem_of_getElem? hk) hmin t t1 t511 t3
    omega

/-- Such a region is used. -/
theorem region_used {G : Nat} {dbg : Bool} (hl : Serves R G up RR) {s : List Superpage × σ}
    {L : List Blk} (hI : Inv R RR s L) {k : Nat}
    {sp : Superpage} (hk : s.1[k]? = some sp) {n a g j : Nat} (h0 : 0 < n) (h63 : n ≤ 2 ^ 63)
    (hmin : sp.minPage ≤ pageLog n)
    (hg : pageLog n ≤ g) (hgs : g ≤ sp.size) (hj : j < 2 ^ (sp.size - g))
    (hfree : ∀ b ∈ L, Blk.Disjoint ⟨sp.mem + j * 2 ^ g, 2 ^ g, 1⟩ (pageOf b)) :
    ∃ p s', (mr dbg up).allocate s n a = (.ok p, s') ∧ s'.2 = s.2 := by
  obtain ⟨c, f1, f2⟩ := region_cand hI hk hmin hg hgs hj hfree
  obtain ⟨p, s', t1, t2, _⟩ := take_ok (a := a) hl hI h0 h63 f2
  refine ⟨p, s', ?_, t2⟩
  have e : (mr dbg up).allocate s n a = allocate dbg up s n := by
    simp [mr, pimpl, impl, Nat.pos_iff_ne_zero.1 h0]
  rw [e]
  unfold allocate
  rw [roundUp?_eq h0 h63]
  simp only
  rw [show max minPageSize (clog2 n) = pageLog n from rfl, f1]
  exact t1

/-- When the page of a request is large enough for a chunk. -/
theorem minPage_le_of {m n : Nat} (h0 : 0 < n) (h : 2 ^ m ≤ 2 ^ 16 ∨ 2 ^ m < 512 * n) (h16 : 16 ≤ m) :
    m - 8 ≤ pageLog n := by
  rcases h with h | h
  · have : m ≤ 16 := (Nat.pow_le_pow_iff_right (a := 2) (by decide)).1 h
    unfold pageLog; omega
  · have h1 := le_two_pow_clog2 n
    have h2 : 2 ^ m < 2 ^ (9 + clog2 n) := by
      rw [Nat.pow_add]
      have := Nat.mul_le_mul_left 512 h1
      omega
    have : m < 9 + clog2 n := (Nat.pow_lt_pow_iff_right (a := 2) (by decide)).1 h2
    unfold pageLog; omega

end BinPage

end Vecmem
