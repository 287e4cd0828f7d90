import Verif.Lemmas.Arena
import Verif.Lemmas.Serves
import Verif.Lemmas.Logged
import Verif.Lemmas.IntMath
import Verif.Spec.Arena

/-! The arena resource is well-behaved on gapped upstreams. -/

namespace Vecmem

open IntMath

variable {σ : Type} {R : Limits} {up : MR σ} {u0 : σ}

theorem Gapped.restart {u : σ} {U : List Blk} (h : Gapped R up u0) (hu : Reach R up u0 u U) :
    Gapped R up u := by
  intro s L n a p s' hr hq hn he b hb
  exact h s _ n a p s' (hu.trans hr) hq hn he b (List.mem_append_left _ hb)

theorem Gapped.live (h : Gapped R up u0) {s : σ} {L : List Blk} (hr : Reach R up u0 s L) :
    ∀ b ∈ L, ∀ c ∈ L, 0 < b.size → b.addr + b.size ≠ c.addr := by
  induction hr with
  | init => simp
  | @alloc s s' L n a p h1 hq hn he ih =>
    have hg := h s L n a p s' h1 hq hn he
    intro b hb c hc h0
    rcases List.mem_cons.1 hb with rfl | hb' <;> rcases List.mem_cons.1 hc with rfl | hc'
    · simp only at *; omega
    · exact (hg c hc').2
    · exact (hg b hb').1
    · exact ih b hb' c hc' h0
  | refuse _ _ _ _ ih => exact ih
  | zero _ _ _ ih => exact ih
  | free _ _ ih => exact fun b hb c hc => ih b (by simp [hb]) c (by simp [hc])
  | freeNull _ _ ih => exact ih
  | perm _ hp ih => exact fun b hb c hc => ih b (hp.mem_iff.2 hb) c (hp.mem_iff.2 hc)

namespace Arena

/-- Inside a superblock. -/
def InB (c : ABlock) (h : Blk) : Prop := h.addr ≤ c.ptr ∧ c.ptr + c.size ≤ h.addr + h.size

/-- Superblocks as held from a well-behaved, gapped upstream. -/
structure HOk (H : List Blk) : Prop where
  dj : ∀ h ∈ H, ∀ h' ∈ H, h = h' ∨ h.Disjoint h'
  gap : ∀ h ∈ H, ∀ h' ∈ H, h.addr + h.size ≠ h'.addr
  pos : ∀ h ∈ H, 0 < h.size

theorem HOk.of {G : Nat} {RR : σ → List Blk → Prop} (hl : Serves R G up RR)
    (hg : ∀ u H, RR u H → ∀ b ∈ H, ∀ c ∈ H, 0 < b.size → b.addr + b.size ≠ c.addr) {u : σ} {H : List Blk}
    (hr : RR u H) : HOk H := by
  obtain ⟨h1, h2⟩ := hl.live hr
  have hpos : ∀ h ∈ H, 0 < h.size := fun h hh => (h1 h hh).2.2.2.1
  refine ⟨?_, fun h hh h' hh' => hg u H hr h hh h' hh' (hpos h hh), hpos⟩
  clear h1 hr hg
  induction H with
  | nil => simp
  | cons x xs ih =>
    have hp := List.pairwise_cons.1 h2
    intro a ha b hb
    rcases List.mem_cons.1 ha with rfl | ha' <;> rcases List.mem_cons.1 hb with rfl | hb'
    · exact .inl rfl
    · exact .inr (hp.1 b hb')
    · exact .inr (hp.1 a ha').symm
    · exact ih hp.2 (fun h hh => hpos h (by simp [hh])) a ha' b hb'

/-- Free and allocated blocks are apart, inside of the superblocks, and touching free blocks are merged. -/
structure Lax (H : List Blk) (F A : List ABlock) : Prop where
  fs : Srt F
  as : Srt A
  fpos : ∀ c ∈ F, 0 < c.size ∧ 16 ∣ c.ptr ∧ c.ptr ≠ 0
  apos : ∀ c ∈ A, 0 < c.size ∧ 16 ∣ c.ptr ∧ c.ptr ≠ 0 ∧ 256 ∣ c.size
  fin : ∀ c ∈ F, ∃ h ∈ H, InB c h
  ain : ∀ c ∈ A, ∃ h ∈ H, InB c h
  ff : ∀ c ∈ F, ∀ d ∈ F, c.ptr ≠ d.ptr → Dj c d
  aa : ∀ c ∈ A, ∀ d ∈ A, c.ptr ≠ d.ptr → Dj c d
  fa : ∀ c ∈ F, ∀ d ∈ A, Dj c d
  merged : ∀ c ∈ F, ∀ d ∈ F, c.ptr + c.size ≠ d.ptr

/-- Free and allocated blocks tile the superblocks, and touching free blocks are merged. -/
structure Geo (H : List Blk) (F A : List ABlock) : Prop extends Lax H F A where
  cover : ∀ h ∈ H, ∀ x, h.addr ≤ x → x < h.addr + h.size → ∃ c, (c ∈ F ∨ c ∈ A) ∧ Has c x

variable {H : List Blk} {F F' A A' : List ABlock}

theorem Lax.alloc (g : Lax H F A) {b : ABlock} {n : Nat} (hb : b ∈ F) (hn : n ≤ b.size) (h0 : 0 < n)
    (h256 : 256 ∣ n) (hs : Srt F')
    (hF : ∀ c, c ∈ F' ↔ (c ∈ F ∧ c.ptr ≠ b.ptr) ∨ (n < b.size ∧ c = ⟨b.ptr + n, b.size - n⟩)) :
    Lax H F' (setInsert A ⟨b.ptr, n⟩) ∧
      ∀ c, c ∈ setInsert A ⟨b.ptr, n⟩ ↔ c = ⟨b.ptr, n⟩ ∨ c ∈ A := by
  obtain ⟨b1, b2, b3⟩ := g.fpos b hb
  obtain ⟨hh, hhm, hbin⟩ := g.fin b hb
  unfold InB at hbin
  have hnew : ∀ c ∈ A, c.ptr ≠ (⟨b.ptr, n⟩ : ABlock).ptr := by
    intro c hc he
    have := g.fa b hb c hc
    have := (g.apos c hc).1
    simp only at he
    unfold Dj at *; omega
  obtain ⟨i1, i2⟩ := setInsert_new g.as hnew
  refine ⟨?_, i2⟩
  -- a block of `F'` is a block of `F` other than `b`, or the rest of `b`
  have hF' : ∀ c ∈ F', (c ∈ F ∧ c.ptr ≠ b.ptr) ∨ (n < b.size ∧ c.ptr = b.ptr + n ∧ c.size = b.size - n) := by
    intro c hc
    rcases (hF c).1 hc with h | ⟨h1, rfl⟩
    · exact .inl h
    · exact .inr ⟨h1, rfl, rfl⟩
  have hA' : ∀ c ∈ setInsert A ⟨b.ptr, n⟩, (c.ptr = b.ptr ∧ c.size = n) ∨ c ∈ A := by
    intro c hc
    rcases (i2 c).1 hc with rfl | h
    · exact .inl ⟨rfl, rfl⟩
    · exact .inr h
  refine ⟨hs, i1, ?_, ?_, ?_, ?_, ?_, ?_, ?_, ?_⟩
  · intro c hc
    rcases hF' c hc with h | ⟨h1, h2, h3⟩
    · exact g.fpos c h.1
    · refine ⟨by omega, ?_, by omega⟩
      rw [h2]
      exact Nat.dvd_add b2 (Nat.dvd_trans (by decide) h256)
  · intro c hc
    rcases hA' c hc with ⟨h1, h2⟩ | h
    · rw [h1, h2]; exact ⟨h0, b2, b3, h256⟩
    · exact g.apos c h
  · intro c hc
    rcases hF' c hc with h | ⟨h1, h2, h3⟩
    · exact g.fin c h.1
    · exact ⟨hh, hhm, by unfold InB; omega⟩
  · intro c hc
    rcases hA' c hc with ⟨h1, h2⟩ | h
    · exact ⟨hh, hhm, by unfold InB; omega⟩
    · exact g.ain c h
  · intro c hc d hd hne
    rcases hF' c hc with h | ⟨h1, h2, h3⟩ <;> rcases hF' d hd with h' | ⟨h1', h2', h3'⟩
    · exact g.ff c h.1 d h'.1 hne
    · have := g.ff c h.1 b hb h.2; unfold Dj at *; omega
    · have := g.ff d h'.1 b hb h'.2; unfold Dj at *; omega
    · omega
  · intro c hc d hd hne
    rcases hA' c hc with ⟨h1, h2⟩ | h <;> rcases hA' d hd with ⟨h1', h2'⟩ | h'
    · omega
    · have := g.fa b hb d h'; unfold Dj at *; omega
    · have := g.fa b hb c h; unfold Dj at *; omega
    · exact g.aa c h d h' hne
  · intro c hc d hd
    rcases hF' c hc with h | ⟨h1, h2, h3⟩ <;> rcases hA' d hd with ⟨h1', h2'⟩ | h'
    · have := g.ff c h.1 b hb h.2; unfold Dj at *; omega
    · exact g.fa c h.1 d h'
    · unfold Dj at *; omega
    · have := g.fa b hb d h'; unfold Dj at *; omega
  · intro c hc d hd
    rcases hF' c hc with h | ⟨h1, h2, h3⟩ <;> rcases hF' d hd with h' | ⟨h1', h2', h3'⟩
    · exact g.merged c h.1 d h'.1
    · have := g.ff c h.1 b hb h.2
      have := (g.fpos c h.1).1
      unfold Dj at *; omega
    · have := g.merged b hb d h'.1; omega
    · omega

theorem Geo.alloc (g : Geo H F A) {b : ABlock} {n : Nat} (hb : b ∈ F) (hn : n ≤ b.size) (h0 : 0 < n)
    (h256 : 256 ∣ n) (hs : Srt F')
    (hF : ∀ c, c ∈ F' ↔ (c ∈ F ∧ c.ptr ≠ b.ptr) ∨ (n < b.size ∧ c = ⟨b.ptr + n, b.size - n⟩)) :
    Geo H F' (setInsert A ⟨b.ptr, n⟩) ∧
      ∀ c, c ∈ setInsert A ⟨b.ptr, n⟩ ↔ c = ⟨b.ptr, n⟩ ∨ c ∈ A := by
  obtain ⟨l, i2⟩ := g.toLax.alloc hb hn h0 h256 hs hF
  refine ⟨⟨l, ?_⟩, i2⟩
  · intro h hm x hx1 hx2
    obtain ⟨c, hc, hx⟩ := g.cover h hm x hx1 hx2
    rcases hc with hc | hc
    · by_cases he : c.ptr = b.ptr
      · obtain rfl := g.fs.eq hc hb he
        unfold Has at *
        by_cases hxx : x < c.ptr + n
        · exact ⟨⟨c.ptr, n⟩, .inr ((i2 _).2 (.inl rfl)), by simp only; omega⟩
        · exact ⟨⟨c.ptr + n, c.size - n⟩, .inl ((hF _).2 (.inr ⟨by omega, rfl⟩)), by simp only; omega⟩
      · exact ⟨c, .inl ((hF c).2 (.inl ⟨hc, he⟩)), hx⟩
    · exact ⟨c, .inr ((i2 c).2 (.inr hc)), hx⟩

theorem Lax.release (g : Lax H F A) (hH : HOk H) {b m : ABlock} (hb : b ∈ A) (hs : Srt A')
    (hA : ∀ c, c ∈ A' ↔ c ∈ A ∧ c.ptr ≠ b.ptr) (hc : Coalesced F F' b m) : Lax H F' A' := by
  obtain ⟨b1, b2, b3, b4⟩ := g.apos b hb
  obtain ⟨hh, hhm, hbin⟩ := g.ain b hb
  obtain ⟨c1, c2, j1, j2, j3, j4⟩ := hc
  -- the neighbours merged with `b` are in the same superblock
  have hsame : ∀ P ∈ F, (P.ptr + P.size = b.ptr ∨ b.ptr + b.size = P.ptr) → InB P hh := by
    intro P hP he
    obtain ⟨h', hm', hin'⟩ := g.fin P hP
    have := (g.fpos P hP).1
    rcases hH.dj hh hhm h' hm' with e | e
    · rw [e]; exact hin'
    · exfalso
      have := hH.gap hh hhm h' hm'
      have := hH.gap h' hm' hh hhm
      unfold InB Blk.Disjoint at *
      omega
  -- where `m` begins and ends
  have hlow : m.ptr ≤ b.ptr ∧ hh.addr ≤ m.ptr ∧ 16 ∣ m.ptr ∧ m.ptr ≠ 0 := by
    rcases j1 with h | ⟨P, hP, h1, h2⟩
    · unfold InB at hbin; rw [h]; exact ⟨Nat.le_refl _, hbin.1, b2, b3⟩
    · have := hsame P hP (.inl h1)
      unfold InB at this
      obtain ⟨p1, p2, p3⟩ := g.fpos P hP
      rw [h2]; exact ⟨by omega, this.1, p2, p3⟩
  have hhigh : b.ptr + b.size ≤ m.ptr + m.size ∧ m.ptr + m.size ≤ hh.addr + hh.size := by
    rcases j2 with h | ⟨N, hN, h1, h2⟩
    · unfold InB at hbin; omega
    · have := hsame N hN (.inr h1)
      unfold InB at this
      omega
  -- blocks disjoint from `b` and from the free blocks are disjoint from `m`
  have hdj : ∀ d : ABlock, 0 < d.size → Dj d b → (∀ c ∈ F, c.ptr + c.size = b.ptr ∨ b.ptr + b.size = c.ptr → Dj c d) → Dj m d := by
    intro d d0 d1 d2
    unfold Dj at *
    rcases j1 with h | ⟨P, hP, h1, h2⟩
    · rcases j2 with h' | ⟨N, hN, h1', h2'⟩
      · omega
      · have := d2 N hN (.inr h1')
        have := (g.fpos N hN).1
        omega
    · have p := d2 P hP (.inl h1)
      have := (g.fpos P hP).1
      rcases j2 with h' | ⟨N, hN, h1', h2'⟩
      · omega
      · have := d2 N hN (.inr h1')
        have := (g.fpos N hN).1
        omega
  have hmd : ∀ d ∈ F, d.ptr + d.size ≠ b.ptr → b.ptr + b.size ≠ d.ptr → Dj m d := by
    intro d hd e1 e2
    refine hdj d (g.fpos d hd).1 (g.fa d hd b hb) ?_
    intro c hc he
    refine g.ff c hc d hd ?_
    intro hp
    obtain rfl := g.fs.eq hc hd hp
    rcases he with he | he
    · exact e1 he
    · exact e2 he
  refine ⟨c1, hs, ?_, ?_, ?_, ?_, ?_, ?_, ?_, ?_⟩
  · intro c hc
    rcases (c2 c).1 hc with rfl | h
    · exact ⟨by omega, hlow.2.2⟩
    · exact g.fpos c h.1
  · exact fun c hc => g.apos c ((hA c).1 hc).1
  · intro c hc
    rcases (c2 c).1 hc with rfl | h
    · exact ⟨hh, hhm, hlow.2.1, hhigh.2⟩
    · exact g.fin c h.1
  · exact fun c hc => g.ain c ((hA c).1 hc).1
  · intro c hc d hd hne
    rcases (c2 c).1 hc with rfl | h <;> rcases (c2 d).1 hd with rfl | h'
    · exact absurd rfl hne
    · exact hmd d h'.1 h'.2.1 h'.2.2
    · have := hmd c h.1 h.2.1 h.2.2
      unfold Dj at *; omega
    · exact g.ff c h.1 d h'.1 hne
  · exact fun c hc d hd => g.aa c ((hA c).1 hc).1 d ((hA d).1 hd).1
  · intro c hc d hd
    obtain ⟨d1, d2⟩ := (hA d).1 hd
    rcases (c2 c).1 hc with rfl | h
    · exact hdj d (g.apos d d1).1 (g.aa d d1 b hb d2) (fun c hc _ => g.fa c hc d d1)
    · exact g.fa c h.1 d d1
  · intro c hc d hd he
    rcases (c2 c).1 hc with rfl | h <;> rcases (c2 d).1 hd with rfl | h'
    · omega
    · -- the end of `m` is the end of `b` or of the free block after `b`
      rcases j2 with h2 | ⟨N, hN, h1, h2⟩
      · exact h'.2.2 (by omega)
      · exact g.merged N hN d h'.1 (by omega)
    · rcases j1 with h2 | ⟨P, hP, h1, h2⟩
      · exact h.2.1 (by omega)
      · exact g.merged c h.1 P hP (by omega)
    · exact g.merged c h.1 d h'.1 he

theorem Geo.release (g : Geo H F A) (hH : HOk H) {b m : ABlock} (hb : b ∈ A) (hs : Srt A')
    (hA : ∀ c, c ∈ A' ↔ c ∈ A ∧ c.ptr ≠ b.ptr) (hc : Coalesced F F' b m) : Geo H F' A' := by
  refine ⟨g.toLax.release hH hb hs hA hc, ?_⟩
  obtain ⟨c1, c2, j1, j2, j3, j4⟩ := hc
  have hlow : m.ptr ≤ b.ptr := by
    rcases j1 with h | ⟨P, _, h1, h2⟩ <;> omega
  have hhigh : b.ptr + b.size ≤ m.ptr + m.size := by
    rcases j2 with h | ⟨N, _, h1, h2⟩ <;> omega
  · intro h hm x hx1 hx2
    obtain ⟨c, hc, hx⟩ := g.cover h hm x hx1 hx2
    have hinm : c ∈ F ∧ (c.ptr + c.size = b.ptr ∨ b.ptr + b.size = c.ptr) → Has m x := by
      rintro ⟨hcF, he | he⟩
      · have := j3 c hcF he
        unfold Has at *; omega
      · have := j4 c hcF he
        unfold Has at *; omega
    rcases hc with hc | hc
    · by_cases he : c.ptr + c.size = b.ptr ∨ b.ptr + b.size = c.ptr
      · exact ⟨m, .inl ((c2 m).2 (.inl rfl)), hinm ⟨hc, he⟩⟩
      · refine ⟨c, .inl ((c2 c).2 (.inr ⟨hc, ?_, ?_⟩)), hx⟩
        · exact fun e => he (.inl e)
        · exact fun e => he (.inr e)
    · by_cases he : c.ptr = b.ptr
      · obtain rfl := g.as.eq hc hb he
        clear j1 j2 j3 j4 hinm
        exact ⟨m, .inl ((c2 m).2 (.inl rfl)), by unfold Has at *; omega⟩
      · exact ⟨c, .inr ((hA c).2 ⟨hc, he⟩), hx⟩

theorem Lax.grow (g : Lax H F A) {h : Blk} (hH : HOk (h :: H)) (hd : ∀ x ∈ H, h.Disjoint x)
    (h16 : 16 ∣ h.addr) (hz : h.addr ≠ 0) (hs : Srt F')
    (hF : ∀ c, c ∈ F' ↔ c = ⟨h.addr, h.size⟩ ∨ c ∈ F) : Lax (h :: H) F' A := by
  have h0 := hH.pos h List.mem_cons_self
  have hfar : ∀ (c : ABlock), 0 < c.size → (∃ x ∈ H, InB c x) →
      (c.ptr + c.size < h.addr ∨ h.addr + h.size < c.ptr) := by
    rintro c c0 ⟨x, hx, hin⟩
    have := hd x hx
    have := hH.gap h List.mem_cons_self x (List.mem_cons_of_mem _ hx)
    have := hH.gap x (List.mem_cons_of_mem _ hx) h List.mem_cons_self
    unfold InB Blk.Disjoint at *
    omega
  have hF' : ∀ c ∈ F', (c.ptr = h.addr ∧ c.size = h.size) ∨ c ∈ F := by
    intro c hc
    rcases (hF c).1 hc with rfl | h
    · exact .inl ⟨rfl, rfl⟩
    · exact .inr h
  have hfF : ∀ c ∈ F, c.ptr + c.size < h.addr ∨ h.addr + h.size < c.ptr :=
    fun c hc => hfar c (g.fpos c hc).1 (g.fin c hc)
  have hfA : ∀ c ∈ A, c.ptr + c.size < h.addr ∨ h.addr + h.size < c.ptr :=
    fun c hc => hfar c (g.apos c hc).1 (g.ain c hc)
  refine ⟨hs, g.as, ?_, g.apos, ?_, ?_, ?_, g.aa, ?_, ?_⟩
  · intro c hc
    rcases hF' c hc with ⟨e1, e2⟩ | hc
    · rw [e1, e2]; exact ⟨h0, h16, hz⟩
    · exact g.fpos c hc
  · intro c hc
    rcases hF' c hc with ⟨e1, e2⟩ | hc
    · exact ⟨h, List.mem_cons_self, by unfold InB; omega⟩
    · obtain ⟨x, hx, hin⟩ := g.fin c hc
      exact ⟨x, List.mem_cons_of_mem _ hx, hin⟩
  · intro c hc
    obtain ⟨x, hx, hin⟩ := g.ain c hc
    exact ⟨x, List.mem_cons_of_mem _ hx, hin⟩
  · intro c hc d hd' hne
    rcases hF' c hc with ⟨e1, e2⟩ | hc <;> rcases hF' d hd' with ⟨e1', e2'⟩ | hd'
    · omega
    · have := hfF d hd'; unfold Dj; omega
    · have := hfF c hc; unfold Dj; omega
    · exact g.ff c hc d hd' hne
  · intro c hc d hd'
    rcases hF' c hc with ⟨e1, e2⟩ | hc
    · have := hfA d hd'; unfold Dj; omega
    · exact g.fa c hc d hd'
  · intro c hc d hd'
    rcases hF' c hc with ⟨e1, e2⟩ | hc <;> rcases hF' d hd' with ⟨e1', e2'⟩ | hd'
    · omega
    · have := hfF d hd'; omega
    · have := hfF c hc; omega
    · exact g.merged c hc d hd'

theorem Geo.grow (g : Geo H F A) {h : Blk} (hH : HOk (h :: H)) (hd : ∀ x ∈ H, h.Disjoint x)
    (h16 : 16 ∣ h.addr) (hz : h.addr ≠ 0) (hs : Srt F')
    (hF : ∀ c, c ∈ F' ↔ c = ⟨h.addr, h.size⟩ ∨ c ∈ F) : Geo (h :: H) F' A := by
  refine ⟨g.toLax.grow hH hd h16 hz hs hF, ?_⟩
  · intro x hx y hy1 hy2
    rcases List.mem_cons.1 hx with rfl | hx
    · exact ⟨_, .inl ((hF _).2 (.inl rfl)), hy1, hy2⟩
    · obtain ⟨c, hc, hy⟩ := g.cover x hx y hy1 hy2
      rcases hc with hc | hc
      · exact ⟨c, .inl ((hF c).2 (.inr hc)), hy⟩
      · exact ⟨c, .inr hc, hy⟩

/-- With nothing allocated, the free blocks are the superblocks. -/
theorem Geo.whole (g : Geo H F []) (hH : HOk H) :
    (∀ h ∈ H, (⟨h.addr, h.size⟩ : ABlock) ∈ F) ∧ ∀ c ∈ F, ∃ h ∈ H, c = ⟨h.addr, h.size⟩ := by
  have key : ∀ h ∈ H, (⟨h.addr, h.size⟩ : ABlock) ∈ F := by
    intro h hm
    have h0 := hH.pos h hm
    obtain ⟨c, hc, hx⟩ := g.cover h hm h.addr (Nat.le_refl _) (by omega)
    have hc : c ∈ F := by simpa using hc
    obtain ⟨h', hm', hin⟩ := g.fin c hc
    have c0 := (g.fpos c hc).1
    have he : h = h' := by
      rcases hH.dj h hm h' hm' with e | e
      · exact e
      · exfalso; unfold InB Has Blk.Disjoint at *; omega
    subst he
    unfold InB Has at *
    by_cases hlt : c.ptr + c.size < h.addr + h.size
    · exfalso
      obtain ⟨d, hd, hy⟩ := g.cover h hm (c.ptr + c.size) (by omega) hlt
      have hd : d ∈ F := by simpa using hd
      unfold Has at hy
      by_cases hp : c.ptr = d.ptr
      · obtain rfl := g.fs.eq hc hd hp
        omega
      · have := g.ff c hc d hd hp
        have := g.merged c hc d hd
        unfold Dj at *; omega
    · have e1 : c.ptr = h.addr := by omega
      have e2 : c.size = h.size := by omega
      rw [← e1, ← e2]; exact hc
  refine ⟨key, ?_⟩
  intro c hc
  obtain ⟨h, hm, hin⟩ := g.fin c hc
  refine ⟨h, hm, ?_⟩
  by_cases hp : c.ptr = h.addr
  · exact g.fs.eq hc (key h hm) hp
  · exfalso
    have := g.ff c hc _ (key h hm) hp
    have := (g.fpos c hc).1
    unfold InB Dj at *
    simp only at *
    omega

theorem Geo.empty : Geo [] [] [] := by
  refine ⟨?_, by simp⟩
  constructor <;> first | exact List.Pairwise.nil | simp

end Arena

end Vecmem
