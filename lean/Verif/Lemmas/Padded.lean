import Verif.Spec.Arena
import Verif.Lemmas.Resource

/-! A resource that keeps 16 bytes between blocks (used in examples). -/

namespace Vecmem

variable {σ : Type} {A Z G : Nat} {up : MR σ} {s0 : σ}

/-- Ask for 16 more bytes than requested, so that blocks never touch. -/
def padded (up : MR σ) : MR σ where
  allocate s n a := if n = 0 then (.ok 0, s) else up.allocate s (n + 16) a
  deallocate s p n a := if p = 0 then (.ok (), s) else up.deallocate s p (n + 16) a

def padBlk (b : Blk) : Blk := ⟨b.addr, b.size + 16, b.align⟩

theorem padded_req {n a : Nat} (hZ : Z + 16 < 2 ^ 64) (h : IsReq ⟨A, Z⟩ n a) : IsReq ⟨A, Z + 16⟩ (n + 16) a := by
  obtain ⟨⟨h1, h2⟩, h3, h4⟩ := h
  simp only at h1 h3
  exact ⟨⟨by simp only; omega, by omega⟩, h3, h4⟩

theorem padded_reach (hl : Lawful ⟨A, Z + 16⟩ G up s0) (hZ : Z + 16 < 2 ^ 64) {s : σ} {L : List Blk}
    (h : Reach ⟨A, Z⟩ (padded up) s0 s L) : Reach ⟨A, Z + 16⟩ up s0 s (L.map padBlk) := by
  induction h with
  | init => exact .init
  | @alloc s s' L n a p h1 hq hn he ih =>
    simp only [padded, if_neg (Nat.pos_iff_ne_zero.1 hn)] at he
    exact .alloc ih (padded_req hZ hq) (by omega) he
  | @refuse s s' L n a h1 hq hn he ih =>
    simp only [padded, if_neg (Nat.pos_iff_ne_zero.1 hn)] at he
    exact .refuse ih (padded_req hZ hq) (by omega) he
  | @zero s s' L a r h1 hq he ih =>
    simp only [padded, if_pos rfl] at he
    obtain ⟨rfl, rfl⟩ := Prod.mk.inj he
    exact ih
  | @free s s' L b h1 he ih =>
    have := ((hl.live ih).1 (padBlk b) (by simp)).1
    simp only [padBlk] at this
    simp only [padded, if_neg this] at he
    exact .free (b := padBlk b) ih he
  | @freeNull s s' L n a r h1 he ih =>
    simp only [padded, if_pos rfl] at he
    obtain ⟨rfl, rfl⟩ := Prod.mk.inj he
    exact ih
  | perm _ hp ih => exact .perm ih (hp.map _)

theorem padded_lawful (hl : Lawful ⟨A, Z + 16⟩ G up s0) (hZ : Z + 16 < 2 ^ 64) :
    Lawful ⟨A, Z⟩ G (padded up) s0 where
  alloc := by
    intro s L n a h hq hn
    have := hl.alloc (padded_reach hl hZ h) (padded_req hZ hq) (by omega)
    simp only [padded, if_neg (Nat.pos_iff_ne_zero.1 hn)]
    cases hr : (up.allocate s (n + 16) a).1 with
    | ok p =>
      rw [hr] at this
      obtain ⟨h1, h2, h3, h4⟩ := this
      refine ⟨h1, by omega, h3, ?_⟩
      intro b hb
      have := h4 (padBlk b) (List.mem_map.2 ⟨b, hb, rfl⟩)
      simp only [Blk.Disjoint, padBlk] at *
      omega
    | badAlloc => trivial
    | _ => rw [hr] at this; exact this.elim
  zero := by intro s L a h hq; exact .inl (by simp [padded])
  dealloc := by
    intro s L b h hb
    have hr := padded_reach hl hZ h
    have hm : padBlk b ∈ L.map padBlk := List.mem_map.2 ⟨b, hb, rfl⟩
    have h0 := ((hl.live hr).1 _ hm).1
    simp only [padBlk] at h0
    simp only [padded, if_neg h0]
    exact hl.dealloc hr hm
  null := by intro s L n a h; simp [padded]

theorem padded_gapped (hl : Lawful ⟨A, Z + 16⟩ G up s0) (hZ : Z + 16 < 2 ^ 64) :
    Gapped ⟨A, Z⟩ (padded up) s0 := by
  intro s L n a p s' h hq hn he b hb
  have := hl.alloc (padded_reach hl hZ h) (padded_req hZ hq) (by omega)
  simp only [padded, if_neg (Nat.pos_iff_ne_zero.1 hn)] at he
  rw [he] at this
  have := this.2.2.2 (padBlk b) (List.mem_map.2 ⟨b, hb, rfl⟩)
  simp only [Blk.Disjoint, padBlk] at this
  omega

end Vecmem
