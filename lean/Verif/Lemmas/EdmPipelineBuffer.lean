import Verif.Spec.EdmPipeline
import Verif.Lemmas.JagPipelineKernels
import Verif.Props.C40_EdmSetup
import Verif.Props.C44_FromHost

/-! # Lemmas for C65: the buffers -/

namespace Vecmem

open IntMath Props

variable {σ : Type} {R : Limits} {G : Nat}

/-! ## Some of the resources, from a later state on -/

section
variable {ι κ : Type} {ups : ι → MR σ} {u0 u u' : σ} {T : List (ι × Blk)}

theorem FReach.after (h : FReach R ups u0 u T) {f : κ → ι} {T' : List (κ × Blk)} (h' : FReach R (fun k => ups (f k)) u u' T') :
    FReach R ups u0 u' (T'.map (fun e => (f e.1, e.2)) ++ T) := by
  induction h' with
  | init => exact h
  | alloc i _ hq hn he ih => exact .alloc (f i) ih hq hn he
  | refuse i _ hq hn he ih => exact .refuse (f i) ih hq hn he
  | zero i _ hq he ih => exact .zero (f i) ih hq he
  | free _ he ih => exact .free ih he
  | freeNull i _ he ih => exact .freeNull (f i) ih he
  | perm _ hp ih => exact .perm ih ((hp.map _).append_right _)

theorem FamLawful.after (hl : FamLawful R G ups u0) (h : FReach R ups u0 u T) (f : κ → ι) :
    FamLawful R G (fun k => ups (f k)) u where
  alloc := fun {s T' n a} i hr hq hn => by
    have := hl.alloc (f i) (h.after hr) hq hn
    cases e : ((ups (f i)).allocate s n a).1 with
    | ok p =>
      rw [e] at this
      refine ⟨this.1, this.2.1, this.2.2.1, fun b hb => this.2.2.2 b ?_⟩
      simp only [List.map_append, List.map_map, List.mem_append, List.mem_map, Function.comp] at hb ⊢
      exact .inl hb
    | badAlloc => trivial
    | _ => rw [e] at this; exact this
  zero := fun i hr hq => hl.zero (f i) (h.after hr) hq
  dealloc := fun hr hb => hl.dealloc (h.after hr) (List.mem_append_left _ (List.mem_map.2 ⟨_, hb, rfl⟩))
  null := fun i hr => hl.null (f i) (h.after hr)

end

/-! ## A buffer as its constructor leaves it -/

/-- A container buffer from well-behaved resources; compare `OneBuffer`. -/
structure EdmOk (σ : Type) (R : Limits) (G : Nat) (S : Schema) (A : Nat) (hasHost : Bool) (b : EBuffer) : Prop where
  schema : S ≠ []
  ok : S.Ok b.caps
  aligns : ∀ v ∈ S, v.type.align ≤ A
  align : 8 ≤ A
  req : IsReq R (S.room b.caps A) maxAlign
  small : S.room b.caps A < 2 ^ 32
  made : ∃ (ups : Bool → MR σ) (u0 u u' : σ), FamLawful R G ups u0 ∧ FReach R ups u0 u [] ∧
    EdmBuffer.create ups u S b.caps hasHost b.resizable = (.ok b.buf, u')

/-- The memory block of the buffer, and that of its copy of the views for the host. -/
def EBuffer.blk (b : EBuffer) : Blk := ⟨b.buf.mem.ptr, b.buf.mem.size, maxAlign⟩
def EBuffer.hostBlk (b : EBuffer) : Blk := ⟨b.buf.hostMem.ptr, b.buf.hostMem.size, maxAlign⟩

/-- The byte at `x` is in memory of the buffer. -/
def EBuffer.Owns (b : EBuffer) (x : Nat) : Prop := ∃ e ∈ b.buf.owned, e.2.addr ≤ x ∧ x < e.2.addr + e.2.size

/-- The byte at `x` is in the array of views of a jagged vector for the device, or in that for the host. -/
def EBuffer.InDev (b : EBuffer) (x : Nat) : Prop :=
  ∃ j, VarView.jagged j ∈ b.buf.view.vars ∧ j.ptr ≤ x ∧ x < j.ptr + j.views.length * viewSize
def EBuffer.InHost (b : EBuffer) (x : Nat) : Prop :=
  ∃ j, VarView.jagged j ∈ b.buf.view.vars ∧ j.hostPtr ≤ x ∧ x < j.hostPtr + j.views.length * viewSize

namespace EdmOk

variable {S : Schema} {A : Nat} {hasHost : Bool} {b : EBuffer}

theorem one (h : EdmOk σ R G S A hasHost b) : ∃ (ups : Bool → MR σ) (u0 : σ), OneBuffer R G ups u0 S b.caps A b.resizable b.buf := by
  obtain ⟨ups, u0, u, u', h1, h2, h3⟩ := h.made
  exact ⟨ups, u0, h1, h.schema, h.ok, h.aligns, h.align, h.req, h.small, u, u', _, _, h2, h3⟩

theorem facts (h : EdmOk σ R G S A hasHost b) :
    BufferAt S b.caps b.resizable b.buf.mem.ptr b.buf.view ∧
    placeEnd b.buf.mem.ptr (S.allRegions b.caps b.resizable) ≤ b.buf.mem.ptr + b.buf.mem.size ∧
    b.buf.mem.ptr + b.buf.mem.size ≤ 2 ^ 64 ∧ b.buf.mem.size < 2 ^ 32 ∧ (maxAlign ≤ G → maxAlign ∣ b.buf.mem.ptr) ∧
    b.buf.mem.ptr ≠ 0 ∧ EdmPlaced b.blk b.hostBlk S b.caps hasHost b.resizable b.buf.view ∧
    EdmBlocks b.blk S b.caps b.resizable b.buf.view := by
  obtain ⟨ups, u0, u, u', h1, h2, h3⟩ := h.made
  obtain ⟨b1, b2, b3, b4, b5, b6⟩ := create_at h1 h2 h.schema h.ok h.aligns h.align h.req h3
  obtain ⟨c1, c2, c3⟩ := placed_of_create h1 h2 h.schema h.ok h.aligns h.align h.req h3
  have := h.small
  exact ⟨b1, b2, b3, by omega, b5, c1, c2, c3 (by omega)⟩

theorem placed (h : EdmOk σ R G S A hasHost b) : EdmPlaced b.blk b.hostBlk S b.caps hasHost b.resizable b.buf.view :=
  h.facts.2.2.2.2.2.2.1

theorem blocks (h : EdmOk σ R G S A hasHost b) : EdmBlocks b.blk S b.caps b.resizable b.buf.view := h.facts.2.2.2.2.2.2.2

theorem top (h : EdmOk σ R G S A hasHost b) : b.buf.mem.ptr + b.buf.mem.size ≤ 2 ^ 64 := h.facts.2.2.1

theorem nonnull (h : EdmOk σ R G S A hasHost b) : b.buf.mem.ptr ≠ 0 := h.facts.2.2.2.2.2.1

theorem varsPlaced (h : EdmOk σ R G S A hasHost b) : VarsPlaced S b.buf.view.vars :=
  h.placed.varsPlaced h.ok h.nonnull h.top

theorem host (h : EdmOk σ R G S A hasHost b) : (b.buf.hostMem.ptr ≠ 0 ↔ hasHost = true) ∧ (hasHost = true → b.hostBlk.Disjoint b.blk) := by
  obtain ⟨ups, u0, u, u', h1, h2, h3⟩ := h.made
  have := c42_edm_buffer_partial ups u0 u [] h1 h2 S h.schema b.caps h.ok hasHost b.resizable A h.aligns h.align h.req
  rw [h3] at this
  obtain ⟨-, a1, a2, a3, -⟩ := this
  refine ⟨a3, fun hh => ?_⟩
  have h0 := a3.2 hh
  have e : b.buf.owned = [(true, b.hostBlk), (false, b.blk)] := by
    simp [EdmBuffer.owned, h0, a2, EBuffer.hostBlk, EBuffer.blk]
  rw [e] at a1
  simpa using a1

theorem owns_blk (h : EdmOk σ R G S A hasHost b) {x : Nat} (hx : b.blk.At x) : b.Owns x := by
  refine ⟨(false, b.blk), ?_, hx.1, hx.2⟩
  simp [EdmBuffer.owned, h.nonnull, EBuffer.blk]

theorem owns_host (h : EdmOk σ R G S A hasHost b) (hh : hasHost = true) {x : Nat} (hx : b.hostBlk.At x) : b.Owns x := by
  refine ⟨(true, b.hostBlk), ?_, hx.1, hx.2⟩
  simp [EdmBuffer.owned, h.host.1.2 hh, EBuffer.hostBlk]

/-- All data of the container is in its two data blocks. -/
theorem data_iff (h : EdmOk σ R G S A hasHost b) {x : Nat} :
    EdmHas S b.buf.view x ↔ b.buf.view.payload.bytes.At x ∨ b.buf.view.size.bytes.At x := by
  constructor
  · rintro (⟨i, v, y, hv, hy, hp | ⟨w, hw, w0, w1, w2⟩⟩ | hc)
    · exact .inl (payload_in_block h.blocks hv hy hp)
    · have := BufferAt.inside h.blocks h.placed y (List.mem_of_getElem? hy) w hw w0
      simp only [View.sizeWord, CType.region, CType.uint, Blk.Inside] at this
      exact .inr ⟨by omega, by omega⟩
    · exact hc
  · exact fun hc => .inr hc

theorem at_inside {a m : Blk} {x : Nat} (h : a.Inside m) (hx : a.At x) : m.At x := by
  unfold Blk.Inside at h
  unfold Blk.At at hx ⊢
  omega

theorem data_blk (h : EdmOk σ R G S A hasHost b) {x : Nat} (hx : EdmHas S b.buf.view x) : b.blk.At x := by
  have key : ∀ a ∈ [b.buf.view.size.bytes, b.buf.view.layout.bytes, b.buf.view.payload.bytes], a.At x → b.blk.At x := by
    intro a ha hax
    refine at_inside (h.blocks.inside a ha ?_) hax
    have := hax.1
    have := hax.2
    omega
  rcases h.data_iff.1 hx with hc | hc
  · exact key _ (by simp) hc
  · exact key _ (by simp) hc

theorem data_in (h : EdmOk σ R G S A hasHost b) {x : Nat} (hx : EdmHas S b.buf.view x) : b.Owns x := h.owns_blk (h.data_blk hx)

/-- The variable of the schema that belongs to a variable of the buffer. -/
theorem var_at (h : EdmOk σ R G S A hasHost b) {x : VarView} (hx : x ∈ b.buf.view.vars) :
    ∃ (i : Nat) (v : Var), S[i]? = some v ∧ b.buf.view.vars[i]? = some x ∧
      x.Fits b.blk b.hostBlk hasHost b.resizable b.caps (if b.resizable && !S.hasJagged then b.buf.view.size.ptr else 0) v := by
  obtain ⟨i, hi⟩ := List.mem_iff_getElem?.1 hx
  have hlt : i < S.length := by rw [← h.placed.count]; exact (List.getElem?_eq_some_iff.1 hi).1
  have hv := List.getElem?_eq_getElem hlt
  exact ⟨i, _, hv, hi, h.placed.vars i _ x hv hi⟩

theorem jagged_facts (h : EdmOk σ R G S A hasHost b) {j : JagView} (hj : .jagged j ∈ b.buf.view.vars) :
    j.views.length = b.caps.length ∧ (j.views ≠ [] → (CType.view.region j.ptr j.views.length).Inside b.blk ∧
      if hasHost then (CType.view.region j.hostPtr j.views.length).Inside b.hostBlk else j.hostPtr = j.ptr) := by
  obtain ⟨i, v, hv, hx, hf⟩ := h.var_at hj
  unfold VarView.Fits at hf
  cases hk : v.kind with
  | scalar => rw [hk] at hf; exact hf.elim
  | vector => rw [hk] at hf; exact hf.elim
  | jagged =>
    rw [hk] at hf
    obtain ⟨f1, f2, f3⟩ := hf
    have hl : j.views.length = b.caps.length := by rw [← f1.capacities, List.length_map]
    refine ⟨hl, fun hne => ?_⟩
    have hc : b.caps ≠ [] := fun hc => hne (List.length_eq_zero_iff.1 (by rw [hl, hc]; rfl))
    obtain ⟨-, g1, g2⟩ := f3 hc
    rw [hl]
    refine ⟨g1, ?_⟩
    split
    · rename_i hh
      rw [if_pos hh] at g2
      exact g2.2
    · rename_i hh
      rw [if_neg hh] at g2
      exact g2

theorem views_ne {j : JagView} {p x : Nat} (hx : p ≤ x ∧ x < p + j.views.length * viewSize) : j.views ≠ [] := by
  intro hc
  rw [hc] at hx
  simp at hx
  omega

theorem dev_layout (h : EdmOk σ R G S A hasHost b) {x : Nat} (hx : b.InDev x) : b.buf.view.layout.bytes.At x := by
  obtain ⟨j, hj, hp⟩ := hx
  obtain ⟨i, hi⟩ := List.mem_iff_getElem?.1 hj
  have := h.blocks.layout i j hi (views_ne hp)
  refine at_inside this ?_
  simp only [Blk.At, CType.region, CType.view]
  exact hp

theorem dev_blk (h : EdmOk σ R G S A hasHost b) {x : Nat} (hx : b.InDev x) : b.blk.At x := by
  obtain ⟨j, hj, hp⟩ := hx
  refine at_inside ((h.jagged_facts hj).2 (views_ne hp)).1 ?_
  simp only [Blk.At, CType.region, CType.view]
  exact hp

theorem host_cases (h : EdmOk σ R G S A hasHost b) {x : Nat} (hx : b.InHost x) :
    (hasHost = true ∧ b.hostBlk.At x) ∨ (hasHost = false ∧ b.InDev x) := by
  obtain ⟨j, hj, hp⟩ := hx
  have := ((h.jagged_facts hj).2 (views_ne hp)).2
  cases hh : hasHost with
  | true =>
    rw [hh, if_pos rfl] at this
    refine .inl ⟨rfl, at_inside this ?_⟩
    simp only [Blk.At, CType.region, CType.view]
    exact hp
  | false =>
    rw [hh, if_neg (by simp)] at this
    rw [this] at hp
    exact .inr ⟨rfl, j, hj, hp⟩

theorem dev_in (h : EdmOk σ R G S A hasHost b) {x : Nat} (hx : b.InDev x) : b.Owns x := h.owns_blk (h.dev_blk hx)

theorem host_in (h : EdmOk σ R G S A hasHost b) {x : Nat} (hx : b.InHost x) : b.Owns x := by
  rcases h.host_cases hx with ⟨hh, hc⟩ | ⟨-, hc⟩
  · exact h.owns_host hh hc
  · exact h.dev_in hc

theorem apart (h : EdmOk σ R G S A hasHost b) {x : Nat} (hx : b.buf.view.layout.bytes.At x) : ¬ EdmHas S b.buf.view x := by
  intro hd
  have happ := h.blocks.apart
  simp only [List.pairwise_cons, List.mem_cons, List.not_mem_nil, or_false, forall_eq_or_imp, forall_eq] at happ
  obtain ⟨⟨hsl, hsp⟩, hlp, _⟩ := happ
  rcases h.data_iff.1 hd with hc | hc
  · exact hlp.at x ⟨hx, hc⟩
  · exact hsl.at x ⟨hc, hx⟩

theorem dev_apart (h : EdmOk σ R G S A hasHost b) {x : Nat} (hx : b.InDev x) : ¬ EdmHas S b.buf.view x := h.apart (h.dev_layout hx)

theorem host_apart (h : EdmOk σ R G S A hasHost b) {x : Nat} (hx : b.InHost x) : ¬ EdmHas S b.buf.view x := by
  rcases h.host_cases hx with ⟨hh, hc⟩ | ⟨-, hc⟩
  · intro hd
    exact (h.host.2 hh).at x ⟨hc, h.data_blk hd⟩
  · exact h.dev_apart hc

/-- The rows of a variable. -/
theorem row_facts (h : EdmOk σ R G S A hasHost b) {i : Nat} {v : Var} {x : VarView} (hv : S[i]? = some v)
    (hx : b.buf.view.vars[i]? = some x) :
    x.kind = v.kind ∧ x.rows.map (·.capacity) = v.rowCaps b.caps ∧
      ∀ w ∈ x.rows, (w.sizePtr ≠ 0 ↔ S.grows b.resizable v = true) := by
  have hf := h.placed.vars i v x hv hx
  unfold VarView.Fits at hf
  unfold Var.rowCaps Schema.grows
  cases hk : v.kind with
  | scalar =>
    rw [hk] at hf
    cases x with
    | scalar p => simp [VarView.kind, VarView.rows]
    | _ => exact hf.elim
  | vector =>
    rw [hk] at hf
    cases x with
    | vector w =>
      obtain ⟨f1, f2, f3⟩ := hf
      refine ⟨rfl, by simp [VarView.rows, f1], ?_⟩
      intro y hy
      simp only [VarView.rows, List.mem_singleton] at hy
      subst hy
      rw [f2]
      cases hr : b.resizable with
      | false => simp
      | true =>
        cases hj : S.hasJagged with
        | true => simp
        | false => simpa using (h.placed.word hr hj).1
    | _ => exact hf.elim
  | jagged =>
    rw [hk] at hf
    cases x with
    | jagged j =>
      obtain ⟨f1, f2, f3⟩ := hf
      refine ⟨rfl, f1.capacities, ?_⟩
      intro y hy
      have := f1.words y hy
      cases hr : b.resizable with
      | false => rw [hr] at this; simpa using this
      | true => rw [hr] at this; simp only [if_true] at this; simpa using this.1
    | _ => exact hf.elim

/-- The views can be written to memory and read back. -/
theorem small_views (h : EdmOk σ R G S A hasHost b) {j : JagView} (hj : .jagged j ∈ b.buf.view.vars) :
    ∀ v ∈ j.views, v.capacity < 2 ^ 32 ∧ v.sizePtr < 2 ^ 64 ∧ (v.capacity ≠ 0 → v.ptr < 2 ^ 64) := by
  obtain ⟨i, v, hv, hx, hf⟩ := h.var_at hj
  intro w hw
  obtain ⟨-, ht, hp⟩ := h.varsPlaced.each i v _ hv hx
  have hwp := hp.placed w hw
  have htop := h.top
  refine ⟨hwp.word32, ?_, ?_⟩
  · by_cases h0 : w.sizePtr = 0
    · omega
    · have hin := BufferAt.inside h.blocks h.placed _ hj w hw h0
      simp only [View.sizeWord, CType.region, CType.uint, Blk.Inside] at hin
      have : b.blk.At w.sizePtr := h.data_blk (h.data_iff.2 (.inr ⟨by omega, by omega⟩))
      unfold Blk.At EBuffer.blk at this
      simp only at this
      omega
  · intro hc
    have := hwp.space hc
    have : 1 ≤ w.capacity * v.type.size := Nat.mul_pos (by omega) ht
    omega

end EdmOk
end Vecmem
