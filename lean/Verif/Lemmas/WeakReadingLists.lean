import Verif.Spec.WeakReadingLists
import Verif.Lemmas.WeakReading
import Verif.Lemmas.JagPipelineSteps

/-!
# Lemmas for C83: kernels that read vectors and jagged vectors on weak memory
-/

namespace Vecmem

theorem calls_code (V : WVec) (words : Elem → List (BitVec 32)) (dflt : Elem) : ∀ cs : List (ACall Elem),
    cs.foldr (fun x k => (x.weak words dflt).code V k) .done = (WTask.calls words dflt cs).code V
  | [] => rfl
  | c :: cs => by
    rw [List.foldr_cons, calls_code V words dflt cs]
    rfl

/-- An element of one of the vectors is where `locateRow` says. -/
theorem locateRow_elem {vs : List View} {t : Nat} {m : Mem} {d : Cell} {x : Elem} (h : Table.cell [vs.map fun v => v.elems m t] d = some x) :
    ∃ n a, locateRow vs t m d = some (n, a) ∧ bytesAt m a n = x := by
  obtain ⟨var, row, index⟩ := d
  unfold Table.cell at h
  cases var with
  | succ _ => simp at h
  | zero =>
    simp only [List.getElem?_cons_zero, List.getElem?_map] at h
    cases hv : vs[row]? with
    | none => rw [hv] at h; simp at h
    | some v =>
      rw [hv] at h
      simp only [Option.map_some] at h
      have hi : index < v.len m := by rw [← elems_length m t v]; exact (List.getElem?_eq_some_iff.1 h).1
      rw [elems_get hi] at h
      refine ⟨t, v.ptr + index * t, ?_, Option.some.inj h⟩
      simp only [locateRow, hv, if_pos hi]

theorem View.Alike.elems {v w : View} (h : v.Alike w) {m : Mem} {t : Nat} (hw : w.len m ≤ w.capacity) : v.elems m t = w.elems m t := by
  have hl : v.len m = w.len m := by unfold View.len; rw [h.1, h.2.1]
  unfold View.elems
  rw [hl]
  refine List.map_congr_left fun i hi => ?_
  rw [h.2.2 (by have := List.mem_range.1 hi; omega)]

section

variable {σ : Type} {R : Limits} {ups : Nat → MR σ} {u0 : σ} {c : JagCfg} {p : JPipe σ} {q : JReady}

theorem HasAll_get {S : Store} : ∀ {ins : List Nat} {ls : List (List Elem)}, S.HasAll ins ls → ls.length = ins.length ∧
    ∀ (i : Nat) (l : List Elem), ls[i]? = some l → ∃ k cap r, ins[i]? = some k ∧ S.Has k cap r l
  | [], [], _ => ⟨rfl, fun i l h => by simp at h⟩
  | k :: ks, l :: ls, ⟨⟨cap, r, h1⟩, h2⟩ => by
    obtain ⟨g1, g2⟩ := HasAll_get h2
    refine ⟨by simp [g1], fun i l' hl => ?_⟩
    cases i with
    | zero => cases hl; exact ⟨k, cap, r, rfl, h1⟩
    | succ i => exact g2 i l' (by simpa using hl)
  | [], _ :: _, h => h.elim
  | _ :: _, [], h => h.elim

theorem jagHasAll_get {S : JStore} : ∀ {ins : List Nat} {ls : List (List (List Elem))}, S.HasAll ins ls →
    ∀ (i : Nat) (l : List (List Elem)), ls[i]? = some l → ∃ k caps r, ins[i]? = some k ∧ S.Has k caps r true l
  | [], [], _ => fun i l h => by simp at h
  | k :: ks, l :: ls, ⟨⟨cap, r, h1⟩, h2⟩ => fun i l' hl => by
    cases i with
    | zero => cases hl; exact ⟨k, cap, r, rfl, h1⟩
    | succ i => exact jagHasAll_get h2 i l' (by simpa using hl)
  | [], _ :: _, h => h.elim
  | _ :: _, [], h => h.elim

/-- Where the elements of the inputs are. -/
theorem JInv.locs (h : JInv c R ups u0 p q) {ins jins : List Nat} {ls : List (List Elem)} {js : List (List (List Elem))} (hi : (p.store c q).vec.HasAll ins ls)
    (hj : (p.store c q).HasAll jins js) (k : Nat) (d : Cell) (x : Elem) (hx : ((listTables ls js)[k]?).bind (·.cell d) = some x) :
    ∃ t a, p.locs c ins jins k d = some (t, a) ∧ bytesAt p.vec.mem a t = x := by
  obtain ⟨hlen, hget⟩ := HasAll_get hi
  obtain ⟨T, hT, hx⟩ := Option.bind_eq_some_iff.1 hx
  unfold listTables at hT
  by_cases hk : k < ls.length
  · rw [List.getElem?_append_left (by simpa using hk), List.getElem?_map] at hT
    obtain ⟨l, h1, rfl⟩ := Option.map_eq_some_iff.1 hT
    obtain ⟨n, cap, r, h2, h3⟩ := hget k l h1
    obtain ⟨b, b1, -, -, -, -, b6, -, -⟩ := h.vec.has h3
    unfold JPipe.locs
    simp only [h2, b1]
    exact locateRow_elem (vs := [b.view]) (by simpa [b6] using hx)
  · rw [List.getElem?_append_right (by simpa using hk), List.getElem?_map, List.length_map] at hT
    obtain ⟨rows, h1, rfl⟩ := Option.map_eq_some_iff.1 hT
    obtain ⟨n, caps, r, h2, h3⟩ := jagHasAll_get hj _ rows h1
    obtain ⟨b, b1, b2, -, -, -, b6, b7, b8⟩ := h.has h3
    have ha := deviceRows_alike (h.described b2 b6)
    unfold JPipe.locs
    rw [List.getElem?_eq_none (by omega)]
    rw [hlen] at h2
    simp only [h2, b1]
    refine locateRow_elem (vs := b.deviceRows p.vec.mem) ?_
    rw [map_alike (fun v => v.elems p.vec.mem (c.ty n).size) ha.1 fun i v w g1 g2 => (ha.2 i v w g1 g2).elems (b8.inner w (List.mem_of_getElem? g2)).len, b7]
    exact hx

end

end Vecmem
