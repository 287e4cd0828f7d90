import Verif.Model.Arena
import Verif.Lemmas.Tactics

/-! Sets of blocks of the arena resource. -/

namespace Vecmem

open IntMath

namespace Arena

/-- Sorted by address. -/
def Srt (xs : List ABlock) : Prop := xs.Pairwise fun c d => c.ptr < d.ptr

theorem Srt.tail {c : ABlock} {xs : List ABlock} (h : Srt (c :: xs)) : Srt xs := (List.pairwise_cons.1 h).2

theorem Srt.eq {xs : List ABlock} (h : Srt xs) {c d : ABlock} (hc : c ∈ xs) (hd : d ∈ xs)
    (he : c.ptr = d.ptr) : c = d := by
  induction xs with
  | nil => simp at hc
  | cons x xs ih =>
    have hp := List.pairwise_cons.1 h
    rcases List.mem_cons.1 hc with hc | hc <;> rcases List.mem_cons.1 hd with hd | hd
    · rw [hc, hd]
    · have := hp.1 d hd
      subst hc; omega
    · have := hp.1 c hc
      subst hd; omega
    · exact ih hp.2 hc hd

theorem Srt.nodup {xs : List ABlock} (h : Srt xs) : xs.Nodup := by
  refine List.Pairwise.imp ?_ h
  intro a b hab he
  subst he
  omega

theorem split_spec {xs : List ABlock} (h : Srt xs) (v : Nat) :
    (∀ c ∈ xs.takeWhile (fun c => c.ptr < v), c.ptr < v) ∧
    (∀ c ∈ xs.dropWhile (fun c => c.ptr < v), v ≤ c.ptr) ∧
    xs.takeWhile (fun c => c.ptr < v) ++ xs.dropWhile (fun c => c.ptr < v) = xs := by
  refine ⟨?_, ?_, List.takeWhile_append_dropWhile⟩
  · intro c hc
    have := List.all_takeWhile (l := xs) (p := fun c => decide (c.ptr < v))
    simpa using List.all_eq_true.1 this c hc
  · induction xs with
    | nil => simp
    | cons x xs ih =>
      intro c hc
      by_cases hx : x.ptr < v
      · rw [List.dropWhile_cons_of_pos (by simpa using hx)] at hc
        exact ih h.tail c hc
      · rw [List.dropWhile_cons_of_neg (by simpa using hx)] at hc
        rcases List.mem_cons.1 hc with rfl | hc
        · omega
        · have := (List.pairwise_cons.1 h).1 c hc; omega

theorem setInsert_new {xs : List ABlock} {b : ABlock} (h : Srt xs) (hn : ∀ c ∈ xs, c.ptr ≠ b.ptr) :
    Srt (setInsert xs b) ∧ ∀ c, c ∈ setInsert xs b ↔ c = b ∨ c ∈ xs := by
  have ha : xs.any (fun c => c.ptr == b.ptr) = false := by
    rw [List.any_eq_false]
    intro c hc
    simpa using hn c hc
  obtain ⟨h1, h2, h3⟩ := split_spec h b.ptr
  unfold setInsert
  rw [if_neg (by simp [ha])]
  constructor
  · have hs := h
    rw [← h3] at hs
    obtain ⟨p1, p2, p3⟩ := List.pairwise_append.1 hs
    refine List.pairwise_append.2 ⟨p1, List.pairwise_cons.2 ⟨?_, p2⟩, ?_⟩
    · intro d hd
      have := h2 d hd
      have := hn d ((List.dropWhile_sublist _).subset hd)
      omega
    · intro c hc d hd
      rcases List.mem_cons.1 hd with rfl | hd
      · exact h1 c hc
      · exact p3 c hc d hd
  · intro c
    conv_rhs => rw [← h3]
    simp only [List.mem_append, List.mem_cons]
    tauto

theorem setInsert_present {xs : List ABlock} {b : ABlock} (h : ∃ c ∈ xs, c.ptr = b.ptr) :
    setInsert xs b = xs := by
  unfold setInsert
  rw [if_pos]
  rw [List.any_eq_true]
  obtain ⟨c, hc, he⟩ := h
  exact ⟨c, hc, by simpa using he⟩

/-- Disjoint blocks. -/
def Dj (c d : ABlock) : Prop := c.ptr + c.size ≤ d.ptr ∨ d.ptr + d.size ≤ c.ptr

/-- A block contains an address. -/
def Has (c : ABlock) (x : Nat) : Prop := c.ptr ≤ x ∧ x < c.ptr + c.size

theorem firstFit_spec {F : List ABlock} {n : Nat} (hs : Srt F)
    (hff : ∀ c ∈ F, ∀ d ∈ F, c.ptr ≠ d.ptr → Dj c d) (hpos : ∀ c ∈ F, 0 < c.size) (hn : 0 < n) :
    (firstFit F n = ({}, F) ∧ ∀ c ∈ F, c.size < n) ∨
    ∃ b ∈ F, n ≤ b.size ∧ (firstFit F n).1 = ⟨b.ptr, n⟩ ∧ Srt (firstFit F n).2 ∧
      ∀ c, c ∈ (firstFit F n).2 ↔
        (c ∈ F ∧ c.ptr ≠ b.ptr) ∨ (n < b.size ∧ c = ⟨b.ptr + n, b.size - n⟩) := by
  unfold firstFit
  cases hf : F.find? (fun b => n ≤ b.size) with
  | none =>
    left
    refine ⟨rfl, ?_⟩
    intro c hc
    have := List.find?_eq_none.1 hf c hc
    simpa using this
  | some b =>
    right
    have hb := List.mem_of_find?_eq_some hf
    have hnb : n ≤ b.size := by simpa using List.find?_some hf
    have hes : Srt (F.erase b) := List.Pairwise.sublist List.erase_sublist hs
    have hem : ∀ c, c ∈ F.erase b ↔ c ∈ F ∧ c.ptr ≠ b.ptr := by
      intro c
      rw [hs.nodup.mem_erase_iff]
      constructor
      · rintro ⟨h1, h2⟩
        exact ⟨h2, fun he => h1 (hs.eq h2 hb he)⟩
      · rintro ⟨h1, h2⟩
        exact ⟨fun he => h2 (by rw [he]), h1⟩
    refine ⟨b, hb, hnb, ?_⟩
    simp only
    split
    · rename_i hlt
      have hnew : ∀ c ∈ F.erase b, c.ptr ≠ (⟨b.ptr + n, b.size - n⟩ : ABlock).ptr := by
        intro c hc
        obtain ⟨h1, h2⟩ := (hem c).1 hc
        have := hff c h1 b hb h2
        have := hpos c h1
        unfold Dj at *
        simp only
        omega
      obtain ⟨i1, i2⟩ := setInsert_new hes hnew
      refine ⟨rfl, i1, ?_⟩
      intro c
      rw [i2, hem]
      simp only [hlt, true_and]
      tauto
    · rename_i hlt
      have : b.size = n := by omega
      refine ⟨by rw [← this], hes, ?_⟩
      intro c
      rw [hem]
      simp [hlt]

/-- Coalescing a superblock that has just been put into the set, if no free block ends where it begins. -/
theorem coalesce_present {F : List ABlock} {b : ABlock} (hs : Srt F) (hb : b ∈ F) (h0 : 0 < b.size)
    (hend : ∀ c ∈ F, c.ptr + c.size ≠ b.ptr) : coalesce F b = some F := by
  unfold coalesce
  split
  · rfl
  · obtain ⟨h1, h2, h3⟩ := split_spec hs b.ptr
    simp only
    generalize hA : F.takeWhile (fun c => c.ptr < b.ptr) = A at *
    generalize hB : F.dropWhile (fun c => c.ptr < b.ptr) = B at *
    have hbB : b ∈ B := by
      rw [← h3] at hb
      rcases List.mem_append.1 hb with h | h
      · have := h1 b h; omega
      · exact h
    obtain ⟨nb, rest, rfl⟩ : ∃ nb rest, B = nb :: rest := by
      cases B with
      | nil => simp at hbB
      | cons x xs => exact ⟨x, xs, rfl⟩
    have hnb : nb = b := by
      have hsB : Srt (nb :: rest) := by
        rw [← h3] at hs
        exact (List.pairwise_append.1 hs).2.1
      rcases List.mem_cons.1 hbB with h | h
      · exact h.symm
      · have := (List.pairwise_cons.1 hsB).1 b h
        have := h2 nb List.mem_cons_self
        omega
    subst hnb
    have hpb : ∃ pb, A.getLast?.or ((nb :: rest).head?) = some pb ∧ pb ∈ F := by
      cases hg : A.getLast? with
      | none => exact ⟨nb, by simp, hb⟩
      | some pb =>
        refine ⟨pb, by simp, ?_⟩
        rw [← h3]
        exact List.mem_append_left _ (List.mem_of_getLast? hg)
    obtain ⟨pb, hp1, hp2⟩ := hpb
    rw [hp1]
    simp only [coalesceAt]
    have e1 : (pb.ptr + pb.size == nb.ptr) = false := by simpa using hend pb hp2
    have e2 : (nb.ptr + nb.size == nb.ptr) = false := by simp; omega
    simp only [e1, e2]
    rw [h3]
    simp only [Bool.false_eq_true, if_false]
    rw [setInsert_present ⟨nb, hb, rfl⟩]

/-- The block resulting from a merge. -/
def Joined (F : List ABlock) (b m : ABlock) : Prop :=
  (m.ptr = b.ptr ∨ ∃ P ∈ F, P.ptr + P.size = b.ptr ∧ m.ptr = P.ptr) ∧
  (m.ptr + m.size = b.ptr + b.size ∨
    ∃ N ∈ F, b.ptr + b.size = N.ptr ∧ m.ptr + m.size = N.ptr + N.size) ∧
  (∀ c ∈ F, c.ptr + c.size = b.ptr → m.ptr = c.ptr) ∧
  (∀ c ∈ F, b.ptr + b.size = c.ptr → m.ptr + m.size = c.ptr + c.size)

/-- The set after a merge. -/
def Coalesced (F F' : List ABlock) (b m : ABlock) : Prop :=
  Srt F' ∧
  (∀ c, c ∈ F' ↔ c = m ∨ (c ∈ F ∧ c.ptr + c.size ≠ b.ptr ∧ b.ptr + b.size ≠ c.ptr)) ∧ Joined F b m

theorem coalesced_of {F X : List ABlock} {b m : ABlock} (hs : Srt F) (hpos : ∀ c ∈ F, 0 < c.size)
    (hb : ∀ c ∈ F, Dj c b) (h0 : 0 < b.size) (hX : X.Sublist F)
    (hm : ∀ c ∈ F, c ∈ X ↔ c.ptr + c.size ≠ b.ptr ∧ b.ptr + b.size ≠ c.ptr) (hj : Joined F b m) :
    Coalesced F (setInsert X m) b m := by
  have hXs : Srt X := List.Pairwise.sublist hX hs
  have hnew : ∀ c ∈ X, c.ptr ≠ m.ptr := by
    intro c hc he
    have hcF := hX.subset hc
    have h1 := (hm c hcF).1 hc
    rcases hj.1 with h | ⟨P, hP, h2, h3⟩
    · have := hb c hcF
      have := hpos c hcF
      unfold Dj at *
      omega
    · have := hs.eq hcF hP (by omega)
      subst this
      exact h1.1 h2
  obtain ⟨i1, i2⟩ := setInsert_new hXs hnew
  refine ⟨i1, ?_, hj⟩
  intro c
  rw [i2]
  constructor
  · rintro (h | h)
    · exact .inl h
    · exact .inr ⟨hX.subset h, (hm c (hX.subset h)).1 h⟩
  · rintro (h | ⟨h1, h2⟩)
    · exact .inl h
    · exact .inr ((hm c h1).2 h2)

/-- What coalescing a block that is disjoint from the free blocks gives: one block `m`, which is `b`
extended by the free block before it and the one after it (if these touch `b`), and the other free blocks. -/
theorem coalesce_spec {F : List ABlock} {b : ABlock} (hs : Srt F) (hne : F ≠ [])
    (hff : ∀ c ∈ F, ∀ d ∈ F, c.ptr ≠ d.ptr → Dj c d) (hpos : ∀ c ∈ F, 0 < c.size)
    (hb : ∀ c ∈ F, Dj c b) (h0 : 0 < b.size) (hp : b.ptr ≠ 0) :
    ∃ F' m, coalesce F b = some F' ∧ Coalesced F F' b m := by
  unfold coalesce
  rw [if_neg hp]
  obtain ⟨h1, h2, h3⟩ := split_spec hs b.ptr
  simp only
  generalize hA : F.takeWhile (fun c => c.ptr < b.ptr) = A at *
  generalize hB : F.dropWhile (fun c => c.ptr < b.ptr) = B at *
  clear hA hB
  subst h3
  obtain ⟨sA, sB, sAB⟩ := List.pairwise_append.1 hs
  have mA : ∀ c ∈ A, c ∈ A ++ B := fun c hc => List.mem_append_left _ hc
  have mB : ∀ c ∈ B, c ∈ A ++ B := fun c hc => List.mem_append_right _ hc
  have eA : ∀ c ∈ A, c.ptr + c.size ≤ b.ptr := by
    intro c hc
    have := hb c (mA c hc)
    have := h1 c hc
    unfold Dj at *; omega
  have eB : ∀ c ∈ B, b.ptr + b.size ≤ c.ptr := by
    intro c hc
    have := hb c (mB c hc)
    have := h2 c hc
    have := hpos c (mB c hc)
    unfold Dj at *; omega
  rcases List.eq_nil_or_concat A with rfl | ⟨A', p, rfl⟩
  · -- nothing before the block
    obtain ⟨nb, rest, rfl⟩ : ∃ nb rest, B = nb :: rest := by
      cases B with
      | nil => simp at hne
      | cons x xs => exact ⟨x, xs, rfl⟩
    have hn := eB nb List.mem_cons_self
    have hrest : ∀ c ∈ rest, b.ptr + b.size < c.ptr := by
      intro c hc
      have := (List.pairwise_cons.1 sB).1 c hc
      omega
    simp only [List.getLast?_nil, List.head?_cons, Option.none_or, coalesceAt, List.nil_append] at *
    have e1 : (nb.ptr + nb.size == b.ptr) = false := by
      have := hpos nb List.mem_cons_self
      simp; omega
    simp only [e1]
    by_cases e2 : b.ptr + b.size = nb.ptr
    · rw [if_pos (by simpa using e2)]
      refine ⟨_, _, rfl, coalesced_of hs hpos hb h0 (by simp) ?_ ?_⟩
      · intro c hc
        rcases List.mem_cons.1 hc with rfl | hc
        · constructor
          · intro h; have := hrest _ h; omega
          · intro h; omega
        · have := hrest c hc
          simp only [hc, true_iff]
          omega
      · refine ⟨.inl rfl, .inr ⟨nb, by simp, e2, by simp only; omega⟩, ?_, ?_⟩
        · intro c hc h
          have := eB c hc
          have := hpos c hc
          omega
        · intro c hc h
          have : c = nb := hs.eq hc (by simp) (by omega)
          subst this
          simp only; omega
    · rw [if_neg (by simpa using e2)]
      refine ⟨_, _, rfl, coalesced_of hs hpos hb h0 (List.Sublist.refl _) ?_ ?_⟩
      · intro c hc
        simp only [hc, true_iff]
        have := eB c hc
        have := hpos c hc
        refine ⟨by omega, ?_⟩
        rcases List.mem_cons.1 hc with rfl | hc
        · exact e2
        · have := hrest c hc; omega
      · refine ⟨.inl rfl, .inl rfl, ?_, ?_⟩
        · intro c hc h
          have := eB c hc
          have := hpos c hc
          omega
        · intro c hc h
          exfalso
          rcases List.mem_cons.1 hc with rfl | hc
          · exact e2 h
          · have := hrest c hc; omega
  · have hpm : p ∈ A'.concat p := by simp
    have hpe := eA p hpm
    have hA' : ∀ c ∈ A', c.ptr + c.size < b.ptr := by
      intro c hc
      have hc' : c ∈ A'.concat p := by simp [hc]
      have hlt : c.ptr < p.ptr := by
        rw [List.concat_eq_append] at sA
        exact (List.pairwise_append.1 sA).2.2 c hc p (by simp)
      have := hff c (mA c hc') p (mA p hpm) (by omega)
      have := h1 p hpm
      have := hpos p (mA p hpm)
      unfold Dj at *; omega
    have hlast : (A'.concat p).getLast?.or B.head? = some p := by simp
    rw [hlast]
    have hdl : (A'.concat p).dropLast = A' := by simp
    have hemp : (A'.concat p).isEmpty = false := by simp
    simp only [coalesceAt, hdl, hemp]
    cases B with
    | nil =>
      by_cases e1 : p.ptr + p.size = b.ptr
      · have e1' : (p.ptr + p.size == b.ptr) = true := by simpa using e1
        simp only [e1']
        refine ⟨_, _, rfl, coalesced_of hs hpos hb h0 (by simp) ?_ ?_⟩
        · intro c hc
          simp only [List.append_nil, List.concat_eq_append, List.mem_append, List.mem_singleton] at hc
          rcases hc with hc | rfl
          · have := hA' c hc
            simp only [hc, true_iff]
            omega
          · constructor
            · intro h; have := hA' _ h; omega
            · intro h; omega
        · refine ⟨.inr ⟨p, mA p hpm, e1, rfl⟩, .inl (by simp only; omega), ?_, ?_⟩
          · intro c hc h
            simp only [List.append_nil, List.concat_eq_append, List.mem_append, List.mem_singleton] at hc
            rcases hc with hc | rfl
            · have := hA' c hc; omega
            · rfl
          · intro c hc h
            have := eA c (by simpa using hc)
            omega
      · have e1' : (p.ptr + p.size == b.ptr) = false := by simpa using e1
        simp only [e1']
        refine ⟨_, _, rfl, coalesced_of hs hpos hb h0 (by simp) ?_ ?_⟩
        · intro c hc
          have hc2 := hc
          simp only [List.append_nil, List.concat_eq_append, List.mem_append, List.mem_singleton] at hc
          have := eA c (by simpa using hc2)
          have hin : c ∈ A'.concat p := by simpa using hc2
          simp only [hin, true_iff]
          refine ⟨?_, by omega⟩
          rcases hc with hc | rfl
          · have := hA' c hc; omega
          · exact e1
        · refine ⟨.inl rfl, .inl rfl, ?_, ?_⟩
          · intro c hc h
            simp only [List.append_nil, List.concat_eq_append, List.mem_append, List.mem_singleton] at hc
            rcases hc with hc | rfl
            · have := hA' c hc; omega
            · omega
          · intro c hc h
            have := eA c (by simpa using hc)
            omega
    | cons nb rest =>
      have hn := eB nb List.mem_cons_self
      have hrest : ∀ c ∈ rest, b.ptr + b.size < c.ptr := by
        intro c hc
        have := (List.pairwise_cons.1 sB).1 c hc
        omega
      have hmem : ∀ c, c ∈ A'.concat p ++ nb :: rest → c ∈ A' ∨ c = p ∨ c = nb ∨ c ∈ rest := by
        intro c hc
        simp only [List.concat_eq_append, List.mem_append, List.mem_singleton, List.mem_cons] at hc
        tauto
      have hnbF : nb ∈ A'.concat p ++ nb :: rest := by simp
      by_cases e1 : p.ptr + p.size = b.ptr <;> by_cases e2 : b.ptr + b.size = nb.ptr
      · have e1' : (p.ptr + p.size == b.ptr) = true := by simpa using e1
        have e2' : (b.ptr + b.size == nb.ptr) = true := by simpa using e2
        simp only [e1', e2', if_true, Bool.false_eq_true, if_false]
        refine ⟨_, _, rfl, coalesced_of hs hpos hb h0 ?_ ?_ ?_⟩
        · rw [List.concat_eq_append, List.append_assoc]
          exact List.Sublist.append (List.Sublist.refl _) (by simp)
        · intro c hc
          rw [List.mem_append]
          constructor
          · rintro (h | h)
            · have := hA' c h; omega
            · have := hrest c h
              have := hpos c hc
              omega
          · intro h
            rcases hmem c hc with h' | rfl | rfl | h'
            · exact .inl h'
            · exact absurd e1 h.1
            · exact absurd e2 h.2
            · exact .inr h'
        · refine ⟨.inr ⟨p, mA p hpm, e1, rfl⟩, .inr ⟨nb, hnbF, e2, by simp only; omega⟩, ?_, ?_⟩
          · intro c hc h
            rcases hmem c hc with h' | rfl | rfl | h'
            · have := hA' c h'; omega
            · rfl
            · have := hpos _ hnbF; omega
            · have := hrest c h'; omega
          · intro c hc h
            rcases hmem c hc with h' | rfl | rfl | h'
            · have := hA' c h'; omega
            · have := hpos _ hc; omega
            · simp only; omega
            · have := hrest c h'; omega
      · have e1' : (p.ptr + p.size == b.ptr) = true := by simpa using e1
        have e2' : (b.ptr + b.size == nb.ptr) = false := by simpa using e2
        simp only [e1', e2', Bool.false_eq_true, if_false]
        refine ⟨_, _, rfl, coalesced_of hs hpos hb h0 ?_ ?_ ?_⟩
        · rw [List.concat_eq_append, List.append_assoc]
          exact List.Sublist.append (List.Sublist.refl _) (by simp)
        · intro c hc
          rw [List.mem_append]
          constructor
          · rintro (h | h)
            · have := hA' c h; omega
            · have := hpos c hc
              rcases List.mem_cons.1 h with rfl | h
              · omega
              · have := hrest c h
                omega
          · intro h
            rcases hmem c hc with h' | rfl | rfl | h'
            · exact .inl h'
            · exact absurd e1 h.1
            · exact .inr (by simp)
            · exact .inr (by simp [h'])
        · refine ⟨.inr ⟨p, mA p hpm, e1, rfl⟩, .inl (by simp only; omega), ?_, ?_⟩
          · intro c hc h
            rcases hmem c hc with h' | rfl | rfl | h'
            · have := hA' c h'; omega
            · rfl
            · have := hpos _ hnbF; omega
            · have := hrest c h'; omega
          · intro c hc h
            rcases hmem c hc with h' | rfl | rfl | h'
            · have := hA' c h'; omega
            · have := hpos _ hc; omega
            · exact absurd h e2
            · have := hrest c h'; omega
      · have e1' : (p.ptr + p.size == b.ptr) = false := by simpa using e1
        have e2' : (b.ptr + b.size == nb.ptr) = true := by simpa using e2
        simp only [e1', e2', if_true]
        refine ⟨_, _, rfl, coalesced_of hs hpos hb h0 ?_ ?_ ?_⟩
        · exact List.Sublist.append (List.Sublist.refl _) (by simp)
        · intro c hc
          rw [List.mem_append]
          constructor
          · rintro (h | h)
            · have := eA c h
              have := hpos c hc
              rcases List.mem_append.1 (by simpa using h : c ∈ A' ++ [p]) with h | h
              · have := hA' c h; omega
              · obtain rfl : c = p := by simpa using h
                omega
            · have := hrest c h
              have := hpos c hc
              omega
          · intro h
            rcases hmem c hc with h' | rfl | rfl | h'
            · exact .inl (by simp [h'])
            · exact .inl (by simp)
            · exact absurd e2 h.2
            · exact .inr h'
        · refine ⟨.inl rfl, .inr ⟨nb, hnbF, e2, by simp only; omega⟩, ?_, ?_⟩
          · intro c hc h
            rcases hmem c hc with h' | rfl | rfl | h'
            · have := hA' c h'; omega
            · exact absurd h e1
            · have := hpos _ hnbF; omega
            · have := hrest c h'; omega
          · intro c hc h
            rcases hmem c hc with h' | rfl | rfl | h'
            · have := hA' c h'; omega
            · have := hpos _ hc; omega
            · simp only; omega
            · have := hrest c h'; omega
      · have e1' : (p.ptr + p.size == b.ptr) = false := by simpa using e1
        have e2' : (b.ptr + b.size == nb.ptr) = false := by simpa using e2
        simp only [e1', e2', Bool.false_eq_true, if_false]
        refine ⟨_, _, rfl, coalesced_of hs hpos hb h0 (List.Sublist.refl _) ?_ ?_⟩
        · intro c hc
          simp only [hc, true_iff]
          have := hpos c hc
          rcases hmem c hc with h' | rfl | rfl | h'
          · have := hA' c h'; omega
          · omega
          · omega
          · have := hrest c h'; omega
        · refine ⟨.inl rfl, .inl rfl, ?_, ?_⟩
          · intro c hc h
            rcases hmem c hc with h' | rfl | rfl | h'
            · have := hA' c h'; omega
            · exact absurd h e1
            · have := hpos _ hnbF; omega
            · have := hrest c h'; omega
          · intro c hc h
            rcases hmem c hc with h' | rfl | rfl | h'
            · have := hA' c h'; omega
            · have := hpos _ hc; omega
            · exact absurd h e2
            · have := hrest c h'; omega

end Arena

end Vecmem
