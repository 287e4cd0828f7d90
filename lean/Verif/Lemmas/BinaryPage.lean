import Verif.Lemmas.BuddyTree
import Verif.Lemmas.IntMath

/-! The page operations of the binary page resource, in terms of the page tree. -/

namespace Vecmem

open PageState Buddy IntMath

/-- State of the page with (1-based) number `h`. -/
def Superpage.st (sp : Superpage) (h : Nat) : PageState :=
  if h = 0 then nonExtant else sp.pages.getD (h - 1) nonExtant

/-- What never changes about a superpage. -/
structure Superpage.Wf (sp : Superpage) : Prop where
  length : sp.pages.length = 511
  delta : sp.minPage + 8 = sp.size
  min : 8 ≤ sp.minPage
  max : sp.size ≤ 63

/-- Only the states of pages differ. -/
structure Superpage.Same (sp sp' : Superpage) : Prop where
  size : sp'.size = sp.size
  minPage : sp'.minPage = sp.minPage
  length : sp'.pages.length = sp.pages.length
  mem : sp'.mem = sp.mem

namespace BinPage

variable {sp sp' : Superpage}

theorem _root_.Vecmem.Superpage.Same.refl (sp : Superpage) : sp.Same sp := ⟨rfl, rfl, rfl, rfl⟩

theorem _root_.Vecmem.Superpage.Same.trans {a b c : Superpage} (h : a.Same b) (h' : b.Same c) :
    a.Same c :=
  ⟨h'.size.trans h.size, h'.minPage.trans h.minPage, h'.length.trans h.length, h'.mem.trans h.mem⟩

theorem _root_.Vecmem.Superpage.Same.wf (h : sp.Same sp') (hw : sp.Wf) : sp'.Wf :=
  ⟨h.length.trans hw.length, by rw [h.minPage, h.size]; exact hw.delta,
    by rw [h.minPage]; exact hw.min, by rw [h.size]; exact hw.max⟩

theorem st_succ (sp : Superpage) (i : Nat) : sp.st (i + 1) = sp.pages.getD i nonExtant := by
  simp [Superpage.st]

theorem getState_eq {i : Nat} (hw : sp.Wf) (hi : i < 511) : getState sp i = some (sp.st (i + 1)) := by
  rw [st_succ, getState, List.getD_eq_getElem?_getD]
  rw [List.getElem?_eq_getElem (by rw [hw.length]; exact hi)]; simp

theorem getSize_eq {i : Nat} (hi : i < 511) : getSize sp i = some (sp.size - Nat.log2 (i + 1)) := by
  have := log2_eq (x := i + 1) (by omega) (by omega)
  unfold log2 at this
  unfold getSize
  cases hc : clzl (i + 1) with
  | none => rw [hc] at this; simp at this
  | some c => rw [hc] at this; simp only [Option.map_some, Option.some.injEq] at this ⊢; rw [this]

theorem log2_le_8 {h : Nat} (hh : h ≤ 511) (h0 : 1 ≤ h) : Nat.log2 h ≤ 8 := by
  have := (Nat.log2_lt (n := h) (k := 9) (by omega)).2 (by omega); omega

theorem _root_.Vecmem.Superpage.Wf.depth (hw : sp.Wf) {h : Nat} (hh : h ≤ 511) (h0 : 1 ≤ h) :
    Nat.log2 h ≤ sp.size := by
  have := log2_le_8 hh h0; have := hw.delta; omega

theorem getAddr_eq {i : Nat} (hw : sp.Wf) (hi : i < 511) :
    getAddr sp i = some (sp.mem + off sp.size (i + 1)) := by
  have hd := hw.depth (h := i + 1) (by omega) (by omega)
  unfold getAddr off
  rw [getSize_eq hi]
  simp only [Option.map_some, Option.some.injEq]
  have : sp.size - (sp.size - Nat.log2 (i + 1)) = Nat.log2 (i + 1) := by omega
  rw [this]
  have := Nat.log2_self_le (n := i + 1) (by omega)
  have := Nat.two_pow_pos (Nat.log2 (i + 1))
  congr 2; omega

theorem changeState_ok {i : Nat} {x y : PageState} (hw : sp.Wf) (hi : i < 511)
    (hx : sp.st (i + 1) = x) :
    ∃ sp', changeState sp i x y = some sp' ∧ sp.Same sp' ∧ sp'.st = upd sp.st (i + 1) y := by
  refine ⟨{ sp with pages := sp.pages.set i y }, ?_, ⟨rfl, rfl, by simp, rfl⟩, ?_⟩
  · unfold changeState; rw [getState_eq hw hi, hx, if_pos rfl]
  · funext g
    unfold upd Superpage.st
    by_cases hg : g = i + 1
    · subst hg
      have : i < sp.pages.length := by rw [hw.length]; exact hi
      simp [List.getD_eq_getElem?_getD, this]
    · rw [if_neg hg]
      by_cases h0 : g = 0
      · simp [h0]
      · simp only [h0, if_false, List.getD_eq_getElem?_getD]
        rw [List.getElem?_set_ne (by omega)]

/-- What is kept about every superpage. -/
structure SpInv (sp : Superpage) : Prop where
  wf : sp.Wf
  tree : Tree sp.st
  merged : Merged sp.st 0

theorem split_ok {h : Nat} (hw : sp.Wf) (ht : Tree sp.st) (h1 : 1 ≤ h) (h2 : h ≤ 255)
    (hv : sp.st h = vacant) :
    ∃ sp', split sp (h - 1) = some sp' ∧ sp.Same sp' ∧ sp'.st = splitAt sp.st h := by
  have hbelow := fun g => ht.below h1 (by rw [hv]; simp) (g := g)
  have e1 : sp.st (2 * h) = nonExtant := hbelow _ (desc_children.2 (Or.inr (Or.inl (.refl _)))) (by omega)
  have e2 : sp.st (2 * h + 1) = nonExtant :=
    hbelow _ (desc_children.2 (Or.inr (Or.inr (.refl _)))) (by omega)
  obtain ⟨s1, a1, b1, c1⟩ := changeState_ok (i := h - 1) (x := vacant) (y := PageState.split) hw
    (by omega) (by rw [Nat.sub_add_cancel h1]; exact hv)
  rw [Nat.sub_add_cancel h1] at c1
  obtain ⟨s2, a2, b2, c2⟩ := changeState_ok (sp := s1) (i := leftChild (h - 1)) (x := nonExtant)
    (y := vacant) (b1.wf hw) (by unfold leftChild; omega) (by
      rw [c1, show leftChild (h - 1) + 1 = 2 * h by unfold leftChild; omega, upd_ne _ _ (by omega)]
      exact e1)
  rw [show leftChild (h - 1) + 1 = 2 * h by unfold leftChild; omega] at c2
  obtain ⟨s3, a3, b3, c3⟩ := changeState_ok (sp := s2) (i := rightChild (h - 1)) (x := nonExtant)
    (y := vacant) (b2.wf (b1.wf hw)) (by unfold rightChild; omega) (by
      rw [c2, c1, show rightChild (h - 1) + 1 = 2 * h + 1 by unfold rightChild; omega,
        upd_ne _ _ (by omega), upd_ne _ _ (by omega)]
      exact e2)
  rw [show rightChild (h - 1) + 1 = 2 * h + 1 by unfold rightChild; omega] at c3
  refine ⟨s3, ?_, (b1.trans b2).trans b3, ?_⟩
  · unfold BinPage.split; rw [a1]; simp only [Option.bind_eq_bind, Option.bind_some]; rw [a2]
    simp only [Option.bind_some]; exact a3
  · rw [c3, c2, c1]; rfl

theorem log2_double {h : Nat} (h1 : 1 ≤ h) : Nat.log2 (2 * h) = Nat.log2 h + 1 := by
  rw [Nat.log2_def (2 * h), if_pos (by omega)]; congr 2; omega

/-- Splitting the candidate until it has the right size. -/
theorem splitDown_ok {goal : Nat} : ∀ (fuel : Nat) {sp : Superpage} {h x : Nat}, sp.Wf → Tree sp.st →
    Merged sp.st x → (x = h ∨ x = 0) → 1 ≤ h → h ≤ 511 → sp.st h = vacant → sp.minPage ≤ goal →
    goal ≤ sp.size - Nat.log2 h → sp.size - Nat.log2 h < goal + fuel →
    ∃ sp' h' x', splitDown goal fuel sp (h - 1) = some (sp', h' - 1) ∧ sp.Same sp' ∧ Tree sp'.st ∧
      Merged sp'.st x' ∧ (x' = h' ∨ x' = 0) ∧ 1 ≤ h' ∧ h' ≤ 511 ∧ sp'.st h' = vacant ∧
      sp.size - Nat.log2 h' = goal ∧ (∀ g, sp'.st g = occupied ↔ sp.st g = occupied) ∧ Desc h h' ∧
      off sp.size h' = off sp.size h := by
  intro fuel
  induction fuel with
  | zero => intro sp h x _ _ _ _ _ _ _ _ h9 h10; omega
  | succ f ih =>
    intro sp h x hw ht hm hx h1 h2 hv hmin hle hfuel
    have hd := hw.depth h2 h1
    unfold splitDown
    rw [getSize_eq (by omega : h - 1 < 511), Nat.sub_add_cancel h1]
    simp only [Option.bind_eq_bind, Option.bind_some]
    split
    · rename_i hgt
      have hb : h ≤ 255 := by
        by_contra hc
        have : 8 ≤ Nat.log2 h := (Nat.le_log2 (by omega)).2 (by omega)
        have := hw.delta; omega
      obtain ⟨s1, a1, b1, c1⟩ := split_ok hw ht h1 hb hv
      rw [a1]
      simp only [Option.bind_some]
      have hl := log2_double h1
      have := ih (sp := s1) (h := 2 * h) (x := 2 * h) (b1.wf hw) (by rw [c1]; exact ht.splitAt h1 hb hv)
        (by rw [c1]; exact hm.splitAt ht h1 hv hx) (Or.inl rfl) (by omega) (by omega)
        (by rw [c1, splitAt_eq _ h1, if_neg (by omega), if_pos (Or.inl rfl)])
        (by rw [b1.minPage]; exact hmin) (by rw [b1.size]; omega) (by rw [b1.size]; omega)
      obtain ⟨s2, h', x', r1, r2, r3, r4, r5, r6, r7, r8, r9, r10, r11, r12⟩ := this
      refine ⟨s2, h', x', ?_, b1.trans r2, r3, r4, r5, r6, r7, r8, ?_, ?_, ?_, ?_⟩
      · rw [show leftChild (h - 1) = 2 * h - 1 by unfold leftChild; omega]; exact r1
      · rw [← b1.size]; exact r9
      · intro g; rw [r10, c1]; exact occupied_splitAt ht h1 hv g
      · exact (desc_children.2 (Or.inr (Or.inl (Desc.refl _)))).trans r11
      · rw [← b1.size, r12, b1.size]
        have e1 := off_add (N := sp.size) h1 hd
        have e2 := off_add (N := sp.size) (h := 2 * h) (by omega) (by omega)
        rw [hl] at e2
        have : 2 ^ (sp.size - Nat.log2 h) = 2 * 2 ^ (sp.size - (Nat.log2 h + 1)) := by
          rw [← Nat.pow_succ']; congr 1; omega
        rw [this, ← Nat.mul_assoc, Nat.mul_comm h 2] at e1
        omega
    · exact ⟨sp, h, x, rfl, .refl _, ht, hm, hx, h1, h2, hv, by omega, fun g => Iff.rfl, .refl _, rfl⟩

/-- Taking a page. -/
theorem takePage_ok {goal h : Nat} (hI : SpInv sp) (h1 : 1 ≤ h) (h2 : h ≤ 511)
    (hv : sp.st h = vacant) (hmin : sp.minPage ≤ goal) (hle : goal ≤ sp.size - Nat.log2 h) :
    ∃ sp' h', takePage goal sp (h - 1) = some (sp', sp.mem + off sp.size h') ∧ sp.Same sp' ∧
      SpInv sp' ∧ 1 ≤ h' ∧ h' ≤ 511 ∧ sp.st h' ≠ occupied ∧ sp.size - Nat.log2 h' = goal ∧
      (∀ g, sp'.st g = occupied ↔ sp.st g = occupied ∨ g = h') := by
  obtain ⟨s1, h', x', r1, r2, r3, r4, r5, r6, r7, r8, r9, r10, _, _⟩ := splitDown_ok 64 hI.wf hI.tree
    hI.merged (Or.inr rfl) h1 h2 hv hmin hle (by have := hI.wf.max; omega)
  obtain ⟨s2, a2, b2, c2⟩ := changeState_ok (sp := s1) (i := h' - 1) (x := vacant) (y := occupied)
    (r2.wf hI.wf) (by omega) (by rw [Nat.sub_add_cancel r6]; exact r8)
  rw [Nat.sub_add_cancel r6] at c2
  have hsame := r2.trans b2
  have hadr := getAddr_eq (sp := s2) (i := h' - 1) (b2.wf (r2.wf hI.wf)) (by omega)
  rw [Nat.sub_add_cancel r6, hsame.mem, hsame.size] at hadr
  refine ⟨s2, h', ?_, hsame, ⟨hsame.wf hI.wf, ?_, ?_⟩, r6, r7, ?_, r9, ?_⟩
  · unfold takePage
    rw [getState_eq hI.wf (by omega), Nat.sub_add_cancel h1, hv]
    simp only [ne_eq, not_true_eq_false, if_false, Option.bind_eq_bind, Option.bind_some, r1, a2, hadr,
      Option.pure_def]
  · rw [c2]; exact r3.upd_leaf (by rw [r8]; simp) (by rw [r8]; simp) (by simp) (by simp)
  · rw [c2]
    intro g hg k1 k2 k3
    exfalso
    have n1 : 2 * g ≠ h' := by intro e; rw [e, upd_same] at k2; cases k2
    have n2 : 2 * g + 1 ≠ h' := by intro e; rw [e, upd_same] at k3; cases k3
    have n3 : g ≠ h' := by intro e; rw [e, upd_same] at k1; cases k1
    rw [upd_ne _ _ n3] at k1
    rw [upd_ne _ _ n1] at k2
    rw [upd_ne _ _ n2] at k3
    have := r4 g hg k1 k2 k3
    omega
  · intro ho; have := (r10 h').2 ho; rw [r8] at this; cases this
  · intro g; rw [c2]
    by_cases hg : g = h'
    · subst hg; simp [upd_same]
    · rw [upd_ne _ _ hg, r10]; simp [hg]

/-! ### Freeing a page -/

theorem sibling_eq {h : Nat} (h1 : 2 ≤ h) : sibling (h - 1) = some (sib h - 1) := by
  unfold sibling sib
  rw [if_neg (by omega)]
  by_cases h2 : h % 2 = 0
  · rw [if_neg (by omega), if_pos h2]; congr 1; omega
  · rw [if_pos (by omega), if_neg h2]

theorem parent_eq {h : Nat} (h1 : 2 ≤ h) : parent (h - 1) = some (h / 2 - 1) := by
  unfold parent
  rw [if_neg (by omega)]
  by_cases h2 : h % 2 = 0
  · rw [if_neg (by omega)]; congr 1; omega
  · rw [if_pos (by omega)]; congr 1; omega

theorem climb_ok (hw : sp.Wf) (ht : Tree sp.st) : ∀ (fuel : Nat) {h : Nat}, h < 2 ^ fuel →
    Collapsible sp.st h →
    ∃ t, climb sp fuel (h - 1) = some (t - 1) ∧ Collapsible sp.st t ∧ Desc t h ∧
      (t = 1 ∨ sp.st (sib t) ≠ vacant) := by
  intro fuel
  induction fuel with
  | zero => intro h h1 h2; have := h2.pos; omega
  | succ f ih =>
    intro h h1 h2
    have hp := h2.pos
    unfold climb
    by_cases hone : h = 1
    · subst hone
      refine ⟨1, ?_, h2, .refl _, Or.inl rfl⟩
      simp [sibling]
    · rw [sibling_eq (by omega)]
      have hex : sp.st h ≠ nonExtant := by rcases h2.state with h | h <;> rw [h] <;> simp
      have h511 := ht.le hex
      have hsib : sib h ≤ 511 ∧ 2 ≤ sib h := by
        unfold sib; split
        · omega
        · omega
      simp only
      rw [getState_eq hw (by omega), Nat.sub_add_cancel (by omega)]
      simp only
      split
      · rename_i hv
        rw [parent_eq (by omega)]
        simp only
        have hs := ht.parent (by omega) hex
        have hcol : Collapsible sp.st (h / 2) := by
          refine .node (by omega) hs ?_ ?_
          · by_cases hm : h % 2 = 0
            · rw [show 2 * (h / 2) = h by omega]; exact h2
            · rw [show 2 * (h / 2) = sib h by unfold sib; rw [if_neg hm]; omega]
              exact .leaf (by omega) hv
          · by_cases hm : h % 2 = 0
            · rw [show 2 * (h / 2) + 1 = sib h by unfold sib; rw [if_pos hm]; omega]
              exact .leaf (by omega) hv
            · rw [show 2 * (h / 2) + 1 = h by omega]; exact h2
        obtain ⟨t, r1, r2, r3, r4⟩ := ih (by rw [Nat.pow_succ] at h1; omega) hcol
        exact ⟨t, r1, r2, desc_half.2 (Or.inr r3), r4⟩
      · rename_i hv
        exact ⟨h, rfl, h2, .refl _, Or.inr hv⟩

theorem unsplit_ok : ∀ (fuel : Nat) {sp : Superpage} {t : Nat}, sp.Wf → Tree sp.st →
    511 < t * 2 ^ fuel → Collapsible sp.st t → sp.st t = PageState.split →
    ∃ sp', unsplit fuel sp (t - 1) = some sp' ∧ sp.Same sp' ∧ Collapsed sp.st sp'.st t := by
  intro fuel
  induction fuel with
  | zero =>
    intro sp t _ ht h1 h2 h3
    have := ht.split_le h2.pos h3; omega
  | succ f ih =>
    intro sp t hw ht h1 h2 h3
    have hp := h2.pos
    have hb := ht.split_le hp h3
    have el : leftChild (t - 1) = 2 * t - 1 := by unfold leftChild; omega
    have er : rightChild (t - 1) = 2 * t + 1 - 1 := by unfold rightChild; omega
    have hcl : Collapsible sp.st (2 * t) ∧ Collapsible sp.st (2 * t + 1) := by
      cases h2 with
      | leaf _ h => rw [h] at h3; cases h3
      | node _ _ a b => exact ⟨a, b⟩
    obtain ⟨hl, hr⟩ := hcl
    have f1 : 511 < 2 * t * 2 ^ f := by
      rw [Nat.pow_succ, Nat.mul_comm (2 ^ f) 2, ← Nat.mul_assoc, Nat.mul_comm t 2] at h1; exact h1
    have f2 : 511 < (2 * t + 1) * 2 ^ f := by
      have : 2 * t * 2 ^ f ≤ (2 * t + 1) * 2 ^ f := Nat.mul_le_mul_right _ (by omega)
      omega
    -- the left child
    have left : ∃ s1, (if getState sp (leftChild (t - 1)) = some .split
          then unsplit f sp (leftChild (t - 1)) else some sp) = some s1 ∧ sp.Same s1 ∧
        s1.st (2 * t) = vacant ∧ (∀ g, ¬ Desc (2 * t) g → s1.st g = sp.st g) ∧
        (∀ g, Desc (2 * t) g → g ≠ 2 * t → s1.st g = nonExtant) := by
      rw [el, getState_eq hw (by omega), Nat.sub_add_cancel (by omega)]
      rcases hl.state with hs | hs
      · rw [hs]
        refine ⟨sp, by simp, .refl _, hs, fun _ _ => rfl, fun g hg hne => ?_⟩
        exact ht.below (by omega) (by rw [hs]; simp) hg hne
      · rw [hs, if_pos rfl]
        obtain ⟨s1, a1, b1, c1⟩ := ih hw ht f1 hl hs
        exact ⟨s1, a1, b1, c1.top, c1.other, c1.below⟩
    obtain ⟨s1, a1, b1, t1, o1, d1⟩ := left
    have hw1 := b1.wf hw
    have ht1 : Tree s1.st := Collapsed.tree ht (by omega) ⟨t1, d1, o1⟩
      (by rcases hl.state with hs | hs <;> rw [hs] <;> simp)
    have hr1 : Collapsible s1.st (2 * t + 1) :=
      hr.congr fun g hg => o1 g fun hg' => not_desc_children hp hg' hg
    have right : ∃ s2, (if getState s1 (rightChild (t - 1)) = some .split
          then unsplit f s1 (rightChild (t - 1)) else some s1) = some s2 ∧ s1.Same s2 ∧
        s2.st (2 * t + 1) = vacant ∧ (∀ g, ¬ Desc (2 * t + 1) g → s2.st g = s1.st g) ∧
        (∀ g, Desc (2 * t + 1) g → g ≠ 2 * t + 1 → s2.st g = nonExtant) := by
      rw [er, getState_eq hw1 (by omega), Nat.sub_add_cancel (by omega)]
      rcases hr1.state with hs | hs
      · rw [hs]
        refine ⟨s1, by simp, .refl _, hs, fun _ _ => rfl, fun g hg hne => ?_⟩
        exact ht1.below (by omega) (by rw [hs]; simp) hg hne
      · rw [hs, if_pos rfl]
        obtain ⟨s2, a2, b2, c2⟩ := ih hw1 ht1 f2 hr1 hs
        exact ⟨s2, a2, b2, c2.top, c2.other, c2.below⟩
    obtain ⟨s2, a2, b2, t2, o2, d2⟩ := right
    have hw2 := b2.wf hw1
    have nt1 : ¬ Desc (2 * t) t := fun h => by have := h.le; omega
    have nt2 : ¬ Desc (2 * t + 1) t := fun h => by have := h.le; omega
    have st2 : s2.st t = PageState.split := by rw [o2 t nt2, o1 t nt1, h3]
    obtain ⟨s3, a3, b3, c3⟩ := changeState_ok (sp := s2) (i := t - 1) (x := PageState.split)
      (y := vacant) hw2 (by omega) (by rw [Nat.sub_add_cancel hp]; exact st2)
    rw [Nat.sub_add_cancel hp] at c3
    have hw3 := b3.wf hw2
    have tl2 : s2.st (2 * t) = vacant := by
      rw [o2 _ (fun h => not_desc_children hp (.refl _) h)]; exact t1
    obtain ⟨s4, a4, b4, c4⟩ := changeState_ok (sp := s3) (i := leftChild (t - 1)) (x := vacant)
      (y := nonExtant) hw3 (by rw [el]; omega) (by
        rw [el, Nat.sub_add_cancel (by omega), c3, upd_ne _ _ (by omega)]; exact tl2)
    rw [el, Nat.sub_add_cancel (by omega)] at c4
    have hw4 := b4.wf hw3
    obtain ⟨s5, a5, b5, c5⟩ := changeState_ok (sp := s4) (i := rightChild (t - 1)) (x := vacant)
      (y := nonExtant) hw4 (by rw [er]; omega) (by
        rw [er, Nat.sub_add_cancel (by omega), c4, c3, upd_ne _ _ (by omega), upd_ne _ _ (by omega)]
        exact t2)
    rw [er, Nat.sub_add_cancel (by omega)] at c5
    refine ⟨s5, ?_, (((b1.trans b2).trans b3).trans b4).trans b5, ?_⟩
    · unfold BinPage.unsplit
      have g1 : getState sp (t - 1) = some PageState.split := by
        rw [getState_eq hw (by omega), Nat.sub_add_cancel hp, h3]
      have g2 : ¬ (getState sp (leftChild (t - 1)) ≠ some PageState.split ∧
          getState sp (leftChild (t - 1)) ≠ some vacant) := by
        rw [el, getState_eq hw (by omega), Nat.sub_add_cancel (by omega)]
        rcases hl.state with h | h <;> rw [h] <;> simp
      have g3 : ¬ (getState sp (rightChild (t - 1)) ≠ some PageState.split ∧
          getState sp (rightChild (t - 1)) ≠ some vacant) := by
        rw [er, getState_eq hw (by omega), Nat.sub_add_cancel (by omega)]
        rcases hr.state with h | h <;> rw [h] <;> simp
      simp only [g1, ne_eq, not_true_eq_false, if_false, if_neg g2, if_neg g3, Option.bind_eq_bind,
        Option.bind_some, Option.pure_def]
      rw [a1]; simp only [Option.bind_some]
      rw [a2]; simp only [Option.bind_some]
      rw [a3]; simp only [Option.bind_some]
      rw [a4]; simp only [Option.bind_some]
      exact a5
    · refine ⟨?_, ?_, ?_⟩
      · rw [c5, c4, c3, upd_ne _ _ (by omega), upd_ne _ _ (by omega), upd_same]
      · intro g hg hne
        rcases desc_children.1 hg with h | h | h
        · exact absurd h hne
        · by_cases e : g = 2 * t
          · rw [c5, c4, e, upd_ne _ _ (by omega), upd_same]
          · have hn : ¬ Desc (2 * t + 1) g := fun h' => not_desc_children hp h h'
            have : g ≠ 2 * t + 1 := by intro e'; rw [e'] at hn; exact hn (.refl _)
            rw [c5, c4, c3, upd_ne _ _ this, upd_ne _ _ e, upd_ne _ _ hne, o2 g hn]
            exact d1 g h e
        · by_cases e : g = 2 * t + 1
          · rw [c5, e, upd_same]
          · have hn : ¬ Desc (2 * t) g := fun h' => not_desc_children hp h' h
            have : g ≠ 2 * t := by intro e'; rw [e'] at hn; exact hn (.refl _)
            rw [c5, c4, c3, upd_ne _ _ e, upd_ne _ _ this, upd_ne _ _ hne]
            exact d2 g h e
      · intro g hg
        have n0 : g ≠ t := by intro e; rw [e] at hg; exact hg (.refl _)
        have n1 : ¬ Desc (2 * t) g := fun h => hg (desc_children.2 (Or.inr (Or.inl h)))
        have n2 : ¬ Desc (2 * t + 1) g := fun h => hg (desc_children.2 (Or.inr (Or.inr h)))
        have m1 : g ≠ 2 * t := by intro e; rw [e] at n1; exact n1 (.refl _)
        have m2 : g ≠ 2 * t + 1 := by intro e; rw [e] at n2; exact n2 (.refl _)
        rw [c5, c4, c3, upd_ne _ _ m2, upd_ne _ _ m1, upd_ne _ _ n0, o2 g n2, o1 g n1]

/-- The first page of a size. -/
theorem levelStart_ok (hw : sp.Wf) {s : Nat} (hs : sp.minPage ≤ s) (hs' : s ≤ sp.size) :
    ∀ (fuel d : Nat), s + d ≤ sp.size → sp.size < s + d + fuel →
    levelStart sp s fuel (2 ^ d - 1) = some (2 ^ (sp.size - s) - 1) := by
  intro fuel
  induction fuel with
  | zero => intro d h1 h2; omega
  | succ f ih =>
    intro d h1 h2
    have hd8 : d ≤ 8 := by have := hw.delta; omega
    have hlt : 2 ^ d ≤ 256 := by
      have := Nat.pow_le_pow_right (n := 2) (by omega) hd8; omega
    have hpos := Nat.two_pow_pos d
    unfold levelStart
    rw [hw.length]
    rw [getSize_eq (by omega : 2 ^ d - 1 < 511), Nat.sub_add_cancel hpos, Nat.log2_two_pow]
    simp only [show 2 ^ d - 1 < 511 by omega, not_true_eq_false, if_false, Option.bind_eq_bind,
      Option.bind_some, Option.pure_def]
    split
    · rename_i hgt
      rw [show 2 * (2 ^ d - 1) + 1 = 2 ^ (d + 1) - 1 by rw [Nat.pow_succ]; omega]
      exact ih (d + 1) (by omega) (by omega)
    · congr 3; omega

/-- Freeing an occupied page. -/
theorem freePage_ok {dbg : Bool} {size h r : Nat} (hI : SpInv sp) (h1 : 1 ≤ h) (h2 : h ≤ 511)
    (ho : sp.st h = occupied) (hr : roundUp? dbg size = some r)
    (hg : max sp.minPage r = sp.size - Nat.log2 h) :
    ∃ sp', freePage dbg sp (sp.mem + off sp.size h) size = some sp' ∧ sp.Same sp' ∧ SpInv sp' ∧
      (∀ g, sp'.st g = occupied ↔ sp.st g = occupied ∧ g ≠ h) := by
  have hd := hI.wf.depth h2 h1
  have hls := levelStart_ok hI.wf (s := sp.size - Nat.log2 h) (by omega) (by omega) 64 0 (by omega)
    (by have := hI.wf.max; omega)
  rw [show (2 ^ 0 - 1) = 0 by rfl, show sp.size - (sp.size - Nat.log2 h) = Nat.log2 h by omega] at hls
  have hidx : 2 ^ Nat.log2 h - 1 + (sp.mem + off sp.size h - sp.mem) / 2 ^ (sp.size - Nat.log2 h) = h - 1 := by
    rw [Nat.add_sub_cancel_left, off, Nat.mul_div_cancel _ (Nat.two_pow_pos _)]
    have := Nat.log2_self_le (n := h) (by omega)
    have := Nat.two_pow_pos (Nat.log2 h)
    omega
  obtain ⟨s1, a1, b1, c1⟩ := changeState_ok (i := h - 1) (x := occupied) (y := vacant) hI.wf
    (by omega) (by rw [Nat.sub_add_cancel h1]; exact ho)
  rw [Nat.sub_add_cancel h1] at c1
  have hw1 := b1.wf hI.wf
  have ht1 : Tree s1.st := by
    rw [c1]; exact hI.tree.upd_leaf (by rw [ho]; simp) (by rw [ho]; simp) (by simp) (by simp)
  have hv1 : s1.st h = vacant := by rw [c1, upd_same]
  have hm1 : ∀ g, 1 ≤ g → s1.st g = PageState.split → s1.st (2 * g) = vacant →
      s1.st (2 * g + 1) = vacant → 2 * g = h ∨ 2 * g + 1 = h := by
    intro g hg k1 k2 k3
    by_contra hc
    simp only [not_or] at hc
    have hgh : g ≠ h := by intro e; rw [e, hv1] at k1; cases k1
    rw [c1, upd_ne _ _ hgh] at k1
    rw [c1, upd_ne _ _ hc.1] at k2
    rw [c1, upd_ne _ _ hc.2] at k3
    have := hI.merged g hg k1 k2 k3
    omega
  have hocc : ∀ g, s1.st g = occupied ↔ sp.st g = occupied ∧ g ≠ h := by
    intro g; rw [c1]
    by_cases e : g = h
    · subst e; simp [upd_same]
    · rw [upd_ne _ _ e]; simp [e]
  obtain ⟨t, k1, k2, k3, k4⟩ := climb_ok hw1 ht1 64 (h := h) (by omega) (.leaf h1 hv1)
  have ht1' := k2.pos
  by_cases hth : t = h
  · subst hth
    refine ⟨s1, ?_, b1, ⟨hw1, ht1, ?_⟩, hocc⟩
    · unfold freePage
      simp only [hr, hg, hls, hidx, a1, k1, Option.bind_eq_bind, Option.bind_some, ne_eq,
        not_true_eq_false, if_false]
    · exact Collapsed.merged (st := s1.st) (t := t) (h := t) ht1' hm1
        ⟨hv1, fun g hg hne => ht1.below h1 (by rw [hv1]; simp) hg hne, fun _ _ => rfl⟩ (.refl _) k4
  · have hts : s1.st t = PageState.split := by
      rcases k2.state with hx | hx
      · have := ht1.below ht1' (by rw [hx]; simp) k3 (Ne.symm hth)
        rw [hv1] at this; cases this
      · exact hx
    have hfuel : 511 < t * 2 ^ 64 := by
      have := Nat.mul_le_mul_right (2 ^ 64) ht1'; omega
    obtain ⟨s2, a2, b2, c2⟩ := unsplit_ok 64 hw1 ht1 hfuel k2 hts
    have hw2 := b2.wf hw1
    have hth' : ¬ (t - 1 = h - 1) := by have := k3.le; omega
    refine ⟨s2, ?_, b1.trans b2, ⟨hw2, c2.tree ht1 ht1' (by rw [hts]; simp), c2.merged ht1' hm1 k3 k4⟩, ?_⟩
    · unfold freePage
      simp only [hr, hg, hls, hidx, a1, k1, a2, Option.bind_eq_bind, Option.bind_some, ne_eq, hth',
        not_false_eq_true, if_true]
      rw [getState_eq hw2 (by omega), Nat.sub_add_cancel h1, c2.below h k3 (Ne.symm hth)]
      simp
    · intro g; rw [c2.occupied (fun g hg => k2.not_occupied ht1 hg), hocc]

end BinPage

end Vecmem
