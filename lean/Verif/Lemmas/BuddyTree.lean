import Verif.Lemmas.Tactics
import Verif.Model.BinaryPage

/-! Facts about the page tree of a superpage, with 1-based page numbers: the children of `h` are `2 h`
and `2 h + 1`. -/

namespace Vecmem.Buddy

open PageState

/-- `t` is `g` or an ancestor of `g`. -/
def Desc (t g : Nat) : Prop := ∃ k, g / 2 ^ k = t

theorem Desc.refl (t : Nat) : Desc t t := ⟨0, by simp⟩

theorem desc_half {t g : Nat} : Desc t g ↔ g = t ∨ Desc t (g / 2) := by
  constructor
  · rintro ⟨k, hk⟩
    cases k with
    | zero => left; simpa using hk
    | succ k =>
      right; refine ⟨k, ?_⟩
      rw [Nat.div_div_eq_div_mul, ← Nat.pow_succ']; exact hk
  · rintro (rfl | ⟨k, hk⟩)
    · exact .refl _
    · refine ⟨k + 1, ?_⟩
      rw [Nat.pow_succ', ← Nat.div_div_eq_div_mul]; exact hk

theorem desc_children {t g : Nat} : Desc t g ↔ g = t ∨ Desc (2 * t) g ∨ Desc (2 * t + 1) g := by
  constructor
  · rintro ⟨k, hk⟩
    cases k with
    | zero => left; simpa using hk
    | succ k =>
      right
      rw [Nat.pow_succ, ← Nat.div_div_eq_div_mul] at hk
      have : g / 2 ^ k = 2 * t ∨ g / 2 ^ k = 2 * t + 1 := by omega
      rcases this with h | h
      · exact Or.inl ⟨k, h⟩
      · exact Or.inr ⟨k, h⟩
  · rintro (rfl | ⟨k, hk⟩ | ⟨k, hk⟩)
    · exact .refl _
    all_goals
      refine ⟨k + 1, ?_⟩
      rw [Nat.pow_succ, ← Nat.div_div_eq_div_mul, hk]; omega

theorem Desc.le {t g : Nat} (h : Desc t g) : t ≤ g := by
  obtain ⟨k, rfl⟩ := h; exact Nat.div_le_self _ _

theorem Desc.trans {a b c : Nat} (h : Desc a b) (h' : Desc b c) : Desc a c := by
  obtain ⟨k, rfl⟩ := h; obtain ⟨l, rfl⟩ := h'
  exact ⟨l + k, by rw [Nat.pow_add, Nat.div_div_eq_div_mul]⟩

/-- Two ancestors of the same page are comparable. -/
theorem Desc.total {a b g : Nat} (ha : Desc a g) (hb : Desc b g) : Desc a b ∨ Desc b a := by
  obtain ⟨k, rfl⟩ := ha; obtain ⟨l, rfl⟩ := hb
  rcases Nat.le_total k l with h | h
  · right; exact ⟨l - k, by rw [Nat.div_div_eq_div_mul, ← Nat.pow_add]; congr 2; omega⟩
  · left; exact ⟨k - l, by rw [Nat.div_div_eq_div_mul, ← Nat.pow_add]; congr 2; omega⟩

theorem not_desc_children {t g : Nat} (ht : 1 ≤ t) (h1 : Desc (2 * t) g) (h2 : Desc (2 * t + 1) g) :
    False := by
  rcases h1.total h2 with h | h
  · rcases desc_half.1 h with h | h
    · omega
    · have := h.le; omega
  · rcases desc_half.1 h with h | h
    · omega
    · have := h.le; omega

/-- The state of the pages. -/
structure Tree (st : Nat → PageState) : Prop where
  root : st 1 ≠ nonExtant
  left : ∀ h, 1 ≤ h → (st h = split ↔ st (2 * h) ≠ nonExtant)
  right : ∀ h, 1 ≤ h → (st h = split ↔ st (2 * h + 1) ≠ nonExtant)
  bound : ∀ h, 511 < h → st h = nonExtant

theorem Tree.le {st : Nat → PageState} (h : Tree st) {g : Nat} (hg : st g ≠ nonExtant) : g ≤ 511 := by
  by_contra hc; exact hg (h.bound g (by omega))

theorem Tree.split_le {st : Nat → PageState} (h : Tree st) {g : Nat} (h1 : 1 ≤ g) (hg : st g = split) :
    g ≤ 255 := by
  have := h.le ((h.left g h1).1 hg); omega

/-- The parent of an extant page is split. -/
theorem Tree.parent {st : Nat → PageState} (h : Tree st) {g : Nat} (hg : 2 ≤ g)
    (he : st g ≠ nonExtant) : st (g / 2) = split := by
  rcases Nat.mod_two_eq_zero_or_one g with hm | hm
  · refine (h.left _ (by omega)).2 ?_
    rw [show 2 * (g / 2) = g by omega]; exact he
  · refine (h.right _ (by omega)).2 ?_
    rw [show 2 * (g / 2) + 1 = g by omega]; exact he

/-- Below a page that is not split nothing is extant. -/
theorem Tree.below {st : Nat → PageState} (h : Tree st) {t : Nat} (ht : 1 ≤ t) (hs : st t ≠ split) :
    ∀ {g}, Desc t g → g ≠ t → st g = nonExtant := by
  intro g
  induction g using Nat.strongRecOn with
  | ind g ih =>
    intro hd hne
    rcases desc_half.1 hd with hx | hd'
    · exact absurd hx hne
    · by_contra hc
      have := hd'.le
      have hp := h.parent (by omega) hc
      by_cases he : g / 2 = t
      · rw [he] at hp; exact hs hp
      · rw [ih (g / 2) (by omega) hd' he] at hp; cases hp

/-- No page with two vacant children, except that of `x`, the candidate. -/
def Merged (st : Nat → PageState) (x : Nat) : Prop :=
  ∀ g, 1 ≤ g → st g = split → st (2 * g) = vacant → st (2 * g + 1) = vacant → 2 * g = x

def upd (st : Nat → PageState) (h : Nat) (x : PageState) : Nat → PageState :=
  fun g => if g = h then x else st g

theorem upd_same (st : Nat → PageState) (h : Nat) (x : PageState) : upd st h x h = x := by simp [upd]

theorem upd_ne (st : Nat → PageState) {h g : Nat} (x : PageState) (hne : g ≠ h) :
    upd st h x g = st g := by simp [upd, hne]

/-- Exchanging states that are neither `split` nor `nonExtant`. -/
theorem Tree.upd_leaf {st : Nat → PageState} (h : Tree st) {t : Nat} {x : PageState}
    (h1 : st t ≠ split) (h2 : st t ≠ nonExtant) (h3 : x ≠ split) (h4 : x ≠ nonExtant) :
    Tree (upd st t x) := by
  have key1 : ∀ g, upd st t x g = split ↔ st g = split := by
    intro g; unfold upd; split
    · rename_i e; subst e; simp [h1, h3]
    · rfl
  have key2 : ∀ g, upd st t x g ≠ nonExtant ↔ st g ≠ nonExtant := by
    intro g; unfold upd; split
    · rename_i e; subst e; simp [h2, h4]
    · rfl
  refine ⟨(key2 1).2 h.root, ?_, ?_, ?_⟩
  · intro g hg; rw [key1, key2]; exact h.left g hg
  · intro g hg; rw [key1, key2]; exact h.right g hg
  · intro g hg
    by_contra hc
    exact (key2 g).1 hc (h.bound g hg)

/-- The effect of splitting a page. -/
def splitAt (st : Nat → PageState) (t : Nat) : Nat → PageState :=
  upd (upd (upd st t split) (2 * t) vacant) (2 * t + 1) vacant

theorem splitAt_eq (st : Nat → PageState) {t : Nat} (ht : 1 ≤ t) (g : Nat) :
    splitAt st t g = if g = t then split else if g = 2 * t ∨ g = 2 * t + 1 then vacant else st g := by
  unfold splitAt upd
  by_cases h1 : g = 2 * t + 1
  · rw [if_pos h1, if_neg (by omega), if_pos (Or.inr h1)]
  · rw [if_neg h1]
    by_cases h2 : g = 2 * t
    · rw [if_pos h2, if_neg (by omega), if_pos (Or.inl h2)]
    · rw [if_neg h2]
      by_cases h3 : g = t
      · rw [if_pos h3, if_pos h3]
      · rw [if_neg h3, if_neg h3, if_neg (by omega)]

theorem Tree.splitAt {st : Nat → PageState} (h : Tree st) {t : Nat} (ht : 1 ≤ t) (hb : t ≤ 255)
    (hv : st t = vacant) : Tree (splitAt st t) := by
  have hbelow := fun g => h.below ht (by rw [hv]; simp) (g := g)
  have e := splitAt_eq st ht
  -- states of the children of the new pages
  have hdeep : ∀ g, (g = 2 * t ∨ g = 2 * t + 1) → st (2 * g) = nonExtant ∧ st (2 * g + 1) = nonExtant := by
    intro g hg
    have d : Desc t g := desc_children.2 (Or.inr (by
      rcases hg with rfl | rfl
      · exact Or.inl (.refl _)
      · exact Or.inr (.refl _)))
    have d1 : Desc t (2 * g) := d.trans (desc_children.2 (Or.inr (Or.inl (.refl _))))
      |> fun x => x
    have d2 : Desc t (2 * g + 1) := d.trans (desc_children.2 (Or.inr (Or.inr (.refl _))))
    exact ⟨hbelow _ d1 (by omega), hbelow _ d2 (by omega)⟩
  have child : ∀ g, 1 ≤ g → ∀ c, (c = 2 * g ∨ c = 2 * g + 1) →
      (st g = split ↔ st c ≠ nonExtant) → (Vecmem.Buddy.splitAt st t g = split ↔
        Vecmem.Buddy.splitAt st t c ≠ nonExtant) := by
    intro g hg c hc hiff
    rw [e g, e c]
    by_cases h1 : g = t
    · subst h1
      rw [if_pos rfl, if_neg (by omega), if_pos hc]; simp
    · rw [if_neg h1]
      by_cases h2 : g = 2 * t ∨ g = 2 * t + 1
      · rw [if_pos h2, if_neg (by omega), if_neg (by omega)]
        have := hdeep g h2
        rcases hc with rfl | rfl
        · simp [this.1]
        · simp [this.2]
      · rw [if_neg h2]
        by_cases h3 : c = t
        · rw [if_pos h3, hiff, h3, hv]; simp
        · rw [if_neg h3, if_neg (by omega)]; exact hiff
  refine ⟨?_, fun g hg => child g hg _ (Or.inl rfl) (h.left g hg),
    fun g hg => child g hg _ (Or.inr rfl) (h.right g hg), ?_⟩
  · rw [e]; split
    · simp
    · split
      · simp
      · exact h.root
  · intro g hg; rw [e, if_neg (by omega), if_neg (by omega)]; exact h.bound g hg

theorem Merged.splitAt {st : Nat → PageState} (h : Tree st) {t : Nat} (ht : 1 ≤ t)
    (hv : st t = vacant) {x : Nat} (hm : Merged st x) (hx : x = t ∨ x = 0) :
    Merged (Vecmem.Buddy.splitAt st t) (2 * t) := by
  have e := splitAt_eq st ht
  intro g hg h1 h2 h3
  by_cases hgt : g = t
  · omega
  · exfalso
    rw [e] at h1 h2 h3
    rw [if_neg hgt] at h1
    by_cases hc : g = 2 * t ∨ g = 2 * t + 1
    · rw [if_pos hc] at h1; cases h1
    · rw [if_neg hc] at h1
      have n1 : 2 * g ≠ t := by intro hh; rw [if_pos hh] at h2; cases h2
      have n2 : 2 * g + 1 ≠ t := by intro hh; rw [if_pos hh] at h3; cases h3
      rw [if_neg n1, if_neg (by omega)] at h2
      rw [if_neg n2, if_neg (by omega)] at h3
      have := hm g hg h1 h2 h3
      omega

theorem occupied_splitAt {st : Nat → PageState} {t : Nat} (h : Tree st) (ht : 1 ≤ t)
    (hv : st t = vacant) (g : Nat) :
    Vecmem.Buddy.splitAt st t g = occupied ↔ st g = occupied := by
  rw [splitAt_eq st ht]
  split
  · rename_i e; subst e; simp [hv]
  · split
    · rename_i e
      have d : Desc t g := desc_children.2 (Or.inr (by
        rcases e with rfl | rfl
        · exact Or.inl (.refl _)
        · exact Or.inr (.refl _)))
      rw [h.below ht (by rw [hv]; simp) d (by omega)]; simp
    · rfl

/-- The subtree of `t` contains no occupied page. -/
inductive Collapsible (st : Nat → PageState) : Nat → Prop
  | leaf {t} : 1 ≤ t → st t = vacant → Collapsible st t
  | node {t} : 1 ≤ t → st t = split → Collapsible st (2 * t) → Collapsible st (2 * t + 1) →
      Collapsible st t

theorem Collapsible.pos {st : Nat → PageState} {t : Nat} (h : Collapsible st t) : 1 ≤ t := by
  cases h <;> assumption

theorem Collapsible.state {st : Nat → PageState} {t : Nat} (h : Collapsible st t) :
    st t = vacant ∨ st t = split := by
  cases h
  · exact Or.inl ‹_›
  · exact Or.inr ‹_›

theorem Collapsible.congr {st st' : Nat → PageState} {t : Nat} (h : Collapsible st t)
    (he : ∀ g, Desc t g → st' g = st g) : Collapsible st' t := by
  induction h with
  | leaf h1 h2 => exact .leaf h1 (by rw [he _ (.refl _), h2])
  | node h1 h2 _ _ ih1 ih2 =>
    exact .node h1 (by rw [he _ (.refl _), h2])
      (ih1 fun g hg => he g (desc_children.2 (Or.inr (Or.inl hg))))
      (ih2 fun g hg => he g (desc_children.2 (Or.inr (Or.inr hg))))

theorem Collapsible.not_occupied {st : Nat → PageState} (ht : Tree st) {t : Nat}
    (h : Collapsible st t) : ∀ {g}, Desc t g → st g ≠ occupied := by
  induction h with
  | @leaf t h1 h2 =>
    intro g hg
    by_cases e : g = t
    · rw [e, h2]; simp
    · rw [ht.below h1 (by rw [h2]; simp) hg e]; simp
  | @node t h1 h2 _ _ ih1 ih2 =>
    intro g hg
    rcases desc_children.1 hg with e | e | e
    · rw [e, h2]; simp
    · exact ih1 e
    · exact ih2 e

/-- A subtree without occupied pages is collapsible, if its root is extant. -/
theorem Tree.collapsible {st : Nat → PageState} (ht : Tree st) : ∀ (n t : Nat), 511 < t * 2 ^ n →
    1 ≤ t → st t ≠ nonExtant → (∀ g, Desc t g → st g ≠ occupied) → Collapsible st t := by
  intro n
  induction n with
  | zero => intro t h1 h2 h3 _; exact absurd (ht.bound t (by omega)) h3
  | succ n ih =>
    intro t h1 h2 h3 h4
    have h4t := h4 t (.refl _)
    cases hs : st t with
    | occupied => exact absurd hs h4t
    | nonExtant => exact absurd hs h3
    | vacant => exact .leaf h2 hs
    | split =>
      refine .node h2 hs (ih _ ?_ (by omega) ((ht.left t h2).1 hs)
        fun g hg => h4 g (desc_children.2 (Or.inr (Or.inl hg))))
        (ih _ ?_ (by omega) ((ht.right t h2).1 hs)
        fun g hg => h4 g (desc_children.2 (Or.inr (Or.inr hg))))
      · rw [Nat.pow_succ] at h1; have := Nat.mul_comm (2 ^ n) 2; rw [this, ← Nat.mul_assoc] at h1
        rw [Nat.mul_comm 2 t]; exact h1
      · rw [Nat.pow_succ, Nat.mul_comm (2 ^ n) 2, ← Nat.mul_assoc] at h1
        have : t * 2 * 2 ^ n ≤ (2 * t + 1) * 2 ^ n := Nat.mul_le_mul_right _ (by omega)
        omega

/-- In a merged tree a collapsible subtree is one vacant page. -/
theorem Collapsible.vacant {st : Nat → PageState} {t : Nat} (hm : Merged st 0)
    (h : Collapsible st t) : st t = vacant := by
  induction h with
  | leaf _ h2 => exact h2
  | @node t h1 h2 _ _ ih1 ih2 => have := hm t h1 h2 ih1 ih2; omega

/-- The effect of `unsplit`. -/
structure Collapsed (st st' : Nat → PageState) (t : Nat) : Prop where
  top : st' t = PageState.vacant
  below : ∀ g, Desc t g → g ≠ t → st' g = nonExtant
  other : ∀ g, ¬ Desc t g → st' g = st g

theorem Collapsed.tree {st st' : Nat → PageState} {t : Nat} (h : Tree st) (ht : 1 ≤ t)
    (hc : Collapsed st st' t) (he : st t ≠ nonExtant) : Tree st' := by
  have child : ∀ g, 1 ≤ g → ∀ c, c / 2 = g → c ≠ g → (st g = split ↔ st c ≠ nonExtant) →
      (st' g = split ↔ st' c ≠ nonExtant) := by
    intro g hg c hcg hne hiff
    by_cases h1 : Desc t g
    · have h2 : Desc t c := desc_half.2 (Or.inr (by rw [hcg]; exact h1))
      have h3 : c ≠ t := by have := h1.le; omega
      rw [hc.below c h2 h3]
      by_cases h4 : g = t
      · rw [h4, hc.top]; simp
      · rw [hc.below g h1 h4]; simp
    · rw [hc.other g h1]
      by_cases h3 : c = t
      · rw [hiff, h3, hc.top]; simp [he]
      · rw [hc.other c (by rw [desc_half]; rintro (h | h); · exact h3 h
                           · rw [hcg] at h; exact h1 h)]
        exact hiff
  refine ⟨?_, fun g hg => child g hg _ (by omega) (by omega) (h.left g hg),
    fun g hg => child g hg _ (by omega) (by omega) (h.right g hg), ?_⟩
  · by_cases h1 : Desc t 1
    · have := h1.le
      have : t = 1 := by omega
      subst this; rw [hc.top]; simp
    · rw [hc.other 1 h1]; exact h.root
  · intro g hg
    by_cases h1 : Desc t g
    · by_cases h2 : g = t
      · subst h2; exact absurd (h.bound g hg) he
      · exact hc.below g h1 h2
    · rw [hc.other g h1]; exact h.bound g hg

theorem Collapsed.occupied {st st' : Nat → PageState} {t : Nat} (hc : Collapsed st st' t)
    (hn : ∀ g, Desc t g → st g ≠ PageState.occupied) (g : Nat) :
    st' g = PageState.occupied ↔ st g = PageState.occupied := by
  by_cases h1 : Desc t g
  · have := hn g h1
    by_cases h2 : g = t
    · subst h2; rw [hc.top]; simp [this]
    · rw [hc.below g h1 h2]; simp [this]
  · rw [hc.other g h1]

/-- The other child of the parent. -/
def sib (h : Nat) : Nat := if h % 2 = 0 then h + 1 else h - 1

theorem not_desc_sib {t : Nat} (ht : 2 ≤ t) : ¬ Desc t (sib t) := by
  intro h
  rcases desc_half.1 h with h | h
  · unfold sib at h; split at h <;> omega
  · have := h.le; unfold sib at this; split at this <;> omega

/-- After freeing `h` and collapsing at `t`, the tree is merged again. -/
theorem Collapsed.merged {st st' : Nat → PageState} {t h : Nat} (ht : 1 ≤ t)
    (hm : ∀ g, 1 ≤ g → st g = split → st (2 * g) = vacant → st (2 * g + 1) = vacant →
      2 * g = h ∨ 2 * g + 1 = h)
    (hc : Collapsed st st' t) (hd : Desc t h) (hs : t = 1 ∨ st (sib t) ≠ vacant) : Merged st' 0 := by
  intro g hg h1 h2 h3
  exfalso
  have hng : ¬ Desc t g := by
    intro hd'
    by_cases e : g = t
    · subst e; rw [hc.top] at h1; cases h1
    · rw [hc.below g hd' e] at h1; cases h1
  by_cases e1 : 2 * g = t
  · rcases hs with hs | hs
    · omega
    · rw [show 2 * g + 1 = sib t by unfold sib; rw [if_pos (by omega)]; omega] at h3
      rw [hc.other _ (not_desc_sib (by omega))] at h3
      exact hs h3
  · by_cases e2 : 2 * g + 1 = t
    · rcases hs with hs | hs
      · omega
      · rw [show 2 * g = sib t by unfold sib; rw [if_neg (by omega)]; omega] at h2
        rw [hc.other _ (not_desc_sib (by omega))] at h2
        exact hs h2
    · have n1 : ¬ Desc t (2 * g) := by
        rw [desc_half]; rintro (x | x)
        · exact e1 x
        · rw [show 2 * g / 2 = g by omega] at x; exact hng x
      have n2 : ¬ Desc t (2 * g + 1) := by
        rw [desc_half]; rintro (x | x)
        · exact e2 x
        · rw [show (2 * g + 1) / 2 = g by omega] at x; exact hng x
      rw [hc.other _ hng] at h1
      rw [hc.other _ n1] at h2
      rw [hc.other _ n2] at h3
      rcases hm g hg h1 h2 h3 with x | x
      · rw [x] at n1; exact n1 hd
      · rw [x] at n2; exact n2 hd

/-! ### Page extents -/

/-- Offset of page `h` in a chunk of `2^N` bytes. -/
def off (N h : Nat) : Nat := (h - 2 ^ Nat.log2 h) * 2 ^ (N - Nat.log2 h)

/-- Page `h` begins at `h 2^(N-d) - 2^N`, `d` its depth. -/
theorem off_add {N h : Nat} (hh : 1 ≤ h) (hd : Nat.log2 h ≤ N) :
    off N h + 2 ^ N = h * 2 ^ (N - Nat.log2 h) := by
  unfold off
  have h1 := Nat.log2_self_le (n := h) (by omega)
  have h2 : 2 ^ N = 2 ^ Nat.log2 h * 2 ^ (N - Nat.log2 h) := by
    rw [← Nat.pow_add]; congr 1; omega
  rw [h2, ← Nat.add_mul]; congr 1; omega

theorem off_le {N h : Nat} (hh : 1 ≤ h) (hd : Nat.log2 h ≤ N) :
    off N h + 2 ^ (N - Nat.log2 h) ≤ 2 ^ N := by
  have h1 := off_add hh hd
  have h2 : h + 1 ≤ 2 ^ (Nat.log2 h + 1) := Nat.lt_log2_self
  have h3 := Nat.mul_le_mul_right (2 ^ (N - Nat.log2 h)) h2
  rw [← Nat.pow_add, Nat.succ_mul] at h3
  have h4 : 2 ^ (Nat.log2 h + 1 + (N - Nat.log2 h)) = 2 * 2 ^ N := by
    rw [← Nat.pow_succ']; congr 1; omega
  omega

theorem log2_div {h k : Nat} (hk : 1 ≤ h / 2 ^ k) : Nat.log2 (h / 2 ^ k) = Nat.log2 h - k := by
  induction k generalizing h with
  | zero => simp
  | succ k ih =>
    rw [Nat.pow_succ', ← Nat.div_div_eq_div_mul] at hk ⊢
    rw [ih hk]
    have h2 : 2 ≤ h := by
      by_contra hc
      have : h / 2 = 0 := by omega
      rw [this] at hk; simp at hk
    rw [Nat.log2_def h, if_pos h2]; omega

theorem Desc.log2_le {t g : Nat} (ht : 1 ≤ t) (h : Desc t g) : Nat.log2 t ≤ Nat.log2 g := by
  obtain ⟨k, rfl⟩ := h
  rw [log2_div ht]; omega

/-- Pages either are nested or do not overlap. -/
theorem extents {N a b : Nat} (ha : 1 ≤ a) (hb : 1 ≤ b) (hda : Nat.log2 a ≤ N) (hdb : Nat.log2 b ≤ N)
    (hn : ¬ Desc a b) (hn' : ¬ Desc b a) :
    off N a + 2 ^ (N - Nat.log2 a) ≤ off N b ∨ off N b + 2 ^ (N - Nat.log2 b) ≤ off N a := by
  have key : ∀ {a b : Nat}, 1 ≤ a → 1 ≤ b → Nat.log2 a ≤ N → Nat.log2 b ≤ N → ¬ Desc a b →
      Nat.log2 a ≤ Nat.log2 b →
      off N a + 2 ^ (N - Nat.log2 a) ≤ off N b ∨ off N b + 2 ^ (N - Nat.log2 b) ≤ off N a := by
    intro a b ha hb hda hdb hn hl
    have ea := off_add ha hda
    have eb := off_add hb hdb
    have hpow : 2 ^ (N - Nat.log2 a) = 2 ^ (Nat.log2 b - Nat.log2 a) * 2 ^ (N - Nat.log2 b) := by
      rw [← Nat.pow_add]; congr 1; omega
    have hq : b / 2 ^ (Nat.log2 b - Nat.log2 a) ≠ a := fun h => hn ⟨_, h⟩
    generalize Nat.log2 b - Nat.log2 a = k at *
    generalize 2 ^ (N - Nat.log2 a) = A at *
    generalize 2 ^ (N - Nat.log2 b) = B at *
    have hm := Nat.div_add_mod b (2 ^ k)
    have hlt := Nat.mod_lt b (Nat.two_pow_pos k)
    subst hpow
    rcases Nat.lt_or_gt_of_ne hq with h | h
    · right
      -- `b / 2^k + 1 ≤ a`
      have h1 : b + 1 ≤ a * 2 ^ k := by
        have := Nat.mul_le_mul_right (2 ^ k) (show b / 2 ^ k + 1 ≤ a from h)
        rw [Nat.add_mul, Nat.mul_comm (b / 2 ^ k)] at this
        omega
      have h2 := Nat.mul_le_mul_right B h1
      rw [Nat.add_mul, Nat.mul_assoc] at h2
      omega
    · left
      have h1 : (a + 1) * 2 ^ k ≤ b := by
        have := Nat.mul_le_mul_right (2 ^ k) (show a + 1 ≤ b / 2 ^ k from h)
        rw [Nat.mul_comm (b / 2 ^ k)] at this
        omega
      have h2 := Nat.mul_le_mul_right B h1
      rw [Nat.mul_assoc, Nat.add_mul] at h2
      omega
  rcases Nat.le_total (Nat.log2 a) (Nat.log2 b) with h | h
  · exact key ha hb hda hdb hn h
  · exact (key hb ha hdb hda hn' h).symm

/-- A descendant lies inside. -/
theorem Desc.inside {N a b : Nat} (ha : 1 ≤ a) (hdb : Nat.log2 b ≤ N) (h : Desc a b) :
    off N a ≤ off N b ∧ off N b + 2 ^ (N - Nat.log2 b) ≤ off N a + 2 ^ (N - Nat.log2 a) := by
  obtain ⟨k, hk⟩ := h
  have hb : 1 ≤ b := by
    by_contra hc
    have : b = 0 := by omega
    subst this; simp at hk; omega
  have hl : Nat.log2 a = Nat.log2 b - k := by rw [← hk]; exact log2_div (by omega)
  have hkb : k ≤ Nat.log2 b := by
    by_contra hc
    have : b < 2 ^ k := Nat.lt_of_lt_of_le Nat.lt_log2_self
      (Nat.pow_le_pow_right (by omega) (show Nat.log2 b + 1 ≤ k by omega))
    rw [Nat.div_eq_of_lt this] at hk; omega
  have ea := off_add (N := N) ha (by omega)
  have eb := off_add (N := N) hb hdb
  have hpow : 2 ^ (N - Nat.log2 a) = 2 ^ k * 2 ^ (N - Nat.log2 b) := by
    rw [← Nat.pow_add]; congr 1; omega
  have hm := Nat.div_add_mod b (2 ^ k)
  have hlt := Nat.mod_lt b (Nat.two_pow_pos k)
  rw [hk] at hm
  rw [hpow] at ea ⊢
  generalize 2 ^ (N - Nat.log2 b) = B at *
  have h1 := Nat.mul_le_mul_right B (show a * 2 ^ k ≤ b by rw [Nat.mul_comm]; omega)
  have h2 := Nat.mul_le_mul_right B (show b + 1 ≤ (a + 1) * 2 ^ k by
    rw [Nat.add_mul, Nat.mul_comm a]; omega)
  rw [Nat.mul_assoc] at h1 h2
  rw [Nat.add_mul, Nat.add_mul] at h2
  omega

/-- Occupied pages do not overlap. -/
theorem Tree.disjoint {st : Nat → PageState} (h : Tree st) {N a b : Nat} (ha : 1 ≤ a) (hb : 1 ≤ b)
    (hda : Nat.log2 a ≤ N) (hdb : Nat.log2 b ≤ N)
    (hoa : st a = occupied) (hob : st b = occupied) (hne : a ≠ b) :
    off N a + 2 ^ (N - Nat.log2 a) ≤ off N b ∨ off N b + 2 ^ (N - Nat.log2 b) ≤ off N a := by
  refine extents ha hb hda hdb ?_ ?_
  · intro hd
    have := h.below ha (by rw [hoa]; simp) hd (Ne.symm hne)
    rw [hob] at this; cases this
  · intro hd
    have := h.below hb (by rw [hob]; simp) hd hne
    rw [hoa] at this; cases this

end Vecmem.Buddy
