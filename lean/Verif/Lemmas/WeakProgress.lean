import Verif.Lemmas.WeakKernel
import Mathlib.Logic.Relation

/-!
# Lemmas: threads on weak memory can always go on
-/

namespace Vecmem

variable {w : Nat}

local infixl:70 " ≫ " => Front.le_trans

namespace WSys

/-- `T a` is the newest position of variable `a`, and nothing is known of newer ones. -/
structure Top (s : WSys w) (T : Front) : Prop where
  newest : ∀ a, (s.mem a (T a)).isSome
  none : ∀ a t, T a < t → s.mem a t = none
  cur : ∀ i, (s.cur i).le T
  acq : ∀ i, (s.acq i).le T
  rel : ∀ i, (s.rel i).le T
  sc : s.sc.le T
  fronts : ∀ a t m, s.mem a t = some m → m.front.le T

theorem set_le {f : Nat → Front} {T T' : Front} (h : ∀ i, (f i).le T) (hT : T.le T') {i : Nat} {x : Front} (hx : x.le T') : ∀ j, (set f i x j).le T' := by
  intro j
  unfold set
  split
  · exact hx
  · exact (h j) ≫ hT

theorem top_start (m : AMem w) : (start m).Top (fun _ => 0) where
  newest a := by simp [start]
  none a t h := by simp only [start]; rw [if_neg (by omega)]
  cur _ _ := Nat.le_refl _
  acq _ _ := Nat.le_refl _
  rel _ _ := Nat.le_refl _
  sc _ := Nat.le_refl _
  fronts a t x h := by
    simp only [start] at h
    split at h
    · cases h; exact fun _ => Nat.le_refl _
    · cases h

theorem Top.pos {s : WSys w} {T : Front} (h : s.Top T) {a t : Nat} {m : WMsg w} (hm : s.mem a t = some m) : t ≤ T a := by
  by_contra hc
  rw [h.none a t (by omega)] at hm
  cases hm

/-- A step that reads at most. -/
theorem Top.reads {s s' : WSys w} {T : Front} (h : s.Top T) {i : Nat} {K L : Front} (hm : s'.mem = s.mem) (hc : s'.cur = set s.cur i K) (ha : s'.acq = set s.acq i L)
    (hr : s'.rel = s.rel) (hs : s'.sc = s.sc) (hK : K.le T) (hL : L.le T) : s'.Top T where
  newest a := by rw [hm]; exact h.newest a
  none a t := by rw [hm]; exact h.none a t
  cur := by rw [hc]; exact set_le h.cur (Front.le_refl _) hK
  acq := by rw [ha]; exact set_le h.acq (Front.le_refl _) hL
  rel := by rw [hr]; exact h.rel
  sc := by rw [hs]; exact h.sc
  fronts := by rw [hm]; exact h.fronts

/-- A step that writes. -/
theorem Top.writes {s s' : WSys w} {T : Front} (h : s.Top T) {i a t : Nat} {K L : Front} {x : WMsg w} (hm : s'.mem = put s.mem a t x) (hc : s'.cur = set s.cur i K)
    (ha : s'.acq = set s.acq i L) (hr : s'.rel = s.rel) (hs : s'.sc = s.sc) (hK : K.le (T.join (Front.one a t))) (hL : L.le (T.join (Front.one a t)))
    (hx : x.front.le (T.join (Front.one a t))) : s'.Top (T.join (Front.one a t)) where
  newest b := by
    rw [hm]
    unfold put Front.join Front.one
    by_cases hb : b = a
    · subst hb
      simp only [if_true, true_and]
      rcases Nat.le_total (T b) t with h1 | h1
      · rw [Nat.max_eq_right h1, if_pos rfl]; rfl
      · rw [Nat.max_eq_left h1]
        split
        · rfl
        · exact h.newest b
    · simp only [if_neg hb, Nat.max_eq_left (Nat.zero_le _)]
      rw [if_neg (fun hc => hb hc.1)]
      exact h.newest b
  none b u hu := by
    have h1 : T b < u := Nat.lt_of_le_of_lt (Front.le_join_left T (Front.one a t) b) hu
    have h2 : Front.one a t b < u := Nat.lt_of_le_of_lt (Front.le_join_right T (Front.one a t) b) hu
    rw [hm]
    unfold put
    rw [if_neg]
    · exact h.none b u h1
    · rintro ⟨rfl, rfl⟩
      have := Front.le_one b u
      omega
  cur := by rw [hc]; exact set_le h.cur (Front.le_join_left _ _) hK
  acq := by rw [ha]; exact set_le h.acq (Front.le_join_left _ _) hL
  rel := by rw [hr]; exact fun i => (h.rel i) ≫ (Front.le_join_left _ _)
  sc := by rw [hs]; exact h.sc ≫ (Front.le_join_left _ _)
  fronts b u y hy := by
    rw [hm] at hy
    unfold put at hy
    split at hy
    · cases hy; exact hx
    · exact (h.fronts b u y hy) ≫ (Front.le_join_left _ _)

theorem Top.fence {s : WSys w} {T : Front} (h : s.Top T) (i : Nat) (p : WPhase w) : (s.fence i p).Top T where
  newest := h.newest
  none := h.none
  cur := set_le h.cur (Front.le_refl _) (Front.join_le h.sc (h.acq i))
  acq := set_le h.acq (Front.le_refl _) (Front.join_le h.sc (h.acq i))
  rel := set_le h.rel (Front.le_refl _) (Front.join_le h.sc (h.acq i))
  sc := Front.join_le h.sc (h.acq i)
  fronts := h.fronts

theorem Top.step {I : WImpl w} {s s' : WSys w} {T : Front} (h : s.Top T) (hs : Step I s s') : ∃ T', s'.Top T' := by
  have hl : ∀ a t, T.le (T.join (Front.one a t)) := fun a t => Front.le_join_left _ _
  have hr : ∀ a t, (Front.one a t).le (T.join (Front.one a t)) := fun a t => Front.le_join_right _ _
  cases hs with
  | call i a c code _ _ => exact ⟨T, h.newest, h.none, h.cur, h.acq, h.rel, h.sc, h.fronts⟩
  | fence i a c code _ => exact ⟨T, h.fence _ _⟩
  | leave i _ => exact ⟨T, h.fence _ _⟩
  | load i a t c code acq m _ _ _ hm =>
    have ho : (Front.one a t).le T := Front.one_le (h.pos hm)
    exact ⟨T, h.reads rfl rfl rfl rfl rfl (Front.joinIf_le (Front.join_le (h.cur i) ho) (h.fronts _ _ _ hm))
      (Front.join_le (Front.join_le (h.acq i) ho) (h.fronts _ _ _ hm))⟩
  | store i a t c code x rel _ _ _ _ =>
    refine ⟨_, h.writes (a := a) (t := t) rfl rfl rfl rfl rfl (Front.join_le ((h.cur i) ≫ (hl a t)) (hr a t)) (Front.join_le ((h.acq i) ≫ (hl a t)) (hr a t))
      (Front.join_le ?_ (hr a t))⟩
    split
    · exact (h.cur i) ≫ (hl a t)
    · exact (h.rel i) ≫ (hl a t)
  | update i a t c code f acq rel acqF m x _ _ _ hm _ _ =>
    have hf := (h.fronts _ _ _ hm) ≫ (hl a (t + 1))
    have hk : ((Front.joinIf acq (s.cur i) m.front).join (Front.one a (t + 1))).le (T.join (Front.one a (t + 1))) :=
      Front.join_le (Front.joinIf_le ((h.cur i) ≫ (hl _ _)) hf) (hr _ _)
    refine ⟨_, h.writes (a := a) (t := t + 1) rfl rfl rfl rfl rfl hk (Front.join_le (Front.join_le ((h.acq i) ≫ (hl _ _)) (hr _ _)) hf)
      (Front.join_le (Front.join_le ?_ (hr _ _)) hf)⟩
    split
    · exact hk
    · exact (h.rel i) ≫ (hl _ _)
  | keep i a t c code f acq rel acqF m _ _ _ hm _ =>
    have ho : (Front.one a t).le T := Front.one_le (h.pos hm)
    exact ⟨T, h.reads rfl rfl rfl rfl rfl (Front.joinIf_le (Front.join_le (h.cur i) ho) (h.fronts _ _ _ hm))
      (Front.join_le (Front.join_le (h.acq i) ho) (h.fronts _ _ _ hm))⟩
  | plainLoad i a t c code m _ _ _ hm =>
    have ho : (Front.one a t).le T := Front.one_le (h.pos hm)
    exact ⟨T, h.reads rfl rfl rfl rfl rfl (Front.join_le (h.cur i) ho) (Front.join_le (h.acq i) ho)⟩
  | plainStore i a t c code x _ _ _ _ =>
    exact ⟨_, h.writes (a := a) (t := t) rfl rfl rfl rfl rfl (Front.join_le ((h.cur i) ≫ (hl a t)) (hr a t)) (Front.join_le ((h.acq i) ≫ (hl a t)) (hr a t))
      (hr a t)⟩

theorem Reach.top {I : WImpl w} {m : AMem w} {s : WSys w} (h : Reach I m s) : ∃ T, s.Top T := by
  induction h with
  | start => exact ⟨_, top_start m⟩
  | step _ hs ih => obtain ⟨T, hT⟩ := ih; exact hT.step hs

end WSys

/-- The program makes no calls that must not be made. -/
def WProg.Defined (I : WImpl w) : WProg w → Prop
  | .act _ c next => (I c).isSome ∧ ∀ r, (next r).Defined I
  | _ => True

/-- The program has come to its end, or an assertion has failed. -/
def WProg.Ended (p : WProg w) : Prop := p = .done ∨ p = .failed

namespace WRun

variable {I : WImpl w} {m : AMem w} {progs : Nat → WProg w} {s : WRun w}

theorem Reach.steps {s' : WRun w} (h : Reach I m progs s) (hs : Relation.ReflTransGen (Step I) s s') : Reach I m progs s' := by
  induction hs with
  | refl => exact h
  | tail _ h1 ih => exact ih.step h1

theorem doing_set {s : WSys w} {j : Nat} {p : WPhase w} {i a : Nat} {c : WCall w} {s' : WSys w} (hp : s'.phase = WSys.set s.phase j p) (hd : Doing s' i a c) :
    (i ≠ j ∧ Doing s i a c) ∨ (i = j ∧ ∃ code, p = .fencing a c code ∨ p = .accessing a c code) := by
  obtain ⟨code, hd⟩ := hd
  rw [hp] at hd
  by_cases hi : i = j
  · subst hi
    rw [WSys.set_same] at hd
    exact .inr ⟨rfl, code, hd⟩
  · rw [WSys.set_ne _ _ hi] at hd
    exact .inl ⟨hi, code, hd⟩

/-- A thread can come to its next access. -/
theorem Reach.approach_mem (h : Reach I m progs s) {i a : Nat} {c : WCall w} {next : Option (BitVec w) → WProg w} {code : WCode w} (hp : s.prog i = .act a c next)
    (hc : I c = some code) : ∃ s', Relation.ReflTransGen (Step I) s s' ∧ s'.prog = s.prog ∧ s'.sys.phase i = .accessing a c code ∧ s'.sys.mem = s.sys.mem ∧ s'.sys.trace = s.sys.trace := by
  have fencing : ∀ s : WRun w, Reach I m progs s → s.prog i = .act a c next → s.sys.phase i = .fencing a c code →
      ∃ s', Relation.ReflTransGen (Step I) s s' ∧ s'.prog = s.prog ∧ s'.sys.phase i = .accessing a c code ∧ s'.sys.mem = s.sys.mem ∧ s'.sys.trace = s.sys.trace := by
    intro s h hp hph
    refine ⟨_, .single (.quiet s _ (.fence _ i a c code hph) rfl ?_), rfl, WSys.set_same _ _ _, rfl, rfl⟩
    intro j b d hd
    rcases doing_set (s := s.sys) rfl hd with ⟨-, h1⟩ | ⟨rfl, code', h1 | h1⟩
    · exact h.doing _ _ _ h1
    · cases h1
    · cases h1; exact ⟨next, hp⟩
  have idle : ∀ s : WRun w, Reach I m progs s → s.prog i = .act a c next → s.sys.phase i = .idle →
      ∃ s', Relation.ReflTransGen (Step I) s s' ∧ s'.prog = s.prog ∧ s'.sys.phase i = .accessing a c code ∧ s'.sys.mem = s.sys.mem ∧ s'.sys.trace = s.sys.trace := by
    intro s h hp hph
    have hstep := Step.quiet s _ (.call s.sys i a c code hph hc) rfl (fun j b d hd => by
      rcases doing_set (s := s.sys) rfl hd with ⟨-, h1⟩ | ⟨rfl, code', h1⟩
      · exact h.doing _ _ _ h1
      · refine ⟨next, ?_⟩
        split at h1 <;> rcases h1 with h1 | h1 <;> cases h1 <;> exact hp)
    by_cases hb : code.before = true
    · obtain ⟨s', h1, h2, h3, h4⟩ := fencing _ (h.step hstep) hp (by simp only [WSys.set_same, if_pos hb])
      exact ⟨s', .head hstep h1, h2, h3, h4⟩
    · exact ⟨_, .single hstep, rfl, by simp only [WSys.set_same, if_neg hb], rfl, rfl⟩
  cases hph : s.sys.phase i with
  | idle => exact idle s h hp hph
  | leaving =>
    have hstep := Step.quiet (I := I) s _ (.leave s.sys i hph) rfl (fun j b d hd => by
      rcases doing_set (s := s.sys) rfl hd with ⟨-, h1⟩ | ⟨rfl, code', h1 | h1⟩
      · exact h.doing _ _ _ h1
      · cases h1
      · cases h1)
    obtain ⟨s', h1, h2, h3, h4⟩ := idle _ (h.step hstep) hp (WSys.set_same _ _ _)
    exact ⟨s', .head hstep h1, h2, h3, h4⟩
  | fencing a' c' code' =>
    obtain ⟨next', h1⟩ := h.doing _ _ _ ⟨code', .inl hph⟩
    rw [hp] at h1
    cases h1
    have h2 := h.sys.values.code i a c code' (.inr hph)
    rw [hc] at h2
    cases h2
    exact fencing s h hp hph
  | accessing a' c' code' =>
    obtain ⟨next', h1⟩ := h.doing _ _ _ ⟨code', .inr hph⟩
    rw [hp] at h1
    cases h1
    have h2 := h.sys.values.code i a c code' (.inl hph)
    rw [hc] at h2
    cases h2
    exact ⟨s, .refl, rfl, hph, rfl, rfl⟩

theorem Reach.approach (h : Reach I m progs s) {i a : Nat} {c : WCall w} {next : Option (BitVec w) → WProg w} {code : WCode w} (hp : s.prog i = .act a c next)
    (hc : I c = some code) : ∃ s', Relation.ReflTransGen (Step I) s s' ∧ s'.prog = s.prog ∧ s'.sys.phase i = .accessing a c code := by
  obtain ⟨s', h1, h2, h3, -⟩ := h.approach_mem hp hc
  exact ⟨s', h1, h2, h3⟩

/-- A thread can make its next access. -/
theorem Reach.advance (h : Reach I m progs s) {i a : Nat} {c : WCall w} {next : Option (BitVec w) → WProg w} (hp : s.prog i = .act a c next)
    (hc : (I c).isSome) : ∃ s' r, Relation.ReflTransGen (Step I) s s' ∧ s'.prog = WSys.set s.prog i (next r) := by
  obtain ⟨code, hc⟩ := Option.isSome_iff_exists.1 hc
  obtain ⟨s1, h1, h2, h3⟩ := h.approach hp hc
  have hr := h.steps h1
  rw [← h2] at hp ⊢
  obtain ⟨T, hT⟩ := hr.sys.top
  obtain ⟨x, hx⟩ := Option.isSome_iff_exists.1 (hT.newest a)
  have hcur := hT.cur i a
  have hfree := hT.none a (T a + 1) (by omega)
  have key : ∀ (s' : WSys w) (e : WEvent w), s1.sys.Step I s' → s'.trace = s1.sys.trace ++ [e] → e.thread = i → e.addr = a → e.call = c →
      ∃ s' r, Relation.ReflTransGen (Step I) s s' ∧ s'.prog = WSys.set s1.prog i (next r) := by
    intro s' e hs ht he1 he2 he3
    subst he1 he2 he3
    exact ⟨_, _, .tail h1 (.access s1 s' e next hs ht hp), rfl⟩
  cases hacc : code.acc with
  | load acq => exact key _ _ (.load _ i a (T a) c code acq x h3 hacc hcur hx) rfl rfl rfl rfl
  | store y rel => exact key _ _ (.store _ i a (T a + 1) c code y rel h3 hacc (by omega) hfree) rfl rfl rfl rfl
  | update f acq rel acqF =>
    cases hf : f x.val with
    | none => exact key _ _ (.keep _ i a (T a) c code f acq rel acqF x h3 hacc hcur hx hf) rfl rfl rfl rfl
    | some y => exact key _ _ (.update _ i a (T a) c code f acq rel acqF x y h3 hacc hcur hx hf hfree) rfl rfl rfl rfl
  | plainLoad => exact key _ _ (.plainLoad _ i a (T a) c code x h3 hacc hcur hx) rfl rfl rfl rfl
  | plainStore y => exact key _ _ (.plainStore _ i a (T a + 1) c code y h3 hacc (by omega) hfree) rfl rfl rfl rfl

/-- A thread can come to its end. -/
theorem Reach.finish {i : Nat} : ∀ {p : WProg w} {s : WRun w}, Reach I m progs s → s.prog i = p → p.Defined I →
    ∃ s' q, Relation.ReflTransGen (Step I) s s' ∧ q.Ended ∧ s'.prog = WSys.set s.prog i q := by
  intro p
  have same : ∀ s : WRun w, s.prog = WSys.set s.prog i (s.prog i) := by
    intro s
    funext j
    unfold WSys.set
    split
    · next hj => rw [hj]
    · rfl
  induction p with
  | done => intro s h hp _; exact ⟨s, .done, .refl, .inl rfl, by rw [← hp]; exact same s⟩
  | failed => intro s h hp _; exact ⟨s, .failed, .refl, .inr rfl, by rw [← hp]; exact same s⟩
  | act a c next ih =>
    intro s h hp hd
    obtain ⟨s1, r, h1, h2⟩ := h.advance hp hd.1
    obtain ⟨s2, q, h3, h4, h5⟩ := ih r (h.steps h1) (by rw [h2, WSys.set_same]) (hd.2 r)
    refine ⟨s2, q, h1.trans h3, h4, ?_⟩
    rw [h5, h2]
    funext j
    unfold WSys.set
    split <;> rfl

/-- What is left of a program without wrong calls has none either. -/
theorem Reach.defined (h : Reach I m progs s) (hd : ∀ i, (progs i).Defined I) (i : Nat) : (s.prog i).Defined I := by
  induction h generalizing i with
  | start => exact hd i
  | @step s s' hr hs ih =>
    cases hs with
    | quiet _ h1 h2 h3 => exact ih i
    | access s1 e next h1 h2 h3 =>
      by_cases hi : i = e.thread
      · subst hi
        have := ih e.thread
        rw [h3] at this
        simp only [WSys.set_same]
        exact this.2 _
      · simp only [WSys.set_ne _ _ hi]
        exact ih i

/-- All threads can come to their ends, if finitely many have programs. -/
theorem Reach.finishAll (h : Reach I m progs s) (hd : ∀ i, (progs i).Defined I) {n : Nat} (hn : ∀ i, n ≤ i → (s.prog i).Ended) :
    ∃ s', Relation.ReflTransGen (Step I) s s' ∧ ∀ i, (s'.prog i).Ended := by
  have key : ∀ k, ∃ s', Relation.ReflTransGen (Step I) s s' ∧ (∀ i, i < k → (s'.prog i).Ended) ∧ ∀ i, k ≤ i → s'.prog i = s.prog i := by
    intro k
    induction k with
    | zero => exact ⟨s, .refl, fun i hi => absurd hi (by omega), fun _ _ => rfl⟩
    | succ k ih =>
      obtain ⟨s1, h1, h2, h3⟩ := ih
      obtain ⟨s2, q, h4, h5, h6⟩ := (h.steps h1).finish (i := k) rfl ((h.steps h1).defined hd k)
      refine ⟨s2, h1.trans h4, fun i hi => ?_, fun i hi => ?_⟩
      · rw [h6]
        by_cases hik : i = k
        · rw [hik, WSys.set_same]; exact h5
        · rw [WSys.set_ne _ _ hik]; exact h2 i (by omega)
      · rw [h6, WSys.set_ne _ _ (by omega)]
        exact h3 i (by omega)
  obtain ⟨s', h1, h2, h3⟩ := key n
  refine ⟨s', h1, fun i => ?_⟩
  by_cases hi : i < n
  · exact h2 i hi
  · rw [h3 i (by omega)]; exact hn i (by omega)

end WRun

theorem stores_defined {I : WImpl w} (hw : ∀ x, (I (.write x)).isSome) (V : WVec) (index : Nat) {k : WProg w} (hk : k.Defined I) :
    ∀ l : List (Nat × Nat × BitVec w), (V.stores index k l).Defined I
  | [] => hk
  | (_, _, x) :: l => ⟨hw x, fun _ => stores_defined hw V index hk l⟩

theorem code_defined {I : WImpl w} (hI : I = posixWeak ∨ I = cudaWeak ∨ I = syclWeak ∨ I = syclBuiltinWeak) (V : WVec) {t : WTask w} (ht : t.Allowed I) :
    (t.code V).Defined I := by
  have hw : ∀ x, (I (.write x)).isSome := by
    rcases hI with rfl | rfl | rfl | rfl <;> intro x <;> rfl
  have hf : ∀ x, (I (.atomic (.fetchAdd x) none)).isSome := by
    rcases hI with rfl | rfl | rfl | rfl <;> intro x <;> rfl
  induction t with
  | done => trivial
  | access a c next ih => exact ⟨ht.1, fun r => ih r (ht.2 r)⟩
  | append c next ih =>
    refine ⟨hf _, fun r => ?_⟩
    dsimp only
    split
    · trivial
    · exact stores_defined hw V _ (ih _ (ht _)) _

theorem calls_allowed {α : Type} {I : WImpl w} (words : α → List (BitVec w)) (dflt : α) : ∀ l : List (ACall α), (WTask.calls words dflt l).Allowed I
  | [] => trivial
  | _ :: l => fun _ => calls_allowed words dflt l

end Vecmem
